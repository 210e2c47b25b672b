import Verif.Sim.Books
import Verif.Reactor.Steady

/-!
# Reactors that are served, whenever they are built
-/

namespace Cyc.Sim

/-- The accounts of the facilities that trade in step `t`: of those that are present, and of those that
are built for it. -/
def trading (ex : Nat → Exchange) (plan : Plan) (t : Nat) : R (List Book) := do
  let (_, bs) ← chronicle ex plan t 0 []
  let new ← deployAll ((plan.builds t).map (Kind.since t))
  pure (bs ++ new.map (opened t))

/-- Among the facilities `ks` is a sink for the spent fuel of the reactor that can take all that the
reactors can store in a step, and has room after `n` steps. -/
def Emptied (ks : List Kind) (c : Reactor.Cfg) (n : Nat) : Prop :=
  ∃ w, .sink w ∈ ks ∧ Drains ks w n ∧ ∀ x ∈ c.outCommods, x ∈ w.commods

/-- Among the facilities `ks` is a source of fuel for the reactor that can supply all the reactors in a
step and has not run out after `n` steps, and a sink for its spent fuel. -/
structure Served (ks : List Kind) (c : Reactor.Cfg) (n : Nat) : Prop where
  fuel : ∃ f, .source f ∈ ks ∧ Supplies ks f n ∧ f.outcommod ∈ c.inCommods ∧ f.lo ≤ c.assemSize
  spent : Emptied ks c n

/-- A reactor in a step of which nothing is late, `t` steps after it was built: what it is given, what it
gives, and what it does. -/
structure Punctual (c : Reactor.Cfg) (t : Nat) (got gave : List NMat) (o : Reactor.Out) : Prop where
  supplied : got.length = Reactor.supplyAt c t
  shipped : gave.length = Reactor.batchAt c t
  power : Reactor.powers o.recs =
    [if t % (c.cycleTime + c.refuelTime) < c.cycleTime then c.powerCap else 0]
  starts : Reactor.Starts o ↔ t % (c.cycleTime + c.refuelTime) = 0
  room : ¬ Reactor.Fails o

end Cyc.Sim
