import Verif.Sim.Growth
import Verif.Sim.Served

/-!
# Growth regions with ample fuel
-/

namespace Cyc.Sim

/-- What is built and what leaves in a simulation with a growth region, as a plan: what is due, and what the
events say. -/
def Country.plan (C : Country) (es : List Event) (os : List Seen) : Plan where
  builds t := (due es os t).map fun b => (C.input b.2).until (lastStep t (C.life b.2))
  leaves t := (es[t]?.map Event.leaves).getD fun _ => false

/-- A reactor that can burn what the source sells and whose spent fuel the sink takes; it starts with an
empty core at the beginning of a cycle, and it can store a batch of spent fuel. -/
structure Fuelled (f : Source.Cfg) (w : Sink.Cfg) (c : Reactor.Cfg) : Prop where
  fuel : f.outcommod ∈ c.inCommods
  least : f.lo ≤ c.assemSize
  spent : ∀ x ∈ c.outCommods, x ∈ w.commods
  starts : c.cycleStep = 0
  core : 0 < c.nCore
  room : min c.nBatch c.nCore ≤ c.nSpent

/-- The reactor of an account recorded the power `E t` in every step `t` since it was built: so it is in a
history of its own, in which it received and shipped what the account says. -/
def Book.Records (b : Book) (E : Nat → ℚ) : Prop :=
  ∃ (c : Reactor.Cfg) (enc : NMat → Nat) (dec : Nat → NMat) (s : Reactor.State × Nat)
    (is : List Reactor.In) (os : List Reactor.Out),
    b.p = ⟨.reactor c enc dec, s⟩ ∧ Reactor.History c is os s.1 ∧ os.length = b.got.length ∧
    is.map (fun i => i.buys.map Prod.snd) = numbered enc 0 b.got ∧
    os.map (fun o => material dec (o.shipped.map Prod.snd)) = b.gave ∧
    ∀ (j : Nat) o, os[j]? = some o → Reactor.powers o.recs = [E (b.since + j)]

/-- The power that a reactor does not give in the step `j` after it was built because it is being
refuelled. -/
def refuelling : Kind → Nat → ℚ
  | .reactor c _ _, j => if j % (c.cycleTime + c.refuelTime) < c.cycleTime then 0 else c.powerCap
  | _, _ => 0

/-- The reactors among the accounts that were at work in step `t`. -/
def atWork (B : List Book) (t : Nat) : List Book :=
  B.filter fun b => b.p.k.isReactor && decide (b.since ≤ t)

end Cyc.Sim
