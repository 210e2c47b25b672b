import Verif.Sim.Lives
import Verif.Sim.Parts
import Verif.Sim.Plan
import Verif.Sim.Supply

/-!
# Accounts of a simulation in which facilities come and go

The number of a facility changes when others leave, so the deals alone do not say what a facility was
given over the years. This is the simulation of `Plan.lean` with an account for every facility, as the
tables `Transactions` and `AgentEntry` of cyclus have it.
-/

namespace Cyc.Sim

/-- A facility, when it was built, and what it was given and gave in every step since. -/
structure Book where
  p : Running act
  since : Nat
  got : List (List NMat)
  gave : List (List NMat)

/-- The account of a facility that is built at time `t`. -/
def opened (t : Nat) (p : Running act) : Book := ⟨p, t, [], []⟩

/-- The accounts of the facilities from number `j` on after a step: their new states, and what the deals
of the step gave to and took from them. -/
def entered (gs : List (Deal × NMat)) : Nat → List Book → List (Running act) → List Book
  | j, b :: bs, p :: ps =>
    ⟨p, b.since, b.got ++ [givenTo gs j], b.gave ++ [givenBy gs j]⟩ :: entered gs (j + 1) bs ps
  | _, _, _ => []

/-- The accounts of the facilities that stay and of those that leave at the end of a step, as
`depart`. -/
def closed (w : Nat → Bool) : Nat → List Book → List Book × List Book
  | _, [] => ([], [])
  | i, b :: bs =>
    if w i && mayLeave b.p.k b.p.s then ((closed w (i + 1) bs).1, b :: (closed w (i + 1) bs).2)
    else (b :: (closed w (i + 1) bs).1, (closed w (i + 1) bs).2)

/-- `live` with accounts: those of the facilities that have left, and those of the facilities that are
present. -/
def chronicle (ex : Nat → Exchange) (plan : Plan) : Nat → Nat → List Book → R (List Book × List Book)
  | 0, _, bs => .ok ([], bs)
  | n + 1, t, bs => do
    let new ← deployAll ((plan.builds t).map (Kind.since t))
    let (gs, ps) ← round (ex t) (bs.map Book.p ++ new)
    let cs := closed (plan.leaves t) 0 (entered gs 0 (bs ++ new.map (opened t)) ps)
    let (gone, bs') ← chronicle ex plan n (t + 1) cs.1
    pure (cs.2 ++ gone, bs')

/-- What a facility takes the time of the simulation to be (`context()->time()`), for those that look at it: the
models of the others have no clock. -/
def clock : (k : Kind) → (act k).S → Option Nat
  | .reactor _ _ _ => fun s : Reactor.State × Nat => some s.1.time
  | .separations _ => fun s : Separations.State => some s.time
  | .storage _ _ => fun s : Storage.State Nat => some s.time
  | _ => fun _ => none

/-- The fuel cycle of the plan is open, and `W` are the commodities of its back end: reactors sell
nothing else and buy nothing of it, and who buys something of it sells nothing else. -/
structure OpenCycle (plan : Plan) (W : String → Bool) : Prop where
  spent : ∀ t, ∀ k ∈ plan.builds t, k.isReactor = true → ∀ x ∈ sellsOf k, W x = true
  fresh : ∀ t, ∀ k ∈ plan.builds t, k.isReactor = true → ∀ x ∈ buysOf k, W x = false
  passed : ∀ t, ∀ k ∈ plan.builds t, (∃ x ∈ buysOf k, W x = true) → ∀ x ∈ sellsOf k, W x = true

end Cyc.Sim
