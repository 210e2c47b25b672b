import Verif.Separations.Spec
import Verif.Sim.BackEnd

/-!
# Vocabulary for C150: a separations facility behind the storage facilities
-/

namespace Cyc.Sim

open Mat (massOf)
open Separations (fraction share yield yieldAll)

/-- What number `i` gives under the commodity `x`. -/
def givenAs (gs : List (Deal × NMat)) (i : Nat) (x : String) : List NMat :=
  (gs.filter fun g => g.1.src = i ∧ g.1.commod = x).map Prod.snd

/-- The separations facility `c` at the position `b` among the prototypes `ks` can keep up with `r` in each of
`n` steps: its throughput and its feed storage are no less, each limited stream has that much room, it is not
about to be decommissioned and sells in any amounts, and each of its streams and the leftover have a sink for
`n` steps to themselves or together. -/
structure Reprocesses (ks : List Kind) (b : Nat) (c : Separations.Cfg) (r : ℚ) (n : Nat) : Prop where
  stays : c.exitTime = none
  rate : r ≤ c.throughput
  feed : r ≤ c.feedbufSize
  tolerance : c.eps ≤ r
  streams : ∀ st ∈ c.streams, 0 ≤ st.2.cap → r ≤ st.2.cap
  amounts : c.lo ≤ 0
  sinks : ∀ x ∈ sellsOf (.separations c), ∃ j w, Link ks x b j ∧ ks[j]? = some (.sink w) ∧
    r ≤ w.capacity ∧ w.eps < r ∧ n * r ≤ w.maxInv

/-- What there is of each stream and of the leftover in the materials is nothing or more than the facility's
tolerance (for less it makes no bids). -/
def Worthwhile (c : Separations.Cfg) (ms : List NMat) : Prop :=
  (∀ st ∈ c.streams, yield st.2.effs ms = 0 ∨ c.eps < yield st.2.effs ms) ∧
  (totalQty ms = yieldAll c.streams ms ∨ c.eps < totalQty ms - yieldAll c.streams ms)

/-- What the separations facility at the position `b` does in the steps `l`, and what it has then: in each step
it gives as each stream, of each nuclide, the stream's part of what it was given in the step before, and as
leftover the rest. It has what it was given in the last step. -/
structure Reprocessed (b : Nat) (c : Separations.Cfg) (l : List (List (Deal × NMat)))
    (ps : List (Running act)) : Prop where
  streams : ∀ st ∈ c.streams, ∀ (t : Nat) gs, l[t]? = some gs → ∀ ν, massOf (givenAs gs b st.1) ν =
    fraction st.2.effs ν * massOf (before (l.map fun gs => givenTo gs b) 1 t) ν
  leftover : ∀ (t : Nat) gs, l[t]? = some gs → ∀ ν, massOf (givenAs gs b c.leftoverCommod) ν =
    (1 - share c.streams ν) * massOf (before (l.map fun gs => givenTo gs b) 1 t) ν
  has : ∃ s : Separations.State, ps[b]? = some ⟨.separations c, s⟩ ∧ ∀ ν,
    massOf (Separations.contents s) ν = massOf (before (l.map fun gs => givenTo gs b) 1 l.length) ν

end Cyc.Sim
