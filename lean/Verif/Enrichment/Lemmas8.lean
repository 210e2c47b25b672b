import Verif.Enrichment.Lemmas2

/-! # What a facility does not read: the work left over and the totals of an earlier step -/

namespace Cyc.Enrichment

/-- The same state with other totals. -/
def withIntra (x : Option (ℚ × ℚ)) (s : State) : State := { s with intra := x }

theorem merge_intra {c : Cfg} {s : State} (x : Option (ℚ × ℚ)) :
    merge c (withIntra x s) = (merge c s).map fun r => (r.1, withIntra x r.2) := by
  unfold merge withIntra
  dsimp only
  cases Buf.popEps c.lo c.eps s.inventory s.inventory.quantity with
  | error e => rfl
  | ok r =>
    simp only [ok_bind]
    cases Buf.push c.eps r.2 r.1 <;> rfl

theorem feedAssay_intra {c : Cfg} {s : State} (x : Option (ℚ × ℚ)) :
    feedAssay c (withIntra x s) = (feedAssay c s).map fun r => (r.1, withIntra x r.2) := by
  unfold feedAssay
  have e : (withIntra x s).inventory = s.inventory := rfl
  rw [e]
  split
  · rfl
  · rw [merge_intra]
    cases merge c s <;> rfl

theorem productBids_intra {c : Cfg} {s : State} (x : Option (ℚ × ℚ)) (reqs : Option (List NMat)) :
    productBids c (withIntra x s) reqs =
      (productBids c s reqs).map fun r => (r.1, withIntra x r.2) := by
  unfold productBids
  have e : (withIntra x s).inventory = s.inventory := rfl
  split
  · rfl
  · rw [e]
    split
    · rw [feedAssay_intra]
      cases feedAssay c s with
      | error _ => rfl
      | ok r =>
        simp only [Except.map, ok_bind]
        split <;> rfl
    · rfl

theorem bids_intra {c : Cfg} {s : State} (x : Option (ℚ × ℚ)) (reqs : String → Option (List NMat)) :
    bids c reqs (withIntra x s) = (bids c reqs s).map fun r => (r.1, withIntra x r.2) := by
  unfold bids
  rw [productBids_intra]
  cases productBids c s (reqs c.productCommod) <;> rfl

theorem accept_intra {c : Cfg} {ms : List NMat} {s : State} (x : Option (ℚ × ℚ)) :
    accept c ms (withIntra x s) = (accept c ms s).map (withIntra x) := by
  induction ms generalizing s with
  | nil => rfl
  | cons m ms ih =>
    have : addMat c m (withIntra x s) = (addMat c m s).map (withIntra x) := by
      unfold addMat withIntra
      dsimp only
      cases Buf.push c.eps s.inventory m <;> rfl
    simp only [accept, this]
    cases addMat c m s with
    | error e => rfl
    | ok s1 => exact ih

/-- A step with sales does not depend on what was left over; a step without repeats the totals. -/
theorem step_intra_eq {c : Cfg} {s : State} {i : In} (x : Option (ℚ × ℚ)) (y : ℚ) :
    step c { s with swu := y, intra := x } i =
      if i.sells = [] then
        (step c s i).map fun r => ({ r.1 with series := x }, withIntra x r.2)
      else step c s i := by
  have e : tick c { s with swu := y, intra := x } = withIntra x (tick c s) := rfl
  unfold step
  simp only [e]
  rw [bids_intra]
  have e2 : requests c (withIntra x (tick c s)) = requests c (tick c s) := rfl
  rw [e2]
  cases bids c i.reqs (tick c s) with
  | error e => simp only [Except.map, error_bind, ite_self]
  | ok r =>
    simp only [Except.map, ok_bind]
    split
    · rename_i hs
      rw [hs]
      simp only [sellAll, ok_bind]
      rw [accept_intra]
      cases accept c i.buys r.2 <;> rfl
    · rename_i hs
      cases hi : i.sells with
      | nil => exact absurd hi hs
      | cons t ts => rfl

end Cyc.Enrichment
