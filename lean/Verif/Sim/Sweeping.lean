import Verif.Sim.Filling
import Mathlib.Algebra.BigOperators.Group.Finset.Basic
import Mathlib.Algebra.Order.BigOperators.Group.Finset

/-!
# An exchange that leaves no exclusive order alone, whatever the constraints

It makes the first deal that may be made, again and again.
-/

namespace Cyc.Sim

/-- The first deal that may be made, up to `n` times. -/
def sweep (asks : List (List Ask)) (offers : List (List Offer)) : Nat → List Deal → List Deal
  | 0, ds => ds
  | n + 1, ds =>
    match (candidates asks offers).find? fun d => fairB asks offers (ds ++ [d]) with
    | none => ds
    | some d => sweep asks offers n (ds ++ [d])

/-- How many deals there can be. -/
def most (asks : List (List Ask)) (offers : List (List Offer)) : Nat :=
  ((candidates asks offers).map fun d => ⌈asked asks d / d.amt⌉₊).sum

/-- An exchange that makes every deal of an exclusive amount as long as one may be made. -/
def sweeping : Exchange := fun asks offers => sweep asks offers (most asks offers + 1) []

open Classical in
theorem length_le_most {asks : List (List Ask)} {offers : List (List Offer)} {ds : List Deal}
    (F : Fair asks offers ds) (h : ∀ d ∈ ds, d ∈ candidates asks offers) :
    ds.length ≤ most asks offers := by
  have count : ∀ d ∈ ds, ds.count d ≤ ⌈asked asks d / d.amt⌉₊ := by
    intro d hd
    obtain ⟨as, e1, a, e2, -⟩ := F.asked d hd
    have e3 : asked asks d = a.amount := by simp [asked, e1, e2]
    have h0 := (F.pos d hd).1
    have h1 := F.amounts _ as e1 _ a e2
    have h2 : (ds.count d : ℚ) * d.amt ≤ dealt ds fun e => e.dst = d.dst ∧ e.port = d.port := by
      rw [← dealt_replicate d (fun e => e.dst = d.dst ∧ e.port = d.port) (by simp)]
      have hs := (List.replicate_sublist_iff.2 (le_refl (ds.count d)))
      have := (hs.filter fun e => decide (e.dst = d.dst ∧ e.port = d.port)).map Deal.amt
      refine this.sum_le_sum ?_
      intro x hx
      obtain ⟨y, hy, rfl⟩ := List.mem_map.1 hx
      exact (F.pos y (List.mem_filter.1 hy).1).1.le
    rw [e3]
    have h3 : (ds.count d : ℚ) ≤ a.amount / d.amt := by
      rw [le_div_iff₀ h0]; exact h2.trans h1
    exact_mod_cast h3.trans (Nat.le_ceil _)
  rw [← List.sum_toFinset_count_eq_length]
  calc ∑ d ∈ ds.toFinset, ds.count d
      ≤ ∑ d ∈ ds.toFinset, ⌈asked asks d / d.amt⌉₊ :=
        Finset.sum_le_sum fun d hd => count d (List.mem_toFinset.1 hd)
    _ ≤ ∑ d ∈ (candidates asks offers).toFinset, ⌈asked asks d / d.amt⌉₊ := by
        refine Finset.sum_le_sum_of_subset ?_
        intro d hd
        exact List.mem_toFinset.2 (h d (List.mem_toFinset.1 hd))
    _ ≤ ∑ d ∈ (candidates asks offers).toFinset,
          (candidates asks offers).count d • ⌈asked asks d / d.amt⌉₊ := by
        refine Finset.sum_le_sum fun d hd => ?_
        have := List.count_pos_iff.2 (List.mem_toFinset.1 hd)
        rw [nsmul_eq_mul, Nat.cast_id]
        exact Nat.le_mul_of_pos_left _ this
    _ = most asks offers := (Finset.sum_list_map_count _ _).symm

theorem sweep_spec {asks : List (List Ask)} {offers : List (List Offer)} (n : Nat) :
    ∀ {ds : List Deal}, Fair asks offers ds → (∀ d ∈ ds, d ∈ candidates asks offers) →
      Fair asks offers (sweep asks offers n ds) ∧
      (∀ d ∈ sweep asks offers n ds, d ∈ candidates asks offers) ∧
      (ds.length + n = (sweep asks offers n ds).length ∨
        ∀ d ∈ candidates asks offers, ¬ Fair asks offers (sweep asks offers n ds ++ [d])) := by
  induction n with
  | zero => intro ds F h; exact ⟨F, h, Or.inl rfl⟩
  | succ n ih =>
    intro ds F h
    unfold sweep
    split
    · rename_i e
      refine ⟨F, h, Or.inr fun d hd G => ?_⟩
      rw [List.find?_eq_none] at e
      exact e d hd (fairB_of_fair G)
    · rename_i d e
      have hd := List.mem_of_find?_eq_some e
      have hf := List.find?_some e
      obtain ⟨h1, h2, h3⟩ := ih (fair_of_fairB hf) (by
        intro x hx
        rcases List.mem_append.1 hx with hx | hx
        · exact h x hx
        · rw [List.mem_singleton.1 hx]; exact hd)
      refine ⟨h1, h2, h3.imp (fun h => ?_) id⟩
      rw [← h, List.length_append, List.length_singleton]; omega

theorem sweeping_spec {asks : List (List Ask)} {offers : List (List Offer)}
    (h1 : ∀ as ∈ asks, ∀ a ∈ as, 0 ≤ a.amount)
    (h2 : ∀ os ∈ offers, ∀ o ∈ os, 0 ≤ o.cap ∧ ∀ L ∈ o.limits, 0 ≤ L.cap) :
    Fair asks offers (sweeping asks offers) ∧
      ∀ d ∈ candidates asks offers, ¬ Fair asks offers (sweeping asks offers ++ [d]) := by
  obtain ⟨k1, k2, k3⟩ := sweep_spec (most asks offers + 1) (fair_nil h1 h2) (by simp)
  refine ⟨k1, k3.resolve_left fun e => ?_⟩
  have := length_le_most k1 k2
  simp only [List.length_nil] at e
  omega

theorem sweeping_fair : sweeping.Fair := fun _ _ h1 h2 => (sweeping_spec h1 h2).1

theorem sweeping_keen : sweeping.Keen := fun _ _ h1 h2 _ hd G =>
  (sweeping_spec h1 h2).2 _ (mem_candidates hd G) G

end Cyc.Sim
