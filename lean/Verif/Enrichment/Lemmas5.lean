import Verif.Enrichment.Lemmas4

/-!
# Bids, preferences, and honest steps
-/

namespace Cyc.Enrichment

open Mat (massOf)

theorem served_iff {c : Cfg} (V : Valid c) {m : NMat} (hm : Mat.Nonneg m) :
    served c m = true ↔ CodeFeasible c m := by
  have h5 := hm.mass_nonneg u235
  have h8 := hm.mass_nonneg u238
  have a5 := V.atom235
  have a8 : 0 < c.atomMass u238 := lt_of_lt_of_le a5 V.atom238
  unfold served validReq atoms
  rw [Bool.and_eq_true, decide_eq_true_eq, Bool.or_eq_true, decide_eq_true_eq]
  constructor
  · rintro ⟨⟨h1, h2⟩, h3⟩
    have hpos : 0 < m.mass u238 := by
      rcases lt_or_eq_of_le h8 with h | h
      · exact h
      · rw [← h] at h1; simp at h1
    have hsum : 0 < m.mass u235 / c.atomMass u235 + m.mass u238 / c.atomMass u238 :=
      add_pos_of_nonneg_of_pos (by positivity) h1
    refine ⟨hpos, ?_, ?_⟩
    · rwa [gt_iff_lt, lt_div_iff₀ hsum] at h2
    · have hu : 0 < m.mass u235 + m.mass u238 := by linarith
      have ha : assay m < c.maxEnrich + c.eps := by
        rcases h3 with h3 | h3
        · have := V.eps; linarith
        · simp only [almostEq, decide_eq_true_eq] at h3
          rcases h3 with h3 | h3
          · have := V.eps; linarith
          · have := (abs_lt.1 h3).2; linarith
      unfold assay at ha
      rw [if_neg (ne_of_gt hu), div_lt_iff₀ hu] at ha
      exact ha
  · rintro ⟨h1, h2, h3⟩
    have hp8 : 0 < m.mass u238 / c.atomMass u238 := by positivity
    have hsum : 0 < m.mass u235 / c.atomMass u235 + m.mass u238 / c.atomMass u238 :=
      add_pos_of_nonneg_of_pos (by positivity) hp8
    refine ⟨⟨hp8, ?_⟩, ?_⟩
    · rwa [gt_iff_lt, lt_div_iff₀ hsum]
    · have hu : 0 < m.mass u235 + m.mass u238 := by linarith
      have ha : assay m < c.maxEnrich + c.eps := by
        unfold assay
        rw [if_neg (ne_of_gt hu), div_lt_iff₀ hu]; exact h3
      by_cases hlt : assay m < c.maxEnrich
      · exact Or.inl hlt
      · right
        simp only [almostEq, decide_eq_true_eq]
        right
        rw [abs_lt]
        have := V.eps
        constructor <;> linarith

theorem offer_pure (m : NMat) : Pure [offer m] := by
  intro x hx e he
  rw [List.mem_singleton] at hx
  subst hx
  simp only [offer, List.mem_cons, List.not_mem_nil, or_false] at he
  rcases he with rfl | rfl
  · exact Or.inl rfl
  · exact Or.inr rfl

theorem offer_235 (m : NMat) :
    (offer m).mass u235 = qty m * (m.mass u235 / (m.mass u235 + m.mass u238)) := by
  simp [offer, Mat.mass]

theorem offer_238 (m : NMat) :
    (offer m).mass u238 = qty m * (m.mass u238 / (m.mass u235 + m.mass u238)) := by
  simp [offer, Mat.mass]

theorem offer_of {m : NMat} (h : m.mass u235 + m.mass u238 ≠ 0) : UraniumOf m (offer m) := by
  refine ⟨offer_pure m, ?_, ?_⟩
  · rw [pure_qty (offer_pure m), offer_235, offer_238]; field_simp
  · rw [offer_235, offer_238]; field_simp

theorem offer_nn {m : NMat} (hm : Mat.Nonneg m) : Mat.Nonneg (offer m) := by
  have h5 := hm.mass_nonneg u235
  have h8 := hm.mass_nonneg u238
  have hq := hm.qty_nonneg
  intro e he
  simp only [offer, List.mem_cons, List.not_mem_nil, or_false] at he
  rcases he with rfl | rfl <;> simp only <;> positivity

theorem offer_assay {m : NMat} (h : m.mass u235 + m.mass u238 ≠ 0) (hq : qty m ≠ 0) :
    assay (offer m) = assay m := by
  have e : (offer m).mass u235 + (offer m).mass u238 = qty m := by
    rw [← pure_qty (offer_pure m), (offer_of h).amount]
  unfold assay
  rw [e, if_neg hq, if_neg h, offer_235]; field_simp

theorem mem_productBids {c : Cfg} {rs : List NMat} {j : Nat} {m : NMat} :
    (j, m) ∈ ((List.range rs.length).flatMap fun j =>
      if served c (rs.getD j ⟨[]⟩) then [(j, offer (rs.getD j ⟨[]⟩))] else []) ↔
    ∃ target, rs[j]? = some target ∧ served c target = true ∧ m = offer target := by
  simp only [List.mem_flatMap, List.mem_range]
  constructor
  · rintro ⟨k, hk, h⟩
    split at h
    · rename_i hs
      simp only [List.mem_singleton, Prod.mk.injEq] at h
      obtain ⟨rfl, rfl⟩ := h
      refine ⟨rs[j], by simp [hk], ?_, ?_⟩
      · simpa [List.getD, hk] using hs
      · simp [List.getD, hk]
    · simp at h
  · rintro ⟨t, h1, h2, rfl⟩
    obtain ⟨hj, rfl⟩ := List.getElem?_eq_some_iff.1 h1
    refine ⟨j, hj, ?_⟩
    have : rs.getD j ⟨[]⟩ = rs[j] := by simp [List.getD, hj]
    rw [this, if_pos h2]; simp

/-- When the bids succeed. -/
theorem bids_ok {c : Cfg} (V : Valid c) {s : State} (I : Inv c s)
    (hf : s.inventory.quantity ≤ c.maxFeed + c.eps) (reqs : String → Option (List NMat)) :
    ∃ p s', bids c reqs s = .ok (p, s') := by
  have he := le_of_lt V.eps
  unfold bids productBids
  cases reqs c.productCommod with
  | none => exact ⟨_, _, rfl⟩
  | some rs =>
    simp only
    split
    · rename_i hq
      have hne : s.inventory.items ≠ [] := by
        intro h0; simp [Buf.quantity, h0] at hq
      rw [feedAssay_eq he hne (by
        intro x hx
        rw [I.cap] at hx
        rw [← Option.some.inj hx, max_eq_right V.maxFeed]; exact hf)]
      simp only [ok_bind, not_le.2 V.swu, if_false, pure_eq_ok]
      exact ⟨_, _, rfl⟩
    · exact ⟨_, _, rfl⟩

theorem requests_le {c : Cfg} (he : 0 ≤ c.eps) (s : State) :
    (requests c s).getD 0 ≤ max 0 (c.maxFeed - s.inventory.quantity) := by
  unfold requests
  split
  · simp
  · simp

/-- The content of the feed inventory along an honest history. -/
theorem step_room {c : Cfg} (V : Valid c) {s s' : State} {i : In} {o : Out} (I : Inv c s)
    (hf : s.inventory.quantity ≤ c.maxFeed + c.eps) (hb : HonestBuys c (tick c s) i.buys)
    (h : step c s i = .ok (o, s')) :
    s'.inventory.quantity ≤ max c.maxFeed s.inventory.quantity := by
  have he := le_of_lt V.eps
  obtain ⟨s1, s2, l, S⟩ := step_inv h
  obtain ⟨I1, a1, a2, a3, a4, a5⟩ := bids_pres he (I.swu _) S.bids
  obtain ⟨I2, b1, b2, -⟩ := sellAll_pres he I1 S.sells
  obtain ⟨I3, rfl⟩ := accept_pres I2 hb.mass S.buys
  have ht := hb.total
  have a4' : s1.inventory.quantity = s.inventory.quantity := a4
  have hr := requests_le he (tick c s)
  have hq : (tick c s).inventory.quantity = s.inventory.quantity := rfl
  rw [hq] at hr
  have e : (⟨s2.inventory.cap, s2.inventory.items ++ i.buys⟩ : Buf NMat).quantity =
      s2.inventory.quantity + totalQty i.buys := by simp [Buf.quantity]
  rw [e]
  rcases le_total c.maxFeed s.inventory.quantity with h1 | h1
  · rw [max_eq_left (by linarith)] at hr
    apply le_max_of_le_right
    linarith
  · rw [max_eq_right (by linarith)] at hr
    apply le_max_of_le_left
    linarith

theorem honest_run_room {c : Cfg} (V : Valid c) {is : List In} {s s' : State} {os : List Out}
    (I : Inv c s) (hf : s.inventory.quantity ≤ c.maxFeed + c.eps) (hr : HonestRun c s is)
    (h : run c s is = .ok (os, s')) :
    Inv c s' ∧ s'.inventory.quantity ≤ c.maxFeed + c.eps ∧
      (s.inventory.quantity ≤ c.maxFeed → s'.inventory.quantity ≤ c.maxFeed) := by
  have he := le_of_lt V.eps
  induction is generalizing s os with
  | nil =>
    simp only [run, Except.ok.injEq, Prod.mk.injEq] at h
    obtain ⟨rfl, rfl⟩ := h
    exact ⟨I, hf, id⟩
  | cons i is ih =>
    simp only [run, bind_ok] at h
    obtain ⟨⟨o, s1⟩, h1, ⟨os1, s2⟩, h2, h3⟩ := h
    simp only [pure_eq_ok, Except.ok.injEq, Prod.mk.injEq] at h3
    obtain ⟨rfl, rfl⟩ := h3
    obtain ⟨hh, hr'⟩ := hr
    have I1 := (step_pres he I hh.buys.mass h1).1
    have hb := step_room V I hf hh.buys h1
    have hb' : s1.inventory.quantity ≤ c.maxFeed + c.eps :=
      le_trans hb (max_le (by linarith) hf)
    obtain ⟨x, y, z⟩ := ih I1 hb' (hr' _ _ h1) h2
    exact ⟨x, y, fun hq => z (le_trans hb (max_le le_rfl hq))⟩

theorem honest_history {c : Cfg} (V : Valid c) {is : List In} {s : State} {os : List Out}
    (h : HonestHistory c is os s) : Inv c s ∧ s.inventory.quantity ≤ c.maxFeed + c.eps := by
  obtain ⟨s0, h1, h2, h3⟩ := h
  obtain ⟨I, -, -, -, hq⟩ := build_inv V h1
  obtain ⟨a, b, -⟩ := honest_run_room V I hq h3 h2
  exact ⟨a, b⟩

/-! ## Preferences -/

theorem assign_fst (k : Nat) (b : Bool) (l : List (Nat × NMat)) :
    (assign k b l).map Prod.fst = l.map Prod.fst := by
  induction l generalizing k b with
  | nil => cases b <;> rfl
  | cons x l ih =>
    cases b
    · unfold assign; split <;> simp [ih]
    · simp [assign, ih]

/-- After a bid with uranium-235, preferences count up. -/
theorem assign_true {k : Nat} {l : List (Nat × NMat)} {j : Nat} {p : ℤ}
    (h : (j, p) ∈ assign k true l) :
    ∃ (i : Nat) (m : NMat), l[i]? = some (j, m) ∧ p = (k : ℤ) + i + 1 := by
  induction l generalizing k with
  | nil => simp [assign] at h
  | cons x l ih =>
    simp only [assign, List.mem_cons, Prod.mk.injEq] at h
    rcases h with ⟨rfl, rfl⟩ | h
    · exact ⟨0, x.2, by simp, by simp⟩
    · obtain ⟨i, m, h1, h2⟩ := ih h
      refine ⟨i + 1, m, by simpa using h1, ?_⟩
      rw [h2]; push_cast; ring

theorem assign_false {k : Nat} {l : List (Nat × NMat)} {j : Nat} {p : ℤ}
    (h : (j, p) ∈ assign k false l) :
    ∃ (i : Nat) (m : NMat), l[i]? = some (j, m) ∧
      ((p = -1 ∧ m.mass u235 = 0 ∧ ∀ (i' : Nat) b, i' ≤ i → l[i']? = some b → b.2.mass u235 = 0) ∨
       (p = (k : ℤ) + i + 1 ∧ ∃ (i' : Nat) (b : Nat × NMat), i' ≤ i ∧ l[i']? = some b ∧
          b.2.mass u235 ≠ 0)) := by
  induction l generalizing k with
  | nil => simp [assign] at h
  | cons x l ih =>
    unfold assign at h
    split at h
    · rename_i hx
      simp only [List.mem_cons, Prod.mk.injEq] at h
      rcases h with ⟨rfl, rfl⟩ | h
      · refine ⟨0, x.2, by simp, Or.inl ⟨rfl, hx, ?_⟩⟩
        intro i' b hi hb
        have : i' = 0 := by omega
        subst this
        simp at hb; rw [← hb]; exact hx
      · obtain ⟨i, m, h1, h2⟩ := ih h
        refine ⟨i + 1, m, by simpa using h1, ?_⟩
        rcases h2 with ⟨h2, h3, h4⟩ | ⟨h2, i', b, h3, h4, h5⟩
        · left
          refine ⟨h2, h3, ?_⟩
          intro i' b hi hb
          cases i' with
          | zero => simp at hb; rw [← hb]; exact hx
          | succ i' => exact h4 i' b (by omega) (by simpa using hb)
        · right
          refine ⟨by rw [h2]; push_cast; ring, i' + 1, b, by omega, by simpa using h4, h5⟩
    · rename_i hx
      simp only [List.mem_cons, Prod.mk.injEq] at h
      rcases h with ⟨rfl, rfl⟩ | h
      · exact ⟨0, x.2, by simp, Or.inr ⟨by simp, 0, x, le_rfl, by simp, hx⟩⟩
      · obtain ⟨i, m, h1, h2⟩ := assign_true h
        refine ⟨i + 1, m, by simpa using h1, Or.inr ⟨by rw [h2]; push_cast; ring, 0, x, by omega,
          by simp, hx⟩⟩

end Cyc.Enrichment
