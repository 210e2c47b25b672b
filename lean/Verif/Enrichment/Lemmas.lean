import Verif.Enrichment.Spec

/-!
# Inversion of the calls of `Enrichment`
-/

namespace Cyc.Enrichment

open Mat (massOf)

@[simp] theorem squash_singleton (m : NMat) : Mat.squash [m] = m := by
  cases m; simp [Mat.squash]

theorem assay_scale {k : ℚ} (hk : k ≠ 0) (m : NMat) : assay (m.scale k) = assay m := by
  unfold assay
  simp only [Mat.mass_scale]
  rw [← mul_add]
  by_cases h : m.mass u235 + m.mass u238 = 0
  · simp [h]
  · rw [if_neg (mul_ne_zero hk h), if_neg h, mul_div_mul_left _ _ hk]

theorem uFrac_scale {k : ℚ} (hk : k ≠ 0) (m : NMat) : uFrac (m.scale k) = uFrac m := by
  unfold uFrac
  simp only [Mat.mass_scale, Mat.qty_scale]
  rw [← mul_add]
  by_cases h : qty m = 0
  · simp [h]
  · rw [if_neg (mul_ne_zero hk h), if_neg h, mul_div_mul_left _ _ hk]

theorem merge_inv {c : Cfg} {s s' : State} {m : NMat} (he : 0 ≤ c.eps)
    (h : merge c s = .ok (m, s')) :
    s.inventory.items ≠ [] ∧ m = Mat.squash s.inventory.items ∧
      s' = { s with inventory := { s.inventory with items := [m] } } ∧
      s.inventory.fits c.eps 0 = true := by
  simp only [merge, bind_ok] at h
  obtain ⟨⟨m', b⟩, h1, b2, h2, h3⟩ := h
  unfold Buf.popEps at h1
  rw [if_neg (by linarith), if_pos le_rfl] at h1
  split at h1
  · cases h1
  · rename_i hne
    simp only [Except.ok.injEq, Prod.mk.injEq] at h1
    obtain ⟨rfl, rfl⟩ := h1
    obtain ⟨hf, rfl⟩ := Buf.push_ok.1 h2
    simp only [pure_eq_ok, Except.ok.injEq, Prod.mk.injEq] at h3
    obtain ⟨rfl, rfl⟩ := h3
    refine ⟨hne, rfl, rfl, ?_⟩
    unfold Buf.fits Buf.space
    cases s.inventory.cap with
    | none => rfl
    | some x =>
      simp only [Option.map_some, decide_eq_true_eq]
      have := le_max_left 0 (x - s.inventory.quantity)
      linarith

theorem merge_eq {c : Cfg} {s : State} (he : 0 ≤ c.eps) (hne : s.inventory.items ≠ [])
    (hf : ∀ x, s.inventory.cap = some x → s.inventory.quantity ≤ max 0 x + c.eps) :
    merge c s = .ok (Mat.squash s.inventory.items,
      { s with inventory := { s.inventory with items := [Mat.squash s.inventory.items] } }) := by
  unfold merge
  have h1 : s.inventory.popEps c.lo c.eps s.inventory.quantity =
      .ok (Mat.squash s.inventory.items, { s.inventory with items := [] }) := by
    unfold Buf.popEps
    rw [if_neg (by linarith), if_pos le_rfl, if_neg hne]
  rw [h1]
  have h2 : ({ s.inventory with items := [] } : Buf NMat).push c.eps
      (Mat.squash s.inventory.items) =
      .ok { s.inventory with items := [Mat.squash s.inventory.items] } := by
    rw [Buf.push_ok]
    refine ⟨?_, by simp⟩
    unfold Buf.fits Buf.space
    cases hc : s.inventory.cap with
    | none => simp
    | some x =>
      have := hf x hc
      simp only [Option.map_some, decide_eq_true_eq, Buf.quantity, totalQty_nil, sub_zero,
        Mat.qty_squash]
      unfold Buf.quantity at this
      linarith
  simp only [ok_bind, h2, pure_eq_ok]

theorem feedAssay_inv {c : Cfg} {s s' : State} {x : ℚ} (he : 0 ≤ c.eps)
    (h : feedAssay c s = .ok (x, s')) :
    (s.inventory.items = [] ∧ x = 0 ∧ s' = s) ∨
    (s.inventory.items ≠ [] ∧ x = assay (Mat.squash s.inventory.items) ∧
      s' = { s with inventory :=
        { s.inventory with items := [Mat.squash s.inventory.items] } }) := by
  unfold feedAssay at h
  split at h
  · rename_i hemp
    left
    simp only [Except.ok.injEq, Prod.mk.injEq] at h
    refine ⟨?_, h.1.symm, h.2.symm⟩
    simpa [Buf.empty] using hemp
  · right
    simp only [bind_ok] at h
    obtain ⟨⟨m, s1⟩, h1, h2⟩ := h
    simp only [pure_eq_ok, Except.ok.injEq, Prod.mk.injEq] at h2
    obtain ⟨rfl, rfl⟩ := h2
    obtain ⟨a, rfl, b, -⟩ := merge_inv he h1
    exact ⟨a, rfl, b⟩

theorem feedAssay_eq {c : Cfg} {s : State} (he : 0 ≤ c.eps) (hne : s.inventory.items ≠ [])
    (hf : ∀ x, s.inventory.cap = some x → s.inventory.quantity ≤ max 0 x + c.eps) :
    feedAssay c s = .ok (assay (Mat.squash s.inventory.items),
      { s with inventory := { s.inventory with items := [Mat.squash s.inventory.items] } }) := by
  unfold feedAssay
  have : s.inventory.empty = false := by
    unfold Buf.empty
    cases h : s.inventory.items with
    | nil => exact absurd h hne
    | cons a l => rfl
  rw [this, merge_eq he hne hf]
  rfl

theorem finite_inv {x : Option ℚ} {q : ℚ} (h : finite x = .ok q) : x = some q := by
  unfold finite at h
  split at h
  · rw [Except.ok.inj h]
  · cases h

/-- What `takeFeed` does to a merged inventory. -/
theorem takeFeed_inv {c : Cfg} (he : 0 ≤ c.eps) {cap : Option ℚ} {B : NMat} (hB : 0 < qty B) {q : ℚ}
    {r : NMat} {b : Buf NMat} (h : takeFeed c ⟨cap, [B]⟩ q = .ok (r, b)) :
    ∃ k, 0 < k ∧ k ≤ 1 ∧ r = B.scale k ∧
      ((k = 1 ∧ b = ⟨cap, []⟩) ∨ (k < 1 ∧ b = ⟨cap, [B.scale (1 - k)]⟩)) ∧
      (k * qty B = q ∨ (k = 1 ∧ |q - qty B| ≤ c.eps ∧ (|q - qty B| < c.eps ∨ qty B ≤ q))) ∧
      (|q - qty B| < c.eps → k = 1) := by
  have hqty : (⟨cap, [B]⟩ : Buf NMat).quantity = qty B := by simp [Buf.quantity]
  unfold takeFeed at h
  split at h
  · rename_i ha
    simp only [bind_ok] at h
    obtain ⟨⟨l, b'⟩, h1, h2⟩ := h
    obtain ⟨-, h3⟩ := Buf.popN_ok.1 h1
    simp only [Buf.count, List.length_singleton, List.take_one, List.drop_one, Prod.mk.injEq] at h3
    obtain ⟨rfl, rfl⟩ := h3
    simp only [pure_eq_ok, Except.ok.injEq, Prod.mk.injEq] at h2
    obtain ⟨rfl, rfl⟩ := h2
    refine ⟨1, by norm_num, le_rfl, by simp, Or.inl ⟨rfl, by simp⟩, Or.inr ⟨rfl, ?_⟩, fun _ => rfl⟩
    simp only [almostEq, hqty, decide_eq_true_eq] at ha
    rcases ha with ha | ha
    · rw [ha]; simpa using he
    · exact ⟨le_of_lt ha, Or.inl ha⟩
  · rename_i ha
    unfold Buf.popEps at h
    rw [hqty] at h
    split at h
    · cases h
    · rename_i h1
      split at h
      · rename_i h2
        rw [if_neg (by simp)] at h
        simp only [Except.ok.injEq, Prod.mk.injEq] at h
        obtain ⟨rfl, rfl⟩ := h
        refine ⟨1, by norm_num, le_rfl, by simp, Or.inl ⟨rfl, by simp⟩, Or.inr ⟨rfl, ?_⟩,
          fun _ => rfl⟩
        refine ⟨?_, Or.inr h2⟩
        rw [abs_le]; constructor <;> linarith
      · rename_i h2
        unfold Buf.popQty at h
        split at h
        · cases h
        · rename_i h3
          rw [hqty] at h3
          push Not at h2 h3
          obtain ⟨-, h4, -⟩ := h3
          simp only [popLoop, not_le.2 h4, h2, if_false, if_true, ok_bind, pure_eq_ok,
            Except.ok.injEq, Prod.mk.injEq, Mat.split, squash_singleton] at h
          obtain ⟨rfl, rfl⟩ := h
          refine ⟨q / qty B, by positivity, ?_, rfl, Or.inr ⟨?_, rfl⟩, Or.inl ?_, ?_⟩
          · rw [div_le_one hB]; exact le_of_lt h2
          · rw [div_lt_one hB]; exact h2
          · field_simp
          · intro hlt
            exact absurd (by simp [almostEq, hqty, hlt]) ha

/-- When `takeFeed` succeeds on a merged inventory. -/
theorem takeFeed_ok {c : Cfg} (he : 0 ≤ c.eps) {cap : Option ℚ} {B : NMat} {q : ℚ} (h0 : 0 < q)
    (hlo : c.lo ≤ q) (hq : q ≤ qty B) :
    ∃ r b, takeFeed c ⟨cap, [B]⟩ q = .ok (r, b) := by
  have hqty : (⟨cap, [B]⟩ : Buf NMat).quantity = qty B := by simp [Buf.quantity]
  unfold takeFeed
  split
  · refine ⟨Mat.squash [B], ⟨cap, []⟩, ?_⟩
    simp [Buf.popN, Buf.count]
  · unfold Buf.popEps
    rw [hqty, if_neg (by linarith)]
    split
    · exact ⟨_, _, rfl⟩
    · rename_i h2
      unfold Buf.popQty
      rw [hqty, if_neg (by push Not; exact ⟨hq, h0, hlo⟩)]
      have h2' := not_le.1 h2
      simp only [popLoop, not_le.2 h0, h2', if_false, if_true, ok_bind, pure_eq_ok]
      exact ⟨_, _, rfl⟩

/-- The feed an enrichment needs. -/
def need (c : Cfg) (B mat : NMat) (q : ℚ) : ℚ :=
  q * ((assay mat - c.tailsAssay) / (assay B - c.tailsAssay)) / uFrac B

/-- The separative work an enrichment needs. -/
def work (c : Cfg) (B mat : NMat) (q : ℚ) : ℚ :=
  q * c.value (assay mat) +
    (q * ((assay mat - c.tailsAssay) / (assay B - c.tailsAssay)) - q) * c.value c.tailsAssay -
    q * ((assay mat - c.tailsAssay) / (assay B - c.tailsAssay)) * c.value (assay B)

/-- Inversion of `enrich`. `B` is the merged inventory. -/
structure Enriched (c : Cfg) (mat : NMat) (q : ℚ) (s : State) (B resp : NMat) (e : Enr)
    (s' : State) (k : ℚ) : Prop where
  feedAssay : assay B ≠ c.tailsAssay
  frac : uFrac B ≠ 0
  feed : e.feed = need c B mat q
  swu : e.swu = work c B mat q
  kpos : 0 < k
  kle : k ≤ 1
  amount : k * qty B = e.feed ∨
    (k = 1 ∧ |e.feed - qty B| ≤ c.eps ∧ (|e.feed - qty B| < c.eps ∨ qty B ≤ e.feed))
  full : |e.feed - qty B| < c.eps → k = 1
  response : resp = mat.scale (q / qty mat)
  rest : Mat.Nonneg ((B.scale k).sub resp)
  le : q ≤ k * qty B
  inv : (k = 1 ∧ s'.inventory = ⟨s.inventory.cap, []⟩) ∨
    (k < 1 ∧ s'.inventory = ⟨s.inventory.cap, [B.scale (1 - k)]⟩)
  tails : s'.tails = ⟨s.tails.cap, s.tails.items ++ [(B.scale k).sub resp]⟩
  capacity : s'.swu = s.swu - e.swu
  intra : s'.intra = addIntra e.swu e.feed s.intra

theorem enrich_inv {c : Cfg} (he : 0 ≤ c.eps) {mat : NMat} {q : ℚ} {s s' : State} {resp : NMat}
    {e : Enr} (hp : AllPos s.inventory.items) (h : enrich c mat q s = .ok (resp, e, s')) :
    s.inventory.items ≠ [] ∧
      ∃ k, Enriched c mat q s (Mat.squash s.inventory.items) resp e s' k := by
  simp only [enrich, bind_ok] at h
  obtain ⟨⟨x, s1⟩, h1, ⟨all, s2⟩, h2, swu, h3, feed, h4, ⟨r, b⟩, h5, ⟨rp, rest⟩, h6, t, h7, h8⟩ := h
  simp only at h2 h3 h4 h5 h6 h7 h8
  obtain ⟨hne1, e2, e3, -⟩ := merge_inv he h2
  rcases feedAssay_inv he h1 with ⟨hn, -, rfl⟩ | ⟨hne, rfl, rfl⟩
  · exact absurd hn hne1
  · refine ⟨hne, ?_⟩
    simp only [squash_singleton] at e2
    subst e2 e3
    generalize hB : Mat.squash s.inventory.items = B at *
    have hBq : 0 < qty B := by
      rw [← hB, Mat.qty_squash]; exact hp.total_pos hne
    have h4' := finite_inv h4
    have h3' := finite_inv h3
    simp only [overFrac, feedQty] at h4'
    split at h4'
    · cases h4'
    · rename_i hf
      split at h4'
      · simp at h4'
      · rename_i hx
        simp only [Option.map_some, Option.some.injEq] at h4'
        simp only [swuRequired, feedQty, hx, if_false, Option.map_some, Option.some.injEq] at h3'
        simp only at h5
        obtain ⟨k, k1, k2, rfl, k4, k5, k6⟩ := takeFeed_inv he hBq h5
        obtain ⟨x1, rfl, rfl, x4⟩ := Mat.extractComp_inv h6
        obtain ⟨-, rfl⟩ := Buf.push_ok.1 h7
        simp only [pure_eq_ok, Except.ok.injEq, Prod.mk.injEq] at h8
        obtain ⟨rfl, rfl, rfl⟩ := h8
        simp only [Mat.qty_scale] at x1
        exact ⟨k, hx, hf, h4'.symm, h3'.symm, k1, k2, k5, h4' ▸ k6, rfl, x4, x1, k4, rfl, rfl, rfl⟩

/-- When `enrich` succeeds. -/
theorem enrich_ok {c : Cfg} (he : 0 ≤ c.eps) {mat : NMat} {q : ℚ} {s : State} {B : NMat}
    (hB : Mat.squash s.inventory.items = B) (hne : s.inventory.items ≠ []) (hBq : 0 < qty B)
    (hf : ∀ x, s.inventory.cap = some x → s.inventory.quantity ≤ max 0 x + c.eps)
    (ht : s.tails.cap = none) (hx : assay B ≠ c.tailsAssay) (hu : uFrac B ≠ 0)
    (h0 : 0 < need c B mat q) (hlo : c.lo ≤ need c B mat q) (hq : need c B mat q ≤ qty B)
    (hext : ∀ k, 0 < k → need c B mat q ≤ k * qty B → q ≤ k * qty B ∧
      ∀ n, q / qty mat * mat.mass n ≤ k * B.mass n) :
    ∃ resp e s', enrich c mat q s = .ok (resp, e, s') := by
  unfold enrich
  rw [feedAssay_eq he hne hf, hB]
  simp only [ok_bind]
  have hm := merge_eq (s := { s with inventory := { s.inventory with items := [B] } }) he
    (by simp) (by
      intro x hx
      have := hf x hx
      simp only [Buf.quantity, totalQty_cons, totalQty_nil, add_zero] at this ⊢
      rw [← hB, Mat.qty_squash]; exact this)
  simp only [squash_singleton] at hm
  rw [hm]
  simp only [ok_bind, swuRequired, feedQty, hx, if_false, Option.map_some, finite, overFrac, hu]
  have hn : q * ((assay mat - c.tailsAssay) / (assay B - c.tailsAssay)) / uFrac B =
    need c B mat q := rfl
  rw [hn]
  obtain ⟨r, b, h5⟩ := takeFeed_ok (cap := s.inventory.cap) he h0 hlo hq
  rw [h5]
  obtain ⟨k, k1, k2, rfl, k4, k5, k6⟩ := takeFeed_inv he hBq h5
  have hk : need c B mat q ≤ k * qty B := by
    rcases k5 with k5 | ⟨rfl, -⟩
    · rw [k5]
    · rw [one_mul]; exact hq
  obtain ⟨g1, g2⟩ := hext k k1 hk
  have h6 := Mat.extractComp_ok (q := q) (c := mat) (m := B.scale k) (by simpa using g1)
    (by simpa using g2)
  simp only [ok_bind, h6]
  have h7 : s.tails.push c.eps ((B.scale k).sub (mat.scale (q / qty mat))) =
      .ok { s.tails with items := s.tails.items ++ [(B.scale k).sub (mat.scale (q / qty mat))] } := by
    rw [Buf.push_ok]; refine ⟨?_, rfl⟩
    unfold Buf.fits Buf.space; rw [ht]; rfl
  rw [h7]
  exact ⟨_, _, _, rfl⟩

end Cyc.Enrichment
