import Verif.Enrichment.Lemmas2

/-!
# The arithmetic of enrichment, and the constraints of the product bids
-/

namespace Cyc.Enrichment

open Mat (massOf)

theorem beforeSale_inv {c : Cfg} (V : Valid c) {s : State} (h : BeforeSale c s) : Inv c s := by
  obtain ⟨is, os, s0, reqs, p, s1, ts, l, x, h1, h2, h3, h4⟩ := h
  have he := le_of_lt V.eps
  have I := history_inv V h1 h2
  obtain ⟨I1, -⟩ := bids_pres he (I.swu _) h3
  exact (sellLoop_pres he (I1.intra x) h4).1

theorem mass_eq_of_assay {m : NMat} (h : m.mass u235 + m.mass u238 ≠ 0) :
    m.mass u235 = assay m * (m.mass u235 + m.mass u238) := by
  unfold assay; rw [if_neg h]; field_simp

theorem mass238_eq_of_assay {m : NMat} (h : m.mass u235 + m.mass u238 ≠ 0) :
    m.mass u238 = (1 - assay m) * (m.mass u235 + m.mass u238) := by
  have := mass_eq_of_assay h; linarith

theorem u_eq_of_frac {m : NMat} (h : uFrac m ≠ 0) :
    qty m ≠ 0 ∧ m.mass u235 + m.mass u238 = uFrac m * qty m ∧ m.mass u235 + m.mass u238 ≠ 0 := by
  unfold uFrac at h ⊢
  split at h
  · exact absurd rfl h
  · rename_i hq
    rw [if_neg hq]
    refine ⟨hq, by field_simp, ?_⟩
    intro h0; rw [h0] at h; simp at h

theorem pure_mass_zero {m : NMat} (h : Pure [m]) {n : Nat} (h5 : n ≠ u235) (h8 : n ≠ u238) :
    m.mass n = 0 := by
  apply Mat.mass_eq_zero_of_not_mem
  intro hm
  obtain ⟨e, he, rfl⟩ := List.mem_map.1 hm
  rcases h m (by simp) e he with h | h
  · exact h5 h
  · exact h8 h

theorem pure_qty {m : NMat} (h : Pure [m]) : qty m = m.mass u235 + m.mass u238 := by
  rw [Mat.qty_eq_sum m (ls := [u235, u238]) (by decide)]
  · simp
  · intro e he
    rcases h m (by simp) e he with h | h <;> simp [h]

theorem pure_uFrac {m : NMat} (h : Pure [m]) (hq : qty m ≠ 0) : uFrac m = 1 := by
  unfold uFrac; rw [if_neg hq, ← pure_qty h]; exact div_self hq

theorem pure_squash {l : List NMat} (h : Pure l) : Pure [Mat.squash l] := by
  intro m hm e he
  rw [List.mem_singleton] at hm
  subst hm
  simp only [Mat.squash, List.mem_flatMap] at he
  obtain ⟨x, hx, he⟩ := he
  exact h x hx e he

theorem pure_scale {k : ℚ} {m : NMat} (h : Pure [m]) : Pure [m.scale k] := by
  intro x hx e he
  rw [List.mem_singleton] at hx
  subst hx
  obtain ⟨e', he', h'⟩ := Mat.mem_scale he
  rw [← h']
  exact h m (by simp) e' he'

theorem u_le_qty {m : NMat} (h : Mat.Nonneg m) : m.mass u235 + m.mass u238 ≤ qty m := by
  rw [Mat.qty_def]; unfold Mat.mass
  unfold Mat.Nonneg at h
  generalize m.entries = l at h
  induction l with
  | nil => simp
  | cons e l ih =>
    have h1 := h e (by simp)
    have h2 := ih (fun x hx => h x (by simp [hx]))
    rw [List.map_cons, List.sum_cons, List.filter_cons, List.filter_cons]
    by_cases h5 : e.1 = u235
    · have h8 : ¬ e.1 = u238 := by rw [h5]; decide
      simp only [h5, h8, decide_true, decide_false, if_true, List.map_cons, List.sum_cons]
      simp only [show (u235 : Nat) ≠ u238 by decide, decide_false]
      simp only [Bool.false_eq_true, if_false]
      linarith
    · by_cases h8 : e.1 = u238
      · simp only [h8, decide_true, if_true, List.map_cons, List.sum_cons]
        simp only [show (u238 : Nat) ≠ u235 by decide, decide_false, Bool.false_eq_true, if_false]
        linarith
      · simp only [h5, h8, decide_false, Bool.false_eq_true, if_false]
        linarith

theorem frac_bounds {m : NMat} (h : Mat.Nonneg m) : 0 ≤ uFrac m ∧ uFrac m ≤ 1 := by
  have h0 := h.qty_nonneg
  have h5 := h.mass_nonneg u235
  have h8 := h.mass_nonneg u238
  unfold uFrac
  split
  · exact ⟨le_rfl, by norm_num⟩
  · rename_i hq
    have hq' : 0 < qty m := lt_of_le_of_ne h0 (Ne.symm hq)
    refine ⟨by positivity, ?_⟩
    rw [div_le_one hq']
    exact u_le_qty h

theorem assay_bounds {m : NMat} (h : Mat.Nonneg m) : 0 ≤ assay m ∧ assay m ≤ 1 := by
  have h5 := h.mass_nonneg u235
  have h8 := h.mass_nonneg u238
  unfold assay
  split
  · exact ⟨le_rfl, by norm_num⟩
  · rename_i hq
    have hq' : 0 < m.mass u235 + m.mass u238 := lt_of_le_of_ne (by linarith) (Ne.symm hq)
    refine ⟨by positivity, ?_⟩
    rw [div_le_one hq']; linarith

/-- The uranium in the feed needed for an enrichment. -/
theorem need_mul {c : Cfg} {B mat : NMat} {q : ℚ} (hf : uFrac B ≠ 0)
    (hx : assay B ≠ c.tailsAssay) :
    need c B mat q * uFrac B * (assay B - c.tailsAssay) = q * (assay mat - c.tailsAssay) := by
  have : assay B - c.tailsAssay ≠ 0 := sub_ne_zero.2 hx
  unfold need; field_simp

/-- The deviation of the tails from the tails assay. -/
theorem tails_dev {c : Cfg} {mat : NMat} {q : ℚ} {s s' : State} {B resp : NMat} {e : Enr} {k : ℚ}
    (E : Enriched c mat q s B resp e s' k) (hp : Pure [mat]) (hm : qty mat ≠ 0) :
    ((B.scale k).sub resp).mass u235 - c.tailsAssay *
      (((B.scale k).sub resp).mass u235 + ((B.scale k).sub resp).mass u238) =
      (k * qty B - e.feed) * uFrac B * (assay B - c.tailsAssay) := by
  obtain ⟨hq, hu, hu0⟩ := u_eq_of_frac E.frac
  have e5 := mass_eq_of_assay hu0
  have e8 := mass238_eq_of_assay hu0
  rw [hu] at e5 e8
  have hpq := pure_qty hp
  have hm0 : mat.mass u235 + mat.mass u238 ≠ 0 := by rw [← hpq]; exact hm
  have m5 := mass_eq_of_assay hm0
  have m8 := mass238_eq_of_assay hm0
  have n := need_mul (mat := mat) (q := q) E.frac E.feedAssay
  rw [← E.feed] at n
  rw [E.response]
  simp only [Mat.mass_sub, Mat.mass_scale]
  have r5 : q / qty mat * mat.mass u235 = q * assay mat := by
    rw [m5, ← hpq]; field_simp
  have r8 : q / qty mat * mat.mass u238 = q * (1 - assay mat) := by
    rw [m8, ← hpq]; field_simp
  rw [r5, r8, e5, e8]
  have : k * (assay B * (uFrac B * qty B)) - q * assay mat -
      c.tailsAssay * (k * (assay B * (uFrac B * qty B)) - q * assay mat +
        (k * ((1 - assay B) * (uFrac B * qty B)) - q * (1 - assay mat))) =
      k * qty B * uFrac B * (assay B - c.tailsAssay) - q * (assay mat - c.tailsAssay) := by ring
  rw [this, ← n]; ring

/-- An enrichment that needs `need` of a merged inventory is feasible when the product is richer
than the feed. -/
theorem feasible {c : Cfg} (V : Valid c) {B mat : NMat} {q : ℚ} (hB : Mat.Nonneg B)
    (hBq : 0 < qty B) (hu : uFrac B ≠ 0) (hx : c.tailsAssay < assay B) (hp : Pure [mat])
    (hm : Mat.Nonneg mat) (hmq : 0 < qty mat) (hr : assay B ≤ assay mat) (hq : 0 < q) {k : ℚ}
    (hk0 : 0 < k) (hk : need c B mat q ≤ k * qty B) :
    q ≤ k * qty B ∧ ∀ n, q / qty mat * mat.mass n ≤ k * B.mass n := by
  obtain ⟨-, hu1, hu0⟩ := u_eq_of_frac hu
  obtain ⟨f0, f1⟩ := frac_bounds hB
  obtain ⟨x0, x1⟩ := assay_bounds hB
  obtain ⟨p0, p1⟩ := assay_bounds hm
  have t0 := V.tails
  have fpos : 0 < uFrac B := lt_of_le_of_ne f0 (Ne.symm hu)
  have e5 := mass_eq_of_assay hu0
  have e8 := mass238_eq_of_assay hu0
  have hpq := pure_qty hp
  have hm0 : mat.mass u235 + mat.mass u238 ≠ 0 := by rw [← hpq]; exact ne_of_gt hmq
  have m5 := mass_eq_of_assay hm0
  have m8 := mass238_eq_of_assay hm0
  have n := need_mul (mat := mat) (q := q) hu (ne_of_gt hx)
  have hd : 0 < assay B - c.tailsAssay := by linarith
  -- the uranium in what is taken
  have hN : q * (assay mat - c.tailsAssay) ≤ k * qty B * uFrac B * (assay B - c.tailsAssay) := by
    rw [← n]
    have := mul_le_mul_of_nonneg_right hk (le_of_lt fpos)
    exact mul_le_mul_of_nonneg_right this (le_of_lt hd)
  have hqK : q ≤ k * qty B * uFrac B := by
    by_contra hlt
    push Not at hlt
    have h1 : k * qty B * uFrac B * (assay B - c.tailsAssay) < q * (assay B - c.tailsAssay) :=
      mul_lt_mul_of_pos_right hlt hd
    have h2 : q * (assay B - c.tailsAssay) ≤ q * (assay mat - c.tailsAssay) :=
      mul_le_mul_of_nonneg_left (by linarith) (le_of_lt hq)
    linarith
  have hKpos : 0 < k * qty B := mul_pos hk0 hBq
  refine ⟨by nlinarith, ?_⟩
  intro j
  by_cases h5 : j = u235
  · subst h5
    have r5 : q / qty mat * mat.mass u235 = q * assay mat := by
      rw [m5, ← hpq]; field_simp
    rw [r5, e5, hu1]
    -- q (xp - xt) ≤ K (xf - xt) and q ≤ K, 0 ≤ xt
    have : k * (assay B * (uFrac B * qty B)) = k * qty B * uFrac B * assay B := by ring
    rw [this]
    nlinarith
  · by_cases h8 : j = u238
    · subst h8
      have r8 : q / qty mat * mat.mass u238 = q * (1 - assay mat) := by
        rw [m8, ← hpq]; field_simp
      rw [r8, e8, hu1]
      have : k * ((1 - assay B) * (uFrac B * qty B)) = k * qty B * uFrac B * (1 - assay B) := by
        ring
      rw [this]
      have h1 : q * (1 - assay mat) ≤ q * (1 - assay B) :=
        mul_le_mul_of_nonneg_left (by linarith) (le_of_lt hq)
      have h2 : q * (1 - assay B) ≤ k * qty B * uFrac B * (1 - assay B) :=
        mul_le_mul_of_nonneg_right hqK (by linarith)
      linarith
    · rw [pure_mass_zero hp h5 h8]
      have := mul_nonneg (le_of_lt hk0) (hB.mass_nonneg j)
      simpa using this

/-! ## Converters -/

theorem qty_cut {t : Trade} (h : qty t.offer ≠ 0) : qty (cut t) = t.amt := by
  unfold cut; rw [Mat.qty_scale]; field_simp

theorem swuConvert_cut {c : Cfg} {B : NMat} {t : Trade} (hq : 0 < qty t.offer) (ha : 0 < t.amt)
    (hx : assay B ≠ c.tailsAssay) :
    swuConvert c.value (assay B) c.tailsAssay (cut t) = some (work c B t.offer t.amt) := by
  unfold swuConvert
  have h1 : assay (cut t) = assay t.offer := assay_scale (ne_of_gt (div_pos ha hq)) _
  rw [qty_cut (ne_of_gt hq), h1]
  simp [swuRequired, feedQty, hx, work]

theorem natuConvert_cut {c : Cfg} {B : NMat} {t : Trade} (hq : 0 < qty t.offer) (ha : 0 < t.amt)
    (hp : Pure [t.offer]) (hx : assay B ≠ c.tailsAssay) (hB : Pure [B]) (hBq : qty B ≠ 0) :
    natuConvert (assay B) c.tailsAssay (cut t) = some (need c B t.offer t.amt) := by
  unfold natuConvert
  have h1 : assay (cut t) = assay t.offer := assay_scale (ne_of_gt (div_pos ha hq)) _
  have h2 : uFrac (cut t) = 1 := pure_uFrac (pure_scale hp) (by
    rw [qty_cut (ne_of_gt hq)]; exact ne_of_gt ha)
  rw [qty_cut (ne_of_gt hq), h1, h2]
  simp [overFrac, feedQty, hx, need, pure_uFrac hB hBq]

/-- The inventory during the sales of a step: what is left of the merged material. -/
def Blend (B : NMat) (l : List NMat) : Prop := l = [] ∨ ∃ k, 0 < k ∧ l = [B.scale k]

theorem work_scale {c : Cfg} {B mat : NMat} {q k : ℚ} (hk : k ≠ 0) :
    work c (B.scale k) mat q = work c B mat q := by
  unfold work; rw [assay_scale hk]

theorem need_scale {c : Cfg} {B mat : NMat} {q k : ℚ} (hk : k ≠ 0) :
    need c (B.scale k) mat q = need c B mat q := by
  unfold need; rw [assay_scale hk, uFrac_scale hk]

theorem blend_step {c : Cfg} (he : 0 ≤ c.eps) {t : Trade} {s s' : State} {m B : NMat}
    {e : Option Enr} (I : Inv c s) (hb : Blend B s.inventory.items)
    (h : sellOne c t s = .ok (m, e, s')) :
    Blend B s'.inventory.items ∧
    (t.commod ≠ c.tailsCommod → assay B ≠ c.tailsAssay ∧
      ∃ x, e = some x ∧ x.swu = work c B t.offer t.amt ∧ x.feed = need c B t.offer t.amt) ∧
    (t.commod = c.tailsCommod → e = none) := by
  rcases sellOne_inv he I h with ⟨h1, rfl, b, -, rfl⟩ | ⟨h1, hne, x, k, rfl, E⟩
  · exact ⟨hb, fun h => absurd h1 h, fun _ => rfl⟩
  · rcases hb with hb | ⟨k', hk', hb⟩
    · exact absurd hb hne
    · rw [hb, squash_singleton] at E
      have hk0 := ne_of_gt hk'
      refine ⟨?_, fun _ => ⟨?_, x, rfl, ?_, ?_⟩, fun h => absurd h h1⟩
      · rcases E.inv with ⟨-, h'⟩ | ⟨hk, h'⟩
        · left; rw [h']
        · right
          refine ⟨(1 - k) * k', mul_pos (by linarith) hk', ?_⟩
          rw [h']; simp
      · have := E.feedAssay; rwa [assay_scale hk0] at this
      · rw [E.swu, work_scale hk0]
      · rw [E.feed, need_scale hk0]

/-- The separative work of the sales of a step is what the converter of the bids says. -/
theorem blend_swu {c : Cfg} (he : 0 ≤ c.eps) {ts : List Trade} {s s' : State} {B : NMat}
    {l : List (NMat × Option Enr)} (I : Inv c s) (hb : Blend B s.inventory.items)
    (ha : ∀ t ∈ ts, 0 < t.amt ∧ t.amt ≤ qty t.offer)
    (h : sellLoop c ts s = .ok (l, s')) {vs : List ℚ}
    (hv : ((productTrades c ts).map fun t => swuConvert c.value (assay B) c.tailsAssay (cut t)) =
      vs.map some) : swuSum l = vs.sum := by
  induction ts generalizing s l vs with
  | nil =>
    simp only [sellLoop, Except.ok.injEq, Prod.mk.injEq] at h
    obtain ⟨rfl, rfl⟩ := h
    simp only [productTrades, List.filter_nil, List.map_nil] at hv
    have : vs = [] := by simpa using hv.symm
    subst this; simp [swuSum]
  | cons t ts ih =>
    simp only [sellLoop, bind_ok] at h
    obtain ⟨⟨m, e, s1⟩, h1, ⟨l1, s2⟩, h2, h3⟩ := h
    simp only [pure_eq_ok, Except.ok.injEq, Prod.mk.injEq] at h3
    obtain ⟨rfl, rfl⟩ := h3
    obtain ⟨b1, b2, b3⟩ := blend_step he I hb h1
    have I1 := (sellOne_pres he I h1).1
    rw [swuSum_cons]
    by_cases hc : t.commod = c.tailsCommod
    · have : productTrades c (t :: ts) = productTrades c ts := by
        simp [productTrades, hc]
      rw [this] at hv
      rw [b3 hc, ih I1 b1 (fun x hx => ha x (by simp [hx])) h2 hv]; simp
    · have : productTrades c (t :: ts) = t :: productTrades c ts := by
        simp [productTrades, hc]
      rw [this, List.map_cons] at hv
      cases vs with
      | nil => simp at hv
      | cons v vs =>
        simp only [List.map_cons, List.cons.injEq] at hv
        obtain ⟨hx, x, rfl, hw, -⟩ := b2 hc
        have hA := ha t (by simp)
        rw [swuConvert_cut (by linarith [hA.1, hA.2]) hA.1 hx] at hv
        rw [ih I1 b1 (fun x hx => ha x (by simp [hx])) h2 hv.2, List.sum_cons]
        have := hv.1
        simp only [Option.some.injEq] at this
        simp [hw, this]

end Cyc.Enrichment
