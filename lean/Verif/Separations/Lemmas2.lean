import Verif.Separations.Lemmas

/-!
# What one `Tick` does, exactly
-/

namespace Cyc.Separations

open Mat (massOf)

/-! ## Quantities are determined by masses -/

theorem qty_congr {a b : NMat} (h : ∀ n, a.mass n = b.mass n) : qty a = qty b := by
  have h1 := Mat.qty_sub a b
  have h2 : qty (a.sub b) = 0 := by
    rw [Mat.qty_def]
    apply List.sum_eq_zero
    intro x hx
    simp only [Mat.sub, List.map_map, List.mem_map, Function.comp] at hx
    obtain ⟨n, -, rfl⟩ := hx
    rw [h n]; ring
  linarith

theorem yield_squash (effs : List (Nat × ℚ)) (l : List NMat) :
    yield effs [Mat.squash l] = yield effs l := by
  simp [yield, Mat.squash]

theorem yield_congr {effs : List (Nat × ℚ)} {l l' : List NMat}
    (h : ∀ n, massOf l n = massOf l' n) : yield effs l = yield effs l' := by
  rw [← yield_squash, ← yield_squash effs l', ← qty_sepMaterial, ← qty_sepMaterial]
  apply qty_congr
  intro n
  rw [mass_sepMaterial, mass_sepMaterial, Mat.mass_squash, Mat.mass_squash, h n]

theorem yieldAll_congr {st : List (String × Stream)} {l l' : List NMat}
    (h : ∀ n, massOf l n = massOf l' n) : yieldAll st l = yieldAll st l' := by
  unfold yieldAll
  congr 1
  apply List.map_congr_left
  intro s _
  exact yield_congr h

theorem yieldAll_cons (s : String × Stream) (l : List (String × Stream)) (p : List NMat) :
    yieldAll (s :: l) p = yield s.2.effs p + yieldAll l p := by simp [yieldAll]

theorem share_cons (s : String × Stream) (l : List (String × Stream)) (n : Nat) :
    share (s :: l) n = fraction s.2.effs n + share l n := by simp [share]

theorem yieldAll_eq (l : List (String × Stream)) (p : List NMat) :
    yieldAll l p = ((p.flatMap Mat.entries).map fun e => share l e.1 * e.2).sum := by
  induction l with
  | nil => simp [yieldAll, share]
  | cons s l ih =>
    rw [yieldAll_cons, ih]
    unfold yield
    induction p.flatMap Mat.entries with
    | nil => simp
    | cons e es ih2 =>
      simp only [List.map_cons, List.sum_cons, share_cons] at ih2 ⊢
      linarith

theorem yield_nonneg {effs : List (Nat × ℚ)} {p : List NMat} (h : ∀ e ∈ effs, 0 ≤ e.2)
    (hp : AllNonneg p) : 0 ≤ yield effs p := by
  apply List.sum_nonneg
  intro x hx
  obtain ⟨e, he, rfl⟩ := List.mem_map.1 hx
  obtain ⟨m, hm, he⟩ := List.mem_flatMap.1 he
  exact mul_nonneg (fraction_nonneg h _) (hp m hm e he)

theorem yieldAll_nonneg {l : List (String × Stream)} {p : List NMat}
    (h : ∀ s ∈ l, ∀ e ∈ s.2.effs, 0 ≤ e.2) (hp : AllNonneg p) : 0 ≤ yieldAll l p := by
  apply List.sum_nonneg
  intro x hx
  obtain ⟨s, hs, rfl⟩ := List.mem_map.1 hx
  exact yield_nonneg (h s hs) hp

theorem share_nonneg {l : List (String × Stream)} (h : ∀ s ∈ l, ∀ e ∈ s.2.effs, 0 ≤ e.2) (n : Nat) :
    0 ≤ share l n := by
  apply List.sum_nonneg
  intro x hx
  obtain ⟨s, hs, rfl⟩ := List.mem_map.1 hx
  exact fraction_nonneg (h s hs) n

theorem yieldAll_le {l : List (String × Stream)} {p : List NMat} (h : ∀ n, share l n ≤ 1)
    (hp : AllNonneg p) : yieldAll l p ≤ totalQty p := by
  rw [yieldAll_eq]
  have : totalQty p = ((p.flatMap Mat.entries).map Prod.snd).sum := by
    rw [← Mat.qty_squash, Mat.qty_def]; rfl
  rw [this]
  have hn : ∀ e ∈ p.flatMap Mat.entries, 0 ≤ e.2 := by
    intro e he
    obtain ⟨m, hm, he⟩ := List.mem_flatMap.1 he
    exact hp m hm e he
  revert hn
  induction p.flatMap Mat.entries with
  | nil => simp
  | cons e es ih =>
    intro hn
    have h1 := hn e (by simp)
    have h2 := ih (fun x hx => hn x (by simp [hx]))
    simp only [List.map_cons, List.sum_cons]
    have : share l e.1 * e.2 ≤ 1 * e.2 := mul_le_mul_of_nonneg_right (h e.1) h1
    linarith

/-! ## Staging -/

/-- The staged material of a stream. -/
def staged (mat : NMat) (s : String × Stream) : String × NMat := (s.1, sepMaterial s.2.effs mat)

theorem getBuf_set_self (bufs : List (String × Buf NMat)) (k : String) (b : Buf NMat) :
    getBuf (Map.set bufs k b) k = b := by simp [getBuf]

theorem getBuf_set_ne {bufs : List (String × Buf NMat)} {k k' : String} (h : k ≠ k')
    (b : Buf NMat) : getBuf (Map.set bufs k b) k' = getBuf bufs k' := by
  simp [getBuf, Map.getD_set_ne h]

theorem getBuf_set_get (bufs : List (String × Buf NMat)) (k k' : String) :
    getBuf (Map.set bufs k (getBuf bufs k)) k' = getBuf bufs k' := by
  by_cases h : k = k'
  · subst h; rw [getBuf_set_self]
  · rw [getBuf_set_ne h]

theorem stage_staged (mat : NMat) (l : List (String × Stream)) (bufs : List (String × Buf NMat))
    (f : ℚ) : (stage mat l bufs f).1 = l.map (staged mat) := by
  induction l generalizing bufs f with
  | nil => rfl
  | cons s l ih => simp [stage, ih, staged]

theorem stage_getBuf (mat : NMat) (l : List (String × Stream)) (bufs : List (String × Buf NMat))
    (f : ℚ) (k : String) : getBuf (stage mat l bufs f).2.1 k = getBuf bufs k := by
  induction l generalizing bufs f with
  | nil => rfl
  | cons s l ih => simp only [stage]; rw [ih, getBuf_set_get]

theorem stage_keys (mat : NMat) (l : List (String × Stream)) (bufs : List (String × Buf NMat))
    (f : ℚ) {k : String} : k ∈ Map.keys (stage mat l bufs f).2.1 ↔
      k ∈ l.map Prod.fst ∨ k ∈ Map.keys bufs := by
  induction l generalizing bufs f with
  | nil => simp [stage]
  | cons s l ih =>
    simp only [stage]
    rw [ih, Map.mem_keys_set, List.map_cons, List.mem_cons]; tauto

theorem stage_nodup (mat : NMat) (l : List (String × Stream)) {bufs : List (String × Buf NMat)}
    (f : ℚ) (h : (Map.keys bufs).Nodup) : (Map.keys (stage mat l bufs f).2.1).Nodup := by
  induction l generalizing bufs f with
  | nil => exact h
  | cons s l ih => simp only [stage]; exact ih _ (Map.nodup_set h _ _)

theorem limitFrac_le (sp : Option ℚ) (q f : ℚ) : limitFrac sp q f ≤ f := by
  unfold limitFrac
  split
  · exact le_rfl
  · split
    · exact le_rfl
    · split
      · rename_i h; exact le_of_lt h
      · exact le_rfl

theorem limitFrac_bound {sp q f : ℚ} (h : q ≠ 0) : limitFrac (some sp) q f ≤ sp / q := by
  simp only [limitFrac, h, if_false]
  split
  · exact le_rfl
  · rename_i h'; exact not_lt.1 h'

theorem limitFrac_attained (sp : Option ℚ) (q f : ℚ) :
    limitFrac sp q f = f ∨ ∃ x, sp = some x ∧ q ≠ 0 ∧ limitFrac sp q f = x / q := by
  unfold limitFrac
  cases sp with
  | none => simp
  | some x =>
    by_cases hq : q = 0
    · simp [hq]
    · simp only [hq, if_false]
      split
      · right; exact ⟨x, rfl, by simpa using hq, rfl⟩
      · left; rfl

theorem stage_bound (mat : NMat) (l : List (String × Stream)) (bufs : List (String × Buf NMat))
    (f : ℚ) : ∀ s ∈ l, ∀ sp, (getBuf bufs s.1).space = some sp →
      qty (sepMaterial s.2.effs mat) ≠ 0 →
      (stage mat l bufs f).2.2 ≤ sp / qty (sepMaterial s.2.effs mat) := by
  induction l generalizing bufs f with
  | nil => simp
  | cons s l ih =>
    intro x hx sp hsp hq
    simp only [stage]
    rcases List.mem_cons.1 hx with rfl | hx
    · refine (stage_le _ _ _ _).trans ?_
      rw [hsp]
      exact limitFrac_bound hq
    · exact ih _ _ x hx sp (by rw [getBuf_set_get]; exact hsp) hq

theorem stage_attained (mat : NMat) (l : List (String × Stream)) (bufs : List (String × Buf NMat))
    (f : ℚ) : (stage mat l bufs f).2.2 = f ∨ ∃ s ∈ l, ∃ sp, (getBuf bufs s.1).space = some sp ∧
      qty (sepMaterial s.2.effs mat) ≠ 0 ∧
      (stage mat l bufs f).2.2 = sp / qty (sepMaterial s.2.effs mat) := by
  induction l generalizing bufs f with
  | nil => left; rfl
  | cons s l ih =>
    simp only [stage]
    rcases ih (Map.set bufs s.1 (getBuf bufs s.1))
      (limitFrac (getBuf bufs s.1).space (qty (sepMaterial s.2.effs mat)) f) with h | h
    · rw [h]
      rcases limitFrac_attained (getBuf bufs s.1).space (qty (sepMaterial s.2.effs mat)) f with h | h
      · left; exact h
      · obtain ⟨x, h1, h2, h3⟩ := h
        right; exact ⟨s, by simp, x, h1, h2, h3⟩
    · obtain ⟨x, hx, sp, h1, h2, h3⟩ := h
      right
      exact ⟨x, by simp [hx], sp, by rw [getBuf_set_get] at h1; exact h1, h2, h3⟩

/-! ## The separation loop -/

/-- The items a stream receives. -/
def gain (f : ℚ) (mat : NMat) (s : Stream) : List NMat :=
  if 0 < yield s.effs [mat] then [Mat.scale f (sepMaterial s.effs mat)] else []

theorem gain_qty {f : ℚ} {mat : NMat} {s : Stream} (h : 0 ≤ yield s.effs [mat]) :
    totalQty (gain f mat s) = f * yield s.effs [mat] := by
  unfold gain; split
  · simp [qty_sepMaterial]
  · rename_i h'
    have : yield s.effs [mat] = 0 := le_antisymm (not_lt.1 h') h
    simp [this]

theorem gain_mass {f : ℚ} {mat : NMat} {s : Stream} (he : ∀ e ∈ s.effs, 0 ≤ e.2)
    (hm : Mat.Nonneg mat) (n : Nat) :
    massOf (gain f mat s) n = f * fraction s.effs n * mat.mass n := by
  unfold gain; split
  · simp [mass_sepMaterial]; ring
  · rename_i h'
    have h0 : qty (sepMaterial s.effs mat) = 0 := by
      rw [qty_sepMaterial]
      exact le_antisymm (not_lt.1 h') (yield_nonneg he (by simpa [AllNonneg] using hm))
    have := Mat.mass_eq_zero (nonneg_sepMaterial he hm) h0 n
    rw [mass_sepMaterial] at this
    rw [Mat.massOf_nil, mul_assoc, this]; ring

theorem gain_nonneg {f : ℚ} {mat : NMat} {s : Stream} (hf : 0 ≤ f) (he : ∀ e ∈ s.effs, 0 ≤ e.2)
    (hm : Mat.Nonneg mat) : AllNonneg (gain f mat s) := by
  unfold gain; split
  · simpa [AllNonneg] using (nonneg_sepMaterial he hm).scale hf
  · exact AllNonneg.nil

theorem push_fits {ε : ℚ} {b : Buf NMat} {r : NMat} (hε : 0 ≤ ε)
    (h : ∀ sp, b.space = some sp → qty r ≤ sp) :
    b.push ε r = .ok { b with items := b.items ++ [r] } := by
  rw [Buf.push_ok]
  refine ⟨?_, rfl⟩
  unfold Buf.fits
  cases hs : b.space with
  | none => rfl
  | some sp => have := h sp hs; simp; linarith

theorem sepLoop_ok {eps f : ℚ} {mat : NMat} (hε : 0 ≤ eps) (hf0 : 0 ≤ f) (hf1 : f ≤ 1)
    (hm : Mat.Nonneg mat) (l : List (String × Stream)) (D : Nat → ℚ) (A : ℚ) (rest : NMat)
    (bufs : List (String × Buf NMat)) (hn : (l.map Prod.fst).Nodup)
    (heff : ∀ s ∈ l, ∀ e ∈ s.2.effs, 0 ≤ e.2) (hsh : ∀ n, D n + share l n ≤ 1)
    (hA0 : 0 ≤ A) (hA : A + yieldAll l [mat] ≤ qty mat)
    (hr : ∀ n, rest.mass n = (1 - f * D n) * mat.mass n) (hq : qty rest = qty mat - f * A)
    (hroom : ∀ s ∈ l, ∀ sp, (getBuf bufs s.1).space = some sp → f * yield s.2.effs [mat] ≤ sp)
    (hnd : (Map.keys bufs).Nodup) :
    ∃ recs rest' bufs', sepLoop eps f (l.map (staged mat)) rest bufs = .ok (recs, rest', bufs') ∧
      (∀ n, rest'.mass n = (1 - f * (D n + share l n)) * mat.mass n) ∧
      qty rest' = qty mat - f * (A + yieldAll l [mat]) ∧
      (∀ s ∈ l, getBuf bufs' s.1 =
        { getBuf bufs s.1 with items := (getBuf bufs s.1).items ++ gain f mat s.2 }) ∧
      (∀ k, k ∉ l.map Prod.fst → getBuf bufs' k = getBuf bufs k) ∧
      recs = l.map (fun s => (⟨s.1, if 0 < yield s.2.effs [mat] then
        some (f * yield s.2.effs [mat]) else none, (getBuf bufs' s.1).quantity⟩ : SepRec)) ∧
      (Map.keys bufs').Nodup ∧
      (∀ k ∈ Map.keys bufs', k ∈ Map.keys bufs ∨ k ∈ l.map Prod.fst) := by
  induction l generalizing D A rest bufs with
  | nil =>
    refine ⟨[], rest, bufs, rfl, ?_, ?_, by simp, by simp, rfl, hnd, by simp⟩
    · intro n; rw [hr n]; simp [share]
    · rw [hq]; simp [yieldAll]
  | cons s l ih =>
    simp only [List.map_cons, List.nodup_cons] at hn
    have he := heff s (by simp)
    have hm' : AllNonneg [mat] := by simpa [AllNonneg] using hm
    have hy := yield_nonneg he hm'
    have hyl := yieldAll_nonneg (fun x hx => heff x (by simp [hx])) hm' (l := l)
    rw [yieldAll_cons] at hA
    -- one pass
    have key : ∃ r m1 b1, sepOne eps f (staged mat s) rest bufs = .ok (r, m1, b1) ∧
        (∀ n, m1.mass n = (1 - f * (D n + fraction s.2.effs n)) * mat.mass n) ∧
        qty m1 = qty mat - f * (A + yield s.2.effs [mat]) ∧
        getBuf b1 s.1 = { getBuf bufs s.1 with
          items := (getBuf bufs s.1).items ++ gain f mat s.2 } ∧
        (∀ k, k ≠ s.1 → getBuf b1 k = getBuf bufs k) ∧
        r = ⟨s.1, if 0 < yield s.2.effs [mat] then
          some (f * yield s.2.effs [mat]) else none, (getBuf b1 s.1).quantity⟩ ∧
        (Map.keys b1).Nodup ∧ (∀ k ∈ Map.keys b1, k ∈ Map.keys bufs ∨ k = s.1) := by
      have hfA : f * A ≤ A := by nlinarith
      by_cases hpos : 0 < yield s.2.effs [mat]
      · have hqr : yield s.2.effs [mat] ≤ qty rest := by rw [hq]; linarith
        have hc : ¬ yield s.2.effs [mat] > qty rest := not_lt.2 hqr
        have hdiv : yield s.2.effs [mat] * f / qty (sepMaterial s.2.effs mat) = f := by
          rw [qty_sepMaterial]; field_simp
        have hx := Mat.extractComp_ok (q := yield s.2.effs [mat] * f)
          (c := sepMaterial s.2.effs mat) (m := rest) (by nlinarith) (by
            intro n
            rw [hdiv, mass_sepMaterial, hr n]
            have h1 := hsh n
            rw [share_cons] at h1
            have h2 := share_nonneg (fun x hx => heff x (by simp [hx])) n (l := l)
            have h3 := hm.mass_nonneg n
            have h4 : f * (D n + fraction s.2.effs n) ≤ 1 := by nlinarith
            nlinarith)
        rw [hdiv] at hx
        have hp := push_fits (b := getBuf bufs s.1)
          (r := Mat.scale f (sepMaterial s.2.effs mat)) hε (by
            intro sp hsp
            rw [Mat.qty_scale, qty_sepMaterial]
            exact hroom s (by simp) sp hsp)
        refine ⟨⟨s.1, some (yield s.2.effs [mat] * f), Buf.quantity { getBuf bufs s.1 with
            items := (getBuf bufs s.1).items ++ [Mat.scale f (sepMaterial s.2.effs mat)] }⟩,
          rest.sub (Mat.scale f (sepMaterial s.2.effs mat)),
          Map.set bufs s.1 { getBuf bufs s.1 with
            items := (getBuf bufs s.1).items ++ [Mat.scale f (sepMaterial s.2.effs mat)] },
          ?_, ?_, ?_, ?_, ?_, ?_, ?_, ?_⟩
        · unfold sepOne
          simp only [staged, qty_sepMaterial, gt_iff_lt, hpos, if_true]
          rw [if_neg hc, hx]
          simp only [ok_bind]
          rw [hp]
          rfl
        · intro n
          rw [Mat.mass_sub, hr n, Mat.mass_scale, mass_sepMaterial]; ring
        · rw [Mat.qty_sub, hq, Mat.qty_scale, qty_sepMaterial]; ring
        · rw [getBuf_set_self]; simp [gain, hpos]
        · intro k hk; rw [getBuf_set_ne (Ne.symm hk)]
        · rw [getBuf_set_self, if_pos hpos, mul_comm]
        · exact Map.nodup_set hnd _ _
        · intro k hk
          rcases Map.mem_keys_set.1 hk with h | h
          · right; exact h
          · left; exact h
      · have h0 : yield s.2.effs [mat] = 0 := le_antisymm (not_lt.1 hpos) hy
        refine ⟨⟨s.1, none, (getBuf bufs s.1).quantity⟩, rest, bufs,
          ?_, ?_, ?_, ?_, ?_, ?_, ?_, ?_⟩
        · unfold sepOne
          simp only [staged, qty_sepMaterial, gt_iff_lt, hpos, if_false]
        · intro n
          have hz : fraction s.2.effs n * mat.mass n = 0 := by
            rw [← mass_sepMaterial]
            exact Mat.mass_eq_zero (nonneg_sepMaterial he hm) (by rw [qty_sepMaterial, h0]) n
          rw [hr n, show (1 - f * (D n + fraction s.2.effs n)) * mat.mass n =
            (1 - f * D n) * mat.mass n - f * (fraction s.2.effs n * mat.mass n) by ring, hz]
          ring
        · rw [hq, h0]; ring
        · simp [gain, hpos]
        · intro k _; rfl
        · rw [if_neg hpos]
        · exact hnd
        · intro k hk; left; exact hk
    obtain ⟨r, m1, b1, e1, e2, e3, e4, e5, e6, e7, e8⟩ := key
    obtain ⟨recs, rest', bufs', g1, g2, g3, g4, g5, g6, g7, g8⟩ :=
      ih (fun n => D n + fraction s.2.effs n) (A + yield s.2.effs [mat]) m1 b1 hn.2
        (fun x hx => heff x (by simp [hx]))
        (fun n => by have := hsh n; rw [share_cons] at this; linarith)
        (by linarith) (by linarith) e2 e3
        (fun x hx sp hsp => by
          have hne : x.1 ≠ s.1 := by
            intro h; exact hn.1 (h ▸ List.mem_map.2 ⟨x, hx, rfl⟩)
          rw [e5 _ hne] at hsp
          exact hroom x (by simp [hx]) sp hsp) e7
    refine ⟨r :: recs, rest', bufs', ?_, ?_, ?_, ?_, ?_, ?_, g7, ?_⟩
    · simp only [List.map_cons, sepLoop, e1, ok_bind, g1, pure_eq_ok]
    · intro n; rw [g2 n, share_cons]; ring
    · rw [g3, yieldAll_cons]; ring
    · intro x hx
      rcases List.mem_cons.1 hx with rfl | hx
      · rw [g5 _ hn.1, e4]
      · have hne : x.1 ≠ s.1 := by
          intro h; exact hn.1 (h ▸ List.mem_map.2 ⟨x, hx, rfl⟩)
        rw [g4 x hx, e5 _ hne]
    · intro k hk
      simp only [List.map_cons, List.mem_cons, not_or] at hk
      rw [g5 k hk.2, e5 k hk.1]
    · rw [List.map_cons, g6, e6, g5 _ hn.1]
    · intro k hk
      rw [List.map_cons, List.mem_cons]
      rcases g8 k hk with h | h
      · rcases e8 k h with h | h
        · left; exact h
        · right; left; exact h
      · right; right; exact h

end Cyc.Separations
