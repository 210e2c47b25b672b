import Mathlib.Tactic.FieldSimp
import Mathlib.Algebra.Order.BigOperators.Group.List
import Verif.FuelFab.Spec

/-!
# Lemmas about weights and mixing fractions
-/

namespace Cyc.FuelFab

open Mat (massOf)

/-! ## Sums over entries -/

/-- The atoms of a material, each counted with a factor. -/
def atomSum (c : Cfg) (r : Nat → ℚ) (m : NMat) : ℚ :=
  (m.entries.map fun e => e.2 / c.atomMass e.1 * r e.1).sum

theorem atoms_eq (c : Cfg) (m : NMat) : atoms c m = atomSum c (fun _ => 1) m := by
  simp [atoms, atomSum]

theorem atomSum_scale (c : Cfg) (r : Nat → ℚ) (k : ℚ) (m : NMat) :
    atomSum c r (m.scale k) = k * atomSum c r m := by
  simp only [atomSum, Mat.scale, List.map_map]
  induction m.entries with
  | nil => simp
  | cons e l ih => simp only [List.map_cons, List.sum_cons, ih, Function.comp]; ring

theorem atomSum_absorb (c : Cfg) (r : Nat → ℚ) (a b : NMat) :
    atomSum c r (a.absorb b) = atomSum c r a + atomSum c r b := by
  simp [atomSum, Mat.absorb]

@[simp] theorem atoms_scale (c : Cfg) (k : ℚ) (m : NMat) :
    atoms c (m.scale k) = k * atoms c m := by rw [atoms_eq, atomSum_scale, atoms_eq]

@[simp] theorem atoms_absorb (c : Cfg) (a b : NMat) :
    atoms c (a.absorb b) = atoms c a + atoms c b := by
  simp only [atoms_eq, atomSum_absorb]

theorem atoms_nonneg {c : Cfg} (V : Valid c) {m : NMat} (h : Mat.Nonneg m) : 0 ≤ atoms c m := by
  unfold atoms
  apply List.sum_nonneg
  simp only [List.mem_map]
  rintro _ ⟨e, he, rfl⟩
  exact div_nonneg (h e he) (le_of_lt (V.atom e.1))

theorem atoms_pos {c : Cfg} (V : Valid c) {m : NMat} (h : Solid m) : 0 < atoms c m := by
  obtain ⟨hq, hn⟩ := h
  have key : ∀ l : List (Nat × ℚ), (∀ e ∈ l, 0 ≤ e.2) → 0 < (l.map Prod.snd).sum →
      0 < (l.map fun e => e.2 / c.atomMass e.1).sum := by
    intro l
    induction l with
    | nil => intro _ h; simp at h
    | cons e l ih =>
      intro hl h
      simp only [List.map_cons, List.sum_cons] at h ⊢
      have he := hl e (by simp)
      have hl' : ∀ x ∈ l, 0 ≤ x.2 := fun x hx => hl x (by simp [hx])
      have h0 : 0 ≤ (l.map fun e => e.2 / c.atomMass e.1).sum := by
        apply List.sum_nonneg
        simp only [List.mem_map]
        rintro _ ⟨x, hx, rfl⟩
        exact div_nonneg (hl' x hx) (le_of_lt (V.atom x.1))
      have hd : 0 ≤ e.2 / c.atomMass e.1 := div_nonneg he (le_of_lt (V.atom e.1))
      rcases lt_or_eq_of_le he with h1 | h1
      · have := div_pos h1 (V.atom e.1)
        linarith
      · rw [← h1, zero_add] at h
        have := ih hl' h
        linarith
  exact key m.entries hn hq

theorem Solid.scale {m : NMat} (h : Solid m) {k : ℚ} (hk : 0 < k) : Solid (m.scale k) :=
  ⟨by rw [Mat.qty_scale]; exact mul_pos hk h.1, h.2.scale (le_of_lt hk)⟩

/-! ## `CosiWeight` -/

theorem atomMap_sum (c : Cfg) (m : NMat) :
    ((atomMap c.atomMass m).map Prod.snd).sum = atoms c m := by
  simp [atomMap, atoms, Function.comp_def]

theorem nu_eq (c : Cfg) (n : Nat) : nu c.spectrum n = yield c n := by
  unfold nu yield yields
  simp only [List.find?, decide_eq_true_eq]
  by_cases h1 : n = 922330000
  · subst h1; norm_num
  by_cases h2 : n = 922350000
  · subst h2; norm_num
  by_cases h3 : n = 942390000
  · subst h3; norm_num
  by_cases h4 : n = 942410000
  · subst h4; norm_num
  simp [h1, h2, h3, h4, Ne.symm h1, Ne.symm h2, Ne.symm h3, Ne.symm h4]

theorem worth_eq (c : Cfg) (n : Nat) :
    worth c.spectrum (xsOf (c.xs c.spectrum) n) n = surplus c n := by
  unfold worth xsOf surplus
  rw [nu_eq]
  cases c.xs c.spectrum n <;> simp

theorem refs_eq {c : Cfg} (V : Valid c) :
    refs (c.xs c.spectrum) c.spectrum = .ok (surplus c 922380000, surplus c 942390000) := by
  obtain ⟨x, hx⟩ := V.u238
  obtain ⟨y, hy⟩ := V.pu239
  simp only [refs, xs!, hx, hy, ok_bind, pure_eq_ok, surplus, yield, yields, List.find?]
  norm_num

/-- The value `CosiWeight` computes. -/
def wt (c : Cfg) (m : NMat) : ℚ :=
  if atoms c m = 0 then atomSum c (nuclideWeight c) m else weight c m

theorem cosi_sum {c : Cfg} (m : NMat) :
    ((normalize (atomMap c.atomMass m) 1).map fun e =>
      e.2 * (worth c.spectrum (xsOf (c.xs c.spectrum) e.1) e.1 - surplus c 922380000) /
        (surplus c 942390000 - surplus c 922380000)).sum = wt c m := by
  have h : ∀ e : Nat × ℚ, e.2 * (worth c.spectrum (xsOf (c.xs c.spectrum) e.1) e.1 -
      surplus c 922380000) / (surplus c 942390000 - surplus c 922380000) =
      e.2 * nuclideWeight c e.1 := by
    intro e; rw [worth_eq, nuclideWeight, mul_div_assoc]
  simp only [h]
  unfold normalize wt
  rw [atomMap_sum]
  split
  · simp [atomMap, atomSum, Function.comp_def]
  · unfold weight
    simp only [atomMap, List.map_map, Function.comp_def]
    generalize atoms c m = N
    induction m.entries with
    | nil => simp
    | cons e l ih => simp only [List.map_cons, List.sum_cons, ih]; ring

theorem cosi_eq {c : Cfg} (V : Valid c) (m : NMat) : cosi c m = .ok (wt c m) := by
  have h : surplus c 942390000 - surplus c 922380000 ≠ 0 := sub_ne_zero.2 V.scale
  rw [← cosi_sum]
  simp only [cosi, refs_eq V, ok_bind, h, if_false, pure_eq_ok]

theorem wt_eq {c : Cfg} {m : NMat} (h : atoms c m ≠ 0) : wt c m = weight c m := by
  rw [wt, if_neg h]

theorem weight_mul {c : Cfg} {m : NMat} (h : atoms c m ≠ 0) :
    weight c m * atoms c m = atomSum c (nuclideWeight c) m := by
  unfold weight atomSum
  rw [div_mul_cancel₀ _ h]

theorem weight_scale {c : Cfg} {m : NMat} {k : ℚ} (hk : k ≠ 0) :
    weight c (m.scale k) = weight c m := by
  have h1 := atomSum_scale c (nuclideWeight c) k m
  unfold atomSum at h1
  unfold weight
  rw [h1, atoms_scale, mul_div_mul_left _ _ hk]

theorem wt_scale {c : Cfg} {m : NMat} {k : ℚ} (hk : k ≠ 0) (h : atoms c m ≠ 0) :
    wt c (m.scale k) = wt c m := by
  rw [wt_eq h, wt_eq (by rw [atoms_scale]; exact mul_ne_zero hk h), weight_scale hk]

theorem weight_absorb {c : Cfg} {a b : NMat} (ha : atoms c a ≠ 0) (hb : atoms c b ≠ 0) :
    weight c (a.absorb b) =
      (atoms c a * weight c a + atoms c b * weight c b) / (atoms c a + atoms c b) := by
  have h1 : weight c (a.absorb b) =
      atomSum c (nuclideWeight c) (a.absorb b) / atoms c (a.absorb b) := rfl
  rw [h1, atomSum_absorb, ← weight_mul ha, ← weight_mul hb, atoms_absorb]
  ring_nf

/-! ## Statics -/

/-- The static variables hold nothing but what a new computation would give. -/
structure StaticsOk (c : Cfg) (k : Statics) : Prop where
  refs : k.refs.1 ≠ 0 → k.refs = (surplus c 922380000, surplus c 942390000)
  known : ∀ n x, Map.get? k.known n = some x → c.xs c.spectrum n = some x

theorem cosiLoop_eq {c : Cfg} (r : ℚ × ℚ) (l : List (Nat × ℚ)) (known : List (Nat × (ℚ × ℚ)))
    (hk : ∀ n x, Map.get? known n = some x → c.xs c.spectrum n = some x) :
    (cosiLoop (c.xs c.spectrum) c.spectrum r l known).1 = (l.map fun e =>
      e.2 * (worth c.spectrum (xsOf (c.xs c.spectrum) e.1) e.1 - r.1) / (r.2 - r.1)).sum ∧
    ∀ n x, Map.get? (cosiLoop (c.xs c.spectrum) c.spectrum r l known).2 n = some x →
      c.xs c.spectrum n = some x := by
  induction l generalizing known with
  | nil => exact ⟨rfl, hk⟩
  | cons e l ih =>
    have h1 : (lookup (c.xs c.spectrum) known e.1).1 = xsOf (c.xs c.spectrum) e.1 := by
      unfold lookup xsOf
      cases hg : Map.get? known e.1 with
      | some x => simp [hk _ _ hg]
      | none => cases c.xs c.spectrum e.1 <;> rfl
    have h2 : ∀ n x, Map.get? (lookup (c.xs c.spectrum) known e.1).2 n = some x →
        c.xs c.spectrum n = some x := by
      unfold lookup
      cases hg : Map.get? known e.1 with
      | some x => exact hk
      | none =>
        cases hx : c.xs c.spectrum e.1 with
        | none => exact hk
        | some y =>
          intro n x hn
          simp only [Map.get?_set] at hn
          split at hn
          · rename_i hne; rw [← hne, hx]; exact hn
          · exact hk n x hn
    obtain ⟨h3, h4⟩ := ih _ h2
    refine ⟨?_, h4⟩
    simp only [cosiLoop, h3, h1, List.map_cons, List.sum_cons]

theorem cosiStatic_eq {c : Cfg} (V : Valid c) {k : Statics} (hk : StaticsOk c k) (m : NMat) :
    ∃ k', cosiStatic c m k = .ok (wt c m, k') ∧ StaticsOk c k' := by
  have h : surplus c 942390000 - surplus c 922380000 ≠ 0 := sub_ne_zero.2 V.scale
  have hr : refsStatic (c.xs c.spectrum) c.spectrum k =
      .ok (surplus c 922380000, surplus c 942390000) := by
    unfold refsStatic
    split
    · exact refs_eq V
    · rename_i h0; rw [hk.refs h0]
  obtain ⟨h1, h2⟩ := cosiLoop_eq (surplus c 922380000, surplus c 942390000)
    (normalize (atomMap c.atomMass m) 1) k.known hk.known
  refine ⟨⟨(surplus c 922380000, surplus c 942390000), _⟩, ?_, ⟨fun _ => rfl, h2⟩⟩
  simp only [cosiStatic, hr, ok_bind, h, if_false, pure_eq_ok]
  rw [h1, cosi_sum]

/-! ## `AtomToMassFrac` -/

/-- The mean mass of an atom. -/
def mu (c : Cfg) (m : NMat) : ℚ := qty m / atoms c m

theorem massSum_normalize {c : Cfg} (V : Valid c) {m : NMat} (h : atoms c m ≠ 0) (f : ℚ) :
    massSum c.atomMass (normalize (atomMap c.atomMass m) f) = f * mu c m := by
  unfold normalize massSum mu
  rw [atomMap_sum, if_neg h, Mat.qty_def]
  simp only [atomMap, List.map_map, Function.comp_def]
  generalize atoms c m = N at *
  induction m.entries with
  | nil => simp
  | cons e l ih =>
    simp only [List.map_cons, List.sum_cons, ih]
    have := ne_of_gt (V.atom e.1)
    field_simp

theorem atomToMass_eq {c : Cfg} (V : Valid c) {a b : NMat} (ha : atoms c a ≠ 0)
    (hb : atoms c b ≠ 0) (f : ℚ) :
    atomToMass c.atomMass f a b = f * mu c a / (f * mu c a + (1 - f) * mu c b) := by
  unfold atomToMass
  rw [massSum_normalize V ha, massSum_normalize V hb]

theorem mu_pos {c : Cfg} (V : Valid c) {m : NMat} (h : Solid m) : 0 < mu c m :=
  div_pos h.1 (atoms_pos V h)

theorem mu_scale {c : Cfg} {m : NMat} {k : ℚ} (hk : k ≠ 0) : mu c (m.scale k) = mu c m := by
  unfold mu; rw [Mat.qty_scale, atoms_scale, mul_div_mul_left _ _ hk]

theorem mixDen_pos {x y f : ℚ} (hx : 0 < x) (hy : 0 < y) (h0 : 0 ≤ f) (h1 : f ≤ 1) :
    0 < f * x + (1 - f) * y := by
  rcases lt_or_eq_of_le h0 with h | h
  · have := mul_pos h hx
    have := mul_nonneg (sub_nonneg.2 h1) (le_of_lt hy)
    linarith
  · rw [← h]; linarith

theorem atomToMass_range {c : Cfg} (V : Valid c) {a b : NMat} (ha : Solid a) (hb : Solid b)
    {f : ℚ} (h0 : 0 ≤ f) (h1 : f ≤ 1) :
    0 ≤ atomToMass c.atomMass f a b ∧ atomToMass c.atomMass f a b ≤ 1 := by
  rw [atomToMass_eq V (ne_of_gt (atoms_pos V ha)) (ne_of_gt (atoms_pos V hb))]
  have hd := mixDen_pos (mu_pos V ha) (mu_pos V hb) h0 h1
  have h2 := mul_nonneg h0 (le_of_lt (mu_pos V ha))
  have h3 := mul_nonneg (sub_nonneg.2 h1) (le_of_lt (mu_pos V hb))
  exact ⟨div_nonneg h2 (le_of_lt hd), (div_le_one hd).2 (by linarith)⟩

theorem atomToMass_compl {c : Cfg} (V : Valid c) {a b : NMat} (ha : Solid a) (hb : Solid b)
    {f : ℚ} (h0 : 0 ≤ f) (h1 : f ≤ 1) :
    atomToMass c.atomMass (1 - f) b a = 1 - atomToMass c.atomMass f a b := by
  have na := ne_of_gt (atoms_pos V ha)
  have nb := ne_of_gt (atoms_pos V hb)
  rw [atomToMass_eq V na nb, atomToMass_eq V nb na]
  have hd := ne_of_gt (mixDen_pos (mu_pos V ha) (mu_pos V hb) h0 h1)
  rw [show (1 - f) * mu c b + (1 - (1 - f)) * mu c a = f * mu c a + (1 - f) * mu c b by ring]
  field_simp
  ring

theorem atomToMass_scale {c : Cfg} (V : Valid c) {a b : NMat} (ha : Solid a) (hb : Solid b)
    {k l : ℚ} (hk : 0 < k) (hl : 0 < l) (f : ℚ) :
    atomToMass c.atomMass f (a.scale k) (b.scale l) = atomToMass c.atomMass f a b := by
  have ha' := ha.scale hk
  have hb' := hb.scale hl
  rw [atomToMass_eq V (ne_of_gt (atoms_pos V ha)) (ne_of_gt (atoms_pos V hb)),
    atomToMass_eq V (ne_of_gt (atoms_pos V ha')) (ne_of_gt (atoms_pos V hb')),
    mu_scale (ne_of_gt hk), mu_scale (ne_of_gt hl)]

theorem atomToMass_zero_iff {c : Cfg} (V : Valid c) {a b : NMat} (ha : Solid a) (hb : Solid b)
    {f : ℚ} (h0 : 0 ≤ f) (h1 : f ≤ 1) : atomToMass c.atomMass f a b = 0 ↔ f = 0 := by
  rw [atomToMass_eq V (ne_of_gt (atoms_pos V ha)) (ne_of_gt (atoms_pos V hb)),
    div_eq_zero_iff, mul_eq_zero]
  have hd := ne_of_gt (mixDen_pos (mu_pos V ha) (mu_pos V hb) h0 h1)
  have := ne_of_gt (mu_pos V ha)
  tauto

/-- A mixture by the converted fraction has the fraction of the atoms that was asked for. -/
theorem mix_atoms {c : Cfg} (V : Valid c) {a b : NMat} (ha : Solid a) (hb : Solid b)
    {f q : ℚ} (h0 : 0 ≤ f) (h1 : f ≤ 1) :
    atoms c (ofComp (atomToMass c.atomMass f a b * q) a) = f *
      (atoms c (ofComp (atomToMass c.atomMass f a b * q) a) +
       atoms c (ofComp ((1 - atomToMass c.atomMass f a b) * q) b)) := by
  have na := ne_of_gt (atoms_pos V ha)
  have nb := ne_of_gt (atoms_pos V hb)
  have qa := ne_of_gt ha.1
  have qb := ne_of_gt hb.1
  have hd := ne_of_gt (mixDen_pos (mu_pos V ha) (mu_pos V hb) h0 h1)
  simp only [ofComp, atoms_scale]
  rw [atomToMass_eq V na nb]
  have e1 : atoms c a = qty a / mu c a := by unfold mu; field_simp
  have e2 : atoms c b = qty b / mu c b := by unfold mu; field_simp
  have ma := ne_of_gt (mu_pos V ha)
  have mb := ne_of_gt (mu_pos V hb)
  rw [e1, e2]
  generalize mu c a = x at *
  generalize mu c b = y at *
  field_simp
  ring

theorem ofComp_qty {m : NMat} (h : qty m ≠ 0) (q : ℚ) : qty (ofComp q m) = q := by
  rw [ofComp, Mat.qty_scale, div_mul_cancel₀ _ h]

theorem mixture_eq {c : Cfg} (V : Valid c) {a b : NMat} (ha : Solid a) (hb : Solid b)
    {f : ℚ} (h0 : 0 ≤ f) (h1 : f ≤ 1) (q : ℚ) :
    mixture c q f a b = (ofComp (atomToMass c.atomMass f a b * q) a).absorb
      (ofComp ((1 - atomToMass c.atomMass f a b) * q) b) := by
  unfold mixture; rw [atomToMass_compl V ha hb h0 h1]

theorem mixture_qty {c : Cfg} (V : Valid c) {a b : NMat} (ha : Solid a) (hb : Solid b)
    {f : ℚ} (h0 : 0 ≤ f) (h1 : f ≤ 1) (q : ℚ) : qty (mixture c q f a b) = q := by
  rw [mixture_eq V ha hb h0 h1, Mat.qty_absorb, ofComp_qty (ne_of_gt ha.1),
    ofComp_qty (ne_of_gt hb.1)]
  ring

theorem Solid.mk' {m : NMat} (h : 0 < qty m) (h' : Mat.Nonneg m) : Solid m := ⟨h, h'⟩

theorem ofComp_nonneg {m : NMat} (h : Solid m) {q : ℚ} (hq : 0 ≤ q) : Mat.Nonneg (ofComp q m) :=
  h.2.scale (div_nonneg hq (le_of_lt h.1))

theorem Nonneg.absorb {a b : NMat} (ha : Mat.Nonneg a) (hb : Mat.Nonneg b) :
    Mat.Nonneg (a.absorb b) := by
  intro e he
  simp only [Mat.absorb, List.mem_append] at he
  exact he.elim (ha e) (hb e)

theorem mixture_solid {c : Cfg} (V : Valid c) {a b : NMat} (ha : Solid a) (hb : Solid b)
    {f : ℚ} (h0 : 0 ≤ f) (h1 : f ≤ 1) {q : ℚ} (hq : 0 < q) : Solid (mixture c q f a b) := by
  refine ⟨by rw [mixture_qty V ha hb h0 h1]; exact hq, ?_⟩
  rw [mixture_eq V ha hb h0 h1]
  obtain ⟨h2, h3⟩ := atomToMass_range V ha hb h0 h1
  exact Nonneg.absorb (ofComp_nonneg ha (by positivity))
    (ofComp_nonneg hb (mul_nonneg (sub_nonneg.2 h3) (le_of_lt hq)))

/-- The weight of a mixture is the average by atom fraction. -/
theorem mixture_weight {c : Cfg} (V : Valid c) {a b : NMat} (ha : Solid a) (hb : Solid b)
    {f : ℚ} (h0 : 0 ≤ f) (h1 : f ≤ 1) {q : ℚ} (hq : 0 < q) :
    weight c (mixture c q f a b) = f * weight c a + (1 - f) * weight c b := by
  have na := ne_of_gt (atoms_pos V ha)
  have nb := ne_of_gt (atoms_pos V hb)
  have hs := ne_of_gt (atoms_pos V (mixture_solid V ha hb h0 h1 hq))
  have hm := mix_atoms V ha hb (q := q) h0 h1
  have h := weight_mul hs
  rw [mixture_eq V ha hb h0 h1] at h hs ⊢
  rw [atoms_absorb] at hs
  rw [atomSum_absorb, atoms_absorb] at h
  have e1 : ∀ k (m : NMat), atoms c m ≠ 0 →
      atomSum c (nuclideWeight c) (ofComp k m) = atoms c (ofComp k m) * weight c m := by
    intro k m hm
    rw [ofComp, atomSum_scale, atoms_scale, ← weight_mul hm]; ring
  rw [e1 _ _ na, e1 _ _ nb] at h
  generalize atoms c (ofComp (atomToMass c.atomMass f a b * q) a) = A at *
  generalize atoms c (ofComp ((1 - atomToMass c.atomMass f a b) * q) b) = B at *
  apply mul_right_cancel₀ hs
  rw [h]
  have hB : B = (1 - f) * (A + B) := by linarith
  calc A * weight c a + B * weight c b = (f * (A + B)) * weight c a + ((1 - f) * (A + B)) * weight c b := by
        rw [← hm, ← hB]
    _ = _ := by ring

/-! ## `HighFrac` -/

theorem validWeights_iff {l t h : ℚ} : validWeights l t h = true ↔ l ≤ t ∧ t ≤ h := by
  simp [validWeights]

/-- The exact fraction. -/
def exactFrac (l t h : ℚ) : ℚ := if l = h then 1 else (t - l) / (h - l)

theorem exactFrac_range {l t h : ℚ} (h1 : l ≤ t) (h2 : t ≤ h) :
    0 ≤ exactFrac l t h ∧ exactFrac l t h ≤ 1 := by
  unfold exactFrac
  split
  · norm_num
  · rename_i hne
    have hp : 0 < h - l := sub_pos.2 (lt_of_le_of_ne (h1.trans h2) hne)
    exact ⟨div_nonneg (sub_nonneg.2 h1) (le_of_lt hp), (div_le_one hp).2 (by linarith)⟩

theorem exactFrac_mix {l t h : ℚ} (h1 : l ≤ t) (h2 : t ≤ h) :
    exactFrac l t h * h + (1 - exactFrac l t h) * l = t := by
  unfold exactFrac
  split
  · rename_i he
    have : t = l := le_antisymm (by rw [he]; exact h2) h1
    rw [this, ← he]; ring
  · rename_i hne
    have hp : h - l ≠ 0 := sub_ne_zero.2 (Ne.symm hne)
    field_simp
    ring

/-- The fraction `HighFrac` returns. -/
def frac (e l t h : ℚ) : ℚ := if l = h then 1 else snap e ((t - l) / (h - l))

theorem highFrac_eq {e l t h : ℚ} (h1 : l ≤ t) (h2 : t ≤ h) :
    highFrac e l t h = .ok (frac e l t h) := by
  unfold highFrac frac
  rw [if_neg (by simp [validWeights_iff.2 ⟨h1, h2⟩])]
  by_cases hl : l = h
  · have : t = l := le_antisymm (by rw [hl]; exact h2) h1
    rw [if_pos ⟨hl, this⟩, if_pos hl]
  · rw [if_neg (fun x => hl x.1), if_neg hl, abs_of_nonneg]
    exact div_nonneg (sub_nonneg.2 h1) (sub_nonneg.2 (h1.trans h2))

theorem lowFrac_eq {e l t h : ℚ} (h1 : l ≤ t) (h2 : t ≤ h) :
    lowFrac e l t h = .ok (1 - frac e l t h) := by
  unfold lowFrac; rw [highFrac_eq h1 h2]; rfl

theorem snap_range {e f : ℚ} (h0 : 0 ≤ f) (h1 : f ≤ 1) : 0 ≤ snap e f ∧ snap e f ≤ 1 := by
  unfold snap; split <;> [norm_num; (split <;> [norm_num; exact ⟨h0, h1⟩])]

theorem frac_range {e l t h : ℚ} (h1 : l ≤ t) (h2 : t ≤ h) :
    0 ≤ frac e l t h ∧ frac e l t h ≤ 1 := by
  have := exactFrac_range h1 h2
  unfold exactFrac at this
  unfold frac
  split
  · norm_num
  · rename_i hne
    rw [if_neg hne] at this
    exact snap_range this.1 this.2

theorem snap_snap {e f : ℚ} (h0 : 0 < e) (h2 : e ≤ 1 / 2) : snap e (snap e f) = snap e f := by
  by_cases h : 1 - f < e
  · have : snap e f = 1 := by simp [snap, h]
    rw [this]; simp [snap, h0]
  · by_cases h' : f < e
    · have : snap e f = 0 := by simp [snap, h, h']
      rw [this]
      have h3 : ¬ (1 - 0 < e) := by push Not; linarith
      simp [snap, h0]
      linarith
    · have : snap e f = f := by simp [snap, h, h']
      rw [this, this]

/-- The fraction for the weight of an offer is the fraction the offer was made with. -/
theorem frac_again {e l t h : ℚ} (he : 0 < e) (he' : e ≤ 1 / 2) :
    frac e l (frac e l t h * h + (1 - frac e l t h) * l) h = frac e l t h := by
  by_cases hl : l = h
  · simp [frac, hl]
  · have hp : h - l ≠ 0 := sub_ne_zero.2 (Ne.symm hl)
    have h3 : frac e l t h = snap e ((t - l) / (h - l)) := by simp [frac, hl]
    rw [h3]
    conv_lhs => unfold frac
    rw [if_neg hl]
    have h4 : (snap e ((t - l) / (h - l)) * h + (1 - snap e ((t - l) / (h - l))) * l - l) / (h - l) =
        snap e ((t - l) / (h - l)) := by field_simp; ring
    rw [h4, snap_snap he he']

theorem frac_between {e l t h : ℚ} (h1 : l ≤ t) (h2 : t ≤ h) :
    l ≤ frac e l t h * h + (1 - frac e l t h) * l ∧
      frac e l t h * h + (1 - frac e l t h) * l ≤ h := by
  obtain ⟨h3, h4⟩ := frac_range (e := e) h1 h2
  have h5 : 0 ≤ h - l := by linarith
  have h6 := mul_nonneg h3 h5
  have h7 := mul_nonneg (sub_nonneg.2 h4) h5
  constructor <;> nlinarith

theorem frac_close {e l t h : ℚ} (he : 0 < e) (h1 : l ≤ t) (h2 : t ≤ h) :
    |frac e l t h * h + (1 - frac e l t h) * l - t| ≤ e * (h - l) := by
  by_cases hl : l = h
  · have : t = l := le_antisymm (by rw [hl]; exact h2) h1
    simp [frac, hl, this]
  · have hp : 0 < h - l := sub_pos.2 (lt_of_le_of_ne (h1.trans h2) hl)
    have h3 : frac e l t h = snap e ((t - l) / (h - l)) := by simp [frac, hl]
    rw [h3]
    obtain ⟨f, hf⟩ : ∃ f, f = (t - l) / (h - l) := ⟨_, rfl⟩
    have ht : t = l + f * (h - l) := by rw [hf]; field_simp; ring
    rw [← hf]
    have e1 : snap e f * h + (1 - snap e f) * l - t = (snap e f - f) * (h - l) := by rw [ht]; ring
    rw [e1, abs_mul, abs_of_pos hp]
    apply mul_le_mul_of_nonneg_right _ (le_of_lt hp)
    have hr := exactFrac_range h1 h2
    unfold exactFrac at hr
    rw [if_neg hl, ← hf] at hr
    unfold snap
    split
    · rw [abs_of_nonneg (by linarith)]; linarith
    · split
      · rw [abs_of_nonpos (by linarith)]; linarith
      · rw [sub_self, abs_zero]; linarith

end Cyc.FuelFab
