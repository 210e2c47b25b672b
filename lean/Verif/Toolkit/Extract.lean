import Verif.Toolkit.Material
import Mathlib.Data.List.Dedup
import Mathlib.Algebra.BigOperators.Group.List.Basic

/-!
# `Material::ExtractComp`, and removals from buffers that may hold empty items

Assumed behaviour of cyclus (DESIGN.md, section 3).
-/

namespace Cyc

namespace Mat

variable {ν : Type} [DecidableEq ν]

/-- `compmath::Sub`: masses subtracted label by label. -/
def sub (a b : Mat ν) : Mat ν :=
  ⟨((a.entries ++ b.entries).map Prod.fst).dedup.map fun n => (n, a.mass n - b.mass n)⟩

/-- `Material::ExtractComp(q, c)`: `q` kg of the composition of `c` are removed from `m`. Throws
when `m` is lighter than `q`, or when a mass would become negative. The rounding threshold of
cyclus is not modelled. Returns the removed material and the rest. -/
def extractComp (q : ℚ) (c m : Mat ν) : R (Mat ν × Mat ν) :=
  if qty m < q then .error .value
  else if (m.sub (c.scale (q / qty c))).entries.all (fun e => decide (0 ≤ e.2)) then
    .ok (c.scale (q / qty c), m.sub (c.scale (q / qty c)))
  else .error .value

omit [DecidableEq ν] in
/-- `Material::ExtractQty(q)`: as `split`; throws when `m` is lighter than `q`. -/
def extractQty (q : ℚ) (m : Mat ν) : R (Mat ν × Mat ν) :=
  if qty m < q then .error .value else .ok (m.split q)

omit [DecidableEq ν] in
/-- All masses are non-negative. -/
def Nonneg (m : Mat ν) : Prop := ∀ e ∈ m.entries, 0 ≤ e.2

omit [DecidableEq ν] in
theorem Nonneg.qty_nonneg {m : Mat ν} (h : Nonneg m) : 0 ≤ qty m := by
  rw [qty_def]
  apply List.sum_nonneg
  intro x hx
  obtain ⟨e, he, rfl⟩ := List.mem_map.1 hx
  exact h e he

theorem Nonneg.mass_nonneg {m : Mat ν} (h : Nonneg m) (n : ν) : 0 ≤ m.mass n := by
  unfold mass
  apply List.sum_nonneg
  intro x hx
  obtain ⟨e, he, rfl⟩ := List.mem_map.1 hx
  exact h e (List.mem_filter.1 he).1

omit [DecidableEq ν] in
theorem Nonneg.scale {m : Mat ν} (h : Nonneg m) {r : ℚ} (hr : 0 ≤ r) : Nonneg (scale r m) := by
  intro e he
  simp only [Mat.scale, List.mem_map] at he
  obtain ⟨e', he', rfl⟩ := he
  exact mul_nonneg hr (h e' he')

omit [DecidableEq ν] in
theorem Nonneg.squash {l : List (Mat ν)} (h : ∀ m ∈ l, Nonneg m) : Nonneg (squash l) := by
  intro e he
  simp only [Mat.squash, List.mem_flatMap] at he
  obtain ⟨x, hx, he⟩ := he
  exact h x hx e he

theorem mass_le_qty {m : Mat ν} (h : Nonneg m) (n : ν) : m.mass n ≤ qty m := by
  rw [qty_def]; unfold mass
  unfold Nonneg at h
  generalize m.entries = l at h
  induction l with
  | nil => simp
  | cons e l ih =>
    have h1 := h e (by simp)
    have h2 := ih (fun x hx => h x (by simp [hx]))
    rw [List.map_cons, List.sum_cons, List.filter_cons]
    split
    · simp only [List.map_cons, List.sum_cons]; linarith
    · linarith

/-- A material of quantity zero without negative masses has no mass under any label. -/
theorem mass_eq_zero {m : Mat ν} (h : Nonneg m) (h0 : qty m = 0) (n : ν) : m.mass n = 0 :=
  le_antisymm (h0 ▸ mass_le_qty h n) (h.mass_nonneg n)

/-- The quantity is the sum of the masses over any list of distinct labels that covers it. -/
theorem qty_eq_sum (m : Mat ν) {ls : List ν} (hn : ls.Nodup) (hc : ∀ e ∈ m.entries, e.1 ∈ ls) :
    qty m = (ls.map m.mass).sum := by
  rw [qty_def]
  unfold mass
  generalize m.entries = l at hc
  induction l with
  | nil => simp
  | cons e l ih =>
    rw [List.map_cons, List.sum_cons, ih (fun x hx => hc x (by simp [hx]))]
    have key : ∀ ls : List ν, ls.Nodup → e.1 ∈ ls →
        (ls.map fun n => (((e :: l).filter (·.1 = n)).map Prod.snd).sum).sum =
          e.2 + (ls.map fun n => ((l.filter (·.1 = n)).map Prod.snd).sum).sum := by
      intro ls
      induction ls with
      | nil => simp
      | cons a ls ih2 =>
        intro hnd hmem
        have hnd' := List.nodup_cons.1 hnd
        have hne : ∀ ls : List ν, e.1 ∉ ls →
            (ls.map fun n => (((e :: l).filter (·.1 = n)).map Prod.snd).sum) =
              (ls.map fun n => ((l.filter (·.1 = n)).map Prod.snd).sum) := by
          intro ls hni
          apply List.map_congr_left
          intro n hn'
          have : e.1 ≠ n := fun h => hni (h ▸ hn')
          simp [List.filter_cons, this]
        by_cases h : e.1 = a
        · subst h
          simp only [List.map_cons, List.sum_cons]
          rw [hne ls hnd'.1]
          simp [List.filter_cons]
          ring
        · have hm' : e.1 ∈ ls := by
            rcases List.mem_cons.1 hmem with h' | h'
            · exact absurd h' h
            · exact h'
          simp only [List.map_cons, List.sum_cons]
          rw [ih2 hnd'.2 hm']
          simp [List.filter_cons, h]
          ring
    rw [key ls hn (hc e (by simp))]

theorem mass_eq_zero_of_not_mem {m : Mat ν} {n : ν} (h : n ∉ m.entries.map Prod.fst) :
    m.mass n = 0 := by
  unfold mass
  rw [List.filter_eq_nil_iff.2]
  · simp
  · intro e he; simp only [decide_eq_true_eq]; rintro rfl; exact h (List.mem_map.2 ⟨e, he, rfl⟩)

private theorem mass_map_dedup {ls : List ν} (hn : ls.Nodup) (f : ν → ℚ) (n : ν) :
    (⟨ls.map fun k => (k, f k)⟩ : Mat ν).mass n = if n ∈ ls then f n else 0 := by
  unfold mass
  simp only
  induction ls with
  | nil => simp
  | cons a ls ih =>
    have hnd := List.nodup_cons.1 hn
    simp only [List.map_cons, List.filter_cons, List.mem_cons]
    by_cases h : a = n
    · subst h
      have := ih hnd.2
      rw [if_neg hnd.1] at this
      simp [this]
    · have h' : ¬ n = a := fun e => h e.symm
      simp [h, h', ih hnd.2]

@[simp] theorem mass_sub (a b : Mat ν) (n : ν) : (a.sub b).mass n = a.mass n - b.mass n := by
  unfold sub
  rw [mass_map_dedup (List.nodup_dedup _)]
  split
  · rfl
  · rename_i h
    rw [List.mem_dedup, List.map_append, List.mem_append, not_or] at h
    rw [mass_eq_zero_of_not_mem h.1, mass_eq_zero_of_not_mem h.2]; ring

@[simp] theorem qty_sub (a b : Mat ν) : qty (a.sub b) = qty a - qty b := by
  have hn := List.nodup_dedup ((a.entries ++ b.entries).map Prod.fst)
  have e1 := qty_eq_sum a hn (by
    intro e he; rw [List.mem_dedup]; exact List.mem_map.2 ⟨e, List.mem_append_left _ he, rfl⟩)
  have e2 := qty_eq_sum b hn (by
    intro e he; rw [List.mem_dedup]; exact List.mem_map.2 ⟨e, List.mem_append_right _ he, rfl⟩)
  have e3 : qty (a.sub b) =
      (((a.entries ++ b.entries).map Prod.fst).dedup.map fun n => a.mass n - b.mass n).sum := by
    rw [qty_def]; unfold sub; rw [List.map_map]; rfl
  rw [e1, e2, e3]
  generalize ((a.entries ++ b.entries).map Prod.fst).dedup = ls
  clear e1 e2 e3 hn
  induction ls with
  | nil => simp
  | cons x ls ih => simp only [List.map_cons, List.sum_cons, ih]; ring

theorem nonneg_sub {a b : Mat ν} (h : ∀ n, b.mass n ≤ a.mass n) : Nonneg (a.sub b) := by
  intro e he
  simp only [sub, List.mem_map] at he
  obtain ⟨n, _, rfl⟩ := he
  simpa using h n

theorem extractComp_inv {q : ℚ} {c m x r : Mat ν} (h : extractComp q c m = .ok (x, r)) :
    q ≤ qty m ∧ x = c.scale (q / qty c) ∧ r = m.sub (c.scale (q / qty c)) ∧ Nonneg r := by
  unfold extractComp at h
  split at h
  · cases h
  · rename_i hq
    split at h
    · rename_i ha
      simp only [Except.ok.injEq, Prod.mk.injEq] at h
      obtain ⟨rfl, rfl⟩ := h
      refine ⟨not_lt.1 hq, rfl, rfl, ?_⟩
      intro e he
      simpa using List.all_eq_true.1 ha e he
    · cases h

theorem extractComp_ok {q : ℚ} {c m : Mat ν} (hq : q ≤ qty m)
    (h : ∀ n, q / qty c * c.mass n ≤ m.mass n) :
    extractComp q c m = .ok (c.scale (q / qty c), m.sub (c.scale (q / qty c))) := by
  unfold extractComp
  rw [if_neg (not_lt.2 hq), if_pos]
  rw [List.all_eq_true]
  intro e he
  have := nonneg_sub (a := m) (b := c.scale (q / qty c)) (by simpa using h) e he
  simpa using this

end Mat

/-! ## Removal from queues that may hold items of quantity zero -/

section pop
variable {ν : Type}

/-- All masses of all materials are non-negative. -/
def AllNonneg (l : List (Mat ν)) : Prop := ∀ m ∈ l, Mat.Nonneg m

theorem AllNonneg.cons {m : Mat ν} {l : List (Mat ν)} :
    AllNonneg (m :: l) ↔ Mat.Nonneg m ∧ AllNonneg l := by simp [AllNonneg]

theorem AllNonneg.append {a b : List (Mat ν)} :
    AllNonneg (a ++ b) ↔ AllNonneg a ∧ AllNonneg b := by
  simp [AllNonneg, or_imp, forall_and]

theorem AllNonneg.nil : AllNonneg ([] : List (Mat ν)) := by simp [AllNonneg]

theorem AllNonneg.total_nonneg {l : List (Mat ν)} (h : AllNonneg l) : 0 ≤ totalQty l := by
  induction l with
  | nil => simp
  | cons m l ih =>
    obtain ⟨h1, h2⟩ := AllNonneg.cons.1 h
    have := h1.qty_nonneg
    have := ih h2
    rw [totalQty_cons]; linarith

theorem AllNonneg.massOf_nonneg [DecidableEq ν] {l : List (Mat ν)} (h : AllNonneg l) (n : ν) :
    0 ≤ Mat.massOf l n := by
  induction l with
  | nil => simp
  | cons m l ih =>
    obtain ⟨h1, h2⟩ := AllNonneg.cons.1 h
    have := h1.mass_nonneg n
    have := ih h2
    rw [Mat.massOf_cons]; linarith

theorem AllNonneg.massOf_eq_zero [DecidableEq ν] {l : List (Mat ν)} (h : AllNonneg l)
    (h0 : totalQty l = 0) (n : ν) : Mat.massOf l n = 0 := by
  induction l with
  | nil => simp
  | cons m l ih =>
    obtain ⟨h1, h2⟩ := AllNonneg.cons.1 h
    have a := h1.qty_nonneg
    have b := h2.total_nonneg
    rw [totalQty_cons] at h0
    rw [Mat.massOf_cons, Mat.mass_eq_zero h1 (by linarith) n, ih h2 (by linarith)]; ring

theorem AllNonneg.massOf_le [DecidableEq ν] {l : List (Mat ν)} (h : AllNonneg l) (n : ν) :
    Mat.massOf l n ≤ totalQty l := by
  induction l with
  | nil => simp
  | cons m l ih =>
    obtain ⟨h1, h2⟩ := AllNonneg.cons.1 h
    have a := Mat.mass_le_qty h1 n
    have b := ih h2
    rw [totalQty_cons, Mat.massOf_cons]; linarith

theorem massOf_upto_zero [DecidableEq ν] {l : List (Mat ν)} (h : AllNonneg l) (n : ν) :
    Mat.massOf (upto 0 l) n = 0 := by
  induction l with
  | nil => rfl
  | cons m l ih =>
    obtain ⟨h1, h2⟩ := AllNonneg.cons.1 h
    have a := h1.qty_nonneg
    unfold upto; split
    · rename_i hle
      have h0 : qty m = 0 := le_antisymm hle a
      rw [h0, sub_zero, Mat.massOf_cons, ih h2, Mat.mass_eq_zero h1 h0 n]; ring
    · simp

/-- Masses of what the removal loop takes and leaves. -/
theorem popLoop_nonneg {l : List (Mat ν)} {q : ℚ} (hl : AllNonneg l) (h0 : 0 < q)
    (h : q ≤ totalQty l) :
    ∃ a b, popLoop q l = .ok (a, b) ∧ a ≠ [] ∧ totalQty a = q ∧ totalQty b = totalQty l - q ∧
      (∀ [DecidableEq ν] (n : ν), Mat.massOf a n = Mat.massOf (upto q l) n) ∧
      (∀ [DecidableEq ν] (n : ν), Mat.massOf b n = Mat.massOf (after q l) n) ∧
      AllNonneg a ∧ AllNonneg b := by
  induction l generalizing q with
  | nil => simp at h; linarith
  | cons m l ih =>
    obtain ⟨hm, hl'⟩ := AllNonneg.cons.1 hl
    have hm0 := hm.qty_nonneg
    rw [totalQty_cons] at h
    by_cases hlt : q < qty m
    · have hpos : 0 < qty m := by linarith
      refine ⟨[(m.split q).1], (m.split q).2 :: l, ?_, by simp, ?_, ?_, ?_, ?_, ?_, ?_⟩
      · simp [popLoop, not_le.2 h0, hlt]
      · simp only [totalQty_cons, totalQty_nil, Mat.split, Mat.qty_scale]; field_simp; ring
      · simp only [totalQty_cons, Mat.split, Mat.qty_scale]; field_simp; ring
      · intro _ n; simp [upto, not_le.2 hlt, Mat.split]
      · intro _ n; simp [after, not_le.2 hlt, Mat.split]
      · simp only [AllNonneg, List.mem_singleton, forall_eq, Mat.split]
        exact hm.scale (by positivity)
      · refine AllNonneg.cons.2 ⟨?_, hl'⟩
        have : q / qty m ≤ 1 := by rw [div_le_one hpos]; exact le_of_lt hlt
        exact hm.scale (by linarith)
    · have hle := not_lt.1 hlt
      by_cases hz : q - qty m ≤ 0
      · have hq : q = qty m := le_antisymm (by linarith) hle
        refine ⟨[m], l, ?_, by simp, by simp [hq], by rw [totalQty_cons, hq]; ring, ?_, ?_, ?_, hl'⟩
        · have hp : popLoop (q - qty m) l = .ok ([], l) := by
            unfold popLoop; cases l <;> simp [hz]
          simp only [popLoop, not_le.2 h0, hlt, if_false, hp, ok_bind, pure_eq_ok]
        · intro _ n
          have hz' : q - qty m = 0 := by linarith
          simp only [upto, hle, if_true, Mat.massOf_cons, Mat.massOf_nil, hz', massOf_upto_zero hl']
        · intro _ n
          have hz' : q - qty m = 0 := by linarith
          simp only [after, hle, if_true, hz']
          rw [massOf_after, massOf_upto_zero hl']; ring
        · simpa [AllNonneg] using hm
      · obtain ⟨a, b, h1, h2, h3, h4, h5, h6, h7, h8⟩ := ih hl' (not_le.1 hz) (by linarith)
        refine ⟨m :: a, b, ?_, by simp, ?_, ?_, ?_, ?_, AllNonneg.cons.2 ⟨hm, h7⟩, h8⟩
        · simp only [popLoop, not_le.2 h0, hlt, if_false, h1, ok_bind, pure_eq_ok]
        · rw [totalQty_cons, h3]; ring
        · rw [totalQty_cons, h4]; ring
        · intro _ n; simp [upto, hle, h5 n]
        · intro _ n; simp [after, hle, h6 n]

theorem upto_total [DecidableEq ν] {l : List (Mat ν)} {q : ℚ} (hl : AllNonneg l)
    (h : totalQty l ≤ q) : upto q l = l := by
  induction l generalizing q with
  | nil => rfl
  | cons m l ih =>
    obtain ⟨hm, hl'⟩ := AllNonneg.cons.1 hl
    have := hl'.total_nonneg
    rw [totalQty_cons] at h
    have hle : qty m ≤ q := by linarith
    simp only [upto, hle, if_true]
    rw [ih hl' (by linarith)]

theorem allNonneg_upto {l : List (Mat ν)} {q : ℚ} (hl : AllNonneg l) (h0 : 0 ≤ q) :
    AllNonneg (upto q l) := by
  induction l generalizing q with
  | nil => simpa [upto] using hl
  | cons m l ih =>
    obtain ⟨hm, hl'⟩ := AllNonneg.cons.1 hl
    have := hm.qty_nonneg
    unfold upto; split
    · exact AllNonneg.cons.2 ⟨hm, ih hl' (by linarith)⟩
    · refine AllNonneg.cons.2 ⟨hm.scale (by positivity), AllNonneg.nil⟩

/-- What `Pop(double, double)` returns and leaves, by quantity and mass, for any request that is
positive, at most the content and not below the smallest removable quantity. -/
theorem popEps_nonneg {lo ε : ℚ} {b : Buf (Mat ν)} {q : ℚ} (hl : AllNonneg b.items) (hε : 0 ≤ ε)
    (h0 : 0 < q) (hlo : lo ≤ q ∨ b.quantity ≤ q) (h : q ≤ b.quantity) :
    ∃ m l, b.popEps lo ε q = .ok (m, { b with items := l }) ∧ qty m = q ∧
      totalQty l = totalQty b.items - q ∧
      (∀ [DecidableEq ν] (n : ν), m.mass n = Mat.massOf (upto q b.items) n) ∧
      (∀ [DecidableEq ν] (n : ν), Mat.massOf l n = Mat.massOf (after q b.items) n) ∧
      Mat.Nonneg m ∧ AllNonneg l := by
  by_cases hall : b.quantity ≤ q
  · have hq : q = b.quantity := le_antisymm h hall
    have hne : b.items ≠ [] := by
      intro hn; simp [Buf.quantity, hn] at hq; linarith
    refine ⟨Mat.squash b.items, [], ?_, ?_, ?_, ?_, ?_, Mat.Nonneg.squash hl, AllNonneg.nil⟩
    · simp [Buf.popEps, hall, hne]; linarith
    · simp only [Mat.qty_squash, hq, Buf.quantity]
    · rw [hq]; simp [Buf.quantity]
    · intro _ n; rw [Mat.mass_squash, upto_total hl hall]
    · intro _ n; rw [massOf_after, upto_total hl hall]; simp
  · have hlo' : lo ≤ q := by tauto
    obtain ⟨a, l, h1, -, h3, h4, h5, h6, h7, h8⟩ := popLoop_nonneg hl h0 h
    refine ⟨Mat.squash a, l, ?_, by simpa using h3, h4, ?_, h6, Mat.Nonneg.squash h7, h8⟩
    · unfold Buf.popEps Buf.popQty
      rw [if_neg (by push Not; linarith), if_neg hall,
        if_neg (by push Not; exact ⟨h, h0, hlo'⟩), h1]; rfl
    · intro _ n; rw [Mat.mass_squash]; exact h5 n

/-- The same, from success. -/
theorem popEps_invNN {lo ε : ℚ} {b b' : Buf (Mat ν)} {q : ℚ} {m : Mat ν} (hl : AllNonneg b.items)
    (hε : 0 ≤ ε) (hq : q ≤ b.quantity) (h : b.popEps lo ε q = .ok (m, b')) :
    b'.cap = b.cap ∧ qty m = q ∧ b'.quantity = b.quantity - q ∧
      (∀ [DecidableEq ν] (n : ν), m.mass n = Mat.massOf (upto q b.items) n) ∧
      (∀ [DecidableEq ν] (n : ν), Mat.massOf b'.items n = Mat.massOf b.items n - m.mass n) ∧
      Mat.Nonneg m ∧ AllNonneg b'.items ∧ 0 ≤ q ∧ b.items ≠ [] := by
  by_cases hall : b.quantity ≤ q
  · have hqq : q = b.quantity := le_antisymm hq hall
    unfold Buf.popEps at h
    rw [if_neg (by push Not; linarith), if_pos hall] at h
    split at h
    · cases h
    · rename_i hne
      simp only [Except.ok.injEq, Prod.mk.injEq] at h
      obtain ⟨rfl, rfl⟩ := h
      refine ⟨rfl, by simp only [Mat.qty_squash, hqq, Buf.quantity], by simp [Buf.quantity, hqq], ?_, ?_,
        Mat.Nonneg.squash hl, AllNonneg.nil, by rw [hqq]; exact hl.total_nonneg, hne⟩
      · intro _ n; rw [Mat.mass_squash, upto_total hl hall]
      · intro _ n; simp
  · have h' := h
    unfold Buf.popEps at h'
    rw [if_neg (by push Not; linarith), if_neg hall] at h'
    obtain ⟨h0, hlo, -⟩ := popQty_inv h'
    obtain ⟨m', l, e1, e2, e3, e4, e5, e6, e7⟩ := popEps_nonneg hl hε h0 (Or.inl hlo) hq
    rw [e1] at h
    simp only [Except.ok.injEq, Prod.mk.injEq] at h
    obtain ⟨rfl, rfl⟩ := h
    refine ⟨rfl, e2, e3, e4, ?_, e6, e7, le_of_lt h0, ?_⟩
    · intro _ n; rw [e5, massOf_after, e4]
    · intro hn
      unfold Buf.quantity at hq
      rw [hn] at hq
      simp at hq
      linarith

/-! ### Items of quantity zero do not matter -/

/-- The items of non-zero quantity. -/
def solid (l : List (Mat ν)) : List (Mat ν) := l.filter fun m => decide (qty m ≠ 0)

theorem solid_append (a b : List (Mat ν)) : solid (a ++ b) = solid a ++ solid b := by
  simp [solid]

theorem AllNonneg.solid_pos {l : List (Mat ν)} (h : AllNonneg l) : AllPos (solid l) := by
  intro m hm
  simp only [solid, List.mem_filter, decide_eq_true_eq] at hm
  exact lt_of_le_of_ne (h m hm.1).qty_nonneg (Ne.symm hm.2)

theorem solid_of_pos {l : List (Mat ν)} (h : AllPos l) : solid l = l := by
  unfold solid
  rw [List.filter_eq_self]
  intro m hm
  simpa using ne_of_gt (h m hm)

theorem totalQty_solid (l : List (Mat ν)) : totalQty (solid l) = totalQty l := by
  induction l with
  | nil => rfl
  | cons m l ih =>
    unfold solid at ih ⊢
    rw [List.filter_cons]
    by_cases h : qty m = 0
    · simp only [h, ne_eq, not_true_eq_false, decide_false, Bool.false_eq_true, if_false]
      rw [ih, totalQty_cons, h]; ring
    · simp only [h, ne_eq, not_false_eq_true, decide_true, if_true]
      rw [totalQty_cons, totalQty_cons, ih]

theorem massOf_upto_solid [DecidableEq ν] {l : List (Mat ν)} (h : AllNonneg l) {q : ℚ}
    (hq : 0 ≤ q) (n : ν) : Mat.massOf (upto q (solid l)) n = Mat.massOf (upto q l) n := by
  induction l generalizing q with
  | nil => rfl
  | cons m l ih =>
    obtain ⟨hm, hl⟩ := AllNonneg.cons.1 h
    have ih := fun q hq => ih hl (q := q) hq
    unfold solid at ih ⊢
    rw [List.filter_cons]
    by_cases h0 : qty m = 0
    · simp only [h0, ne_eq, not_true_eq_false, decide_false, Bool.false_eq_true, if_false]
      simp only [upto, h0, hq, if_true, sub_zero, Mat.massOf_cons, Mat.mass_eq_zero hm h0]
      rw [← ih q hq]; simp
    · simp only [h0, ne_eq, not_false_eq_true, decide_true, if_true, upto]
      split
      · rename_i hle
        rw [Mat.massOf_cons, Mat.massOf_cons, ← ih _ (by linarith)]
      · rfl

theorem popLoop_solid {l a b : List (Mat ν)} {q : ℚ} (hl : AllNonneg l) (h0 : 0 ≤ q)
    (h : popLoop q l = .ok (a, b)) : solid b = after q (solid l) := by
  induction l generalizing q a b with
  | nil =>
    unfold popLoop at h
    split at h
    · simp only [Except.ok.injEq, Prod.mk.injEq] at h; obtain ⟨-, rfl⟩ := h; rfl
    · cases h
  | cons m l ih =>
    obtain ⟨hm, hl'⟩ := AllNonneg.cons.1 hl
    unfold popLoop at h
    split at h
    · rename_i hq
      simp only [Except.ok.injEq, Prod.mk.injEq] at h; obtain ⟨-, rfl⟩ := h
      have : q = 0 := le_antisymm hq h0
      rw [this, after_zero hl.solid_pos]
    · split at h
      · rename_i hq hlt
        simp only [Except.ok.injEq, Prod.mk.injEq] at h; obtain ⟨-, rfl⟩ := h
        have hpos : 0 < qty m := by linarith
        have e1 : solid (m :: l) = m :: solid l := by
          simp [solid, ne_of_gt hpos]
        have hr : qty (m.split q).2 ≠ 0 := by
          simp only [Mat.split, Mat.qty_scale]
          have : (1 - q / qty m) * qty m = qty m - q := by field_simp
          rw [this]; linarith
        have e2 : solid ((m.split q).2 :: l) = (m.split q).2 :: solid l := by
          simp [solid, hr]
        rw [e1, e2]
        simp [after, not_le.2 hlt, Mat.split]
      · rename_i hq hle
        simp only [bind_ok] at h
        obtain ⟨⟨a', b'⟩, h1, h2⟩ := h
        simp only [pure_eq_ok, Except.ok.injEq, Prod.mk.injEq] at h2
        obtain ⟨-, rfl⟩ := h2
        have := ih hl' (by linarith) h1
        rw [this]
        by_cases hz : qty m = 0
        · have e1 : solid (m :: l) = solid l := by simp [solid, hz]
          rw [e1, hz, sub_zero]
        · have e1 : solid (m :: l) = m :: solid l := by simp [solid, hz]
          rw [e1]
          simp [after, not_lt.1 hle]

/-- What `Pop(double, double)` leaves, up to items of quantity zero. -/
theorem popEps_solid {lo ε : ℚ} {b b' : Buf (Mat ν)} {q : ℚ} {m : Mat ν} (hl : AllNonneg b.items)
    (hε : 0 ≤ ε) (hq : q ≤ b.quantity) (h : b.popEps lo ε q = .ok (m, b')) :
    solid b'.items = after q (solid b.items) := by
  unfold Buf.popEps at h
  rw [if_neg (by push Not; linarith)] at h
  split at h
  · rename_i hall
    split at h
    · cases h
    · simp only [Except.ok.injEq, Prod.mk.injEq] at h; obtain ⟨-, rfl⟩ := h
      rw [after_all hl.solid_pos (by rw [totalQty_solid]; exact hall)]; rfl
  · obtain ⟨h0, -, -⟩ := popQty_inv h
    unfold Buf.popQty at h
    split at h
    · cases h
    · simp only [bind_ok] at h
      obtain ⟨⟨a', r⟩, h1, h2⟩ := h
      simp only [pure_eq_ok, Except.ok.injEq, Prod.mk.injEq] at h2
      obtain ⟨-, rfl⟩ := h2
      exact popLoop_solid hl (le_of_lt h0) h1

/-- Removing twice in a row is removing once, by mass. -/
theorem massOf_upto_solid_add [DecidableEq ν] {l l₁ : List (Mat ν)} {a b : ℚ} (hl : AllNonneg l)
    (hl₁ : AllNonneg l₁) (ha : 0 ≤ a) (hb : 0 ≤ b) (h : solid l₁ = after a (solid l)) (n : ν) :
    Mat.massOf (upto (a + b) l) n = Mat.massOf (upto a l) n + Mat.massOf (upto b l₁) n := by
  rw [← massOf_upto_solid hl (by linarith), massOf_upto_add hl.solid_pos ha hb,
    massOf_upto_solid hl ha, ← h, massOf_upto_solid hl₁ hb]

end pop

end Cyc
