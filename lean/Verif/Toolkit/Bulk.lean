import Verif.Toolkit.Extract

/-!
# Bulk `ResBuf`

A buffer constructed with `is_bulk` set merges what is pushed into one resource (DESIGN.md,
section 3).
-/

namespace Cyc

variable {ν : Type}

/-- What a bulk buffer does with a resource: it becomes the only item, or the first absorbs it. -/
def merge (l : List (Mat ν)) (r : Mat ν) : List (Mat ν) :=
  match l with
  | [] => [r]
  | m :: ms => m.absorb r :: ms

/-- `ResBuf::Push(r)`, bulk. -/
def Buf.pushBulk (ε : ℚ) (b : Buf (Mat ν)) (r : Mat ν) : R (Buf (Mat ν)) :=
  if b.fits ε (qty r) then .ok { b with items := merge b.items r } else .error .value

/-- `ResBuf::Push(std::vector)`, bulk. -/
def Buf.pushAllBulk (ε : ℚ) (b : Buf (Mat ν)) (rs : List (Mat ν)) : R (Buf (Mat ν)) :=
  if b.fits ε (totalQty rs) then .ok { b with items := rs.foldl merge b.items } else .error .value

theorem Buf.pushBulk_ok {ε : ℚ} {b b' : Buf (Mat ν)} {r : Mat ν} :
    b.pushBulk ε r = .ok b' ↔
      b.fits ε (qty r) = true ∧ b' = { b with items := merge b.items r } := by
  unfold pushBulk; split <;> simp [*, eq_comm]

theorem Buf.pushAllBulk_ok {ε : ℚ} {b b' : Buf (Mat ν)} {rs : List (Mat ν)} :
    b.pushAllBulk ε rs = .ok b' ↔
      b.fits ε (totalQty rs) = true ∧ b' = { b with items := rs.foldl merge b.items } := by
  unfold pushAllBulk; split <;> simp [*, eq_comm]

@[simp] theorem totalQty_merge (l : List (Mat ν)) (r : Mat ν) :
    totalQty (merge l r) = totalQty l + qty r := by
  cases l with
  | nil => simp [merge]
  | cons m ms => simp [merge]; ring

@[simp] theorem massOf_merge [DecidableEq ν] (l : List (Mat ν)) (r : Mat ν) (n : ν) :
    Mat.massOf (merge l r) n = Mat.massOf l n + r.mass n := by
  cases l with
  | nil => simp [merge]
  | cons m ms => simp [merge]; ring

/-- At most one item, of positive quantity and without negative masses. -/
def Single (l : List (Mat ν)) : Prop := l = [] ∨ ∃ m, l = [m] ∧ 0 < qty m ∧ Mat.Nonneg m

theorem Single.nil : Single ([] : List (Mat ν)) := Or.inl rfl

theorem Single.nonneg {l : List (Mat ν)} (h : Single l) : 0 ≤ totalQty l := by
  rcases h with rfl | ⟨m, rfl, hm, -⟩
  · simp
  · simp; exact le_of_lt hm

theorem Single.length {l : List (Mat ν)} (h : Single l) : l.length ≤ 1 := by
  rcases h with rfl | ⟨m, rfl, -⟩ <;> simp

theorem Mat.Nonneg.absorb {a b : Mat ν} (ha : Nonneg a) (hb : Nonneg b) : Nonneg (absorb a b) := by
  intro e he
  simp only [Mat.absorb, List.mem_append] at he
  exact he.elim (ha e) (hb e)

theorem Single.merge {l : List (Mat ν)} (h : Single l) {r : Mat ν} (h0 : 0 < qty r)
    (hr : Mat.Nonneg r) : Single (merge l r) := by
  rcases h with rfl | ⟨m, rfl, hm, hn⟩
  · exact Or.inr ⟨r, rfl, h0, hr⟩
  · refine Or.inr ⟨m.absorb r, rfl, ?_, hn.absorb hr⟩
    rw [Mat.qty_absorb]; linarith

theorem foldl_merge_single {l : List (Mat ν)} (h : Single l) : l.foldl Cyc.merge [] = l := by
  rcases h with rfl | ⟨m, rfl, -⟩ <;> rfl

/-- What `Pop(q)` does to a bulk buffer: it takes `q` of the common composition. -/
theorem popQty_single {lo : ℚ} {b b' : Buf (Mat ν)} {q : ℚ} {m : Mat ν} (hs : Single b.items)
    (h : b.popQty lo q = .ok (m, b')) :
    b'.cap = b.cap ∧ 0 < q ∧ lo ≤ q ∧ q ≤ totalQty b.items ∧ qty m = q ∧ Mat.Nonneg m ∧
      totalQty b'.items = totalQty b.items - q ∧ Single b'.items ∧
      (∀ [DecidableEq ν] (n : ν), m.mass n = q / totalQty b.items * Mat.massOf b.items n) ∧
      (∀ [DecidableEq ν] (n : ν), Mat.massOf b'.items n =
        Mat.massOf b.items n - q / totalQty b.items * Mat.massOf b.items n) := by
  unfold Buf.popQty at h
  split at h
  · cases h
  rename_i hc
  push Not at hc
  obtain ⟨h1, h2, h3⟩ := hc
  obtain ⟨cap, items⟩ := b
  rcases hs with hs | ⟨x, hs, hx, hn⟩
  · simp only at hs; subst hs
    simp [Buf.quantity] at h1; linarith
  · simp only at hs; subst hs
    simp only [Buf.quantity, totalQty_cons, totalQty_nil, add_zero] at h1
    by_cases hlt : q < qty x
    · simp only [popLoop, if_neg (not_le.2 h2), if_pos hlt, ok_bind, pure_eq_ok, Except.ok.injEq,
        Prod.mk.injEq] at h
      obtain ⟨rfl, rfl⟩ := h
      have hx0 : qty x ≠ 0 := ne_of_gt hx
      have hr : q / qty x < 1 := by rw [div_lt_one hx]; exact hlt
      have hr0 : 0 < q / qty x := div_pos h2 hx
      refine ⟨rfl, h2, h3, by simpa using h1, ?_, ?_, ?_, Or.inr ⟨_, rfl, ?_, ?_⟩, ?_, ?_⟩
      · simp only [Mat.qty_squash, Mat.split, totalQty_cons, totalQty_nil, add_zero, Mat.qty_scale]
        field_simp
      · apply Mat.Nonneg.squash
        simp only [List.mem_singleton, forall_eq]
        exact hn.scale (le_of_lt hr0)
      · simp only [Mat.split, totalQty_cons, totalQty_nil, add_zero, Mat.qty_scale]
        field_simp
      · simp only [Mat.split, Mat.qty_scale]
        exact mul_pos (by linarith) hx
      · exact hn.scale (by linarith)
      · intro _ n
        simp [Mat.split]
      · intro _ n
        simp [Mat.split]; ring
    · have he : q = qty x := le_antisymm h1 (not_lt.1 hlt)
      simp only [popLoop, if_neg (not_le.2 hx), lt_irrefl, if_false, he, sub_self, le_refl, if_true,
        ok_bind, pure_eq_ok, Except.ok.injEq, Prod.mk.injEq] at h
      obtain ⟨rfl, rfl⟩ := h
      have hx0 : qty x ≠ 0 := ne_of_gt hx
      refine ⟨rfl, h2, h3, by simpa using h1, ?_, ?_, ?_, Or.inl rfl, ?_, ?_⟩
      · simp [he]
      · apply Mat.Nonneg.squash
        simp only [List.mem_singleton, forall_eq]
        exact hn
      · simp [he]
      · intro _ n
        simp [he, div_self hx0]
      · intro _ n
        simp [he, div_self hx0]

/-- `Pop(q)` of a bulk buffer succeeds within the content. -/
theorem popQty_single_ok {lo : ℚ} {b : Buf (Mat ν)} {q : ℚ} (hs : Single b.items) (h0 : 0 < q)
    (hlo : lo ≤ q) (hq : q ≤ totalQty b.items) : ∃ m b', b.popQty lo q = .ok (m, b') := by
  unfold Buf.popQty
  rw [if_neg (by push Not; exact ⟨hq, h0, hlo⟩)]
  rcases hs with hs | ⟨x, hs, hx, -⟩
  · rw [hs] at hq; simp at hq; linarith
  · rw [hs] at hq ⊢
    simp only [totalQty_cons, totalQty_nil, add_zero] at hq
    by_cases hlt : q < qty x
    · simp only [popLoop, if_neg (not_le.2 h0), if_pos hlt, ok_bind, pure_eq_ok]
      exact ⟨_, _, rfl⟩
    · have he : q = qty x := le_antisymm hq (not_lt.1 hlt)
      simp only [popLoop, if_neg (not_le.2 hx), lt_irrefl, if_false, he, sub_self, le_refl, if_true,
        ok_bind, pure_eq_ok]
      exact ⟨_, _, rfl⟩

end Cyc
