import Mathlib.Tactic.FieldSimp
import Mathlib.Tactic.Positivity
import Verif.Toolkit.Buf

/-!
# `cyclus::Material` and the quantity-based removals of `ResBuf`

Both live in cyclus, not in `/repo`; this file states the behaviour the model assumes
(DESIGN.md, section 3).

A material is a list of entries: a label and a mass. The label type is a parameter. With nuclides
as labels this is `Material`; nothing in the modelled code inspects a label except where a
function names nuclides explicitly, so a theorem about all label types also covers labels that
carry more than the nuclide, such as the delivery the material came with.
-/

namespace Cyc

/-- A material: labelled masses. The same label may occur more than once. -/
structure Mat (ν : Type) where
  entries : List (ν × ℚ)
  deriving DecidableEq, Repr

namespace Mat

variable {ν : Type}

/-- `Material::quantity()`. -/
def quantity (m : Mat ν) : ℚ := (m.entries.map Prod.snd).sum

instance : HasQty (Mat ν) := ⟨quantity⟩

/-- The mass under one label. -/
def mass [DecidableEq ν] (m : Mat ν) (n : ν) : ℚ :=
  ((m.entries.filter (·.1 = n)).map Prod.snd).sum

/-- Every mass multiplied by the same factor. -/
def scale (r : ℚ) (m : Mat ν) : Mat ν := ⟨m.entries.map fun e => (e.1, r * e.2)⟩

/-- `Material::Absorb`. -/
def absorb (a b : Mat ν) : Mat ν := ⟨a.entries ++ b.entries⟩

/-- `toolkit::Squash`: all materials absorbed into one. -/
def squash (l : List (Mat ν)) : Mat ν := ⟨l.flatMap entries⟩

theorem qty_def (m : Mat ν) : qty m = (m.entries.map Prod.snd).sum := rfl

@[simp] theorem qty_scale (r : ℚ) (m : Mat ν) : qty (scale r m) = r * qty m := by
  simp only [qty_def, scale, List.map_map]
  induction m.entries with
  | nil => simp
  | cons e l ih => simp only [List.map_cons, List.sum_cons, ih, Function.comp]; ring

@[simp] theorem qty_absorb (a b : Mat ν) : qty (absorb a b) = qty a + qty b := by
  simp [qty_def, absorb]

@[simp] theorem qty_squash (l : List (Mat ν)) : qty (squash l) = totalQty l := by
  induction l with
  | nil => rfl
  | cons m l ih =>
    have : qty (squash (m :: l)) = qty m + qty (squash l) := by simp [qty_def, squash]
    rw [this, ih, totalQty_cons]

@[simp] theorem scale_one (m : Mat ν) : scale 1 m = m := by
  cases m; simp [scale]

@[simp] theorem scale_scale (a b : ℚ) (m : Mat ν) : scale a (scale b m) = scale (a * b) m := by
  simp [scale, mul_assoc, Function.comp_def]

theorem mem_scale {r : ℚ} {m : Mat ν} {e : ν × ℚ} (h : e ∈ (scale r m).entries) :
    ∃ e' ∈ m.entries, e'.1 = e.1 := by
  simp only [scale, List.mem_map] at h
  obtain ⟨e', h', rfl⟩ := h
  exact ⟨e', h', rfl⟩

section mass
variable [DecidableEq ν]

@[simp] theorem mass_scale (r : ℚ) (m : Mat ν) (n : ν) : mass (scale r m) n = r * mass m n := by
  simp only [mass, scale, List.filter_map, List.map_map]
  have : ((fun x : ν × ℚ => decide (x.1 = n)) ∘ fun e : ν × ℚ => (e.1, r * e.2)) =
      fun x : ν × ℚ => decide (x.1 = n) := rfl
  rw [this]
  induction m.entries.filter (fun x : ν × ℚ => decide (x.1 = n)) with
  | nil => simp
  | cons e l ih => simp only [List.map_cons, List.sum_cons, ih, Function.comp]; ring

@[simp] theorem mass_absorb (a b : Mat ν) (n : ν) :
    mass (absorb a b) n = mass a n + mass b n := by
  simp [mass, absorb]

/-- Total mass under one label in a list of materials. -/
def massOf (l : List (Mat ν)) (n : ν) : ℚ := (l.map (mass · n)).sum

@[simp] theorem massOf_nil (n : ν) : massOf ([] : List (Mat ν)) n = 0 := rfl

@[simp] theorem massOf_cons (m : Mat ν) (l : List (Mat ν)) (n : ν) :
    massOf (m :: l) n = mass m n + massOf l n := by simp [massOf]

@[simp] theorem massOf_append (l₁ l₂ : List (Mat ν)) (n : ν) :
    massOf (l₁ ++ l₂) n = massOf l₁ n + massOf l₂ n := by simp [massOf]

@[simp] theorem mass_squash (l : List (Mat ν)) (n : ν) : mass (squash l) n = massOf l n := by
  induction l with
  | nil => rfl
  | cons m l ih =>
    have : mass (squash (m :: l)) n = mass m n + mass (squash l) n := by simp [mass, squash]
    rw [this, ih, massOf_cons]

end mass

/-- `Material::ExtractQty`: the given quantity is split off in proportion, the rest stays. -/
def split (q : ℚ) (m : Mat ν) : Mat ν × Mat ν := (scale (q / qty m) m, scale (1 - q / qty m) m)

end Mat

section pop
variable {ν : Type}

/-- The loop of `ResBuf::Pop(double)`: whole items while they fit, then part of the next one. -/
def popLoop : ℚ → List (Mat ν) → R (List (Mat ν) × List (Mat ν))
  | left, [] => if left ≤ 0 then .ok ([], []) else .error .ub
  | left, m :: ms =>
    if left ≤ 0 then .ok ([], m :: ms)
    else if left < qty m then .ok ([(m.split left).1], (m.split left).2 :: ms)
    else do
      let (a, b) ← popLoop (left - qty m) ms
      pure (m :: a, b)

/-- `ResBuf::Pop(double)`: throws when more is asked than there is or nothing is asked (an empty
list cannot be squashed). `lo` is the smallest quantity that can be removed. -/
def Buf.popQty (lo : ℚ) (b : Buf (Mat ν)) (q : ℚ) : R (Mat ν × Buf (Mat ν)) :=
  if b.quantity < q ∨ q ≤ 0 ∨ q < lo then .error .value
  else do
    let (a, rest) ← popLoop q b.items
    pure (Mat.squash a, { b with items := rest })

/-- `ResBuf::Pop(double, double)`: up to `ε` more than the content may be asked for; then all of
the content is returned. -/
def Buf.popEps (lo ε : ℚ) (b : Buf (Mat ν)) (q : ℚ) : R (Mat ν × Buf (Mat ν)) :=
  if b.quantity + ε < q then .error .value
  else if b.quantity ≤ q then
    if b.items = [] then .error .value
    else .ok (Mat.squash b.items, { b with items := [] })
  else b.popQty lo q

/-- What remains of a queue of materials after its first `q` kg are taken away. -/
def after : ℚ → List (Mat ν) → List (Mat ν)
  | _, [] => []
  | q, m :: ms => if qty m ≤ q then after (q - qty m) ms else Mat.scale (1 - q / qty m) m :: ms

/-- The first `q` kg of a queue of materials. -/
def upto : ℚ → List (Mat ν) → List (Mat ν)
  | _, [] => []
  | q, m :: ms => if qty m ≤ q then m :: upto (q - qty m) ms else [Mat.scale (q / qty m) m]

/-- All materials have positive quantity. -/
def AllPos (l : List (Mat ν)) : Prop := ∀ m ∈ l, 0 < qty m

theorem AllPos.total_nonneg {l : List (Mat ν)} (h : AllPos l) : 0 ≤ totalQty l := by
  induction l with
  | nil => simp
  | cons m l ih =>
    have h1 := h m (by simp)
    have h2 := ih (fun x hx => h x (by simp [hx]))
    rw [totalQty_cons]; linarith

theorem AllPos.total_pos {l : List (Mat ν)} (h : AllPos l) (hne : l ≠ []) : 0 < totalQty l := by
  cases l with
  | nil => exact absurd rfl hne
  | cons m l =>
    have h1 := h m (by simp)
    have h2 : 0 ≤ totalQty l := AllPos.total_nonneg (fun x hx => h x (by simp [hx]))
    rw [totalQty_cons]; linarith

theorem AllPos.cons {m : Mat ν} {l : List (Mat ν)} : AllPos (m :: l) ↔ 0 < qty m ∧ AllPos l := by
  simp [AllPos]

theorem AllPos.append {a b : List (Mat ν)} : AllPos (a ++ b) ↔ AllPos a ∧ AllPos b := by
  simp [AllPos, or_imp, forall_and]

theorem after_zero {l : List (Mat ν)} (h : AllPos l) : after 0 l = l := by
  cases l with
  | nil => rfl
  | cons m l =>
    have := h m (by simp)
    simp [after, not_le.2 this]

theorem upto_zero {l : List (Mat ν)} (h : AllPos l) : totalQty (upto 0 l) = 0 := by
  cases l with
  | nil => rfl
  | cons m l =>
    have := h m (by simp)
    simp [upto, not_le.2 this]

theorem popLoop_ok {l : List (Mat ν)} {q : ℚ} (hl : AllPos l) (h0 : 0 < q)
    (h : q ≤ totalQty l) :
    ∃ a, popLoop q l = .ok (a, after q l) ∧ a ≠ [] ∧ totalQty a = q ∧
      (∀ [DecidableEq ν] (n : ν), Mat.massOf a n = Mat.massOf (upto q l) n) ∧
      (∀ m ∈ a, 0 < qty m) ∧
      (∀ m ∈ a, ∀ e ∈ m.entries, ∃ m' ∈ l, ∃ e' ∈ m'.entries, e'.1 = e.1) := by
  induction l generalizing q with
  | nil => simp at h; linarith
  | cons m l ih =>
    obtain ⟨hm, hl'⟩ := AllPos.cons.1 hl
    rw [totalQty_cons] at h
    by_cases hlt : q < qty m
    · refine ⟨[(m.split q).1], ?_, by simp, ?_, ?_, ?_, ?_⟩
      · simp [popLoop, not_le.2 h0, hlt, after, not_le.2 hlt, Mat.split]
      · simp only [totalQty_cons, totalQty_nil, Mat.split, Mat.qty_scale]; field_simp; ring
      · intro _ n; simp [upto, not_le.2 hlt, Mat.split]
      · simp only [List.mem_singleton, forall_eq, Mat.split, Mat.qty_scale]; positivity
      · simp only [List.mem_singleton, forall_eq, Mat.split]
        intro e he
        obtain ⟨e', he', h'⟩ := Mat.mem_scale he
        exact ⟨m, by simp, e', he', h'⟩
    · have hle := not_lt.1 hlt
      by_cases hz : q - qty m ≤ 0
      · have hq : q = qty m := le_antisymm (by linarith) hle
        refine ⟨[m], ?_, by simp, by simp [hq], ?_, by simpa using hm, ?_⟩
        · have hp : popLoop (q - qty m) l = .ok ([], l) := by
            unfold popLoop; cases l <;> simp [hz]
          have hz' : after (q - qty m) l = l := by
            rw [show q - qty m = 0 by linarith, after_zero hl']
          simp only [popLoop, not_le.2 h0, hlt, if_false, hp, ok_bind, pure_eq_ok, after, hle,
            if_true, hz']
        · intro _ n
          have hz' : q - qty m = 0 := by linarith
          simp only [upto, hle, if_true, Mat.massOf_cons, Mat.massOf_nil, hz']
          cases l with
          | nil => simp [upto]
          | cons m' l => simp [upto, not_le.2 (AllPos.cons.1 hl').1]
        · simp only [List.mem_singleton, forall_eq]
          intro e he; exact ⟨m, by simp, e, he, rfl⟩
      · obtain ⟨a, h1, h2, h3, h4, h5, h6⟩ := ih hl' (not_le.1 hz) (by linarith)
        refine ⟨m :: a, ?_, by simp, ?_, ?_, ?_, ?_⟩
        · simp only [popLoop, not_le.2 h0, hlt, if_false, h1, ok_bind, pure_eq_ok, after, hle,
            if_true]
        · rw [totalQty_cons, h3]; ring
        · intro _ n; simp [upto, hle, h4 n]
        · intro x hx; rcases List.mem_cons.1 hx with rfl | hx
          · exact hm
          · exact h5 x hx
        · intro x hx e he; rcases List.mem_cons.1 hx with rfl | hx
          · exact ⟨x, by simp, e, he, rfl⟩
          · obtain ⟨m', hm', e', he', h'⟩ := h6 x hx e he
            exact ⟨m', by simp [hm'], e', he', h'⟩

theorem totalQty_after {l : List (Mat ν)} {q : ℚ} (hl : AllPos l) (h0 : 0 ≤ q)
    (h : q ≤ totalQty l) : totalQty (after q l) = totalQty l - q := by
  induction l generalizing q with
  | nil => simp at h; simp [after]; linarith
  | cons m l ih =>
    obtain ⟨hm, hl'⟩ := AllPos.cons.1 hl
    rw [totalQty_cons] at h ⊢
    unfold after; split
    · rename_i hle
      rw [ih hl' (by linarith) (by linarith)]; ring
    · rw [totalQty_cons, Mat.qty_scale]; field_simp; ring

theorem totalQty_upto {l : List (Mat ν)} {q : ℚ} (hl : AllPos l) (h0 : 0 ≤ q)
    (h : q ≤ totalQty l) : totalQty (upto q l) = q := by
  induction l generalizing q with
  | nil => simp at h; simp [upto]; linarith
  | cons m l ih =>
    obtain ⟨hm, hl'⟩ := AllPos.cons.1 hl
    rw [totalQty_cons] at h
    unfold upto; split
    · rename_i hle
      rw [totalQty_cons, ih hl' (by linarith) (by linarith)]; ring
    · rw [totalQty_cons, Mat.qty_scale, totalQty_nil]; field_simp; ring

theorem massOf_after [DecidableEq ν] {l : List (Mat ν)} {q : ℚ} (n : ν) :
    Mat.massOf (after q l) n = Mat.massOf l n - Mat.massOf (upto q l) n := by
  induction l generalizing q with
  | nil => simp [after, upto]
  | cons m l ih =>
    unfold after upto; split
    · simp [ih]
    · simp; ring

theorem allPos_after {l : List (Mat ν)} {q : ℚ} (hl : AllPos l) (h0 : 0 ≤ q) :
    AllPos (after q l) := by
  induction l generalizing q with
  | nil => simp [after, AllPos]
  | cons m l ih =>
    obtain ⟨hm, hl'⟩ := AllPos.cons.1 hl
    unfold after; split
    · rename_i hle; exact ih hl' (by linarith)
    · rename_i hlt
      refine AllPos.cons.2 ⟨?_, hl'⟩
      rw [Mat.qty_scale]
      have : q / qty m < 1 := by rw [div_lt_one hm]; exact not_le.1 hlt
      have : 0 < 1 - q / qty m := by linarith
      positivity

theorem mem_after {l : List (Mat ν)} {q : ℚ} {m : Mat ν} (hm : m ∈ after q l) {e : ν × ℚ}
    (he : e ∈ m.entries) : ∃ m' ∈ l, ∃ e' ∈ m'.entries, e'.1 = e.1 := by
  induction l generalizing q with
  | nil => simp [after] at hm
  | cons x l ih =>
    unfold after at hm; split at hm
    · obtain ⟨m', h1, h2⟩ := ih hm
      exact ⟨m', by simp [h1], h2⟩
    · rcases List.mem_cons.1 hm with rfl | hm
      · obtain ⟨e', h1, h2⟩ := Mat.mem_scale he
        exact ⟨x, by simp, e', h1, h2⟩
      · exact ⟨m, by simp [hm], e, he, rfl⟩

theorem after_append {l₁ l₂ : List (Mat ν)} {q : ℚ} (hl : AllPos (l₁ ++ l₂)) (h0 : 0 ≤ q)
    (h : q ≤ totalQty l₁) : after q (l₁ ++ l₂) = after q l₁ ++ l₂ := by
  induction l₁ generalizing q with
  | nil =>
    simp at h
    have : q = 0 := le_antisymm h h0
    subst this
    simpa [after] using after_zero (l := l₂) (by simpa using hl)
  | cons m l ih =>
    rw [List.cons_append] at hl ⊢
    obtain ⟨hm, hl'⟩ := AllPos.cons.1 hl
    rw [totalQty_cons] at h
    unfold after; split
    · rename_i hle; exact ih hl' (by linarith) (by linarith)
    · rfl

theorem massOf_upto_append [DecidableEq ν] {l₁ l₂ : List (Mat ν)} {q : ℚ}
    (hl : AllPos (l₁ ++ l₂)) (h0 : 0 ≤ q) (h : q ≤ totalQty l₁) (n : ν) :
    Mat.massOf (upto q (l₁ ++ l₂)) n = Mat.massOf (upto q l₁) n := by
  have h1 := massOf_after (q := q) (l := l₁ ++ l₂) n
  have h2 := massOf_after (q := q) (l := l₁) n
  rw [after_append hl h0 h] at h1
  simp only [Mat.massOf_append] at h1
  linarith

theorem after_after {l : List (Mat ν)} {a b : ℚ} (hl : AllPos l) (ha : 0 ≤ a) (hb : 0 ≤ b)
    : after b (after a l) = after (a + b) l := by
  induction l generalizing a b with
  | nil => rfl
  | cons m l ih =>
    obtain ⟨hm, hl'⟩ := AllPos.cons.1 hl
    by_cases h1 : qty m ≤ a
    · have h2 : qty m ≤ a + b := by linarith
      simp only [after, h1, h2, if_true]
      rw [ih hl' (by linarith) hb]; congr 1; ring
    · have hpos : 0 < 1 - a / qty m := by
        have : a / qty m < 1 := by rw [div_lt_one hm]; exact not_le.1 h1
        linarith
      have hq : (1 - a / qty m) * qty m = qty m - a := by field_simp
      simp only [after, h1, if_false, Mat.qty_scale, hq]
      by_cases h2 : qty m ≤ a + b
      · have h3 : qty m - a ≤ b := by linarith
        simp only [h2, h3, if_true]
        congr 1; ring
      · have h3 : ¬ qty m - a ≤ b := by linarith
        simp only [h2, h3, if_false, Mat.scale_scale]
        congr 2
        have : qty m - a ≠ 0 := by
          have := not_le.1 h1; linarith
        field_simp; ring

theorem massOf_upto_add [DecidableEq ν] {l : List (Mat ν)} {a b : ℚ} (hl : AllPos l)
    (ha : 0 ≤ a) (hb : 0 ≤ b) (n : ν) :
    Mat.massOf (upto (a + b) l) n =
      Mat.massOf (upto a l) n + Mat.massOf (upto b (after a l)) n := by
  have h1 := massOf_after (q := a + b) (l := l) n
  have h2 := massOf_after (q := a) (l := l) n
  have h3 := massOf_after (q := b) (l := after a l) n
  rw [after_after hl ha hb] at h3
  linarith

/-- What a successful `Pop(double)` returns and leaves. -/
theorem popQty_ok {lo : ℚ} {b : Buf (Mat ν)} {q : ℚ} (hl : AllPos b.items) (h0 : 0 < q)
    (hlo : lo ≤ q) (h : q ≤ b.quantity) :
    ∃ m, b.popQty lo q = .ok (m, { b with items := after q b.items }) ∧ qty m = q ∧
      (∀ [DecidableEq ν] (n : ν), m.mass n = Mat.massOf (upto q b.items) n) ∧
      (∀ e ∈ m.entries, ∃ m' ∈ b.items, ∃ e' ∈ m'.entries, e'.1 = e.1) := by
  obtain ⟨a, h1, -, h3, h4, h5, h6⟩ := popLoop_ok hl h0 h
  refine ⟨Mat.squash a, ?_, ?_, ?_, ?_⟩
  · simp [Buf.popQty, not_lt.2 h, not_le.2 h0, not_lt.2 hlo, h1]
  · simpa using h3
  · intro _ n; rw [Mat.mass_squash]; exact h4 n
  · intro e he
    simp only [Mat.squash, List.mem_flatMap] at he
    obtain ⟨x, hx, he⟩ := he
    exact h6 x hx e he

theorem popQty_inv {lo : ℚ} {b b' : Buf (Mat ν)} {q : ℚ} {m : Mat ν}
    (h : b.popQty lo q = .ok (m, b')) : 0 < q ∧ lo ≤ q ∧ q ≤ b.quantity := by
  unfold Buf.popQty at h
  split at h
  · cases h
  · rename_i hc
    push Not at hc
    exact ⟨hc.2.1, hc.2.2, hc.1⟩

theorem after_all {l : List (Mat ν)} {q : ℚ} (hl : AllPos l) (h : totalQty l ≤ q) :
    after q l = [] := by
  induction l generalizing q with
  | nil => rfl
  | cons m l ih =>
    obtain ⟨hm, hl'⟩ := AllPos.cons.1 hl
    rw [totalQty_cons] at h
    have := hl'.total_nonneg
    have hle : qty m ≤ q := by linarith
    simp only [after, hle, if_true]
    exact ih hl' (by linarith)

theorem upto_all {l : List (Mat ν)} {q : ℚ} (hl : AllPos l) (h : totalQty l ≤ q) :
    upto q l = l := by
  induction l generalizing q with
  | nil => rfl
  | cons m l ih =>
    obtain ⟨hm, hl'⟩ := AllPos.cons.1 hl
    rw [totalQty_cons] at h
    have := hl'.total_nonneg
    have hle : qty m ≤ q := by linarith
    simp only [upto, hle, if_true]
    rw [ih hl' (by linarith)]

/-- What a successful `Pop(double, double)` returns and leaves. -/
theorem popEps_ok {lo ε : ℚ} {b : Buf (Mat ν)} {q : ℚ} (hl : AllPos b.items) (hε : 0 ≤ ε)
    (h0 : 0 < q) (hlo : lo ≤ q ∨ b.quantity ≤ q) (h : q ≤ b.quantity) :
    ∃ m, b.popEps lo ε q = .ok (m, { b with items := after q b.items }) ∧ qty m = q ∧
      (∀ [DecidableEq ν] (n : ν), m.mass n = Mat.massOf (upto q b.items) n) ∧
      (∀ e ∈ m.entries, ∃ m' ∈ b.items, ∃ e' ∈ m'.entries, e'.1 = e.1) := by
  by_cases hall : b.quantity ≤ q
  · have hq : q = b.quantity := le_antisymm h hall
    have hne : b.items ≠ [] := by
      intro hn; simp [Buf.quantity, hn] at hq; linarith
    refine ⟨Mat.squash b.items, ?_, ?_, ?_, ?_⟩
    · rw [after_all hl hall]
      simp [Buf.popEps, hall, hne]
      linarith
    · simp only [Mat.qty_squash, hq, Buf.quantity]
    · intro _ n; rw [Mat.mass_squash, upto_all hl hall]
    · intro e he
      simp only [Mat.squash, List.mem_flatMap] at he
      obtain ⟨x, hx, he⟩ := he
      exact ⟨x, hx, e, he, rfl⟩
  · have hlo' : lo ≤ q := by tauto
    obtain ⟨m, h1, h2⟩ := popQty_ok (lo := lo) hl h0 hlo' h
    refine ⟨m, ?_, h2⟩
    unfold Buf.popEps
    rw [if_neg (by push Not; linarith), if_neg hall, h1]

end pop

end Cyc
