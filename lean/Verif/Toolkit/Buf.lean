import Verif.Toolkit.Basic

/-!
# `cyclus::toolkit::ResBuf`

The buffer class lives in cyclus, not in `/repo`. This file states the behaviour the model
assumes (DESIGN.md, section 3): a queue of resources, oldest first, with a capacity.
-/

namespace Cyc

/-- Resources have a quantity (`Resource::quantity()`). -/
class HasQty (ρ : Type) where
  qty : ρ → ℚ

export HasQty (qty)

/-- Total quantity of a list of resources. -/
def totalQty {ρ : Type} [HasQty ρ] (l : List ρ) : ℚ := (l.map qty).sum

/-- A `ResBuf`: capacity (`none` is the default, infinite capacity) and items, oldest first. -/
structure Buf (ρ : Type) where
  cap : Option ℚ
  items : List ρ
  deriving DecidableEq

namespace Buf

variable {ρ : Type} [HasQty ρ]

/-- `ResBuf::quantity()`. -/
def quantity (b : Buf ρ) : ℚ := totalQty b.items

/-- `ResBuf::count()`. -/
def count (b : Buf ρ) : Nat := b.items.length

/-- `ResBuf::empty()`. -/
def empty (b : Buf ρ) : Bool := b.items.isEmpty

/-- `ResBuf::space()`; `none` is infinite. -/
def space (b : Buf ρ) : Option ℚ := b.cap.map fun c => max 0 (c - b.quantity)

/-- The test of `ResBuf::Push`: the quantity exceeds the space by at most `ε` (`eps_rsrc()`). -/
def fits (ε : ℚ) (b : Buf ρ) (q : ℚ) : Bool :=
  match b.space with
  | none => true
  | some s => decide (q - s ≤ ε)

/-- `ResBuf::Push(r)`, not bulk. -/
def push (ε : ℚ) (b : Buf ρ) (r : ρ) : R (Buf ρ) :=
  if b.fits ε (qty r) then .ok { b with items := b.items ++ [r] } else .error .value

/-- `ResBuf::Push(std::vector)`, not bulk: one test of the total, then all are appended. -/
def pushAll (ε : ℚ) (b : Buf ρ) (rs : List ρ) : R (Buf ρ) :=
  if b.fits ε (totalQty rs) then .ok { b with items := b.items ++ rs } else .error .value

/-- `ResBuf::Pop()`: the oldest item; throws when empty. -/
def pop (b : Buf ρ) : R (ρ × Buf ρ) :=
  match b.items with
  | [] => .error .value
  | r :: rs => .ok (r, { b with items := rs })

/-- `ResBuf::PopN(n)`: the oldest `n` items, in order; throws when there are fewer. -/
def popN (b : Buf ρ) (n : Nat) : R (List ρ × Buf ρ) :=
  if n ≤ b.items.length then .ok (b.items.take n, { b with items := b.items.drop n })
  else .error .value

theorem push_ok {ε : ℚ} {b b' : Buf ρ} {r : ρ} :
    b.push ε r = .ok b' ↔ b.fits ε (qty r) = true ∧ b' = { b with items := b.items ++ [r] } := by
  unfold push; split <;> simp [*, eq_comm]

theorem pushAll_ok {ε : ℚ} {b b' : Buf ρ} {rs : List ρ} :
    b.pushAll ε rs = .ok b' ↔
      b.fits ε (totalQty rs) = true ∧ b' = { b with items := b.items ++ rs } := by
  unfold pushAll; split <;> simp [*, eq_comm]

omit [HasQty ρ] in
theorem pop_ok {b : Buf ρ} {x : ρ × Buf ρ} :
    b.pop = .ok x ↔ ∃ r rs, b.items = r :: rs ∧ x = (r, { b with items := rs }) := by
  unfold pop; cases h : b.items <;> simp [eq_comm]

omit [HasQty ρ] in
theorem popN_ok {b : Buf ρ} {n : Nat} {x : List ρ × Buf ρ} :
    b.popN n = .ok x ↔
      n ≤ b.items.length ∧ x = (b.items.take n, { b with items := b.items.drop n }) := by
  unfold popN; split <;> simp [*, eq_comm]

end Buf

section totals
variable {ρ : Type} [HasQty ρ]

@[simp] theorem totalQty_nil : totalQty ([] : List ρ) = 0 := rfl

@[simp] theorem totalQty_cons (r : ρ) (l : List ρ) : totalQty (r :: l) = qty r + totalQty l := by
  simp [totalQty]

@[simp] theorem totalQty_append (l₁ l₂ : List ρ) :
    totalQty (l₁ ++ l₂) = totalQty l₁ + totalQty l₂ := by
  simp [totalQty]

/-- If all items have the same quantity `q`, the total is the count times `q`. -/
theorem totalQty_const {q : ℚ} {l : List ρ} (h : ∀ r ∈ l, qty r = q) :
    totalQty l = l.length * q := by
  induction l with
  | nil => simp
  | cons a l ih =>
    rw [totalQty_cons, ih (fun r hr => h r (List.mem_cons_of_mem _ hr)), h a (by simp)]
    push_cast [List.length_cons]; ring

end totals

end Cyc
