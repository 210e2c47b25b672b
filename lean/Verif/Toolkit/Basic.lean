import Mathlib.Algebra.Order.Field.Rat
import Mathlib.Tactic.Linarith
import Mathlib.Tactic.Ring

/-!
# Outcomes of C++ calls

Every modelled call returns `R α`: either a result or a `Fault`. C++ exceptions, undefined
behaviour and non-termination are distinct outcomes, so a theorem that says "returns `ok`"
excludes all of them.
-/

namespace Cyc

/-- The ways a modelled call can fail. `value`, `key` and `cast` are `cyclus::ValueError`,
`KeyError` and `CastError`; `ub` is undefined behaviour (index out of range, `back()` of an
empty vector, conversion of a non-finite double to `int`); `diverge` is a loop that never ends. -/
inductive Fault
  | value | key | cast | ub | diverge
  deriving DecidableEq, Repr

/-- Result of a modelled call. -/
abbrev R (α : Type) := Except Fault α

/-- Indexing of a `std::vector`: `v[i]`, undefined when out of range. -/
def at! {α : Type} (l : List α) (i : Nat) : R α :=
  match l[i]? with
  | some a => .ok a
  | none => .error .ub

/-- Assignment `v[i] = a` to a `std::vector` element, undefined when out of range. -/
def put! {α : Type} (l : List α) (i : Nat) (a : α) : R (List α) :=
  if i < l.length then .ok (l.set i a) else .error .ub

/-- `std::distance(begin, std::max_element(begin, end))`: first index of a greatest element. -/
def maxIndex : List ℚ → Nat
  | [] => 0
  | [_] => 0
  | x :: y :: l =>
    let k := maxIndex (y :: l)
    if (y :: l).getD k 0 > x then k + 1 else 0

theorem bind_ok {α β : Type} {x : R α} {f : α → R β} {b : β} :
    (x >>= f) = .ok b ↔ ∃ a, x = .ok a ∧ f a = .ok b := by
  cases x <;> simp [bind, Except.bind]

@[simp] theorem ok_bind {α β : Type} (a : α) (f : α → R β) :
    ((Except.ok a : R α) >>= f) = f a := rfl

@[simp] theorem error_bind {α β : Type} (e : Fault) (f : α → R β) :
    ((Except.error e : R α) >>= f) = .error e := rfl

@[simp] theorem pure_eq_ok {α : Type} (a : α) : (pure a : R α) = .ok a := rfl

theorem at!_ok {α : Type} {l : List α} {i : Nat} {a : α} :
    at! l i = .ok a ↔ l[i]? = some a := by
  unfold at!; cases h : l[i]? <;> simp

theorem at!_of_lt {α : Type} {l : List α} {i : Nat} (h : i < l.length) :
    at! l i = .ok l[i] := by
  simp [at!_ok, h]

theorem put!_ok {α : Type} {l l' : List α} {i : Nat} {a : α} :
    put! l i a = .ok l' ↔ i < l.length ∧ l' = l.set i a := by
  unfold put!; split <;> simp [*, eq_comm]

theorem maxIndex_lt {l : List ℚ} (h : l ≠ []) : maxIndex l < l.length := by
  induction l with
  | nil => exact absurd rfl h
  | cons x l ih =>
    cases l with
    | nil => simp [maxIndex]
    | cons y l =>
      have := ih (by simp)
      unfold maxIndex
      simp only
      split
      · simp only [List.length_cons] at this ⊢; omega
      · simp

/-- `maxIndex` is the first position of a greatest element. -/
theorem maxIndex_spec {l : List ℚ} {q : ℚ} (h : l[maxIndex l]? = some q) :
    ∀ (k : Nat) (r : ℚ), l[k]? = some r → r ≤ q ∧ (k < maxIndex l → r < q) := by
  induction l generalizing q with
  | nil => simp at h
  | cons x l ih =>
    cases l with
    | nil =>
      intro k r hk
      simp only [maxIndex, List.getElem?_cons_zero, Option.some.injEq] at h ⊢
      cases k with
      | zero => simp at hk; subst hk h; simp
      | succ k => simp at hk
    | cons y l =>
      have hlt := maxIndex_lt (l := y :: l) (by simp)
      have hq := ih (q := (y :: l)[maxIndex (y :: l)]) (List.getElem?_eq_getElem hlt)
      have hd : (y :: l).getD (maxIndex (y :: l)) 0 = (y :: l)[maxIndex (y :: l)] := by
        rw [List.getD_eq_getElem?_getD, List.getElem?_eq_getElem hlt]; rfl
      unfold maxIndex at h ⊢
      simp only at h ⊢
      rw [hd] at h ⊢
      split at h
      · rename_i hx
        rw [List.getElem?_cons_succ, List.getElem?_eq_getElem hlt, Option.some.injEq] at h
        rw [if_pos hx]
        intro k r hk
        rw [h] at hq hx
        cases k with
        | zero =>
          simp only [List.getElem?_cons_zero, Option.some.injEq] at hk
          subst hk; exact ⟨le_of_lt hx, fun _ => hx⟩
        | succ k =>
          rw [List.getElem?_cons_succ] at hk
          exact ⟨(hq k r hk).1, fun hkk => (hq k r hk).2 (by omega)⟩
      · rename_i hx
        simp only [List.getElem?_cons_zero, Option.some.injEq] at h
        rw [if_neg hx]
        subst h
        intro k r hk
        refine ⟨?_, by omega⟩
        cases k with
        | zero => simp at hk; exact le_of_eq hk.symm
        | succ k =>
          rw [List.getElem?_cons_succ] at hk
          exact ((hq k r hk).1).trans (not_lt.1 hx)

end Cyc
