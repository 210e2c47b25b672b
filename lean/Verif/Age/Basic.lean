import Verif.Toolkit.Basic

/-!
# Calls with the same outcome up to a change of their results
-/

namespace Cyc

/-- Apply a function to the result of a call, if there is one. -/
def R.then {α β : Type} (f : α → β) (x : R α) : R β := Except.map f x

@[simp] theorem then_ok {α β : Type} (f : α → β) (a : α) : R.then f (Except.ok a) = .ok (f a) := rfl

@[simp] theorem then_error {α β : Type} (f : α → β) (e : Fault) :
    R.then f (Except.error e : R α) = .error e := rfl

theorem then_bind {α β γ : Type} (x : R α) (f : α → R β) (g : β → γ) :
    R.then g (x >>= f) = x >>= fun a => R.then g (f a) := by cases x <;> rfl

theorem bind_then {α β γ : Type} (x : R α) (g : α → β) (f : β → R γ) :
    (R.then g x >>= f) = x >>= fun a => f (g a) := by cases x <;> rfl

theorem then_ite {α β : Type} (p : Prop) [Decidable p] (f : α → β) (x y : R α) :
    R.then f (if p then x else y) = if p then R.then f x else R.then f y := by split <;> rfl

theorem bind_congr_ok {α β : Type} {x : R α} {f g : α → R β} (h : ∀ a, x = .ok a → f a = g a) :
    (x >>= f) = x >>= g := by
  cases x with
  | error e => rfl
  | ok a => exact h a rfl

end Cyc
