import Mathlib.Data.String.Basic
import Verif.Toolkit.Basic

/-!
# `std::map<std::string, T>`

Entries in increasing order of their keys, as `std::map` iterates over them.
-/

namespace Cyc

/-- A `std::map` keyed by strings. -/
abbrev SMap (α : Type) := List (String × α)

namespace SMap

variable {α : Type}

/-- The value under a key, or `d` if there is none (`operator[]` creates a default value). -/
def get (d : α) : SMap α → String → α
  | [], _ => d
  | (k', v) :: m, k => if k = k' then v else get d m k

/-- `m[k] = f(m[k])`, where a missing entry starts as `d`. -/
def modify (d : α) (k : String) (f : α → α) : SMap α → SMap α
  | [] => [(k, f d)]
  | (k', v) :: m =>
    if k = k' then (k', f v) :: m
    else if k < k' then (k, f d) :: (k', v) :: m
    else (k', v) :: modify d k f m

/-- The keys in iteration order. -/
def keys (m : SMap α) : List String := m.map Prod.fst

/-- The invariant of `std::map`: keys strictly increase. -/
def Sorted (m : SMap α) : Prop := (keys m).Pairwise (· < ·)

theorem mem_keys_modify {d : α} {k x : String} {f : α → α} {m : SMap α} :
    x ∈ keys (modify d k f m) ↔ x = k ∨ x ∈ keys m := by
  induction m with
  | nil => simp [modify, keys]
  | cons p m ih =>
    obtain ⟨k', v⟩ := p
    unfold modify
    split
    · subst_vars; simp [keys]
    · split
      · simp [keys]
      · simp only [keys, List.map_cons, List.mem_cons] at ih ⊢
        rw [ih]; tauto

theorem sorted_modify {d : α} {k : String} {f : α → α} {m : SMap α} (h : Sorted m) :
    Sorted (modify d k f m) := by
  induction m with
  | nil => simp [modify, Sorted, keys]
  | cons p m ih =>
    obtain ⟨k', v⟩ := p
    have h' := h
    simp only [Sorted, keys, List.map_cons, List.pairwise_cons] at h'
    unfold modify
    split
    · subst_vars; simpa [Sorted, keys] using h
    · rename_i hne
      split
      · rename_i hlt
        simp only [Sorted, keys, List.map_cons, List.pairwise_cons, List.mem_cons]
        refine ⟨?_, h'.1, h'.2⟩
        rintro x (rfl | hx)
        · exact hlt
        · exact lt_trans hlt (h'.1 x hx)
      · rename_i hnlt
        simp only [Sorted, keys, List.map_cons, List.pairwise_cons]
        refine ⟨?_, ih h'.2⟩
        intro x hx
        rcases mem_keys_modify.1 hx with rfl | hx
        · exact lt_of_le_of_ne (not_lt.1 hnlt) (Ne.symm hne)
        · exact h'.1 x hx

theorem get_of_not_mem {d : α} {k : String} {m : SMap α} (h : k ∉ keys m) : get d m k = d := by
  induction m with
  | nil => rfl
  | cons p m ih =>
    obtain ⟨k', v⟩ := p
    simp only [keys, List.map_cons, List.mem_cons, not_or] at h
    simp [get, h.1, ih h.2]

theorem get_modify {d : α} {k x : String} {f : α → α} {m : SMap α} (h : Sorted m) :
    get d (modify d k f m) x = if x = k then f (get d m k) else get d m x := by
  induction m with
  | nil => simp only [modify, get]
  | cons p m ih =>
    obtain ⟨k', v⟩ := p
    have h' := h
    simp only [Sorted, keys, List.map_cons, List.pairwise_cons] at h'
    unfold modify
    split
    · subst_vars; by_cases hx : x = k' <;> simp [get, hx]
    · rename_i hne
      split
      · rename_i hlt
        have hk : k ∉ keys m := fun hmem => by
          have := h'.1 k hmem; exact lt_asymm hlt this
        by_cases hx : x = k
        · subst hx; simp [get, hne, get_of_not_mem hk]
        · simp [get, hx]
      · by_cases hx : x = k'
        · subst hx; simp [get, Ne.symm hne]
        · simp only [get, hx, if_false, ih h'.2, if_neg hne]

end SMap

end Cyc
