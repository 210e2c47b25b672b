import Verif.Toolkit.Basic

/-!
# `std::map`

A map is a list of key-value pairs. `set` replaces the first entry with the key or appends a new
one, so a map built with `set` has distinct keys. The iteration order of the code is that of the
sorted keys; here it is the order of the list, and theorems hold for every order.
-/

namespace Cyc

namespace Map

variable {κ β : Type} [DecidableEq κ]

/-- `find`: the value at a key. -/
def get? : List (κ × β) → κ → Option β
  | [], _ => none
  | (k', b) :: l, k => if k' = k then some b else get? l k

/-- `m[k]` for reading, with the value a missing key would be created with. -/
def getD (m : List (κ × β)) (k : κ) (d : β) : β := (get? m k).getD d

/-- `m[k] = b`. -/
def set : List (κ × β) → κ → β → List (κ × β)
  | [], k, b => [(k, b)]
  | (k', b') :: l, k, b => if k' = k then (k, b) :: l else (k', b') :: set l k b

/-- The keys. -/
def keys (m : List (κ × β)) : List κ := m.map Prod.fst

@[simp] theorem get?_nil (k : κ) : get? ([] : List (κ × β)) k = none := rfl

@[simp] theorem get?_set_self (m : List (κ × β)) (k : κ) (b : β) : get? (set m k b) k = some b := by
  induction m with
  | nil => simp [set, get?]
  | cons x l ih =>
    obtain ⟨k', b'⟩ := x
    unfold set; split
    · simp [get?]
    · rename_i hk; simp [get?, hk, ih]

theorem get?_set_ne {m : List (κ × β)} {k k' : κ} (h : k ≠ k') (b : β) :
    get? (set m k b) k' = get? m k' := by
  induction m with
  | nil => simp [set, get?, h]
  | cons x l ih =>
    obtain ⟨k₁, b₁⟩ := x
    unfold set; split
    · rename_i hk; subst hk; simp [get?, h]
    · simp only [get?]; split <;> simp [ih]

theorem get?_set (m : List (κ × β)) (k k' : κ) (b : β) :
    get? (set m k b) k' = if k = k' then some b else get? m k' := by
  split
  · rename_i h; subst h; simp
  · rename_i h; exact get?_set_ne h b

@[simp] theorem getD_set_self (m : List (κ × β)) (k : κ) (b d : β) : getD (set m k b) k d = b := by
  simp [getD]

theorem getD_set_ne {m : List (κ × β)} {k k' : κ} (h : k ≠ k') (b d : β) :
    getD (set m k b) k' d = getD m k' d := by
  simp [getD, get?_set_ne h]

theorem mem_of_get? {m : List (κ × β)} {k : κ} {b : β} (h : get? m k = some b) : (k, b) ∈ m := by
  induction m with
  | nil => simp at h
  | cons x l ih =>
    obtain ⟨k', b'⟩ := x
    unfold get? at h; split at h
    · rename_i hk; subst hk; simp_all
    · exact List.mem_cons_of_mem _ (ih h)

theorem get?_of_mem {m : List (κ × β)} (hn : (keys m).Nodup) {k : κ} {b : β} (h : (k, b) ∈ m) :
    get? m k = some b := by
  induction m with
  | nil => simp at h
  | cons x l ih =>
    obtain ⟨k', b'⟩ := x
    simp only [keys, List.map_cons, List.nodup_cons] at hn
    rcases List.mem_cons.1 h with h | h
    · simp only [Prod.mk.injEq] at h; obtain ⟨rfl, rfl⟩ := h; simp [get?]
    · have : k' ≠ k := by
        rintro rfl; exact hn.1 (List.mem_map.2 ⟨_, h, rfl⟩)
      simp [get?, this, ih hn.2 h]

theorem get?_eq_none {m : List (κ × β)} {k : κ} : get? m k = none ↔ k ∉ keys m := by
  induction m with
  | nil => simp [keys]
  | cons x l ih =>
    obtain ⟨k', b'⟩ := x
    simp only [get?, keys, List.map_cons, List.mem_cons, not_or]
    split
    · rename_i h; simp [h]
    · rename_i h; rw [ih]; simp [keys, Ne.symm h]

theorem mem_keys {m : List (κ × β)} {k : κ} : k ∈ keys m ↔ ∃ b, get? m k = some b := by
  rw [← not_iff_not, ← get?_eq_none]
  cases get? m k <;> simp

theorem mem_keys_set {m : List (κ × β)} {k k' : κ} {b : β} :
    k' ∈ keys (set m k b) ↔ k' = k ∨ k' ∈ keys m := by
  rw [mem_keys, get?_set, mem_keys]
  split
  · rename_i h; simp [h]
  · rename_i h; simp [Ne.symm h]

theorem nodup_set {m : List (κ × β)} (h : (keys m).Nodup) (k : κ) (b : β) :
    (keys (set m k b)).Nodup := by
  induction m with
  | nil => simp [set, keys]
  | cons x l ih =>
    obtain ⟨k', b'⟩ := x
    simp only [keys, List.map_cons, List.nodup_cons] at h
    unfold set; split
    · rename_i hk; subst hk; simpa [keys] using h
    · rename_i hk
      simp only [keys, List.map_cons, List.nodup_cons]
      refine ⟨?_, ih h.2⟩
      intro hm
      have := mem_keys_set.1 (show k' ∈ keys (set l k b) from hm)
      rcases this with rfl | hm
      · exact hk rfl
      · exact h.1 hm

/-- Replacing one value changes a sum over the map by the difference. -/
theorem sum_set (m : List (κ × β)) (k : κ) (b d : β) (f : β → ℚ) (h0 : f d = 0) :
    ((set m k b).map fun x => f x.2).sum =
      (m.map fun x => f x.2).sum - f (getD m k d) + f b := by
  induction m with
  | nil => simp [set, getD, h0]
  | cons x l ih =>
    obtain ⟨k', b'⟩ := x
    unfold set; split
    · rename_i hk; simp [getD, get?, hk]; ring
    · rename_i hk
      simp only [List.map_cons, List.sum_cons, ih, getD, get?, hk, if_false]; ring

theorem forall_set {m : List (κ × β)} {k : κ} {b : β} {p : β → Prop} (h : ∀ x ∈ m, p x.2)
    (hb : p b) : ∀ x ∈ set m k b, p x.2 := by
  induction m with
  | nil => simpa [set] using hb
  | cons x l ih =>
    unfold set; split
    · intro y hy; rcases List.mem_cons.1 hy with rfl | hy
      · exact hb
      · exact h y (List.mem_cons_of_mem _ hy)
    · intro y hy; rcases List.mem_cons.1 hy with rfl | hy
      · exact h _ (by simp)
      · exact ih (fun z hz => h z (List.mem_cons_of_mem _ hz)) y hy

theorem getD_prop {m : List (κ × β)} {k : κ} {d : β} {p : β → Prop} (h : ∀ x ∈ m, p x.2)
    (hd : p d) : p (getD m k d) := by
  unfold getD
  cases hg : get? m k with
  | none => simpa using hd
  | some b => simpa using h _ (mem_of_get? hg)

end Map

end Cyc
