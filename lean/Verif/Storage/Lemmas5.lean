import Verif.Storage.Lemmas3

/-! # What no step of a storage facility changes -/

namespace Cyc.Storage

variable {ν : Type}

/-- The buffers are unlimited and the preferences are the initial ones. -/
structure Fixed (c : Cfg) (s : State ν) : Prop where
  isOpen : Open s
  prefs : initPrefs c = .ok s.prefs

theorem popEps_cap {lo ε : ℚ} {b b' : Buf (Mat ν)} {q : ℚ} {m : Mat ν}
    (h : b.popEps lo ε q = .ok (m, b')) : b'.cap = b.cap := by
  unfold Buf.popEps Buf.popQty at h
  split at h
  · exact absurd h (by simp)
  split at h
  · split at h
    · exact absurd h (by simp)
    · simp only [Except.ok.injEq, Prod.mk.injEq] at h; rw [← h.2]
  split at h
  · exact absurd h (by simp)
  simp only [bind_ok] at h
  obtain ⟨⟨a, r⟩, -, h⟩ := h
  simp only [pure_eq_ok, Except.ok.injEq, Prod.mk.injEq] at h
  rw [← h.2]

theorem sellLoop_fixed {c d : Cfg} {qs : List ℚ} {s s' : State ν} {ms : List (Mat ν)}
    (f : Fixed d s) (h : sellLoop c qs s = .ok (ms, s')) : Fixed d s' := by
  induction qs generalizing s ms with
  | nil =>
    simp only [sellLoop, Except.ok.injEq, Prod.mk.injEq] at h
    exact h.2 ▸ f
  | cons q qs ih =>
    simp only [sellLoop, bind_ok] at h
    obtain ⟨⟨m, st⟩, h1, ⟨ms', s''⟩, h2, h3⟩ := h
    simp only [pure_eq_ok, Except.ok.injEq, Prod.mk.injEq] at h3
    obtain ⟨rfl, rfl⟩ := h3
    refine ih ?_ h2
    exact ⟨⟨f.isOpen.inventory, f.isOpen.processing, f.isOpen.ready,
      (popEps_cap h1).trans f.isOpen.stocks⟩, f.prefs⟩

theorem buys_fixed {c d : Cfg} {bs : List (Mat ν)} {s s' : State ν}
    (f : Fixed d s) (h : bs.foldlM (addMat c) s = .ok s') : Fixed d s' := by
  induction bs generalizing s with
  | nil =>
    simp only [List.foldlM_nil, pure_eq_ok, Except.ok.injEq] at h
    exact h ▸ f
  | cons m bs ih =>
    simp only [List.foldlM_cons, bind_ok] at h
    obtain ⟨s1, h1, h2⟩ := h
    simp only [addMat, bind_ok, pure_eq_ok, Except.ok.injEq] at h1
    obtain ⟨b, h1, rfl⟩ := h1
    obtain ⟨-, rfl⟩ := Buf.push_ok.1 h1
    refine ih ?_ h2
    exact ⟨⟨f.isOpen.inventory, f.isOpen.processing, f.isOpen.ready, f.isOpen.stocks⟩, f.prefs⟩

theorem beginProcessing_fixed {c d : Cfg} {n : Nat} {s s' : State ν}
    (f : Fixed d s) (h : beginProcessing c n s = .ok s') : Fixed d s' := by
  induction n generalizing s with
  | zero =>
    simp only [beginProcessing, Except.ok.injEq] at h
    exact h ▸ f
  | succ n ih =>
    unfold beginProcessing at h
    split at h
    · simp only [bind_ok] at h
      obtain ⟨⟨m, inv⟩, h1, pr, h2, h3⟩ := h
      obtain ⟨r, rs, -, h1⟩ := Buf.pop_ok.1 h1
      obtain ⟨rfl, rfl⟩ := Prod.mk.injEq .. ▸ h1
      obtain ⟨-, rfl⟩ := Buf.push_ok.1 h2
      refine ih ?_ h3
      exact ⟨⟨f.isOpen.inventory, f.isOpen.processing, f.isOpen.ready, f.isOpen.stocks⟩, f.prefs⟩
    · simp only [Except.ok.injEq] at h
      exact h ▸ f

theorem tockReady_fixed {c d : Cfg} {s s' : State ν}
    (f : Fixed d s) (h : tockReady c s = .ok s') : Fixed d s' := by
  unfold tockReady at h
  split at h
  · simp only [readyMatl, bind_ok, pure_eq_ok, Except.ok.injEq] at h
    obtain ⟨⟨ms, pr⟩, h1, rd, h2, rfl⟩ := h
    obtain ⟨-, h1⟩ := Buf.popN_ok.1 h1
    obtain ⟨rfl, rfl⟩ := Prod.mk.injEq .. ▸ h1
    obtain ⟨-, rfl⟩ := Buf.pushAll_ok.1 h2
    exact ⟨⟨f.isOpen.inventory, f.isOpen.processing, f.isOpen.ready, f.isOpen.stocks⟩, f.prefs⟩
  · simp only [Except.ok.injEq] at h
    exact h ▸ f

theorem discreteLoop_fixed {c d : Cfg} {q r : ℚ} {n : Nat} {s s' : State ν}
    (f : Fixed d s) (h : discreteLoop c q n r s = .ok s') : Fixed d s' := by
  induction n generalizing s r with
  | zero =>
    simp only [discreteLoop, Except.ok.injEq] at h
    exact h ▸ f
  | succ n ih =>
    unfold discreteLoop at h
    split at h
    · simp only [bind_ok] at h
      obtain ⟨⟨m, inv⟩, h1, pr, h2, h3⟩ := h
      obtain ⟨r, rs, -, h1⟩ := Buf.pop_ok.1 h1
      obtain ⟨rfl, rfl⟩ := Prod.mk.injEq .. ▸ h1
      obtain ⟨-, rfl⟩ := Buf.push_ok.1 h2
      refine ih ?_ h3
      exact ⟨⟨f.isOpen.inventory, f.isOpen.processing, f.isOpen.ready, f.isOpen.stocks⟩, f.prefs⟩
    · simp only [Except.ok.injEq] at h
      exact h ▸ f

theorem processMat_fixed {c d : Cfg} {q : ℚ} {s s' : State ν}
    (f : Fixed d s) (h : processMat c q s = .ok s') : Fixed d s' := by
  unfold processMat at h
  split at h
  · simp only [Except.ok.injEq] at h
    exact h ▸ f
  dsimp only at h
  split at h
  · split at h
    · simp only [bind_ok, pure_eq_ok, Except.ok.injEq] at h
      obtain ⟨⟨ms, pr⟩, h1, rd, h2, rfl⟩ := h
      obtain ⟨-, h1⟩ := Buf.popN_ok.1 h1
      obtain ⟨rfl, rfl⟩ := Prod.mk.injEq .. ▸ h1
      obtain ⟨-, rfl⟩ := Buf.pushAll_ok.1 h2
      exact ⟨⟨f.isOpen.inventory, f.isOpen.processing, f.isOpen.ready, f.isOpen.stocks⟩, f.prefs⟩
    · exact discreteLoop_fixed f h
  · simp only [bind_ok, pure_eq_ok, Except.ok.injEq] at h
    obtain ⟨⟨ms, pr⟩, h1, rd, h2, rfl⟩ := h
    obtain ⟨-, rfl⟩ := Buf.push_ok.1 h2
    exact ⟨⟨f.isOpen.inventory, f.isOpen.processing, (popEps_cap h1).trans f.isOpen.ready,
      f.isOpen.stocks⟩, f.prefs⟩

theorem step_fixed {c d : Cfg} {s s' : State ν} {i : In ν} {o : Out ν}
    (f : Fixed d s) (h : step c s i = .ok (o, s')) : Fixed d s' := by
  simp only [step, tock, bind_ok, pure_eq_ok, Except.ok.injEq, Prod.mk.injEq] at h
  obtain ⟨⟨ms, s1⟩, h1, s2, h2, ⟨rep, s3⟩, ⟨s4, h4, s5, h5, s6, h6, _, _, _, _, h7⟩, -, rfl⟩ := h
  simp only [Prod.mk.injEq] at h7
  obtain ⟨-, rfl⟩ := h7
  have f3 := processMat_fixed (tockReady_fixed (beginProcessing_fixed
    (buys_fixed (sellLoop_fixed f h1) h2) h4) h5) h6
  exact ⟨⟨f3.isOpen.inventory, f3.isOpen.processing, f3.isOpen.ready, f3.isOpen.stocks⟩, f3.prefs⟩

theorem run_fixed {c d : Cfg} {is : List (In ν)} {s s' : State ν} {os : List (Out ν)}
    (f : Fixed d s) (h : run c s is = .ok (os, s')) : Fixed d s' := by
  induction is generalizing s os with
  | nil =>
    simp only [run, Except.ok.injEq, Prod.mk.injEq] at h
    exact h.2 ▸ f
  | cons i is ih =>
    simp only [run, bind_ok, pure_eq_ok, Except.ok.injEq, Prod.mk.injEq] at h
    obtain ⟨⟨o, s1⟩, h1, ⟨os', s2⟩, h2, -, rfl⟩ := h
    exact ih (step_fixed f h1) h2

/-- What a successful deployment establishes. -/
theorem enter_fixed {c : Cfg} {p : Policy} {s : State ν} (h : enter c = .ok (p, s)) :
    Fixed c s ∧ choosePolicy c = .ok p ∧ checkRecipe c = .ok () ∧ c.outCommods.length = 1 := by
  simp only [enter, bind_ok] at h
  obtain ⟨p', h1, u, h2, pr, h3, h4⟩ := h
  split at h4
  · exact absurd h4 (by simp)
  · rename_i h5
    simp only [pure_eq_ok, Except.ok.injEq, Prod.mk.injEq] at h4
    obtain ⟨rfl, rfl⟩ := h4
    exact ⟨⟨⟨rfl, rfl, rfl, rfl⟩, h3⟩, h1, h2, not_not.1 h5⟩

end Cyc.Storage
