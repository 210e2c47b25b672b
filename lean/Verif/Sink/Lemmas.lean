import Verif.Sink.Spec

/-!
# Lemmas about `Sink`
-/

namespace Cyc.Sink

/-- What holds in every reachable state. -/
structure Inv (c : Cfg) (s : State) : Prop where
  cap : s.inventory.cap = some c.maxInv
  prefs : s.prefs = prefsOf c
  length : (prefsOf c).length = c.commods.length

theorem Inv.space {c : Cfg} {s : State} (I : Inv c s) : spaceAvailable c s = room c s := by
  unfold spaceAvailable room Buf.space
  rw [I.cap]
  simp only [Option.map_some, Option.getD_some]
  rw [max_eq_right (le_max_left _ _)]
  rfl

theorem room_nonneg {c : Cfg} (V : Valid c) (s : State) : 0 ≤ room c s :=
  le_min V.capacity (le_max_left _ _)

theorem setPrefs_ok {c : Cfg} {ps : List ℚ} (h : setPrefs c c.prefs = .ok ps) :
    ps = prefsOf c ∧ (prefsOf c).length = c.commods.length := by
  unfold setPrefs at h
  unfold prefsOf
  split at h
  · rename_i h0
    have : c.prefs = [] := List.length_eq_zero_iff.1 h0
    rw [if_pos this]
    simp only [Except.ok.injEq] at h
    rw [← h, List.map_const']
    simp
  · rename_i h0
    have : c.prefs ≠ [] := fun h => h0 (by rw [h]; rfl)
    rw [if_neg this]
    split at h
    · cases h
    · rename_i h1
      simp only [Except.ok.injEq] at h
      exact ⟨h.symm, not_not.1 h1⟩

theorem setRequestAmt_ok {c : Cfg} {g : Rng} {s s' : State} (h : setRequestAmt c g s = .ok s') :
    ∃ a, Size c g (spaceAvailable c s) a ∧ s' = { s with requestAmt := a } := by
  unfold setRequestAmt at h
  unfold Size
  simp only at h
  split at h
  · rename_i h0
    simp only [pure_eq_ok, Except.ok.injEq] at h
    refine ⟨_, ?_, h.symm⟩
    rw [h0]; simp
  · split at h
    · rename_i h1
      simp only [bind_ok, pure_eq_ok, Except.ok.injEq] at h
      obtain ⟨q, hq, h⟩ := h
      exact ⟨q, by rw [if_pos h1]; exact hq, h.symm⟩
    · rename_i h1
      split at h
      · rename_i h2
        simp only [bind_ok, pure_eq_ok, Except.ok.injEq] at h
        obtain ⟨q, hq, h⟩ := h
        exact ⟨q, by rw [if_neg h1, if_pos h2]; exact hq, h.symm⟩
      · rename_i h2
        simp only [pure_eq_ok, Except.ok.injEq] at h
        exact ⟨_, by rw [if_neg h1, if_neg h2], h.symm⟩

theorem setRequestAmt_of_size {c : Cfg} {g : Rng} {s : State} {a : ℚ}
    (h : Size c g (spaceAvailable c s) a) :
    setRequestAmt c g s = .ok { s with requestAmt := a } := by
  unfold setRequestAmt
  unfold Size at h
  simp only
  split at h
  · rename_i h1
    rw [h1, if_neg (by decide), if_pos rfl, h]; rfl
  · rename_i h1
    split at h
    · rename_i h2
      rw [h2, if_neg (by decide), if_neg (by decide), if_pos rfl, h]; rfl
    · rename_i h2
      split
      · rw [h]; rfl
      · rw [h]; rfl

theorem Size.range {c : Cfg} {g : Rng} {r a : ℚ} (S : Sound g) (h : Size c g r a) (hr : 0 ≤ r) :
    0 ≤ a ∧ a ≤ r := by
  unfold Size at h
  split at h
  · exact S.uniformReal h
  · split at h
    · exact S.normalReal h
    · rw [h]; exact ⟨hr, le_refl _⟩

theorem addInt_ok {a b n : ℤ} (h : addInt a b = .ok n) : n = a + b ∧ a + b ≤ intMax := by
  unfold addInt at h
  split at h
  · rename_i h0
    simp only [Except.ok.injEq] at h
    exact ⟨h.symm, h0⟩
  · cases h

theorem setNextBuyTime_ok {c : Cfg} {g : Rng} {t : ℤ} {s s' : State}
    (h : setNextBuyTime c g t s = .ok s') :
    ∃ n, s' = { s with nextBuy := n } ∧ (RandomTime c → ∃ d, Interval c g d ∧ n = t + d) ∧
      (¬ RandomTime c → n = -1) := by
  unfold setNextBuyTime at h
  unfold RandomTime Interval
  split at h
  · rename_i h0
    simp only [pure_eq_ok, Except.ok.injEq] at h
    refine ⟨-1, h.symm, ?_, fun _ => rfl⟩
    rw [h0]; intro hh; simp at hh
  · split at h
    · rename_i h1
      simp only [bind_ok, pure_eq_ok, Except.ok.injEq] at h
      obtain ⟨d, hd, n, hn, h⟩ := h
      exact ⟨n, h.symm, fun _ => ⟨d, Or.inl ⟨h1, hd⟩, (addInt_ok hn).1⟩,
        fun hh => absurd (Or.inl h1) hh⟩
    · rename_i h1
      split at h
      · rename_i h2
        simp only [bind_ok, pure_eq_ok, Except.ok.injEq] at h
        obtain ⟨d, hd, n, hn, h⟩ := h
        exact ⟨n, h.symm, fun _ => ⟨d, Or.inr ⟨h2, hd⟩, (addInt_ok hn).1⟩,
          fun hh => absurd (Or.inr h2) hh⟩
      · rename_i h2
        simp only [pure_eq_ok, Except.ok.injEq] at h
        exact ⟨-1, h.symm, fun hh => absurd hh (by rintro (h | h) <;> contradiction), fun _ => rfl⟩

theorem Interval.unique {c : Cfg} {g : Rng} {d d' : ℤ} (h : Interval c g d)
    (h' : Interval c g d') : d = d' := by
  rcases h with ⟨h1, h2⟩ | ⟨h1, h2⟩ <;> rcases h' with ⟨h3, h4⟩ | ⟨h3, h4⟩
  · rw [h2] at h4; exact Except.ok.inj h4
  · rw [h1] at h3; simp at h3
  · rw [h1] at h3; simp at h3
  · rw [h2] at h4; exact Except.ok.inj h4

theorem Interval.range {c : Cfg} {g : Rng} {d : ℤ} (S : Sound g) (h : Interval c g d) :
    c.freqMin ≤ d ∧ d ≤ c.freqMax := by
  rcases h with ⟨-, h⟩ | ⟨-, h⟩
  · exact S.uniformInt h
  · exact S.normalInt h

/-- What entering does. -/
theorem enter_ok {c : Cfg} {g : Rng} {t : ℤ} {s : State} (h : enter c g t = .ok s) :
    Inv c s ∧ s.inventory.items = [] ∧
      (RandomTime c → ∃ d, Interval c g d ∧ s.nextBuy = t + d) ∧
      (¬ RandomTime c → s.nextBuy = -1) := by
  simp only [enter, enterWith, bind_ok] at h
  obtain ⟨ps, h1, s₁, h2, h3⟩ := h
  obtain ⟨a, -, rfl⟩ := setRequestAmt_ok h2
  obtain ⟨n, rfl, h4, h5⟩ := setNextBuyTime_ok h3
  obtain ⟨rfl, h6⟩ := setPrefs_ok h1
  exact ⟨⟨rfl, rfl, h6⟩, rfl, h4, h5⟩

/-- A purchase is made in this step. -/
def Buys (s : State) (t : ℤ) : Prop := s.nextBuy = -1 ∨ s.nextBuy = t

/-- What a tick does. -/
theorem tick_ok {c : Cfg} {g : Rng} {t : ℤ} {s s' : State} (I : Inv c s)
    (h : tickAmt c g t s = .ok s') :
    ∃ a n, s' = { s with requestAmt := a, nextBuy := n } ∧
      (Buys s t → Size c g (room c s) a) ∧ (¬ Buys s t → a = 0 ∧ n = s.nextBuy) ∧
      (s.nextBuy = -1 → n = -1) ∧
      (s.nextBuy = t → s.nextBuy ≠ -1 → (RandomTime c → ∃ d, Interval c g d ∧ n = t + d) ∧
        (¬ RandomTime c → n = -1)) := by
  unfold tickAmt at h
  split at h
  · rename_i h0
    obtain ⟨a, ha, rfl⟩ := setRequestAmt_ok h
    rw [I.space] at ha
    exact ⟨a, s.nextBuy, rfl, fun _ => ha, fun hh => absurd (Or.inl h0) hh, fun _ => h0,
      fun _ h1 => absurd h0 h1⟩
  · rename_i h0
    split at h
    · rename_i h1
      simp only [bind_ok] at h
      obtain ⟨s₁, h2, h3⟩ := h
      obtain ⟨a, ha, rfl⟩ := setRequestAmt_ok h2
      obtain ⟨n, rfl, h4, h5⟩ := setNextBuyTime_ok h3
      rw [I.space] at ha
      exact ⟨a, n, rfl, fun _ => ha, fun hh => absurd (Or.inr h1) hh, fun hh => absurd hh h0,
        fun _ _ => ⟨h4, h5⟩⟩
    · rename_i h1
      simp only [pure_eq_ok, Except.ok.injEq] at h
      refine ⟨0, s.nextBuy, by rw [← h], fun hh => ?_, fun _ => ⟨rfl, rfl⟩, fun hh => absurd hh h0,
        fun hh => absurd hh h1⟩
      rcases hh with hh | hh <;> contradiction

theorem accept_ok {c : Cfg} {rs : List Res} {s s' : State} (h : accept c rs s = .ok s') :
    s' = { s with inventory := { s.inventory with items := s.inventory.items ++ rs } } := by
  induction rs generalizing s with
  | nil =>
    simp only [accept, Except.ok.injEq] at h
    rw [← h]; simp
  | cons r rs ih =>
    simp only [accept, bind_ok] at h
    obtain ⟨b, h1, h2⟩ := h
    rw [Buf.push_ok] at h1
    rw [ih h2, h1.2]
    simp

theorem reqLoop_eq {ks : List String} {ps : List ℚ} (h : ps.length = ks.length) :
    reqLoop ks ps = .ok (ks.zip ps) := by
  induction ks generalizing ps with
  | nil => rfl
  | cons k ks ih =>
    cases ps with
    | nil => simp at h
    | cons p ps =>
      simp only [reqLoop, ih (by simpa using h), ok_bind]
      rfl

/-- The observation of a step in which the amount `a` was chosen. -/
def outOf (c : Cfg) (a : ℚ) : Out :=
  ⟨if a > c.eps then c.commods.map fun k => (k, a) else [],
   if a > c.eps then some ⟨target c a, c.commods.zip (prefsOf c)⟩ else none,
   if a > c.eps then some ⟨c.commods.map fun k => (k, a), a⟩ else none⟩

theorem matlPort_eq {c : Cfg} {s : State} (I : Inv c s) :
    matlPort c s = .ok (outOf c s.requestAmt).matl := by
  unfold matlPort outOf
  split
  · rw [reqLoop_eq (by rw [I.prefs]; exact I.length), I.prefs]; rfl
  · rfl

/-- What a step does. -/
theorem step_ok {c : Cfg} (V : Valid c) {t : ℤ} {s s' : State} {i : In} {o : Out} (I : Inv c s)
    (S : Sound i.rng) (h : step c t s i = .ok (o, s')) :
    ∃ a n, tickAmt c i.rng t s = .ok { s with requestAmt := a, nextBuy := n } ∧
      0 ≤ a ∧ a ≤ room c s ∧ o = outOf c a ∧
      s' = { s with
        requestAmt := a
        nextBuy := n
        inventory := { s.inventory with items := s.inventory.items ++ delivered i } } := by
  simp only [step, matlRequests, bind_ok] at h
  obtain ⟨s₁, h1, ⟨m, s₂⟩, ⟨s₃, h2, p, h3, h4⟩, s₄, h5, s₅, h6, h7⟩ := h
  obtain ⟨a, n, rfl, k1, k2, -, -⟩ := tick_ok I h1
  simp only [pure_eq_ok, Except.ok.injEq, Prod.mk.injEq] at h4 h7
  obtain ⟨rfl, rfl⟩ := h4
  obtain ⟨rfl, rfl⟩ := h7
  have hr := room_nonneg V s
  have ha : 0 ≤ a ∧ a ≤ room c s := by
    by_cases hb : Buys s t
    · exact (k1 hb).range S hr
    · rw [(k2 hb).1]; exact ⟨le_refl _, hr⟩
  have I₁ : Inv c { s with requestAmt := a, nextBuy := n } := ⟨I.cap, I.prefs, I.length⟩
  have e : s₃ = { s with requestAmt := a, nextBuy := n } := by
    unfold readjust at h2
    rw [I₁.space, if_neg (by exact not_lt.2 ha.2)] at h2
    exact (Except.ok.inj h2).symm
  subst e
  rw [matlPort_eq I₁] at h3
  have h3 := Except.ok.inj h3
  have h5 := accept_ok h5
  have h6 := accept_ok h6
  subst h5 h6
  refine ⟨a, n, h1, ha.1, ha.2, ?_, ?_⟩
  · rw [← h3]
    rfl
  · simp [delivered]

theorem run_append {c : Cfg} {t : ℤ} {s s' : State} {is js : List In} {os : List Out} :
    run c t s (is ++ js) = .ok (os, s') ↔
      ∃ o₁ s₁ o₂, run c t s is = .ok (o₁, s₁) ∧ run c (t + is.length) s₁ js = .ok (o₂, s') ∧
        os = o₁ ++ o₂ := by
  induction is generalizing t s os with
  | nil =>
    simp only [List.nil_append, run, Except.ok.injEq, Prod.mk.injEq]
    constructor
    · intro h; exact ⟨[], s, os, ⟨rfl, rfl⟩, by simpa using h, rfl⟩
    · rintro ⟨_, _, o₂, ⟨rfl, rfl⟩, h, rfl⟩
      simpa using h
  | cons i is ih =>
    simp only [List.cons_append, run, bind_ok, pure_eq_ok, Except.ok.injEq, Prod.mk.injEq]
    constructor
    · rintro ⟨⟨o, s₁⟩, h1, ⟨os', s₂⟩, h2, rfl, rfl⟩
      obtain ⟨o₁, s₃, o₂, h3, h4, rfl⟩ := ih.1 h2
      refine ⟨o :: o₁, s₃, o₂, ⟨⟨o, s₁⟩, h1, ⟨o₁, s₃⟩, h3, rfl, rfl⟩, ?_, rfl⟩
      rw [← h4]; congr 1; push_cast [List.length_cons]; ring
    · rintro ⟨_, _, o₂, ⟨⟨o, s₁⟩, h1, ⟨o₁, s₃⟩, h3, rfl, rfl⟩, h4, rfl⟩
      refine ⟨⟨o, s₁⟩, h1, ⟨o₁ ++ o₂, s'⟩, ih.2 ⟨o₁, s₃, o₂, h3, ?_, rfl⟩, rfl, rfl⟩
      rw [← h4]; congr 1; push_cast [List.length_cons]; ring

theorem run_one {c : Cfg} {t : ℤ} {s s' : State} {i : In} {os : List Out} :
    run c t s [i] = .ok (os, s') ↔ ∃ o, step c t s i = .ok (o, s') ∧ os = [o] := by
  simp only [run, bind_ok, pure_eq_ok, Except.ok.injEq, Prod.mk.injEq]
  constructor
  · rintro ⟨⟨o, s₁⟩, h1, ⟨os', s₂⟩, ⟨rfl, rfl⟩, rfl, rfl⟩
    exact ⟨o, h1, rfl⟩
  · rintro ⟨o, h, rfl⟩
    exact ⟨⟨o, s'⟩, h, ⟨[], s'⟩, rfl, rfl, rfl⟩

theorem history_snoc {c : Cfg} {g : Rng} {t : ℤ} {is : List In} {i : In} {os : List Out}
    {s' : State} (h : History c g t (is ++ [i]) os s') :
    ∃ os' s o, History c g t is os' s ∧ step c (t + is.length) s i = .ok (o, s') ∧
      os = os' ++ [o] := by
  obtain ⟨s₀, h0, h1⟩ := h
  obtain ⟨o₁, s₁, o₂, h2, h3, rfl⟩ := run_append.1 h1
  obtain ⟨o, h4, rfl⟩ := run_one.1 h3
  exact ⟨o₁, s₁, o, ⟨s₀, h0, h2⟩, h4, rfl⟩

theorem AllSound.init {g : Rng} {is : List In} {i : In} (h : AllSound g (is ++ [i])) :
    AllSound g is ∧ Sound i.rng :=
  ⟨⟨h.1, fun j hj => h.2 j (by simp [hj])⟩, (h.2 i (by simp)).1⟩

theorem history_inv {c : Cfg} (V : Valid c) {g : Rng} {t : ℤ} {is : List In} {os : List Out}
    {s : State} (h : History c g t is os s) (S : AllSound g is) :
    Inv c s ∧ s.inventory.items = is.flatMap delivered := by
  induction is using List.reverseRecOn generalizing os s with
  | nil =>
    obtain ⟨s₀, h0, h1⟩ := h
    simp only [run, Except.ok.injEq, Prod.mk.injEq] at h1
    obtain ⟨-, rfl⟩ := h1
    obtain ⟨I, e, -⟩ := enter_ok h0
    exact ⟨I, e⟩
  | append_singleton is i ih =>
    obtain ⟨os', s₁, o, h1, h2, -⟩ := history_snoc h
    obtain ⟨S1, S2⟩ := S.init
    obtain ⟨I, e⟩ := ih h1 S1
    obtain ⟨a, n, -, -, -, -, rfl⟩ := step_ok V I S2 h2
    refine ⟨⟨I.cap, I.prefs, I.length⟩, ?_⟩
    simp [e]

/-- Without random times a purchase is made in every step. -/
theorem history_always {c : Cfg} (V : Valid c) {g : Rng} {t : ℤ} {is : List In} {os : List Out}
    {s : State} (h : History c g t is os s) (S : AllSound g is) (hr : ¬ RandomTime c) :
    s.nextBuy = -1 := by
  induction is using List.reverseRecOn generalizing os s with
  | nil =>
    obtain ⟨s₀, h0, h1⟩ := h
    simp only [run, Except.ok.injEq, Prod.mk.injEq] at h1
    obtain ⟨-, rfl⟩ := h1
    exact (enter_ok h0).2.2.2 hr
  | append_singleton is i ih =>
    obtain ⟨os', s₁, o, h1, h2, -⟩ := history_snoc h
    obtain ⟨S1, S2⟩ := S.init
    have e := ih h1 S1
    obtain ⟨I, -⟩ := history_inv V h1 S1
    obtain ⟨a, n, h3, -, -, -, rfl⟩ := step_ok V I S2 h2
    obtain ⟨a', n', e', -, -, k, -⟩ := tick_ok I h3
    simp only [State.mk.injEq] at e'
    show n = -1
    rw [e'.2.2.1]
    exact k e

theorem Due.mono {c : Cfg} {g : Rng} {t₀ τ : ℤ} {is : List In} {i : In}
    (h : Due c g t₀ is τ) : Due c g t₀ (is ++ [i]) τ := by
  induction h with
  | first h => exact .first h
  | next _ h1 h2 ih =>
    refine .next ih ?_ h2
    rw [List.getElem?_append_left]
    · exact h1
    · exact (List.getElem?_eq_some_iff.1 h1).1

theorem Due.snoc {c : Cfg} {g : Rng} {t₀ τ : ℤ} {is : List In} {i : In}
    (h : Due c g t₀ (is ++ [i]) τ) (hp : ∀ d, Interval c i.rng d → 1 ≤ d) :
    Due c g t₀ is τ ∨ ∃ d, Due c g t₀ is (t₀ + is.length) ∧ Interval c i.rng d ∧
      τ = t₀ + is.length + d := by
  induction h with
  | first h => exact Or.inl (.first h)
  | @next d k j hd hj hint ih =>
    have hk : k < (is ++ [i]).length := (List.getElem?_eq_some_iff.1 hj).1
    rw [List.length_append, List.length_singleton] at hk
    have hdue : Due c g t₀ is (t₀ + k) := by
      rcases ih with ih | ⟨d', -, h2, h3⟩
      · exact ih
      · have := hp d' h2
        omega
    rcases Nat.lt_or_ge k is.length with hlt | hge
    · rw [List.getElem?_append_left hlt] at hj
      exact Or.inl (.next hdue hj hint)
    · have : k = is.length := by omega
      subst this
      right
      have : j = i := by
        rw [List.getElem?_append_right (le_refl _)] at hj
        simpa using hj.symm
      subst this
      exact ⟨d, hdue, hint, rfl⟩

/-- With random times, `nextBuyTime` is the next time at which a purchase is due. -/
theorem history_due {c : Cfg} (V : Valid c) {g : Rng} {t : ℤ} {is : List In} {os : List Out}
    {s : State} (h : History c g t is os s) (S : AllSound g is) (hr : RandomTime c) (ht : 0 ≤ t)
    (hm : 1 ≤ c.freqMin) :
    t + is.length ≤ s.nextBuy ∧ Due c g t is s.nextBuy ∧
      ∀ τ, t + is.length ≤ τ → Due c g t is τ → τ = s.nextBuy := by
  induction is using List.reverseRecOn generalizing os s with
  | nil =>
    obtain ⟨s₀, h0, h1⟩ := h
    simp only [run, Except.ok.injEq, Prod.mk.injEq] at h1
    obtain ⟨-, rfl⟩ := h1
    obtain ⟨d, hd, e⟩ := (enter_ok h0).2.2.1 hr
    rw [e]
    have := (hd.range S.1).1
    refine ⟨by simp only [List.length_nil, Nat.cast_zero]; omega, .first hd, fun τ _ hτ => ?_⟩
    cases hτ with
    | first hd' => rw [hd.unique hd']
    | next _ h _ => simp at h
  | append_singleton is i ih =>
    obtain ⟨os', s₁, o, h1, h2, -⟩ := history_snoc h
    obtain ⟨S1, S2⟩ := S.init
    obtain ⟨i1, i2, i3⟩ := ih h1 S1
    obtain ⟨I, -⟩ := history_inv V h1 S1
    obtain ⟨a, n, h3, -, -, -, rfl⟩ := step_ok V I S2 h2
    obtain ⟨a', n', e', -, k2, k3, k4⟩ := tick_ok I h3
    simp only [State.mk.injEq] at e'
    obtain ⟨-, -, rfl, -⟩ := e'
    have hpos : ∀ d, Interval c i.rng d → 1 ≤ d := fun d hd => le_trans hm (hd.range S2).1
    simp only [List.length_append, List.length_singleton]
    push_cast
    by_cases hb : s₁.nextBuy = t + is.length
    · obtain ⟨d, hd, rfl⟩ := (k4 hb (by omega)).1 hr
      have := hpos d hd
      refine ⟨by omega, .next (by rw [← hb]; exact i2.mono) (by simp) hd, fun τ hτ hdue => ?_⟩
      rcases hdue.snoc hpos with hh | ⟨d', -, h5, rfl⟩
      · have := i3 τ (by omega) hh
        omega
      · rw [hd.unique h5]
    · have hne : ¬ Buys s₁ (t + is.length) := by
        rintro (hh | hh)
        · omega
        · exact hb hh
      obtain ⟨-, rfl⟩ := k2 hne
      refine ⟨by omega, i2.mono, fun τ hτ hdue => ?_⟩
      rcases hdue.snoc hpos with hh | ⟨d', h5, -, -⟩
      · exact i3 τ (by omega) hh
      · exact absurd (i3 _ (le_refl _) h5).symm hb

theorem qty_target {c : Cfg} (V : Valid c) (a : ℚ) : qty (target c a) = a := by
  unfold target
  cases h : c.recipe with
  | none =>
    show Mat.quantity ⟨[(0, a)]⟩ = a
    simp [Mat.quantity]
  | some r =>
    simp only
    rw [Mat.qty_scale]
    have := ne_of_gt (V.recipe r h)
    field_simp

theorem asks_outOf {c : Cfg} (V : Valid c) {a : ℚ} (h : c.eps < a) : Asks c (outOf c a) a := by
  refine ⟨by simp [outOf, h], ⟨⟨target c a, c.commods.zip (prefsOf c)⟩, by simp [outOf, h],
    qty_target V a, rfl, fun r hr n => ?_⟩, by simp [outOf, h]⟩
  show (target c a).mass n * qty r = qty (target c a) * r.mass n
  rw [qty_target V]
  unfold target
  rw [hr]
  simp only
  rw [Mat.mass_scale]
  have := ne_of_gt (V.recipe r hr)
  field_simp

theorem silent_outOf {c : Cfg} {a : ℚ} (h : a ≤ c.eps) : Silent (outOf c a) := by
  have : ¬ a > c.eps := not_lt.2 h
  exact ⟨by simp [outOf, this], by simp [outOf, this], by simp [outOf, this]⟩

theorem asked_outOf {c : Cfg} (V : Valid c) {a : ℚ} (h0 : 0 ≤ a) :
    0 ≤ askedMatl (outOf c a) ∧ askedMatl (outOf c a) ≤ a ∧
      0 ≤ askedProd (outOf c a) ∧ askedProd (outOf c a) ≤ a := by
  have := V.eps
  by_cases h : a > c.eps
  · simp only [askedMatl, askedProd, outOf, h, if_true]
    rw [qty_target V]
    exact ⟨h0, le_refl _, h0, le_refl _⟩
  · simp only [askedMatl, askedProd, outOf, h, if_false]
    exact ⟨le_refl _, h0, le_refl _, h0⟩

theorem delivered_total (i : In) :
    totalQty (delivered i) = totalQty i.mats + (i.prods.map Prod.snd).sum := by
  unfold delivered
  rw [totalQty_append]
  congr 1
  · unfold totalQty; rw [List.map_map]; rfl
  · unfold totalQty; rw [List.map_map]; rfl

/-- Deliveries that fit are accepted. -/
theorem accept_fits {c : Cfg} (V : Valid c) {rs : List Res} {s : State} (I : Inv c s)
    (h0 : ∀ r ∈ rs, 0 ≤ qty r) (hs : totalQty rs ≤ max 0 (c.maxInv - held s)) :
    ∃ s', accept c rs s = .ok s' := by
  induction rs generalizing s with
  | nil => exact ⟨s, rfl⟩
  | cons r rs ih =>
    have hr := h0 r (by simp)
    have hrs : 0 ≤ totalQty rs := by
      unfold totalQty
      apply List.sum_nonneg
      intro x hx
      obtain ⟨y, hy, rfl⟩ := List.mem_map.1 hx
      exact h0 y (by simp [hy])
    rw [totalQty_cons] at hs
    have he := V.epsRsrc
    have hf : s.inventory.fits c.epsRsrc (qty r) = true := by
      unfold Buf.fits Buf.space
      rw [I.cap]
      simp only [Option.map_some, decide_eq_true_eq]
      have : max 0 (c.maxInv - s.inventory.quantity) = max 0 (c.maxInv - held s) := rfl
      rw [this]
      linarith
    have hp : s.inventory.push c.epsRsrc r =
        .ok { s.inventory with items := s.inventory.items ++ [r] } := by
      rw [Buf.push_ok]; exact ⟨hf, rfl⟩
    have hheld : held { s with inventory := { s.inventory with
        items := s.inventory.items ++ [r] } } = held s + qty r := by
      unfold held; simp
    obtain ⟨s', h⟩ := ih (s := { s with inventory := { s.inventory with
        items := s.inventory.items ++ [r] } }) ⟨I.cap, I.prefs, I.length⟩
      (fun x hx => h0 x (by simp [hx])) (by
        rw [hheld]
        rcases le_total (c.maxInv - held s) 0 with hle | hle
        · rw [max_eq_left hle] at hs
          exact le_trans (by linarith) (le_max_left _ _)
        · rw [max_eq_right hle] at hs
          exact le_trans (by linarith) (le_max_right _ _))
    exact ⟨s', by simp only [accept, hp, ok_bind, h]⟩

/-- A step without deliveries succeeds if its tick does. -/
theorem step_quiet {c : Cfg} (V : Valid c) {t : ℤ} {s : State} {i : In} {a : ℚ} {n : ℤ}
    (I : Inv c s) (S : Sound i.rng)
    (h : tickAmt c i.rng t s = .ok { s with requestAmt := a, nextBuy := n }) :
    0 ≤ a ∧ a ≤ room c s ∧
    step c t s { i with mats := [], prods := [] } =
      .ok (outOf c a, { s with requestAmt := a, nextBuy := n }) := by
  obtain ⟨a', n', e, k1, k2, -, -⟩ := tick_ok I h
  simp only [State.mk.injEq] at e
  obtain ⟨-, rfl, rfl, -⟩ := e
  have hr := room_nonneg V s
  have ha : 0 ≤ a ∧ a ≤ room c s := by
    by_cases hb : Buys s t
    · exact (k1 hb).range S hr
    · rw [(k2 hb).1]; exact ⟨le_refl _, hr⟩
  have I₁ : Inv c { s with requestAmt := a, nextBuy := n } := ⟨I.cap, I.prefs, I.length⟩
  refine ⟨ha.1, ha.2, ?_⟩
  have e1 : readjust c i.rng' { s with requestAmt := a, nextBuy := n } =
      .ok { s with requestAmt := a, nextBuy := n } := by
    unfold readjust
    rw [I₁.space, if_neg (by exact not_lt.2 ha.2)]; rfl
  simp only [step, h, ok_bind, matlRequests, e1, matlPort_eq I₁, pure_eq_ok, List.map_nil, accept]
  rfl

/-- The same step with deliveries that fit. -/
theorem step_full {c : Cfg} (V : Valid c) {t : ℤ} {s : State} {i : In} {a : ℚ} {n : ℤ}
    (I : Inv c s) (S : Sound i.rng)
    (h : tickAmt c i.rng t s = .ok { s with requestAmt := a, nextBuy := n })
    (h1 : ∀ r ∈ delivered i, 0 ≤ qty r)
    (h2 : totalQty (delivered i) ≤ max 0 (c.maxInv - held s)) :
    ∃ o s', step c t s i = .ok (o, s') := by
  obtain ⟨a', n', e, k1, k2, -, -⟩ := tick_ok I h
  simp only [State.mk.injEq] at e
  obtain ⟨-, rfl, rfl, -⟩ := e
  have hr := room_nonneg V s
  have ha : 0 ≤ a ∧ a ≤ room c s := by
    by_cases hb : Buys s t
    · exact (k1 hb).range S hr
    · rw [(k2 hb).1]; exact ⟨le_refl _, hr⟩
  have I₁ : Inv c { s with requestAmt := a, nextBuy := n } := ⟨I.cap, I.prefs, I.length⟩
  have e1 : readjust c i.rng' { s with requestAmt := a, nextBuy := n } =
      .ok { s with requestAmt := a, nextBuy := n } := by
    unfold readjust
    rw [I₁.space, if_neg (by exact not_lt.2 ha.2)]; rfl
  have hsplit : ∃ s₁, accept c (i.mats.map .mat) { s with requestAmt := a, nextBuy := n } = .ok s₁ ∧
      ∃ s₂, accept c (i.prods.map fun x => .prod x.1 x.2) s₁ = .ok s₂ := by
    obtain ⟨s', hs'⟩ := accept_fits V I₁ h1 h2
    unfold delivered at hs'
    clear h1 h2
    generalize (i.mats.map Res.mat) = l₁ at hs'
    generalize (i.prods.map fun x => Res.prod x.1 x.2) = l₂ at hs'
    generalize ({ s with requestAmt := a, nextBuy := n } : State) = x at hs'
    induction l₁ generalizing x with
    | nil => exact ⟨x, rfl, s', hs'⟩
    | cons r l₁ ih =>
      simp only [List.cons_append, accept, bind_ok] at hs'
      obtain ⟨b, hb, hs'⟩ := hs'
      obtain ⟨s₁, h3, h4⟩ := ih _ hs'
      exact ⟨s₁, by simp only [accept, hb, ok_bind, h3], h4⟩
  obtain ⟨s₁, h3, s₂, h4⟩ := hsplit
  refine ⟨⟨demand c { s with requestAmt := a, nextBuy := n }, (outOf c a).matl,
    prodRequests c s₁⟩, s₂, ?_⟩
  simp only [step, h, ok_bind, matlRequests, e1, matlPort_eq I₁, pure_eq_ok, h3, h4]

theorem history_next_nonneg {c : Cfg} (V : Valid c) {g : Rng} {t : ℤ} {is : List In}
    {os : List Out} {s : State} (h : History c g t is os s) (S : AllSound g is)
    (hr : RandomTime c) (ht : 0 ≤ t) (hm : 0 ≤ c.freqMin) : 0 ≤ s.nextBuy := by
  induction is using List.reverseRecOn generalizing os s with
  | nil =>
    obtain ⟨s₀, h0, h1⟩ := h
    simp only [run, Except.ok.injEq, Prod.mk.injEq] at h1
    obtain ⟨-, rfl⟩ := h1
    obtain ⟨d, hd, e⟩ := (enter_ok h0).2.2.1 hr
    have := (hd.range S.1).1
    omega
  | append_singleton is i ih =>
    obtain ⟨os', s₁, o, h1, h2, -⟩ := history_snoc h
    obtain ⟨S1, S2⟩ := S.init
    have i1 := ih h1 S1
    obtain ⟨I, -⟩ := history_inv V h1 S1
    obtain ⟨a, n, h3, -, -, -, rfl⟩ := step_ok V I S2 h2
    obtain ⟨a', n', e', -, k2, k3, k4⟩ := tick_ok I h3
    simp only [State.mk.injEq] at e'
    obtain ⟨-, -, rfl, -⟩ := e'
    show 0 ≤ n
    by_cases hb : s₁.nextBuy = t + is.length
    · obtain ⟨d, hd, rfl⟩ := (k4 hb (by omega)).1 hr
      have := (hd.range S2).1
      omega
    · have hne : ¬ Buys s₁ (t + is.length) := by
        rintro (hh | hh)
        · omega
        · exact hb hh
      obtain ⟨-, rfl⟩ := k2 hne
      exact i1

/-- Once the next purchase is in the past, there is none. -/
theorem run_missed {c : Cfg} (V : Valid c) {t : ℤ} {is : List In} {os : List Out} {s s' : State}
    (I : Inv c s) (S : ∀ i ∈ is, Sound i.rng) (h0 : 0 ≤ s.nextBuy) (h1 : s.nextBuy < t)
    (h : run c t s is = .ok (os, s')) : ∀ o ∈ os, Silent o := by
  induction is generalizing t s os with
  | nil =>
    simp only [run, Except.ok.injEq, Prod.mk.injEq] at h
    rw [← h.1]; simp
  | cons i is ih =>
    simp only [run, bind_ok] at h
    obtain ⟨⟨o, s₁⟩, h2, ⟨os, s₂⟩, h3, h⟩ := h
    simp only [pure_eq_ok, Except.ok.injEq, Prod.mk.injEq] at h
    obtain ⟨rfl, rfl⟩ := h
    obtain ⟨a, n, h4, -, -, rfl, rfl⟩ := step_ok V I (S i (by simp)) h2
    obtain ⟨a', n', e', -, k2, -, -⟩ := tick_ok I h4
    simp only [State.mk.injEq] at e'
    obtain ⟨-, rfl, rfl, -⟩ := e'
    have hne : ¬ Buys s t := by rintro (hh | hh) <;> omega
    obtain ⟨rfl, rfl⟩ := k2 hne
    intro x hx
    rcases List.mem_cons.1 hx with rfl | hx
    · exact silent_outOf (le_of_lt V.eps)
    · exact ih (t := t + 1) (s := { s with
        requestAmt := 0
        nextBuy := s.nextBuy
        inventory := { s.inventory with items := s.inventory.items ++ delivered i } })
        ⟨I.cap, I.prefs, I.length⟩ (fun j hj => S j (by simp [hj])) h0
        (by show s.nextBuy < t + 1; omega) h3 x hx

/-- In an honest step what is delivered fits. -/
theorem honest_fits {c : Cfg} (V : Valid c) {t : ℤ} {s : State} {i : In} (I : Inv c s)
    (S : Sound i.rng) (H : Honest c t s i) {a : ℚ} {n : ℤ}
    (h : tickAmt c i.rng t s = .ok { s with requestAmt := a, nextBuy := n }) :
    (∀ r ∈ delivered i, 0 ≤ qty r) ∧ totalQty (delivered i) ≤ a ∧
      (a ≤ c.eps → totalQty (delivered i) ≤ 0) := by
  obtain ⟨a0, a1, e⟩ := step_quiet V (i := i) I S h
  have h1 := H.mats _ _ e
  have h2 := H.prods _ _ e
  obtain ⟨q1, q2, q3, q4⟩ := asked_outOf V a0
  refine ⟨?_, ?_, ?_⟩
  · intro r hr
    rcases List.mem_append.1 hr with hr | hr
    · obtain ⟨m, hm, rfl⟩ := List.mem_map.1 hr
      exact H.matsNonneg m hm
    · obtain ⟨m, hm, rfl⟩ := List.mem_map.1 hr
      exact H.prodsNonneg m hm
  · rw [delivered_total]
    rcases H.single with e | e
    · rw [e]; simp only [totalQty_nil]; linarith
    · rw [e]; simp only [List.map_nil, List.sum_nil]; linarith
  · intro hle
    have hs := silent_outOf hle
    rw [delivered_total]
    unfold askedMatl at h1
    unfold askedProd at h2
    rw [hs.2.1] at h1
    rw [hs.2.2] at h2
    simp only at h1 h2
    linarith

theorem run_inventory {c : Cfg} (V : Valid c) {t : ℤ} {is : List In} {os : List Out}
    {s s' : State} (I : Inv c s) (S : ∀ i ∈ is, Sound i.rng) (h0 : held s ≤ c.maxInv)
    (H : HonestRun c t s is) (h : run c t s is = .ok (os, s')) : held s' ≤ c.maxInv := by
  induction is generalizing t s os with
  | nil =>
    simp only [run, Except.ok.injEq, Prod.mk.injEq] at h
    rw [← h.2]; exact h0
  | cons i is ih =>
    simp only [run, bind_ok] at h
    obtain ⟨⟨o, s₁⟩, h2, ⟨os, s₂⟩, h3, h⟩ := h
    simp only [pure_eq_ok, Except.ok.injEq, Prod.mk.injEq] at h
    obtain ⟨rfl, rfl⟩ := h
    obtain ⟨H1, H2⟩ := H
    have H2 := H2 _ _ h2
    obtain ⟨a, n, h4, a0, a1, rfl, rfl⟩ := step_ok V I (S i (by simp)) h2
    obtain ⟨-, f, -⟩ := honest_fits V I (S i (by simp)) H1 h4
    refine ih (t := t + 1) (s := { s with
        requestAmt := a
        nextBuy := n
        inventory := { s.inventory with items := s.inventory.items ++ delivered i } })
      ⟨I.cap, I.prefs, I.length⟩ (fun j hj => S j (by simp [hj])) ?_ H2 h3
    show totalQty (s.inventory.items ++ delivered i) ≤ _
    rw [totalQty_append]
    have h5 : room c s ≤ max 0 (c.maxInv - held s) := min_le_right _ _
    rw [max_eq_right (by linarith)] at h5
    unfold held at h5
    linarith

end Cyc.Sink
