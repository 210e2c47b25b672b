import Verif.Age.Basic
import Verif.Sink.Props

/-!
# Deployment at another time: C121 for `Sink`
-/

namespace Cyc.Sink

/-- The same state `d` steps later: so is the next purchase, if it has a time. -/
def State.later (d : Nat) (s : State) : State :=
  { s with nextBuy := if s.nextBuy = -1 then -1 else s.nextBuy + d }

/-- Purchases are due in every step, or the next one is due at or after the start of the simulation. -/
def Due? (s : State) : Prop := s.nextBuy = -1 ∨ 0 ≤ s.nextBuy

variable {c : Cfg} {d : Nat} {s : State}

theorem setRequestAmt_later (g : Rng) :
    setRequestAmt c g (s.later d) = R.then (State.later d) (setRequestAmt c g s) := by
  unfold setRequestAmt
  simp only [then_ite, then_bind]
  rfl

theorem setRequestAmt_next {g : Rng} {s' : State} (h : setRequestAmt c g s = .ok s') :
    s'.nextBuy = s.nextBuy := by
  unfold setRequestAmt at h
  simp only at h
  split at h
  · cases h; rfl
  split at h
  · simp only [bind_ok] at h; obtain ⟨q, -, h⟩ := h; cases h; rfl
  split at h
  · simp only [bind_ok] at h; obtain ⟨q, -, h⟩ := h; cases h; rfl
  · cases h; rfl

/-- The simulation ends early enough for every purchase to have a time. -/
def NoOverflow (c : Cfg) (t : ℤ) : Prop := RandomTime c → t + c.freqMax ≤ intMax

theorem setNext_later {g : Rng} {t : ℤ} (S : Sound g) (hf : RandomTime c → 0 ≤ t + c.freqMin)
    (hm : NoOverflow c (t + d)) :
    setNextBuyTime c g (t + d) (s.later d) = R.then (State.later d) (setNextBuyTime c g t s) ∧
      ∀ s', setNextBuyTime c g t s = .ok s' → Due? s' := by
  have key : ∀ n : ℤ, RandomTime c → c.freqMin ≤ n → n ≤ c.freqMax →
      addInt (t + d) n = .ok (t + n + d) ∧ addInt t n = .ok (t + n) ∧ 0 ≤ t + n := by
    intro n hr h1 h2
    have := hf hr
    have := hm hr
    unfold addInt
    rw [if_pos (by omega), if_pos (by omega)]
    exact ⟨by congr 1; ring, rfl, by omega⟩
  unfold setNextBuyTime
  by_cases h1 : c.freqType = "None"
  · simp only [h1, if_true]
    exact ⟨rfl, fun s' h => by cases h; exact Or.inl rfl⟩
  by_cases h2 : c.freqType = "UniformInt"
  · simp only [h2, if_true]
    cases hg : g.uniformInt c.freqMin c.freqMax with
    | error e => exact ⟨rfl, fun s' h => by cases h⟩
    | ok n =>
      obtain ⟨k1, k2, k3⟩ := key n (Or.inl h2) (S.uniformInt hg).1 (S.uniformInt hg).2
      simp only [ok_bind, k1, k2]
      refine ⟨?_, fun s' h => by cases h; exact Or.inr k3⟩
      show Except.ok _ = Except.ok _
      unfold State.later
      simp only [Except.ok.injEq, State.mk.injEq, true_and, and_true]
      rw [if_neg (by omega)]
  by_cases h3 : c.freqType = "NormalInt"
  · simp only [h3, if_true]
    cases hg : g.normalInt c.freqMean c.freqStd c.freqMin c.freqMax with
    | error e => exact ⟨rfl, fun s' h => by cases h⟩
    | ok n =>
      obtain ⟨k1, k2, k3⟩ := key n (Or.inr h3) (S.normalInt hg).1 (S.normalInt hg).2
      simp only [ok_bind, k1, k2]
      refine ⟨?_, fun s' h => by cases h; exact Or.inr k3⟩
      show Except.ok _ = Except.ok _
      unfold State.later
      simp only [Except.ok.injEq, State.mk.injEq, true_and, and_true]
      rw [if_neg (by omega)]
  · simp only [h1, h2, h3, if_false]
    exact ⟨rfl, fun s' h => by cases h; exact Or.inl rfl⟩

theorem enter_later {g : Rng} {t : ℤ} (S : Sound g) (hf : RandomTime c → 0 ≤ t + c.freqMin)
    (hm : NoOverflow c (t + d)) :
    enter c g (t + d) = R.then (State.later d) (enter c g t) ∧ ∀ s', enter c g t = .ok s' → Due? s' := by
  unfold enter enterWith
  constructor
  · simp only [then_bind]
    refine bind_congr_ok fun ps _ => ?_
    have h : ∀ x : State, setNextBuyTime c g (t + d) x = setNextBuyTime c g (t + d) (x.later d) := by
      intro x; unfold setNextBuyTime State.later; rfl
    refine bind_congr_ok fun s1 _ => ?_
    rw [h, (setNext_later S hf hm).1]
  · intro s' h
    simp only [bind_ok] at h
    obtain ⟨ps, -, s1, -, h⟩ := h
    exact (setNext_later S hf hm).2 s' h

theorem tickAmt_later {g : Rng} {t : ℤ} (S : Sound g) (hf : RandomTime c → 0 ≤ t + c.freqMin)
    (hm : NoOverflow c (t + d)) (I : Due? s) :
    tickAmt c g (t + d) (s.later d) = R.then (State.later d) (tickAmt c g t s) ∧
      ∀ s', tickAmt c g t s = .ok s' → Due? s' := by
  unfold tickAmt
  by_cases h1 : s.nextBuy = -1
  · have h1' : (s.later d).nextBuy = -1 := by unfold State.later; rw [if_pos h1]
    simp only [h1, h1', if_true]
    refine ⟨setRequestAmt_later g, fun s' h => Or.inl ((setRequestAmt_next h).trans h1)⟩
  have h0 : 0 ≤ s.nextBuy := I.resolve_left h1
  have e : (s.later d).nextBuy = s.nextBuy + d := by unfold State.later; rw [if_neg h1]
  have h1' : ¬ (s.later d).nextBuy = -1 := by rw [e]; omega
  by_cases h2 : s.nextBuy = t
  · have h2' : (s.later d).nextBuy = t + d := by rw [e, h2]
    rw [if_neg h1, if_neg h1', if_pos h2, if_pos h2']
    constructor
    · simp only [setRequestAmt_later, bind_then, then_bind]
      exact bind_congr_ok fun s1 _ => (setNext_later S hf hm).1
    · intro s' h
      simp only [bind_ok] at h
      obtain ⟨s1, -, h⟩ := h
      exact (setNext_later S hf hm).2 s' h
  · have h2' : ¬ (s.later d).nextBuy = t + d := by rw [e]; omega
    rw [if_neg h1, if_neg h1', if_neg h2, if_neg h2']
    exact ⟨rfl, fun s' h => by cases h; exact I⟩

/-- A pair whose state is later. -/
def onState {α : Type} (d : Nat) (p : α × State) : α × State := (p.1, p.2.later d)

theorem readjust_later (g : Rng) :
    readjust c g (s.later d) = R.then (State.later d) (readjust c g s) := by
  unfold readjust
  rw [then_ite, setRequestAmt_later]
  rfl

theorem matlRequests_later (g : Rng) :
    matlRequests c g (s.later d) = R.then (onState d) (matlRequests c g s) := by
  unfold matlRequests
  simp only [readjust_later, bind_then, then_bind]
  rfl

theorem matlRequests_next {g : Rng} {p : Option MatlPort} {s' : State}
    (h : matlRequests c g s = .ok (p, s')) : s'.nextBuy = s.nextBuy := by
  unfold matlRequests readjust at h
  simp only [bind_ok] at h
  obtain ⟨s1, h1, _, -, h2⟩ := h
  cases h2
  split at h1
  · exact setRequestAmt_next h1
  · cases h1; rfl

theorem accept_later (l : List Res) :
    accept c l (s.later d) = R.then (State.later d) (accept c l s) := by
  induction l generalizing s with
  | nil => rfl
  | cons r l ih =>
    simp only [accept, then_bind]
    refine congrArg (s.inventory.push c.epsRsrc r >>= ·) ?_
    funext b
    exact ih (s := { s with inventory := b })

theorem accept_next {l : List Res} {s' : State} (h : accept c l s = .ok s') : s'.nextBuy = s.nextBuy := by
  induction l generalizing s with
  | nil => cases h; rfl
  | cons r l ih =>
    simp only [accept, bind_ok] at h
    obtain ⟨b, -, h⟩ := h
    exact ih (s := { s with inventory := b }) h

theorem step_later {t : ℤ} {i : In} (S : Sound i.rng) (hf : RandomTime c → 0 ≤ t + c.freqMin)
    (hm : NoOverflow c (t + d)) (I : Due? s) :
    step c (t + d) (s.later d) i = R.then (onState d) (step c t s i) ∧
      ∀ o s', step c t s i = .ok (o, s') → Due? s' := by
  obtain ⟨h1, h2⟩ := tickAmt_later (g := i.rng) S hf hm I
  unfold step
  constructor
  · simp only [h1, bind_then, then_bind, matlRequests_later, onState, accept_later]
    rfl
  · intro o s' h
    simp only [bind_ok] at h
    obtain ⟨s1, k1, ⟨p, s2⟩, k2, s3, k3, s4, k4, k5⟩ := h
    cases k5
    have := h2 s1 k1
    unfold Due? at this ⊢
    rwa [accept_next k4, accept_next k3, matlRequests_next k2]

theorem run_later {t : ℤ} {is : List In} (S : ∀ i ∈ is, Sound i.rng) (hf : RandomTime c → 0 ≤ t + c.freqMin)
    (hm : NoOverflow c (t + is.length + d)) (I : Due? s) :
    run c (t + d) (s.later d) is = R.then (onState d) (run c t s is) := by
  induction is generalizing t s with
  | nil => rfl
  | cons i is ih =>
    have hm' : NoOverflow c (t + d) := fun hr => by
      have := hm hr
      simp only [List.length_cons] at this
      omega
    obtain ⟨h1, h2⟩ := step_later (c := c) (d := d) (i := i) (S i (by simp)) hf hm' I
    simp only [run, h1, bind_then, then_bind, onState]
    refine bind_congr_ok fun r hr => ?_
    have e : t + (d : ℤ) + 1 = t + 1 + d := by ring
    rw [e, ih (fun j hj => S j (by simp [hj])) (fun hr => by have := hf hr; omega) (fun hr => by
      have := hm hr
      simp only [List.length_cons, Nat.cast_add, Nat.cast_one] at this
      linarith) (h2 r.1 r.2 hr)]
    simp only [bind_then, onState]
    rfl

/-- C121: a sink that is deployed `d` steps later makes the same demands and requests `d` steps later, given
the same random numbers, and fails where it fails. Random times need an end of the simulation before the
largest time there is, and no purchase that could be due before the start of the simulation.
Missing: random times with such purchases or beyond the largest time, for which it is false
(`C121_sink_counterexample`). -/
theorem C121_sink_partial {c : Cfg} {g : Rng} {t : ℤ} {is : List In} (S : AllSound g is) (d : Nat)
    (hf : RandomTime c → 0 ≤ t + c.freqMin) (hm : RandomTime c → t + is.length + d + c.freqMax ≤ intMax) :
    (do let s ← enter c g (t + d); run c (t + d) s is) =
      R.then (fun r => (r.1, State.later d r.2)) (do let s ← enter c g t; run c t s is) := by
  have hm' : NoOverflow c (t + d) := fun hr => by have := hm hr; omega
  obtain ⟨h1, h2⟩ := enter_later (c := c) S.1 hf hm'
  simp only [h1, bind_then, then_bind]
  exact bind_congr_ok fun s hs => run_later (fun i hi => (S.2 i hi).1) hf hm (h2 s hs)

/-- The example history meets the conditions, 100 steps later; what is asked for, and what is held in the end. -/
example : (RandomTime exC → (0 : ℤ) + exIns.length + (100 : Nat) + exC.freqMax ≤ intMax) ∧
    (((enter exC (rngOf (1 / 2) 1) 100).bind fun s => run exC 100 s exIns).toOption.map fun p =>
      (p.1.map askedMatl, p.1.map askedProd, held p.2)) =
        some ([0, 15, 0, 10], [0, 15, 0, 10], 22) := by
  refine ⟨fun _ => by decide +kernel, by decide +kernel⟩

/-- C121 fails for sinks with random times of the input's range: with an interval of -1 a sink deployed at
time 0 buys in every step, as -1 also stands for that, and one deployed at time 5 never buys; with the
default `random_frequency_max` a sink deployed at time 0 works and one deployed at time 1 overflows. -/
theorem C121_sink_counterexample :
    (let c := { exC with freqMin := -1, freqMax := -1 }
     let life := fun t => (((enter c (rngOf (1 / 2) (-1)) t).bind fun s =>
       run c t s [inOf (1 / 2) (-1) [] [], inOf (1 / 2) (-1) [] []]).toOption.map fun p => p.1.map askedMatl)
     life 0 = some [15, 15] ∧ life 5 = some [0, 0]) ∧
    (let c := { exC with freqMax := intMax }
     (enter c (rngOf (1 / 2) intMax) 0).toOption.isSome = true ∧
       (enter c (rngOf (1 / 2) intMax) 1).toOption.isSome = false) ∧
    Sound (rngOf (1 / 2) (-1)) ∧ Sound (rngOf (1 / 2) intMax) := by
  refine ⟨?_, ?_, rngOf_sound (by norm_num) (by norm_num) _, rngOf_sound (by norm_num) (by norm_num) _⟩
  · decide +kernel
  · decide +kernel

end Cyc.Sink
