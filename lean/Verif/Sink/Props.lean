import Verif.Sink.Lemmas

/-!
# Properties of `Sink`: C59, C60, C97-C103
-/

namespace Cyc.Sink

/-- **C59** (requests). In every step of every history, what a sink asks for, of materials and of
products, is positive, at most its capacity and at most its free space. -/
theorem C59_request {c : Cfg} (V : Valid c) {g : Rng} {t : ℤ} {is : List In} {os : List Out}
    {s : State} (h : History c g t is os s) (S : AllSound g is) {i : In} (Si : Sound i.rng)
    {o : Out} {s' : State} (hs : step c (t + is.length) s i = .ok (o, s')) :
    (∀ p, o.matl = some p → 0 < qty p.target ∧ qty p.target ≤ c.capacity ∧
      qty p.target ≤ c.maxInv - held s) ∧
    (∀ p, o.prod = some p → 0 < p.cap ∧ p.cap ≤ c.capacity ∧ p.cap ≤ c.maxInv - held s ∧
      ∀ r ∈ p.reqs, r.2 = p.cap) := by
  obtain ⟨I, -⟩ := history_inv V h S
  obtain ⟨a, n, -, a0, a1, rfl, -⟩ := step_ok V I Si hs
  have he := V.eps
  have key : c.eps < a → 0 < a ∧ a ≤ c.capacity ∧ a ≤ c.maxInv - held s := by
    intro hlt
    have h1 : a ≤ c.capacity := le_trans a1 (min_le_left _ _)
    have h2 : a ≤ max 0 (c.maxInv - held s) := le_trans a1 (min_le_right _ _)
    refine ⟨by linarith, h1, ?_⟩
    rcases le_total (c.maxInv - held s) 0 with hle | hle
    · rw [max_eq_left hle] at h2; linarith
    · rw [max_eq_right hle] at h2; exact h2
  constructor
  · intro p hp
    by_cases hlt : c.eps < a
    · simp only [outOf, gt_iff_lt, hlt, if_true, Option.some.injEq] at hp
      rw [← hp]
      simp only
      rw [qty_target V]
      exact key hlt
    · simp only [outOf, gt_iff_lt, hlt, if_false] at hp
      cases hp
  · intro p hp
    by_cases hlt : c.eps < a
    · simp only [outOf, gt_iff_lt, hlt, if_true, Option.some.injEq] at hp
      rw [← hp]
      obtain ⟨k1, k2, k3⟩ := key hlt
      refine ⟨k1, k2, k3, fun r hr => ?_⟩
      obtain ⟨k, -, rfl⟩ := List.mem_map.1 hr
      rfl
    · simp only [outOf, gt_iff_lt, hlt, if_false] at hp
      cases hp

/-- **C59** (inventory). If deliveries are no more than was asked for, the inventory never exceeds
its maximum. -/
theorem C59_inventory {c : Cfg} (V : Valid c) {g : Rng} {t : ℤ} {s₀ s : State} {is : List In}
    {os : List Out} (h0 : enter c g t = .ok s₀) (h : run c t s₀ is = .ok (os, s))
    (S : AllSound g is) (H : HonestRun c t s₀ is) : held s ≤ c.maxInv := by
  obtain ⟨I, e, -⟩ := enter_ok h0
  refine run_inventory V I (fun i hi => (S.2 i hi).1) ?_ H h
  unfold held
  rw [e]
  simpa using V.maxInv

/-- **C60** (every step). A sink without random times buys in every step: it asks for the size that
was chosen, unless that is at most `eps`, in which case it is silent. -/
theorem C60_always {c : Cfg} (V : Valid c) {g : Rng} {t : ℤ} {is : List In} {os : List Out}
    {s : State} (h : History c g t is os s) (S : AllSound g is) (hr : ¬ RandomTime c) {i : In}
    (Si : Sound i.rng) {o : Out} {s' : State} (hs : step c (t + is.length) s i = .ok (o, s')) :
    ∃ a, Size c i.rng (room c s) a ∧ (c.eps < a → Asks c o a) ∧ (a ≤ c.eps → Silent o) := by
  obtain ⟨I, -⟩ := history_inv V h S
  have hn := history_always V h S hr
  obtain ⟨a, n, h1, -, -, rfl, -⟩ := step_ok V I Si hs
  obtain ⟨a', n', e', k1, -, -, -⟩ := tick_ok I h1
  simp only [State.mk.injEq] at e'
  obtain ⟨-, rfl, rfl, -⟩ := e'
  exact ⟨a, k1 (Or.inl hn), asks_outOf V, silent_outOf⟩

/-- **C60** (random times). A sink with random times, of at least one step, that enters at time `t`
buys exactly at the times at which a purchase is due: an interval, drawn when it enters, after it
enters, and each time an interval, drawn at that time, later. At such a time it asks for the size that
was chosen, unless that is at most `eps`; at all other times it is silent.
Missing: `random_frequency_min` of 0, where it is false (`C60_zero`), or less. -/
theorem C60_random_partial {c : Cfg} (V : Valid c) {g : Rng} {t : ℤ} {is : List In} {os : List Out}
    {s : State} (h : History c g t is os s) (S : AllSound g is) (hr : RandomTime c) (ht : 0 ≤ t)
    (hm : 1 ≤ c.freqMin) {i : In} (Si : Sound i.rng) {o : Out} {s' : State}
    (hs : step c (t + is.length) s i = .ok (o, s')) :
    (Due c g t is (t + is.length) → ∃ a, Size c i.rng (room c s) a ∧ (c.eps < a → Asks c o a) ∧
      (a ≤ c.eps → Silent o)) ∧
    (¬ Due c g t is (t + is.length) → Silent o) := by
  obtain ⟨I, -⟩ := history_inv V h S
  obtain ⟨d1, d2, d3⟩ := history_due V h S hr ht hm
  obtain ⟨a, n, h1, -, -, rfl, -⟩ := step_ok V I Si hs
  obtain ⟨a', n', e', k1, k2, -, -⟩ := tick_ok I h1
  simp only [State.mk.injEq] at e'
  obtain ⟨-, rfl, rfl, -⟩ := e'
  constructor
  · intro hd
    exact ⟨a, k1 (Or.inr (d3 _ (le_refl _) hd).symm), asks_outOf V, silent_outOf⟩
  · intro hd
    have : ¬ Buys s (t + is.length) := by
      rintro (hh | hh)
      · omega
      · rw [hh] at d2; exact hd d2
    rw [(k2 this).1]
    exact silent_outOf (le_of_lt V.eps)

/-- **C60** (gaps). The time from one purchase to the next is between the bounds of the input: from a
time at which a purchase is due to the next such time is a number of steps from `random_frequency_min`
to `random_frequency_max`. -/
theorem C60_gaps {c : Cfg} {g : Rng} {t : ℤ} {is : List In} (S : AllSound g is) {τ : ℤ}
    (h : Due c g t is τ) : ∃ τ₀ d, (τ₀ = t ∨ Due c g t is τ₀) ∧ τ = τ₀ + d ∧
      c.freqMin ≤ d ∧ d ≤ c.freqMax := by
  cases h with
  | @first d hd => exact ⟨t, d, Or.inl rfl, rfl, hd.range S.1⟩
  | @next d k i h1 h2 h3 =>
    exact ⟨t + k, d, Or.inr h1, rfl, h3.range (S.2 i (List.mem_of_getElem? h2)).1⟩

/-- **C60** (an interval of zero). If `random_frequency_min` is zero, and an interval of zero is drawn
at a purchase, the sink never buys again. -/
theorem C60_zero {c : Cfg} (V : Valid c) {g : Rng} {t : ℤ} {is : List In} {os : List Out}
    {s : State} (h : History c g t is os s) (S : AllSound g is) (hr : RandomTime c) (ht : 0 ≤ t)
    (hm : 0 ≤ c.freqMin) {i : In} {js : List In} (Si : ∀ j ∈ i :: js, Sound j.rng)
    {o : Out} {ps : List Out} {s' : State}
    (hs : run c (t + is.length) s (i :: js) = .ok (o :: ps, s')) (ho : ¬ Silent o)
    (hz : Interval c i.rng 0) : ∀ p ∈ ps, Silent p := by
  obtain ⟨I, -⟩ := history_inv V h S
  have hn := history_next_nonneg V h S hr ht hm
  simp only [run, bind_ok] at hs
  obtain ⟨⟨o', s₁⟩, h2, ⟨os, s₂⟩, h3, hs⟩ := hs
  simp only [pure_eq_ok, Except.ok.injEq, Prod.mk.injEq, List.cons.injEq] at hs
  obtain ⟨⟨rfl, rfl⟩, rfl⟩ := hs
  obtain ⟨a, n, h4, -, -, rfl, rfl⟩ := step_ok V I (Si i (by simp)) h2
  obtain ⟨a', n', e', -, k2, -, k4⟩ := tick_ok I h4
  simp only [State.mk.injEq] at e'
  obtain ⟨-, rfl, rfl, -⟩ := e'
  have hb : s.nextBuy = t + is.length := by
    by_contra hne
    have : ¬ Buys s (t + is.length) := by
      rintro (hh | hh)
      · omega
      · exact hne hh
    rw [(k2 this).1] at ho
    exact ho (silent_outOf (le_of_lt V.eps))
  obtain ⟨d, hd, rfl⟩ := (k4 hb (by omega)).1 hr
  have : d = 0 := hd.unique hz
  subst this
  refine run_missed V (t := t + is.length + 1) (s := { s with
      requestAmt := a
      nextBuy := t + is.length + 0
      inventory := { s.inventory with items := s.inventory.items ++ delivered i } })
    ⟨I.cap, I.prefs, I.length⟩
    (fun j hj => Si j (by simp [hj])) ?_ ?_ h3
  · show 0 ≤ t + is.length + 0
    omega
  · show t + is.length + 0 < t + is.length + 1
    omega

/-- **C97**. A sink keeps everything it was ever given, as it was, in the order of delivery: in each
step the materials, then the products. -/
theorem C97_keeps {c : Cfg} (V : Valid c) {g : Rng} {t : ℤ} {is : List In} {os : List Out}
    {s : State} (h : History c g t is os s) (S : AllSound g is) :
    s.inventory.items = is.flatMap fun i =>
      i.mats.map Res.mat ++ i.prods.map fun x => Res.prod x.1 x.2 :=
  (history_inv V h S).2

/-- The tick succeeds. -/
theorem tick_live {c : Cfg} {t : ℤ} {s : State} {g : Rng} (I : Inv c s) (S : Sound g) (L : Live g)
    (h1 : c.sizeType = "UniformReal" ∨ c.sizeType = "NormalReal" → 0 < room c s)
    (h2 : c.sizeType = "NormalReal" → 0 < c.sizeStd)
    (h3 : RandomTime c → c.freqMin ≤ c.freqMax ∧ t + c.freqMax ≤ intMax)
    (h4 : c.freqType = "NormalInt" → 0 < c.freqStd) :
    ∃ a n, tickAmt c g t s = .ok { s with requestAmt := a, nextBuy := n } := by
  have hsize : ∃ a, Size c g (spaceAvailable c s) a := by
    rw [I.space]
    unfold Size
    split
    · rename_i h
      exact L.uniformReal (h1 (Or.inl h))
    · split
      · rename_i h
        exact L.normalReal (mul_pos (h1 (Or.inr h)) (h2 h)) (h1 (Or.inr h))
      · exact ⟨_, rfl⟩
  obtain ⟨a, ha⟩ := hsize
  have e := setRequestAmt_of_size ha
  have add : ∀ d, d ≤ c.freqMax → t + c.freqMax ≤ intMax → addInt t d = .ok (t + d) := by
    intro d hd ht
    unfold addInt
    rw [if_pos (by omega)]
  have hnext : ∃ n, setNextBuyTime c g t { s with requestAmt := a } =
      .ok { s with requestAmt := a, nextBuy := n } := by
    unfold setNextBuyTime
    split
    · exact ⟨-1, rfl⟩
    · split
      · rename_i h
        obtain ⟨m1, m2⟩ := h3 (Or.inl h)
        obtain ⟨d, hd⟩ := L.uniformInt m1
        refine ⟨t + d, ?_⟩
        rw [hd]
        simp only [ok_bind]
        rw [add d (S.uniformInt hd).2 m2]; rfl
      · split
        · rename_i h
          obtain ⟨m1, m2⟩ := h3 (Or.inr h)
          obtain ⟨d, hd⟩ := L.normalInt (m := c.freqMean) (h4 h) m1
          refine ⟨t + d, ?_⟩
          rw [hd]
          simp only [ok_bind]
          rw [add d (S.normalInt hd).2 m2]; rfl
        · exact ⟨-1, rfl⟩
  obtain ⟨n, hn⟩ := hnext
  unfold tickAmt
  split
  · exact ⟨a, s.nextBuy, e⟩
  · split
    · refine ⟨a, n, ?_⟩
      rw [e]; exact hn
    · exact ⟨0, s.nextBuy, rfl⟩

/-- **C98**, partial: no step fails if what is delivered is no more than was asked for and of one
kind, random numbers are returned for proper ranges and spreads, there is room if the size is random,
and the time of the next purchase is within the range of `int`.

Missing: a sink that is delivered both materials and products (`C98_both`), a random size when there
is no room (`C98_full`), and intervals up to the default `random_frequency_max` (`C98_overflow`). -/
theorem C98_runs_partial {c : Cfg} (V : Valid c) {g : Rng} {t : ℤ} {is : List In} {os : List Out}
    {s : State} (h : History c g t is os s) (S : AllSound g is) {i : In} (Si : Sound i.rng)
    (L : Live i.rng) (H : Honest c (t + is.length) s i)
    (h1 : c.sizeType = "UniformReal" ∨ c.sizeType = "NormalReal" → 0 < room c s)
    (h2 : c.sizeType = "NormalReal" → 0 < c.sizeStd)
    (h3 : RandomTime c → c.freqMin ≤ c.freqMax ∧ t + is.length + c.freqMax ≤ intMax)
    (h4 : c.freqType = "NormalInt" → 0 < c.freqStd) :
    ∃ o s', step c (t + is.length) s i = .ok (o, s') := by
  obtain ⟨I, -⟩ := history_inv V h S
  obtain ⟨a, n, e⟩ := tick_live I Si L h1 h2 h3 h4
  obtain ⟨f1, f2, -⟩ := honest_fits V I Si H e
  obtain ⟨-, a1, -⟩ := step_quiet V (i := i) I Si e
  exact step_full V I Si e f1 (le_trans f2 (le_trans a1 (min_le_right _ _)))

/-- **C99**, partial: whenever a sink with the size type `UniformReal` or `NormalReal` asks for
something, the amount is what the configured distribution returned for the range from zero to the
room there is.

Missing: the size types `UniformInt` and `NormalInt`, which the input allows; see
`C99_counterexample`. -/
theorem C99_size_partial {c : Cfg} (V : Valid c) {g : Rng} {t : ℤ} {is : List In} {os : List Out}
    {s : State} (h : History c g t is os s) (S : AllSound g is) {i : In} (Si : Sound i.rng)
    {o : Out} {s' : State} (hs : step c (t + is.length) s i = .ok (o, s')) {p : MatlPort}
    (hp : o.matl = some p) :
    (c.sizeType = "None" → qty p.target = room c s) ∧
    (c.sizeType = "UniformReal" → i.rng.uniformReal 0 (room c s) = .ok (qty p.target)) ∧
    (c.sizeType = "NormalReal" → i.rng.normalReal (room c s * c.sizeMean) (room c s * c.sizeStd) 0
      (room c s) = .ok (qty p.target)) := by
  obtain ⟨I, -⟩ := history_inv V h S
  obtain ⟨a, n, h1, -, -, rfl, -⟩ := step_ok V I Si hs
  obtain ⟨a', n', e', k1, k2, -, -⟩ := tick_ok I h1
  simp only [State.mk.injEq] at e'
  obtain ⟨-, rfl, rfl, -⟩ := e'
  have hlt : c.eps < a := by
    by_contra hle
    rw [(silent_outOf (not_lt.1 hle)).2.1] at hp
    cases hp
  have hq : qty p.target = a := by
    simp only [outOf, gt_iff_lt, hlt, if_true, Option.some.injEq] at hp
    rw [← hp]; exact qty_target V a
  have hb : Buys s (t + is.length) := by
    by_contra hne
    have := (k2 hne).1
    have := V.eps
    linarith
  have := k1 hb
  unfold Size at this
  rw [hq]
  refine ⟨fun e => ?_, fun e => ?_, fun e => ?_⟩ <;> rw [e] at this <;> simpa using this

/-- **C99**: false of the code. A sink with the size type `UniformInt` or `NormalInt` asks for all
there is room for, whatever the random numbers. -/
theorem C99_ignored {c : Cfg} (V : Valid c) {g : Rng} {t : ℤ} {is : List In} {os : List Out}
    {s : State} (h : History c g t is os s) (S : AllSound g is)
    (hc : c.sizeType = "UniformInt" ∨ c.sizeType = "NormalInt") {i : In} (Si : Sound i.rng)
    {o : Out} {s' : State} (hs : step c (t + is.length) s i = .ok (o, s')) {p : MatlPort}
    (hp : o.matl = some p) : qty p.target = room c s := by
  obtain ⟨I, -⟩ := history_inv V h S
  obtain ⟨a, n, h1, -, -, rfl, -⟩ := step_ok V I Si hs
  obtain ⟨a', n', e', k1, k2, -, -⟩ := tick_ok I h1
  simp only [State.mk.injEq] at e'
  obtain ⟨-, rfl, rfl, -⟩ := e'
  have hlt : c.eps < a := by
    by_contra hle
    rw [(silent_outOf (not_lt.1 hle)).2.1] at hp
    cases hp
  have hq : qty p.target = a := by
    simp only [outOf, gt_iff_lt, hlt, if_true, Option.some.injEq] at hp
    rw [← hp]; exact qty_target V a
  have hb : Buys s (t + is.length) := by
    by_contra hne
    have := (k2 hne).1
    have := V.eps
    linarith
  have := k1 hb
  unfold Size at this
  rw [hq]
  rcases hc with e | e <;> rw [e] at this <;> simpa using this

theorem tick_congr {c : Cfg} {g : Rng} {t : ℤ} {s s' : State} (h1 : s'.inventory = s.inventory)
    (h2 : s'.nextBuy = s.nextBuy) (h3 : s'.prefs = s.prefs) :
    tickAmt c g t s' = tickAmt c g t s := by
  obtain ⟨b, q, n, p⟩ := s
  obtain ⟨b', q', n', p'⟩ := s'
  simp only at h1 h2 h3
  subst h1 h2 h3
  rfl

/-- **C100**, partial: a snapshot leaves a sink as it is, and a sink restarted from it has the same
inventory and preferences; without random times it goes on exactly as it would have.

Missing: random times; the time of the next purchase is not stored, see `C100_counterexample`. -/
theorem C100_restart_partial {c : Cfg} (V : Valid c) {g : Rng} {t : ℤ} {s₀ s : State}
    {is : List In} {os : List Out} (h0 : enter c g t = .ok s₀) (h : run c t s₀ is = .ok (os, s))
    (S : AllSound g is) (H : HonestRun c t s₀ is) :
    ∃ snap, snapshot c s = .ok (snap, s) ∧ ∀ g' t' s', restart c g' t' snap = .ok s' →
      s'.inventory = s.inventory ∧ s'.prefs = s.prefs ∧
      (¬ RandomTime c → ∀ i js, run c t' s' (i :: js) = run c t' s (i :: js)) := by
  have hinv := C59_inventory V h0 h S H
  have hH : History c g t is os s := ⟨s₀, h0, h⟩
  obtain ⟨I, -⟩ := history_inv V hH S
  obtain ⟨b, q, n, ps⟩ := s
  obtain ⟨cap, items⟩ := b
  have hcap : cap = some c.maxInv := I.cap
  subst hcap
  have hps : ps = prefsOf c := I.prefs
  subst hps
  have hpop : (⟨some c.maxInv, items⟩ : Buf Res).popN items.length =
      .ok (items, ⟨some c.maxInv, []⟩) := by
    unfold Buf.popN; simp
  have hpush : (⟨some c.maxInv, []⟩ : Buf Res).pushAll c.epsRsrc items =
      .ok ⟨some c.maxInv, items⟩ := by
    rw [Buf.pushAll_ok]
    refine ⟨?_, by simp⟩
    unfold Buf.fits Buf.space Buf.quantity
    simp only [Option.map_some, totalQty_nil, sub_zero, decide_eq_true_eq]
    rw [max_eq_right V.maxInv]
    have h1 := V.epsRsrc
    have h2 : totalQty items ≤ c.maxInv := hinv
    linarith
  refine ⟨(prefsOf c, items), ?_, ?_⟩
  · simp only [snapshot, Buf.count, hpop, ok_bind, hpush, pure_eq_ok]
  · intro g' t' s' hs
    simp only [restart, enterWith, bind_ok] at hs
    obtain ⟨s₁, ⟨ps', p1, s₂, p2, p3⟩, b, p4, p5⟩ := hs
    obtain ⟨a, -, rfl⟩ := setRequestAmt_ok p2
    obtain ⟨m, rfl, -, p6⟩ := setNextBuyTime_ok p3
    rw [hpush] at p4
    simp only [Except.ok.injEq] at p4
    subst p4
    simp only [pure_eq_ok, Except.ok.injEq] at p5
    subst p5
    have hp : ps' = prefsOf c := by
      unfold setPrefs at p1
      have hl := I.length
      split at p1
      · rename_i hz
        simp only [Except.ok.injEq] at p1
        rw [← p1]
        have h1 : prefsOf c = [] := List.length_eq_zero_iff.1 hz
        have h2 : c.commods = [] := by
          rw [h1] at hl
          exact List.length_eq_zero_iff.1 hl.symm
        rw [h1, h2]; rfl
      · split at p1
        · cases p1
        · exact (Except.ok.inj p1).symm
    subst hp
    refine ⟨rfl, rfl, fun hr i js => ?_⟩
    have hm := p6 hr
    have hn := history_always V hH S hr
    simp only at hn
    subst hm hn
    simp only [run, step]
    rw [tick_congr (s := ⟨⟨some c.maxInv, items⟩, q, -1, prefsOf c⟩)
      (s' := ⟨⟨some c.maxInv, items⟩, a, -1, prefsOf c⟩) rfl rfl rfl]

/-- **C101**. Whenever a sink asks for anything, it asks for the same amount of material and of
products, and does so for each of its commodities, with the preference of the input for that commodity
or the default; it records this amount as its demand; and otherwise it records none. -/
theorem C101_requests {c : Cfg} (V : Valid c) {g : Rng} {t : ℤ} {is : List In} {os : List Out}
    {s : State} (h : History c g t is os s) (S : AllSound g is) {i : In} (Si : Sound i.rng)
    {o : Out} {s' : State} (hs : step c (t + is.length) s i = .ok (o, s')) :
    Silent o ∨ ∃ a, c.eps < a ∧ a ≤ room c s ∧ Asks c o a := by
  obtain ⟨I, -⟩ := history_inv V h S
  obtain ⟨a, n, -, -, a1, rfl, -⟩ := step_ok V I Si hs
  rcases lt_or_ge c.eps a with hlt | hge
  · exact Or.inr ⟨a, hlt, a1, asks_outOf V hlt⟩
  · exact Or.inl (silent_outOf hge)

/-- **C102**. A sink can only enter the simulation if there are as many preferences as commodities,
or none: otherwise it is rejected with an error about its input. -/
theorem C102_prefs (c : Cfg) (g : Rng) (t : ℤ) :
    (c.prefs ≠ [] ∧ c.prefs.length ≠ c.commods.length → enter c g t = .error .value) ∧
    (∀ s, enter c g t = .ok s → s.prefs.length = c.commods.length ∧
      (c.prefs = [] → ∀ p ∈ s.prefs, p = c.defaultPref) ∧ (c.prefs ≠ [] → s.prefs = c.prefs)) := by
  constructor
  · rintro ⟨h1, h2⟩
    have : setPrefs c c.prefs = .error .value := by
      unfold setPrefs
      rw [if_neg (by simpa using h1), if_pos h2]
    simp only [enter, enterWith, this, error_bind]
  · intro s hs
    obtain ⟨I, -⟩ := enter_ok hs
    rw [I.prefs]
    refine ⟨I.length, fun h p hp => ?_, fun h => by unfold prefsOf; rw [if_neg h]⟩
    unfold prefsOf at hp
    rw [if_pos h] at hp
    exact List.eq_of_mem_replicate hp

/-- **C103**. Once the room is no more than `eps`, a sink in a market that delivers only what was
asked for never asks for anything again, and its inventory no longer grows.
Missing: deliveries that answer no request (`C103_counterexample`); see `C103_silent`. -/
theorem C103_full_partial {c : Cfg} (V : Valid c) {g : Rng} {t : ℤ} {is : List In} {os : List Out}
    {s : State} (h : History c g t is os s) (S : AllSound g is) (hf : room c s ≤ c.eps)
    {js : List In} (Sj : ∀ j ∈ js, Sound j.rng) (H : HonestRun c (t + is.length) s js)
    {ps : List Out} {s' : State} (hs : run c (t + is.length) s js = .ok (ps, s')) :
    held s' = held s ∧ ∀ p ∈ ps, Silent p := by
  obtain ⟨I, -⟩ := history_inv V h S
  generalize t + (is.length : ℤ) = τ at H hs
  clear h
  induction js generalizing τ s ps with
  | nil =>
    simp only [run, Except.ok.injEq, Prod.mk.injEq] at hs
    obtain ⟨rfl, rfl⟩ := hs
    simp
  | cons i js ih =>
    simp only [run, bind_ok] at hs
    obtain ⟨⟨o, s₁⟩, h2, ⟨os, s₂⟩, h3, hs⟩ := hs
    simp only [pure_eq_ok, Except.ok.injEq, Prod.mk.injEq] at hs
    obtain ⟨rfl, rfl⟩ := hs
    obtain ⟨H1, H2⟩ := H
    have H2 := H2 _ _ h2
    obtain ⟨a, n, h4, a0, a1, rfl, rfl⟩ := step_ok V I (Sj i (by simp)) h2
    have hle : a ≤ c.eps := le_trans a1 hf
    obtain ⟨f1, -, f3⟩ := honest_fits V I (Sj i (by simp)) H1 h4
    have hz : totalQty (delivered i) = 0 := by
      refine le_antisymm (f3 hle) ?_
      unfold totalQty
      apply List.sum_nonneg
      intro x hx
      obtain ⟨y, hy, rfl⟩ := List.mem_map.1 hx
      exact f1 y hy
    have hheld : held { s with
        requestAmt := a
        nextBuy := n
        inventory := { s.inventory with items := s.inventory.items ++ delivered i } } = held s := by
      unfold held
      simp only [totalQty_append, hz, add_zero]
    obtain ⟨k1, k2⟩ := ih (s := { s with
        requestAmt := a
        nextBuy := n
        inventory := { s.inventory with items := s.inventory.items ++ delivered i } })
      (by unfold room; rw [hheld]; exact hf) (fun j hj => Sj j (by simp [hj]))
      ⟨I.cap, I.prefs, I.length⟩ (τ + 1) H2 h3
    refine ⟨by rw [k1, hheld], fun p hp => ?_⟩
    rcases List.mem_cons.1 hp with rfl | hp
    · exact silent_outOf hle
    · exact k2 p hp

/-- **C103** (any market). Once the room is no more than `eps`, a sink never asks for anything again,
whatever is delivered to it. -/
theorem C103_silent {c : Cfg} (V : Valid c) {g : Rng} {t : ℤ} {is : List In} {os : List Out}
    {s : State} (h : History c g t is os s) (S : AllSound g is) (hf : room c s ≤ c.eps)
    {js : List In} (Sj : ∀ j ∈ js, Sound j.rng) (hd : ∀ j ∈ js, ∀ r ∈ delivered j, 0 ≤ qty r)
    {ps : List Out} {s' : State} (hs : run c (t + is.length) s js = .ok (ps, s')) :
    ∀ p ∈ ps, Silent p := by
  obtain ⟨I, -⟩ := history_inv V h S
  generalize t + (is.length : ℤ) = τ at hs
  clear h
  induction js generalizing τ s ps with
  | nil =>
    simp only [run, Except.ok.injEq, Prod.mk.injEq] at hs
    obtain ⟨rfl, rfl⟩ := hs
    simp
  | cons i js ih =>
    simp only [run, bind_ok] at hs
    obtain ⟨⟨o, s₁⟩, h2, ⟨os, s₂⟩, h3, hs⟩ := hs
    simp only [pure_eq_ok, Except.ok.injEq, Prod.mk.injEq] at hs
    obtain ⟨rfl, rfl⟩ := hs
    obtain ⟨a, n, h4, a0, a1, rfl, rfl⟩ := step_ok V I (Sj i (by simp)) h2
    have hle : a ≤ c.eps := le_trans a1 hf
    have hz : 0 ≤ totalQty (delivered i) := by
      unfold totalQty
      apply List.sum_nonneg
      intro x hx
      obtain ⟨y, hy, rfl⟩ := List.mem_map.1 hx
      exact hd i (by simp) y hy
    have hroom : room c { s with
        requestAmt := a
        nextBuy := n
        inventory := { s.inventory with items := s.inventory.items ++ delivered i } } ≤ c.eps := by
      refine le_trans ?_ hf
      unfold room held
      simp only [totalQty_append]
      gcongr
      linarith
    have k := ih (s := { s with
        requestAmt := a
        nextBuy := n
        inventory := { s.inventory with items := s.inventory.items ++ delivered i } })
      hroom (fun j hj => Sj j (by simp [hj])) (fun j hj => hd j (by simp [hj]))
      ⟨I.cap, I.prefs, I.length⟩ (τ + 1) h3
    intro p hp
    rcases List.mem_cons.1 hp with rfl | hp
    · exact silent_outOf hle
    · exact k p hp

/-! ## Examples -/

/-- Random numbers: the share `q` of a range of reals, the number `n` of a range of integers. There
are none for a range without an interior, or a spread of zero. -/
def rngOf (q : ℚ) (n : ℤ) : Rng where
  uniformReal a b := if a < b then .ok (a + (b - a) * q) else .error .diverge
  normalReal _ d a b := if 0 < d ∧ a < b then .ok (a + (b - a) * q) else .error .diverge
  uniformInt a b := if a ≤ b then .ok (max a (min b n)) else .error .value
  normalInt _ d a b := if 0 < d ∧ a ≤ b then .ok (max a (min b n)) else .error .value

theorem rngOf_sound {q : ℚ} (h0 : 0 ≤ q) (h1 : q ≤ 1) (n : ℤ) : Sound (rngOf q n) := by
  have key : ∀ {a b : ℚ}, a < b → a ≤ a + (b - a) * q ∧ a + (b - a) * q ≤ b := by
    intro a b hab
    have hp : 0 ≤ b - a := by linarith
    have h2 := mul_nonneg hp h0
    have h3 := mul_le_mul_of_nonneg_left h1 hp
    constructor <;> linarith
  refine ⟨?_, ?_, ?_, ?_⟩
  · intro a b x h
    simp only [rngOf] at h
    split at h
    · rename_i hab
      simp only [Except.ok.injEq] at h
      rw [← h]; exact key hab
    · cases h
  · intro m d a b x h
    simp only [rngOf] at h
    split at h
    · rename_i hab
      simp only [Except.ok.injEq] at h
      rw [← h]; exact key hab.2
    · cases h
  · intro a b x h
    simp only [rngOf] at h
    split at h
    · simp only [Except.ok.injEq] at h
      omega
    · cases h
  · intro m d a b x h
    simp only [rngOf] at h
    split at h
    · simp only [Except.ok.injEq] at h
      omega
    · cases h

theorem rngOf_live (q : ℚ) (n : ℤ) : Live (rngOf q n) := by
  refine ⟨?_, ?_, ?_, ?_⟩
  · intro a b h; exact ⟨_, if_pos h⟩
  · intro m d a b h h'; exact ⟨_, if_pos ⟨h, h'⟩⟩
  · intro a b h; exact ⟨_, if_pos h⟩
  · intro m d a b h h'; exact ⟨_, if_pos ⟨h, h'⟩⟩

/-- A repository for two kinds of waste that buys every one to three steps. -/
def exC : Cfg where
  commods := ["spent", "waste"]
  prefs := []
  recipe := none
  maxInv := 100
  capacity := 30
  sizeType := "UniformReal"
  sizeMean := 1
  sizeStd := 1 / 10
  freqType := "UniformInt"
  freqMean := 1
  freqStd := 1
  freqMin := 1
  freqMax := 3
  defaultPref := 1
  eps := 1 / 1000000
  epsRsrc := 1 / 1000000

theorem exValid : Valid exC where
  maxInv := by decide +kernel
  capacity := by decide +kernel
  eps := by decide +kernel
  epsRsrc := by decide +kernel
  recipe := by intro r h; cases h

/-- A step with the random numbers of `rngOf`. -/
def inOf (q : ℚ) (n : ℤ) (ms : List NMat) (ps : List (String × ℚ)) : In :=
  ⟨rngOf q n, rngOf q n, ms, ps⟩

/-- Spent fuel. -/
def spent (q : ℚ) : NMat := ⟨[(137, q * (1 / 20)), (238, q * (19 / 20))]⟩

/-- Nothing is bought at time 0; at time 1, 15 kg are asked for and 12 kg delivered, and the next
purchase is due after two steps; nothing at time 2; 10 kg of a product at time 3. -/
def exIns : List In :=
  [inOf (1 / 2) 2 [] [], inOf (1 / 2) 2 [spent 5, spent 7] [], inOf (1 / 2) 1 [] [],
   inOf (1 / 3) 3 [] [("drum", 10)]]

theorem exSound : AllSound (rngOf (1 / 2) 1) exIns := by
  have h : ∀ {q : ℚ} {n : ℤ}, 0 ≤ q → q ≤ 1 → Sound (rngOf q n) := fun h h' => rngOf_sound h h' _
  refine ⟨h (by norm_num) (by norm_num), ?_⟩
  intro i hi
  simp only [exIns, List.mem_cons, List.not_mem_nil, or_false] at hi
  rcases hi with rfl | rfl | rfl | rfl <;>
    exact ⟨h (by norm_num) (by norm_num), h (by norm_num) (by norm_num)⟩

/-- The life of the example. -/
def exRun : R (List Out × State) := do
  let s ← enter exC (rngOf (1 / 2) 1) 0
  run exC 0 s exIns

theorem exists_of_isOk {α : Type} {x : R α} (h : x.toOption.isSome = true) : ∃ a, x = .ok a := by
  cases x with
  | ok a => exact ⟨a, rfl⟩
  | error e => cases h

/-- What is observed: what is asked for in each step, and what is held in the end. -/
theorem exHistory : ∃ os s, History exC (rngOf (1 / 2) 1) 0 exIns os s ∧
    os.map askedMatl = [0, 15, 0, 10] ∧ os.map askedProd = [0, 15, 0, 10] ∧ held s = 22 := by
  obtain ⟨⟨os, s⟩, h⟩ := exists_of_isOk (x := exRun) (by decide +kernel)
  have e : (exRun.toOption.map fun p => (p.1.map askedMatl, p.1.map askedProd, held p.2)) =
      some ([0, 15, 0, 10], [0, 15, 0, 10], 22) := by decide +kernel
  rw [h] at e
  have e := Option.some.inj e
  simp only [Prod.mk.injEq] at e
  refine ⟨os, s, ?_, e⟩
  simp only [exRun, bind_ok] at h
  exact h

/-- An executable version of `Honest`. -/
def honest? (c : Cfg) (t : ℤ) (s : State) (i : In) : Bool :=
  decide (∀ m ∈ i.mats, 0 ≤ qty m) && decide (∀ x ∈ i.prods, 0 ≤ x.2) &&
  decide (i.mats = [] ∨ i.prods = []) &&
  match step c t s { i with mats := [], prods := [] } with
  | .ok (o, _) => decide (totalQty i.mats ≤ askedMatl o) &&
      decide ((i.prods.map Prod.snd).sum ≤ askedProd o)
  | .error _ => true

theorem honest?_sound {c : Cfg} {t : ℤ} {s : State} {i : In} (h : honest? c t s i = true) :
    Honest c t s i := by
  unfold honest? at h
  simp only [Bool.and_eq_true, decide_eq_true_eq] at h
  obtain ⟨⟨⟨h1, h2⟩, h3⟩, h4⟩ := h
  refine ⟨h1, h2, fun o s' hs => ?_, fun o s' hs => ?_, h3⟩ <;>
  · rw [hs] at h4
    simp only [Bool.and_eq_true, decide_eq_true_eq] at h4
    first | exact h4.1 | exact h4.2

/-- An executable version of `HonestRun`. -/
def honestRun? (c : Cfg) : ℤ → State → List In → Bool
  | _, _, [] => true
  | t, s, i :: is => honest? c t s i &&
    match step c t s i with
    | .ok (_, s') => honestRun? c (t + 1) s' is
    | .error _ => true

theorem honestRun?_sound {c : Cfg} {t : ℤ} {s : State} {is : List In}
    (h : honestRun? c t s is = true) : HonestRun c t s is := by
  induction is generalizing t s with
  | nil => trivial
  | cons i is ih =>
    unfold honestRun? at h
    simp only [Bool.and_eq_true] at h
    refine ⟨honest?_sound h.1, fun o s' hs => ih ?_⟩
    rw [hs] at h
    exact h.2

/-- The example is honest. -/
theorem exHonest : ∃ s₀, enter exC (rngOf (1 / 2) 1) 0 = .ok s₀ ∧ HonestRun exC 0 s₀ exIns := by
  obtain ⟨s₀, h⟩ := exists_of_isOk (x := enter exC (rngOf (1 / 2) 1) 0) (by decide +kernel)
  refine ⟨s₀, h, honestRun?_sound ?_⟩
  have e : ((enter exC (rngOf (1 / 2) 1) 0).toOption.map fun s => honestRun? exC 0 s exIns) =
      some true := by decide +kernel
  rw [h] at e
  exact Option.some.inj e

/-- The purchases of the example are due at times 1 and 3. -/
theorem exDue : Due exC (rngOf (1 / 2) 1) 0 exIns 1 ∧ Due exC (rngOf (1 / 2) 1) 0 exIns 3 := by
  have h1 : Due exC (rngOf (1 / 2) 1) 0 exIns 1 :=
    .first (d := 1) (Or.inl ⟨rfl, by decide +kernel⟩)
  refine ⟨h1, ?_⟩
  exact .next (k := 1) (d := 2) (i := inOf (1 / 2) 2 [spent 5, spent 7] []) h1 rfl
    (Or.inl ⟨rfl, by decide +kernel⟩)

/-- A full repository: 100 kg in four deliveries, after which there is no room. -/
theorem exFull : ∃ os s, History { exC with sizeType := "None", freqType := "None" }
    (rngOf (1 / 2) 1) 0 [inOf 0 1 [spent 30] [], inOf 0 1 [spent 30] [], inOf 0 1 [spent 30] [],
      inOf 0 1 [spent 10] []] os s ∧ room { exC with sizeType := "None", freqType := "None" } s = 0 := by
  let c : Cfg := { exC with sizeType := "None", freqType := "None" }
  let x : R (List Out × State) := do
    let s ← enter c (rngOf (1 / 2) 1) 0
    run c 0 s [inOf 0 1 [spent 30] [], inOf 0 1 [spent 30] [], inOf 0 1 [spent 30] [],
      inOf 0 1 [spent 10] []]
  obtain ⟨⟨os, s⟩, h⟩ := exists_of_isOk (x := x) (by decide +kernel)
  have e : (x.toOption.map fun p => room c p.2) = some 0 := by decide +kernel
  rw [h] at e
  refine ⟨os, s, ?_, Option.some.inj e⟩
  simp only [x, bind_ok] at h
  exact h

/-- **C103**: the full property fails for deliveries that nobody asked for. A full sink takes two of half
the tolerance each, and as many more as come. -/
theorem C103_counterexample :
    ((enter { exC with sizeType := "None", freqType := "None" } (rngOf 0 1) 0).toOption.bind fun s =>
      (run { exC with sizeType := "None", freqType := "None" } 0 s
        [inOf 0 1 [spent 30] [], inOf 0 1 [spent 30] [], inOf 0 1 [spent 30] [], inOf 0 1 [spent 10] [],
          inOf 0 1 [spent (1 / 2000000)] [], inOf 0 1 [spent (1 / 2000000)] []]).toOption.map fun r =>
        (r.1.map askedMatl, held r.2)) = some ([30, 30, 30, 10, 0, 0], 100 + 1 / 1000000) := by
  decide +kernel

/-- **C60**: an interval of zero, with `random_frequency_min` zero. The sink buys at time 1 and draws
zero; it would otherwise buy again at the latest at time 4. -/
theorem C60_zero_example : ∃ c g is os s, Valid c ∧ RandomTime c ∧ c.freqMin = 0 ∧ c.freqMax = 3 ∧
    AllSound g is ∧ History c g 0 is os s ∧
      os.map askedMatl = [0, 30, 0, 0, 0, 0, 0] := by
  let c : Cfg := { exC with sizeType := "None", freqMin := 0 }
  let is := List.replicate 7 (inOf 0 0 [] [])
  let x : R (List Out × State) := do
    let s ← enter c (rngOf (1 / 2) 1) 0
    run c 0 s is
  obtain ⟨⟨os, s⟩, h⟩ := exists_of_isOk (x := x) (by decide +kernel)
  have e : (x.toOption.map fun p => p.1.map askedMatl) = some [0, 30, 0, 0, 0, 0, 0] := by
    decide +kernel
  rw [h] at e
  refine ⟨c, rngOf (1 / 2) 1, is, os, s, ?_, Or.inl rfl, rfl, rfl, ?_, ?_, Option.some.inj e⟩
  · exact ⟨exValid.maxInv, exValid.capacity, exValid.eps, exValid.epsRsrc, exValid.recipe⟩
  · refine ⟨rngOf_sound (by norm_num) (by norm_num) _, fun i hi => ?_⟩
    rw [List.eq_of_mem_replicate hi]
    exact ⟨rngOf_sound (by norm_num) (by norm_num) _, rngOf_sound (by norm_num) (by norm_num) _⟩
  · simp only [x, bind_ok] at h
    exact h

/-- **C98**: false of the code. A sink of 50 kg asks for 50 kg of material and for 50 kg of products;
if it gets both, the second delivery is an error. -/
theorem C98_both : ∃ c s m p, Valid c ∧ History c (rngOf 0 1) 0 [] [] s ∧
    (∃ o s', step c 0 s (inOf 0 1 [] []) = .ok (o, s') ∧ qty m ≤ askedMatl o ∧
      p.2 ≤ askedProd o) ∧
    step c 0 s (inOf 0 1 [m] [p]) = .error .value := by
  let c : Cfg := { exC with sizeType := "None", freqType := "None", capacity := 50, maxInv := 50 }
  obtain ⟨s, h⟩ := exists_of_isOk (x := enter c (rngOf 0 1) 0) (by decide +kernel)
  have e : ((enter c (rngOf 0 1) 0).toOption.map fun s =>
      ((step c 0 s (inOf 0 1 [] [])).toOption.map fun r => (askedMatl r.1, askedProd r.1),
        decide (step c 0 s (inOf 0 1 [spent 50] [("drum", 50)]) = .error .value))) =
      some (some (50, 50), true) := by decide +kernel
  rw [h] at e
  have e := Option.some.inj e
  simp only [Prod.mk.injEq, decide_eq_true_eq] at e
  refine ⟨c, s, spent 50, ("drum", 50), ?_, ⟨s, h, rfl⟩, ?_, e.2⟩
  · exact ⟨by decide +kernel, by decide +kernel, exValid.eps, exValid.epsRsrc, exValid.recipe⟩
  · cases hs : step c 0 s (inOf 0 1 [] []) with
    | error f => rw [hs] at e; cases e.1
    | ok r =>
      rw [hs] at e
      have e1 := Option.some.inj e.1
      simp only [Prod.mk.injEq] at e1
      refine ⟨r.1, r.2, rfl, ?_, ?_⟩
      · rw [e1.1]; decide +kernel
      · rw [e1.2]

/-- **C98**: a sink with a random size that is full asks for a random number between zero and zero;
nothing is known of such a number, and if there is none the step does not end. -/
theorem C98_full : ∃ c s i, Valid c ∧ (∃ is os, History c (rngOf 1 1) 0 is os s ∧ is.length = 1) ∧
    Sound i.rng ∧ Live i.rng ∧ Honest c 1 s i ∧ step c 1 s i = .error .diverge := by
  let c : Cfg := { exC with freqType := "None", capacity := 50, maxInv := 50 }
  let x : R (List Out × State) := do
    let s ← enter c (rngOf 1 1) 0
    run c 0 s [inOf 1 1 [spent 50] []]
  obtain ⟨⟨os, s⟩, h⟩ := exists_of_isOk (x := x) (by decide +kernel)
  have e : (x.toOption.map fun r => (honest? c 1 r.2 (inOf 0 1 [] []),
      decide (step c 1 r.2 (inOf 0 1 [] []) = .error .diverge))) = some (true, true) := by
    decide +kernel
  rw [h] at e
  have e := Option.some.inj e
  simp only [Prod.mk.injEq, decide_eq_true_eq] at e
  refine ⟨c, s, inOf 0 1 [] [], ?_, ⟨[inOf 1 1 [spent 50] []], os, ?_, rfl⟩, rngOf_sound (le_refl _) (by norm_num) _,
    rngOf_live _ _, honest?_sound e.1, e.2⟩
  · exact ⟨by decide +kernel, by decide +kernel, exValid.eps, exValid.epsRsrc, exValid.recipe⟩
  · simp only [x, bind_ok] at h
    exact h

/-- **C98**: with the default `random_frequency_max`, the greatest `int`, the time of the next
purchase may overflow, which is undefined: here in a step at time 1. -/
theorem C98_overflow : ∃ c s i, Valid c ∧ c.freqMax = intMax ∧
    (∃ is os, History c (rngOf 1 1) 0 is os s ∧ is.length = 1) ∧
    Sound i.rng ∧ Live i.rng ∧ Honest c 1 s i ∧ step c 1 s i = .error .ub := by
  let c : Cfg := { exC with freqMax := intMax }
  let x : R (List Out × State) := do
    let s ← enter c (rngOf 1 1) 0
    run c 0 s [inOf 1 1 [] []]
  obtain ⟨⟨os, s⟩, h⟩ := exists_of_isOk (x := x) (by decide +kernel)
  have e : (x.toOption.map fun r => (honest? c 1 r.2 (inOf 0 intMax [] []),
      decide (step c 1 r.2 (inOf 0 intMax [] []) = .error .ub))) = some (true, true) := by
    decide +kernel
  rw [h] at e
  have e := Option.some.inj e
  simp only [Prod.mk.injEq, decide_eq_true_eq] at e
  refine ⟨c, s, inOf 0 intMax [] [], ?_, rfl, ⟨[inOf 1 1 [] []], os, ?_, rfl⟩,
    rngOf_sound (le_refl _) (by norm_num) _, rngOf_live _ _, honest?_sound e.1, e.2⟩
  · exact ⟨exValid.maxInv, exValid.capacity, exValid.eps, exValid.epsRsrc, exValid.recipe⟩
  · simp only [x, bind_ok] at h
    exact h

/-- **C99**: a concrete case. With the size type `UniformInt`, 30 kg are asked for, all there is room
for, although the random numbers are the least of their range. -/
theorem C99_counterexample : ∃ c g is os s, Valid c ∧ AllSound g is ∧ c.sizeType = "UniformInt" ∧
    History c g 0 is os s ∧ os.map askedMatl = [30] := by
  let c : Cfg := { exC with sizeType := "UniformInt", freqType := "None" }
  let x : R (List Out × State) := do
    let s ← enter c (rngOf 0 0) 0
    run c 0 s [inOf 0 0 [] []]
  obtain ⟨⟨os, s⟩, h⟩ := exists_of_isOk (x := x) (by decide +kernel)
  have e : (x.toOption.map fun p => p.1.map askedMatl) = some [30] := by decide +kernel
  rw [h] at e
  refine ⟨c, rngOf 0 0, [inOf 0 0 [] []], os, s, ?_, ?_, rfl, ?_, Option.some.inj e⟩
  · exact ⟨exValid.maxInv, exValid.capacity, exValid.eps, exValid.epsRsrc, exValid.recipe⟩
  · refine ⟨rngOf_sound (by norm_num) (by norm_num) _, fun i hi => ?_⟩
    simp only [List.mem_singleton] at hi
    rw [hi]
    exact ⟨rngOf_sound (by norm_num) (by norm_num) _, rngOf_sound (by norm_num) (by norm_num) _⟩
  · simp only [x, bind_ok] at h
    exact h

/-- **C100**: false of the code. A sink that would buy at time 1 does not, if it is restarted from a
snapshot taken at the end of step 0: the time of its next purchase is drawn again. -/
theorem C100_counterexample : ∃ c g is os s g' s' snap i o o' r r', Valid c ∧ AllSound g is ∧
    Sound g' ∧ Sound i.rng ∧ History c g 0 is os s ∧ is.length = 1 ∧
    snapshot c s = .ok (snap, s) ∧ restart c g' 1 snap = .ok s' ∧
    step c 1 s i = .ok (o, r) ∧ askedMatl o = 30 ∧
    step c 1 s' i = .ok (o', r') ∧ askedMatl o' = 0 := by
  let c : Cfg := { exC with sizeType := "None" }
  let i := inOf 0 1 [] []
  let x : R (List Out × State) := do
    let s ← enter c (rngOf 1 1) 0
    run c 0 s [i]
  let y : R ((List Out × State) × ((List ℚ × List Res) × State) × State × (Out × State) ×
      (Out × State)) := do
    let p ← x
    let q ← snapshot c p.2
    let s' ← restart c (rngOf 0 3) 1 q.1
    let r ← step c 1 p.2 i
    let r' ← step c 1 s' i
    pure (p, q, s', r, r')
  obtain ⟨⟨⟨os, s⟩, ⟨snap, s₂⟩, s', ⟨o, r⟩, ⟨o', r'⟩⟩, h⟩ := exists_of_isOk (x := y)
    (by decide +kernel)
  have e : (y.toOption.map fun p => (decide (p.2.1.2 = p.1.2), askedMatl p.2.2.2.1.1,
      askedMatl p.2.2.2.2.1)) = some (true, 30, 0) := by decide +kernel
  rw [h] at e
  have e := Option.some.inj e
  simp only [Prod.mk.injEq, decide_eq_true_eq] at e
  obtain ⟨e1, e2, e3⟩ := e
  subst e1
  simp only [y, bind_ok, pure_eq_ok, Except.ok.injEq] at h
  obtain ⟨p, h1, q, h2, t, h3, u, h4, v, h5, h6⟩ := h
  simp only [Prod.mk.injEq] at h6
  obtain ⟨rfl, rfl, rfl, rfl, rfl⟩ := h6
  simp only [x, bind_ok] at h1
  refine ⟨c, rngOf 1 1, [i], os, s₂, rngOf 0 3, t, snap, i, o, o', r, r', ?_, ?_, ?_, ?_, h1, rfl,
    h2, h3, h4, e2, h5, e3⟩
  · exact ⟨exValid.maxInv, exValid.capacity, exValid.eps, exValid.epsRsrc, exValid.recipe⟩
  · refine ⟨rngOf_sound (by norm_num) (by norm_num) _, fun j hj => ?_⟩
    simp only [List.mem_singleton] at hj
    rw [hj]
    exact ⟨rngOf_sound (by norm_num) (by norm_num) _, rngOf_sound (by norm_num) (by norm_num) _⟩
  · exact rngOf_sound (by norm_num) (by norm_num) _
  · exact rngOf_sound (by norm_num) (by norm_num) _

end Cyc.Sink
