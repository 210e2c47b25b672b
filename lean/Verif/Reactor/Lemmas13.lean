import Verif.Reactor.Lemmas12

/-!
# Reactors with fresh storage that are supplied up to a scheduled exit

Lemmas for `C13_enough_with_fresh_storage_partial`.
-/

namespace Cyc.Reactor

/-- The cycles that begin after the current one, in step `t` (counted from deployment) of a reactor
whose cycles start on time. -/
def cyclesAfter (c : Cfg) (e t : Nat) : ℤ :=
  (((e - c.enterTime) / (c.cycleTime + c.refuelTime) : ℕ) : ℤ) -
    (((t - 1) / (c.cycleTime + c.refuelTime) : ℕ) : ℤ)

/-- One step under prompt supply; the core has to be full only when a cycle is due to start. -/
theorem prompt_step' {c : Cfg} (hw : WellFormed c) {s s' : State} {i : In} {o : Out} {t : Nat}
    (hp : Prompt c t s) (h : OpFacts c s i o s')
    (hf : full c s' ∨ t % (c.cycleTime + c.refuelTime) ≠ 0) (hnf : ¬ Fails o) :
    Prompt c (t + 1) s' ∧ (Starts o ↔ t % (c.cycleTime + c.refuelTime) = 0) := by
  by_cases hf' : full c s'
  · exact prompt_step hw hp h hf' hnf
  have ht := hf.resolve_left hf'
  have hct := hw.cycleTime
  set P := c.cycleTime + c.refuelTime with hP
  have hPpos : 0 < P := by omega
  have ht0 : t ≠ 0 := by rintro rfl; simp at ht
  have hcount := hp.count
  have hc' : s.cycleStep = (t - 1) % P + 1 := by rw [hcount]; simp [promptCount, ht0, hP]
  have hren : ¬ renews c s s' := fun hx => hf' hx.2.1
  have hcnt : stepCount c s s' = s.cycleStep := by unfold stepCount; rw [if_neg hren]
  have hcs' : s'.cycleStep = s.cycleStep + 1 := by
    rw [h.cycleStep, hcnt, if_pos (Or.inl (by omega))]
  obtain ⟨a, b⟩ := (mod_step hPpos (Nat.pos_of_ne_zero ht0)).resolve_left (fun hx => ht hx.2)
  refine ⟨⟨?_, ?_⟩, ?_⟩
  · rw [hcs', promptCount_succ hw, ← hP]; omega
  · rw [h.discharged, if_neg hren, hcs']
    unfold tickDone
    by_cases hd : Due c s
    · have hr : roomFor c s := by
        by_contra hr
        exact hnf (h.fails.2 ⟨hd, hr⟩)
      rw [if_pos hd, decide_eq_true hr]
      have := hd.1
      exact (decide_eq_true (by omega)).symm
    · rw [if_neg hd, hp.flag]
      unfold Due at hd
      rw [hp.flag] at hd
      simp only [decide_eq_false_iff_not] at hd
      exact decide_eq_decide.2 (by omega)
  · rw [h.starts, hcnt]
    constructor
    · intro hx; omega
    · intro hx; exact absurd hx ht

/-- What is ordered in step `t`. -/
theorem ordered_of_prompt {c : Cfg} (hw : WellFormed c) {e : Nat} (he : c.exitTime = some e)
    (hee : c.enterTime ≤ e) {s s1 : State} {t : Nat} (hp : Prompt c t s)
    (ht : s1.time = c.enterTime + t) (hcs : s1.cycleStep = s.cycleStep) :
    orderSize c s1 = min (vacancy c s1)
      (cyclesAfter c e t * c.nBatch - c.nFresh + c.nCore - s1.core.items.length).toNat := by
  have hct := hw.cycleTime
  obtain ⟨k, k1, k2, hk⟩ := orderSize_exit hw he s1
  rw [hk]
  have hkk : k = cyclesAfter c e t := by
    unfold cyclesAfter
    rw [ht, hcs, hp.count] at k1 k2
    unfold promptCount at k1 k2
    have hPc : ((c.cycleTime : ℤ) + c.refuelTime) = ((c.cycleTime + c.refuelTime : ℕ) : ℤ) := by
      push_cast; rfl
    rw [hPc] at k1 k2
    have hPpos : 0 < c.cycleTime + c.refuelTime := by omega
    generalize c.cycleTime + c.refuelTime = P at *
    obtain ⟨D, rfl⟩ := Nat.exists_eq_add_of_le hee
    rw [Nat.add_sub_cancel_left]
    have d1 := Nat.div_add_mod D P
    have d2 := Nat.mod_lt D hPpos
    have q1 := Nat.div_add_mod (t - 1) P
    have q2 := Nat.mod_lt (t - 1) hPpos
    generalize D / P = M at *
    generalize (t - 1) / P = q at *
    generalize D % P = r at *
    generalize (t - 1) % P = w at *
    have hPz : (0 : ℤ) < P := by exact_mod_cast hPpos
    have d1z : (P : ℤ) * M + r = D := by exact_mod_cast d1
    by_cases h0 : t = 0
    · subst h0
      have hq : q = 0 := by
        rcases Nat.eq_zero_or_pos q with h | h
        · exact h
        · have : P * 1 ≤ P * q := Nat.mul_le_mul_left P h
          omega
      subst hq
      simp only [if_true] at k1 k2
      push_cast at k1 k2
      have a1 : k < M + 1 := by
        by_contra hc
        have : (M : ℤ) * P ≤ (k - 1) * P := by apply mul_le_mul_of_nonneg_right <;> omega
        nlinarith
      have a2 : (M : ℤ) < k + 1 := by
        by_contra hc
        have : k * P ≤ (M - 1 : ℤ) * P := by apply mul_le_mul_of_nonneg_right <;> omega
        nlinarith
      push_cast
      omega
    · simp only [if_neg h0] at k1 k2
      push_cast at k1 k2
      have q1z : (P : ℤ) * q + w = (t : ℤ) - 1 := by
        have : P * q + w = t - 1 := q1
        have h1 : 1 ≤ t := by omega
        zify [h1] at this
        exact this
      have a1 : k + q < M + 1 := by
        by_contra hc
        have : (M : ℤ) * P ≤ (k + q - 1) * P := by apply mul_le_mul_of_nonneg_right <;> omega
        nlinarith
      have a2 : (M : ℤ) < k + q + 1 := by
        by_contra hc
        have : (k + q) * P ≤ (M - 1 : ℤ) * P := by apply mul_le_mul_of_nonneg_right <;> omega
        nlinarith
      omega
  rw [hkk]

/-- Before step `t`: the core is full if another cycle is to follow the current one, and fresh storage
has what the batches to come need, as far as it holds that much. -/
structure Supplied (c : Cfg) (e t : Nat) (s : State) : Prop where
  core : 1 ≤ t → 1 ≤ cyclesAfter c e t → s.core.items.length = c.nCore
  stock : 1 ≤ t → c.nFresh ≤ c.nBatch ∨
    min (c.nFresh : ℤ) ((cyclesAfter c e t - if s.discharged then 1 else 0) * c.nBatch) ≤
      (s.fresh.items.length : ℤ)

theorem cyclesAfter_zero (c : Cfg) (e : Nat) :
    cyclesAfter c e 0 = (((e - c.enterTime) / (c.cycleTime + c.refuelTime) : ℕ) : ℤ) := by
  simp [cyclesAfter]

theorem cyclesAfter_succ {c : Cfg} (hw : WellFormed c) (e t : Nat) :
    cyclesAfter c e (t + 1) = if t ≠ 0 ∧ t % (c.cycleTime + c.refuelTime) = 0
      then cyclesAfter c e t - 1 else cyclesAfter c e t := by
  have hct := hw.cycleTime
  unfold cyclesAfter
  rw [Nat.add_sub_cancel]
  have hPpos : 0 < c.cycleTime + c.refuelTime := by omega
  generalize c.cycleTime + c.refuelTime = P at *
  by_cases h0 : t = 0
  · subst h0; simp
  have d1 := Nat.div_add_mod t P
  have q1 := Nat.div_add_mod (t - 1) P
  have q2 := Nat.mod_lt (t - 1) hPpos
  have d2 := Nat.mod_lt t hPpos
  rcases mod_step hPpos (Nat.pos_of_ne_zero h0) with ⟨a, b⟩ | ⟨a, b⟩
  · rw [if_pos ⟨h0, b⟩]
    have : P * (t / P) = P * ((t - 1) / P + 1) := by rw [Nat.mul_add]; omega
    have := Nat.eq_of_mul_eq_mul_left hPpos this
    rw [this]; push_cast; ring
  · rw [if_neg (by omega)]
    have : P * (t / P) = P * ((t - 1) / P) := by omega
    have := Nat.eq_of_mul_eq_mul_left hPpos this
    rw [this]

/-- A cycle that is due to start before the exit follows one that is counted. -/
theorem cyclesAfter_pos {c : Cfg} (hw : WellFormed c) {e t : Nat} (h0 : t ≠ 0)
    (hle : t ≤ e - c.enterTime) (hm : t % (c.cycleTime + c.refuelTime) = 0) :
    1 ≤ cyclesAfter c e t := by
  have hct := hw.cycleTime
  have h1 := cyclesAfter_succ hw e t
  rw [if_pos ⟨h0, hm⟩] at h1
  have h2 : 0 ≤ cyclesAfter c e (t + 1) := by
    unfold cyclesAfter
    rw [Nat.add_sub_cancel]
    have : t / (c.cycleTime + c.refuelTime) ≤ (e - c.enterTime) / (c.cycleTime + c.refuelTime) :=
      Nat.div_le_div_right hle
    omega
  omega

/-- What fresh storage has in the state in which orders are made. -/
theorem StepSpec.ticked1 {c : Cfg} (hw : WellFormed c) {s s' s1 s2 s3 : State} {i : In}
    {o : Out} (h : Inv c s) (hr : retired c s = false) (sp : StepSpec c s i o s' s1 s2 s3) :
    s1.fresh.items = s.fresh.items.drop (nIn c s) ∧ s1.cycleStep = s.cycleStep := by
  have e1 : s1 = tickedState c s := by
    have h1 := sp.ticked
    rw [tick_ok hw h.good hr] at h1
    simpa using h1.symm
  obtain ⟨l, hl, e⟩ := tickedState_eq c s
  rw [e1, e]; exact ⟨rfl, rfl⟩

/-- The numbers of a step in which a batch is discharged: `f` assemblies in a fresh storage for `F`, a full
core of `N`, batches of `B`. -/
theorem refill_numbers {F B N f n l x b : ℕ} {m : ℤ} (hf : f ≤ F) (hm : (B : ℤ) ≤ m)
    (hst : F ≤ B ∨ min (F : ℤ) m ≤ f) (hl : l = min (N - (N - B)) f) (hn : n = (N - B) + min l f)
    (hx : x = N - n) (hb : b = min (x + (F - (f - l))) (m - F + N - n).toNat) :
    x ≤ b ∧ (F ≤ B ∨ min (F : ℤ) (m - B) ≤ ((f - l + (b - x) : ℕ) : ℤ)) := by
  subst hx
  have h1 : l ≤ f := by omega
  have h2 : n = (N - B) + l := by omega
  have h3 : n ≤ N := by omega
  have h4 : l ≤ B := by omega
  rcases hst with h | h
  · exact ⟨by omega, Or.inl h⟩
  · rcases le_total (F : ℤ) m with hc | hc
    · rw [min_eq_left hc] at h
      have h5 : f = F := by omega
      subst h5
      refine ⟨by omega, Or.inr ?_⟩
      rcases le_total (N - n + (f - (f - l))) (m - f + N - n).toNat with hd | hd
      · rw [min_eq_left hd] at hb
        omega
      · rw [min_eq_right hd] at hb
        omega
    · rw [min_eq_right hc] at h
      have h5 : l = N - (N - B) := by omega
      have h6 : n = N := by omega
      exact ⟨by omega, Or.inr (by omega)⟩

/-- One step. -/
theorem supplied_step {c : Cfg} (hw : WellFormed c) {e : Nat} (he : c.exitTime = some e)
    (hen : (c.nFresh ≤ c.nBatch ∧ 1 ≤ cyclesAfter c e 0) ∨
      2 * (c.nFresh : ℤ) ≤ cyclesAfter c e 0 * c.nBatch)
    {s s' s1 s2 s3 : State} {i : In} {o : Out} {t : Nat} (hle : c.enterTime + t ≤ e)
    (hp : Prompt c t s) (hs : Supplied c e t s) (inv : Inv c s)
    (sp : StepSpec c s i o s' s1 s2 s3) (h : OpFacts c s i o s') (hnf : ¬ Fails o)
    (ht : s.time = c.enterTime + t) (hr : retired c s = false)
    (hq : i.buys.length = orderSize c s1) :
    Prompt c (t + 1) s' ∧ Supplied c e (t + 1) s' ∧
      (Starts o ↔ t % (c.cycleTime + c.refuelTime) = 0) := by
  have hct := hw.cycleTime
  have hnb := hw.nBatch
  obtain ⟨hf1, hc1⟩ := sp.ticked1 hw inv hr
  have hcore := sp.core1 hw inv hr
  rw [ordered_of_prompt hw he (by omega) hp (by rw [sp.time1, ht]) hc1, vacancy, hf1, hcore] at hq
  have hcl := sp.good1.core.count
  rw [hcore] at hcl
  have hfl := inv.good.fresh.count
  have hccl := inv.good.core.count
  -- what is left of fresh storage, and what is added
  have hfresh : s'.fresh.items.length = (s.fresh.items.length - nIn c s) +
      (i.buys.length - (c.nCore - (tickCore c s).length)) := by
    rw [h.fresh]; simp
  rw [List.length_drop] at hq
  have hlen : (tickCore c s).length =
      (s.core.items.length - nDis c s) + min (nIn c s) s.fresh.items.length := by
    unfold tickCore
    simp only [List.length_append, List.length_drop, List.length_take, burntCore_length]
  have hin : nIn c s = if s.cycleStep ≥ c.cycleTime then
      min (c.nCore - (s.core.items.length - nDis c s)) s.fresh.items.length else 0 := by
    unfold nIn
    simp only [List.length_drop, burntCore_length]
  have hfull : c.nCore - (tickCore c s).length ≤ i.buys.length → full c s' :=
    full_of_supply h hcl
  have hdis : nDis c s = if s.cycleStep = c.cycleTime then c.nBatch else 0 := by
    unfold nDis
    by_cases hd : Due c s
    · have hrm : roomFor c s := by
        by_contra hrm
        exact hnf (h.fails.2 ⟨hd, hrm⟩)
      have h1 := hd.1
      have h2 := hd.2
      rw [hp.flag] at h2
      simp only [decide_eq_false_iff_not] at h2
      rw [if_pos ⟨hd, hrm⟩, if_pos (by omega)]
    · rw [if_neg (fun hx => hd hx.1), if_neg]
      intro hx
      exact hd ⟨by omega, by rw [hp.flag]; exact decide_eq_false (by omega)⟩
  by_cases h0 : t = 0
  · subst h0
    have hz : s.cycleStep = 0 := by rw [hp.count]; simp [promptCount]
    rw [hz, if_neg (by omega)] at hin
    rw [hz, if_neg (by omega)] at hdis
    have hK0 : 0 ≤ cyclesAfter c e 0 := by rw [cyclesAfter_zero]; exact Int.natCast_nonneg _
    have hKm : 1 ≤ cyclesAfter c e 0 →
        (c.nBatch : ℤ) ≤ cyclesAfter c e 0 * c.nBatch := fun h1 => by nlinarith
    have hK1 := cyclesAfter_succ hw e 0
    rw [if_neg (by simp)] at hK1
    have hff : full c s' := hfull (by
      generalize cyclesAfter c e 0 * (c.nBatch : ℤ) = m at *
      omega)
    obtain ⟨p1, p2⟩ := prompt_step hw hp h hff hnf
    refine ⟨p1, ⟨fun _ _ => hff, fun _ => ?_⟩, p2⟩
    have hd' : s'.discharged = false := by
      rw [p1.flag, p1.count]
      simp only [promptCount, Nat.zero_add, one_ne_zero, if_false, Nat.sub_self, Nat.zero_mod,
        decide_eq_false_iff_not]
      omega
    rw [hd', hK1]
    simp only [Bool.false_eq_true, if_false, sub_zero]
    generalize cyclesAfter c e 0 * (c.nBatch : ℤ) = m at *
    omega
  · have hPpos : 0 < c.cycleTime + c.refuelTime := by omega
    have hcs : s.cycleStep = (t - 1) % (c.cycleTime + c.refuelTime) + 1 := by
      rw [hp.count]; simp [promptCount, h0]
    have hms := mod_step hPpos (Nat.pos_of_ne_zero h0)
    have hK1 := cyclesAfter_succ hw e t
    by_cases hK : 1 ≤ cyclesAfter c e t
    · have hc0 := hs.core (by omega) hK
      have hst := hs.stock (by omega)
      have hKm : (c.nBatch : ℤ) ≤ cyclesAfter c e t * c.nBatch := by nlinarith
      have hKs : (cyclesAfter c e t - 1) * (c.nBatch : ℤ) =
        cyclesAfter c e t * c.nBatch - c.nBatch := by ring
      rw [hp.flag] at hst
      by_cases hx : s.cycleStep = c.cycleTime
      · rw [if_pos hx] at hdis
        rw [if_pos (by omega)] at hin
        rw [decide_eq_false (by omega)] at hst
        simp only [Bool.false_eq_true, if_false, sub_zero] at hst
        rw [hc0, hdis] at hin hlen
        obtain ⟨r1, r2⟩ := refill_numbers (x := c.nCore - (tickCore c s).length) hfl hKm hst hin
          hlen rfl hq
        have hff : full c s' := hfull r1
        obtain ⟨p1, p2⟩ := prompt_step hw hp h hff hnf
        refine ⟨p1, ⟨fun _ _ => hff, fun _ => ?_⟩, p2⟩
        have hm' : cyclesAfter c e (t + 1) - (if s'.discharged = true then 1 else 0) =
            cyclesAfter c e t - 1 := by
          rw [hK1, p1.flag, p1.count, promptCount_succ hw]
          rcases hms with ⟨a, b⟩ | ⟨a, b⟩
          · rw [if_pos ⟨h0, b⟩, b, decide_eq_false (by omega)]; simp
          · rw [if_neg (by omega), decide_eq_true (by omega)]; simp
        rw [hm', hKs, hfresh]
        exact r2
      · rw [if_neg hx] at hdis
        have hin0 : nIn c s = 0 := by rw [hin]; split <;> omega
        have hff : full c s' := hfull (by omega)
        obtain ⟨p1, p2⟩ := prompt_step hw hp h hff hnf
        refine ⟨p1, ⟨fun _ _ => hff, fun _ => ?_⟩, p2⟩
        have hm' : cyclesAfter c e (t + 1) - (if s'.discharged = true then 1 else 0) =
            cyclesAfter c e t -
              (if decide (c.cycleTime < s.cycleStep) = true then 1 else 0) := by
          rw [hK1, p1.flag, p1.count, promptCount_succ hw]
          rcases hms with ⟨a, b⟩ | ⟨a, b⟩
          · rw [if_pos ⟨h0, b⟩, b, decide_eq_false (by omega), decide_eq_true (by omega)]; simp
          · rw [if_neg (by omega)]
            by_cases hy : c.cycleTime < s.cycleStep
            · rw [decide_eq_true (by omega), decide_eq_true hy]
            · rw [decide_eq_false (by omega), decide_eq_false hy]
        rw [hm']
        refine hst.imp_right fun hst => hst.trans ?_
        omega
    · have hm0 : t % (c.cycleTime + c.refuelTime) ≠ 0 := fun hm =>
        hK (cyclesAfter_pos hw h0 (by omega) hm)
      obtain ⟨p1, p2⟩ := prompt_step' hw hp h (Or.inr hm0) hnf
      rw [if_neg (fun hx => hm0 hx.2)] at hK1
      refine ⟨p1, ⟨fun _ h1 => absurd (hK1 ▸ h1) hK, fun _ => Or.inr ?_⟩, p2⟩
      rw [hK1]
      have : (cyclesAfter c e t - if s'.discharged = true then 1 else 0) * (c.nBatch : ℤ) ≤ 0 := by
        apply mul_nonpos_of_nonpos_of_nonneg
        · split <;> omega
        · omega
      omega

end Cyc.Reactor
