import Verif.Reactor.Props6

/-!
# Energy takes fuel (C124)
-/

namespace Cyc.Reactor

/-- The number of cycles that were begun. -/
def cycles (os : List Out) : Nat := os.countP fun o => decide (Rec.cycleStart ∈ o.recs)

/-- The assemblies that are replaced after each cycle. -/
def batch (c : Cfg) : Nat := min c.nBatch c.nCore

theorem cycles_append_one (os : List Out) (o : Out) :
    (Starts o → cycles (os ++ [o]) = cycles os + 1) ∧ (¬ Starts o → cycles (os ++ [o]) = cycles os) := by
  unfold cycles
  rw [List.countP_append, List.countP_singleton]
  refine ⟨fun h => ?_, fun h => ?_⟩
  · rw [if_pos (by simp only [decide_eq_true_eq]; exact h)]
  · rw [if_neg (by simp only [decide_eq_true_eq]; exact h), Nat.add_zero]

/-! ## Energy and cycles -/

/-- What a cycle under way at deployment can still give. -/
def preset (c : Cfg) : Nat := if c.cycleStep = 0 then 0 else c.cycleTime - c.cycleStep

/-- `e` steps at full power so far; those left of the current cycle are within the count of cycles. -/
def Spends (c : Cfg) (os : List Out) (s : State) : Prop :=
  ∃ e : Nat, energy os = c.powerCap * e ∧ e ≤ cycles os * c.cycleTime + preset c ∧
    (retired c s = false → 0 < s.cycleStep →
      e + (c.cycleTime - s.cycleStep) ≤ cycles os * c.cycleTime + preset c)

theorem spends_step {c : Cfg} (hw : WellFormed c) {os : List Out} {s s' s1 s2 s3 : State} {i : In}
    {o : Out} (hi : Inv c s) (hb : Spends c os s) (sp : StepSpec c s i o s' s1 s2 s3) :
    Spends c (os ++ [o]) s' := by
  obtain ⟨e, he, h1, h2⟩ := hb
  have hct := hw.cycleTime
  have eo : energy [o] = (powers o.recs).sum := by simp [energy]
  obtain ⟨k1, k2⟩ := cycles_append_one os o
  cases hr : retired c s with
  | true =>
    have rf := ret_facts hw hi hr sp
    refine ⟨e, by rw [energy_append, eo, rf.powers, he]; simp, by rw [k2 rf.starts]; exact h1,
      fun hn => ?_⟩
    have ht := rf.time
    unfold retired at hr hn
    cases hex : c.exitTime with
    | none => rw [hex] at hr; simp at hr
    | some t =>
      rw [hex] at hr hn
      simp only [decide_eq_true_eq, decide_eq_false_iff_not] at hr hn
      omega
  | false =>
    have op := op_facts hw hi hr sp
    have h2 := h2 hr
    have hcs := op.cycleStep
    have hpw := op.powers
    have hst := op.starts
    by_cases hz : stepCount c s s' = 0
    · rw [hz] at hcs hpw hst
      by_cases hf : full c s'
      · rw [if_pos (Or.inr hf)] at hcs
        rw [if_pos ⟨hct, hf⟩] at hpw
        have hk := k1 (hst.2 ⟨rfl, hf⟩)
        refine ⟨e + 1, ?_, ?_, fun _ _ => ?_⟩
        · rw [energy_append, eo, hpw, he]; push_cast; simp; ring
        · rw [hk, Nat.add_mul]; omega
        · rw [hk, Nat.add_mul]; omega
      · rw [if_neg (by rintro (hx | hx); exacts [absurd hx (by omega), hf hx])] at hcs
        rw [if_neg (fun hy => hf hy.2)] at hpw
        have hk := k2 (fun hx => hf (hst.1 hx).2)
        refine ⟨e, ?_, by rw [hk]; exact h1, fun _ hx => by omega⟩
        rw [energy_append, eo, hpw, he]; simp
    · have h0 : stepCount c s s' = s.cycleStep := by
        unfold stepCount at hz ⊢
        split
        · rename_i hx; rw [if_pos hx] at hz; exact absurd rfl hz
        · rfl
      have hk := k2 (fun hx => hz (hst.1 hx).1)
      have h2 := h2 (by omega)
      rw [h0] at hcs hpw
      rw [if_pos (Or.inl (by omega))] at hcs
      unfold Spends
      rw [hk]
      by_cases hlt : s.cycleStep < c.cycleTime ∧ full c s'
      · rw [if_pos hlt] at hpw
        refine ⟨e + 1, ?_, ?_, fun _ _ => ?_⟩
        · rw [energy_append, eo, hpw, he]; push_cast; simp; ring
        · have := hlt.1; omega
        · have := hlt.1; omega
      · rw [if_neg hlt] at hpw
        refine ⟨e, ?_, h1, fun _ _ => by omega⟩
        rw [energy_append, eo, hpw, he]; simp

theorem spends {c : Cfg} (hw : WellFormed c) {is : List In} {os : List Out} {s : State}
    (h : History c is os s) : Spends c os s := by
  obtain ⟨s0, h0, hh, hr⟩ := h
  have hz := (enter_eq h0).2.2.2.2.1
  have := run_inductO hw (P := fun _ os s1 => Spends c os s1)
    (fun hi hb sp => spends_step hw hi hb sp) is (pre := []) (opre := []) (enter_inv hw h0)
    ⟨0, by simp [energy], Nat.zero_le _, fun _ hx => by
      rw [hz] at hx ⊢
      unfold preset
      rw [if_neg (by omega)]; omega⟩ hh hr
  simpa using this

theorem energy_nonneg {c : Cfg} (hw : WellFormed c) (hp : 0 ≤ c.powerCap) {is : List In}
    {os : List Out} {s : State} (h : History c is os s) : 0 ≤ energy os := by
  obtain ⟨e, he, -⟩ := spends hw h
  rw [he]
  positivity

/-- C124: the recorded power of a history sums up to at most `cycle_time` steps at full power for each
cycle begun (and what was left of a cycle under way at deployment). -/
theorem C124_energy_takes_cycles {c : Cfg} (hw : WellFormed c) (hp : 0 ≤ c.powerCap) {is : List In}
    {os : List Out} {s : State} (h : History c is os s) :
    energy os ≤ c.powerCap * (cycles os * c.cycleTime +
      if c.cycleStep = 0 then 0 else c.cycleTime - c.cycleStep : ℕ) := by
  obtain ⟨e, he, h1, _⟩ := spends hw h
  rw [he]
  exact mul_le_mul_of_nonneg_left (by exact_mod_cast h1) hp

/-! ## Cycles and fuel -/

/-- Between cycles a batch is discharged. -/
structure Replaces (c : Cfg) (os : List Out) (s : State) : Prop where
  fresh : s.cycleStep = 0 → s.discharged = false
  running : 0 < cycles os → 0 < s.cycleStep
  before : 0 < cycles os → s.discharged = false →
    full c s ∧ cycles os * batch c ≤ (discharges (rows os)).sum + batch c
  after : 0 < cycles os → s.discharged = true → cycles os * batch c ≤ (discharges (rows os)).sum
  start : ∀ o, os.getLast? = some o → Starts o →
    full c s ∧ cycles os * batch c ≤ (discharges (rows os)).sum + batch c

theorem replaces_step {c : Cfg} (hw : WellFormed c) {os : List Out} {s s' : State} {i : In} {o : Out}
    (hb : Replaces c os s) (op : OpFacts c s i o s') : Replaces c (os ++ [o]) s' := by
  have hct := hw.cycleTime
  obtain ⟨k1, k2⟩ := cycles_append_one os o
  have erows : (discharges (rows (os ++ [o]))).sum =
      (discharges (rows os)).sum + (discharges o.recs).sum := by
    simp [rows]
  have hst := op.starts
  have hd := op.discharges
  have hdc := op.discharged
  have hcs := op.cycleStep
  have hlast : ∀ o', (os ++ [o]).getLast? = some o' → o' = o := by
    intro o' h; simpa using h.symm
  -- what the tick did
  have htick : 0 < cycles os →
      (tickDone c s = true → cycles os * batch c ≤
        (discharges (rows os)).sum + (discharges o.recs).sum) ∧
      (tickDone c s = false → full c s' ∧ cycles os * batch c ≤
        (discharges (rows os)).sum + (discharges o.recs).sum + batch c) := by
    intro hk
    by_cases hdue : Due c s ∧ roomFor c s
    · have htd : tickDone c s = true := by unfold tickDone; rw [if_pos hdue.1]; simp [hdue.2]
      refine ⟨fun _ => ?_, fun hx => by rw [htd] at hx; exact absurd hx (by simp)⟩
      obtain ⟨hf, hle⟩ := hb.before hk hdue.1.2
      rw [hd, if_pos hdue]
      have : s.core.items.length = c.nCore := hf
      rw [this]
      simpa [batch] using hle
    · rw [hd, if_neg hdue]
      have e : tickDone c s = s.discharged := by
        unfold tickDone
        by_cases h1 : Due c s
        · rw [if_pos h1, h1.2]
          simp only [decide_eq_false_iff_not]
          exact fun h2 => hdue ⟨h1, h2⟩
        · rw [if_neg h1]
      rw [e]
      refine ⟨fun hx => by simpa using hb.after hk hx, fun hx => ?_⟩
      obtain ⟨hf, hle⟩ := hb.before hk hx
      refine ⟨?_, by simpa using hle⟩
      have hn : nDis c s = 0 := by unfold nDis; rw [if_neg hdue]
      have h1 := op.coreLe
      have h2 : c.nCore ≤ s'.core.items.length := by
        rw [op.core, List.length_append, tickCore, hn, List.drop_zero, List.length_append,
          burntCore_length]
        have : s.core.items.length = c.nCore := hf
        omega
      exact le_antisymm h1 h2
  by_cases hr : renews c s s'
  · have h0 : stepCount c s s' = 0 := by unfold stepCount; rw [if_pos hr]
    rw [if_pos hr] at hdc
    rw [h0, if_pos (Or.inr hr.2.1)] at hcs
    have hk := k1 (hst.2 ⟨h0, hr.2.1⟩)
    have hle : cycles (os ++ [o]) * batch c ≤ (discharges (rows (os ++ [o]))).sum + batch c := by
      rw [hk, erows, Nat.add_mul]
      rcases Nat.eq_zero_or_pos (cycles os) with hz | hz
      · rw [hz]; omega
      · have := (htick hz).1 hr.2.2; omega
    exact ⟨fun _ => hdc, fun _ => by omega, fun _ _ => ⟨hr.2.1, hle⟩,
      fun _ hx => (by rw [hdc] at hx; exact absurd hx (by simp)), fun _ _ _ => ⟨hr.2.1, hle⟩⟩
  · have h0 : stepCount c s s' = s.cycleStep := by unfold stepCount; rw [if_neg hr]
    rw [if_neg hr] at hdc
    rw [h0] at hcs hst
    by_cases hs : Starts o
    · obtain ⟨hz, hf⟩ := hst.1 hs
      have hk0 : cycles os = 0 := by
        by_contra hc
        have := hb.running (by omega); omega
      have hnd : ¬ Due c s := fun hx => by have := hx.1; omega
      have hfl : s'.discharged = false := by
        rw [hdc]; unfold tickDone; rw [if_neg hnd]; exact hb.fresh hz
      rw [if_pos (Or.inr hf)] at hcs
      have hk := k1 hs
      have hle : cycles (os ++ [o]) * batch c ≤ (discharges (rows (os ++ [o]))).sum + batch c := by
        rw [hk, hk0]; omega
      exact ⟨fun _ => hfl, fun _ => by omega, fun _ _ => ⟨hf, hle⟩,
        fun _ hx => (by rw [hfl] at hx; exact absurd hx (by simp)), fun _ _ _ => ⟨hf, hle⟩⟩
    · have hk := k2 hs
      refine ⟨fun hz => ?_, fun hx => ?_, fun hx hy => ?_, fun hx hy => ?_, fun o' ho' hs' => ?_⟩
      · have hz' : s.cycleStep = 0 := by split at hcs <;> omega
        have hnd : ¬ Due c s := fun hx => by have := hx.1; omega
        rw [hdc]; unfold tickDone; rw [if_neg hnd]; exact hb.fresh hz'
      · have := hb.running (by omega)
        split at hcs <;> omega
      · rw [hk] at hx ⊢
        rw [erows]
        exact (htick hx).2 (by rw [← hdc]; exact hy)
      · rw [hk] at hx ⊢
        rw [erows]
        exact (htick hx).1 (by rw [← hdc]; exact hy)
      · rw [hlast o' ho'] at hs'; exact absurd hs' hs

theorem replaces {c : Cfg} (hw : WellFormed c) {is : List In} {os : List Out} {s : State}
    (h : History c is os s) (hl : ∀ e, c.exitTime = some e → s.time ≤ e + 1) : Replaces c os s := by
  obtain ⟨s0, h0, hh, hr⟩ := h
  refine run_operating hw (P := fun _ os s => Replaces c os s) h0 ?_
    (fun _ _ _ hp _ op _ => replaces_step hw hp op) hh hr hl
  have hd := (enter_eq h0).2.2.2.2.2.1
  exact ⟨fun _ => hd, fun hx => absurd hx (by simp [cycles]), fun hx => absurd hx (by simp [cycles]),
    fun hx => absurd hx (by simp [cycles]), fun o ho => by simp at ho⟩

/-- C124: `k` cycles take a core and `k - 1` further batches of fuel. -/
theorem C124_cycles_take_fuel {c : Cfg} (hw : WellFormed c) {is : List In} {os : List Out} {s : State}
    (h : History c is os s) (hk : 0 < cycles os) :
    c.nCore + (cycles os - 1) * min c.nBatch c.nCore ≤ (received is).length := by
  have hlen := history_length h
  have key : ∀ n ≤ os.length, 0 < cycles (os.take n) →
      c.nCore + (cycles (os.take n) - 1) * batch c ≤ (received (is.take n)).length := by
    intro n
    induction n with
    | zero => intro _ hx; simp [cycles] at hx
    | succ n ih =>
      intro hn hx
      have ho : os[n]? = some os[n] := List.getElem?_eq_getElem (by omega)
      have eo : os.take (n + 1) = os.take n ++ [os[n]] := by rw [List.take_add_one, ho]; rfl
      obtain ⟨i, sa, sb, at', hA, hB⟩ := history_at hw h ho
      have ei : is.take (n + 1) = is.take n ++ [i] := by rw [List.take_add_one, at'.input]; rfl
      have er : (received (is.take n)).length ≤ (received (is.take (n + 1))).length := by
        rw [ei]; simp [received]
      obtain ⟨k1, k2⟩ := cycles_append_one (os.take n) os[n]
      by_cases hs : Starts os[n]
      · have hnl : ¬ Late c os[n].time := fun hl => (at'.ret hw hl).starts hs
        obtain ⟨s0, h0, hh, hr⟩ := hB
        have hto : ∀ j o', os[j]? = some o' → o'.time = c.enterTime + j := by
          intro j o' hj
          obtain ⟨i', sa', sb', at2, _, _⟩ := history_at hw h hj
          rw [at2.time]
        have hnl' : ∀ o' ∈ os.take (n + 1), ¬ Late c o'.time := by
          intro o' ho' ⟨e, he, hlt⟩
          obtain ⟨j, hj⟩ := List.mem_iff_getElem?.1 ho'
          obtain ⟨hj1, hj2⟩ := getElem?_take_some.1 hj
          refine hnl ⟨e, he, ?_⟩
          rw [hto j o' hj2] at hlt
          rw [hto n _ ho]; omega
        have hst := C122_stores h0 hr hnl'
        have hc := C122_core h0 hr
        have hrep := replaces hw ⟨s0, h0, hh, hr⟩ (fun e he => by
          have h1 : sb.time = os[n].time + 1 := by
            obtain ⟨s1, s2, s3, sp⟩ := at'.spec hw
            rw [sp.final, sp.time]
          have : ¬ e < os[n].time := fun hx => hnl ⟨e, he, hx⟩
          omega)
        obtain ⟨hf, hle⟩ := hrep.start os[n] (by rw [eo, List.getLast?_concat]) hs
        have hf' : sb.core.count = c.nCore := hf
        have : (cycles (os.take (n + 1)) - 1) * batch c + batch c = cycles (os.take (n + 1)) * batch c := by
          obtain ⟨m, hm⟩ : ∃ m, cycles (os.take (n + 1)) = m + 1 := ⟨cycles (os.take (n + 1)) - 1, by omega⟩
          rw [hm, Nat.add_sub_cancel, Nat.add_mul, Nat.one_mul]
        omega
      · have hk' := k2 hs
        rw [← eo] at hk'
        rw [hk'] at hx ⊢
        exact (ih (by omega) hx).trans er
  have := key os.length (le_refl _) (by rwa [List.take_length])
  rw [List.take_length] at this
  rw [List.take_of_length_le (by omega)] at this
  exact this

/-- C124, energy and fuel, of a reactor that is not deployed in mid-cycle: for each `cycle_time` steps
at full power a batch of fuel, beyond the part of the core that is never discharged. -/
theorem C124_energy_from_start {c : Cfg} (hw : WellFormed c) (hp : 0 ≤ c.powerCap)
    (hz : c.cycleStep = 0) {is : List In} {os : List Out} {s : State} (h : History c is os s)
    (he : energy os ≠ 0) :
    energy os * (min c.nBatch c.nCore : ℕ) ≤ c.powerCap * c.cycleTime *
      ((received is).length - (c.nCore - min c.nBatch c.nCore : ℕ)) := by
  have h1 := C124_energy_takes_cycles hw hp h
  rw [if_pos hz, Nat.add_zero] at h1
  have hk : 0 < cycles os := by
    by_contra hx
    have hx : cycles os = 0 := by omega
    -- without a cycle there is no energy
    obtain ⟨e, h3, h4, _⟩ := spends hw h
    unfold preset at h4
    rw [hx, if_pos hz] at h4
    have : e = 0 := by omega
    rw [this] at h3
    exact he (by simpa using h3)
  have h2 := C124_cycles_take_fuel hw h hk
  obtain ⟨b, hb⟩ : ∃ b, b = min c.nBatch c.nCore := ⟨_, rfl⟩
  rw [← hb] at h2 ⊢
  have hble : b ≤ c.nCore := by omega
  obtain ⟨m, hm⟩ : ∃ m, cycles os = m + 1 := ⟨cycles os - 1, by omega⟩
  rw [hm, Nat.add_sub_cancel] at h2
  rw [hm] at h1
  have h3 : (((m + 1) * b : ℕ) : ℚ) ≤ (received is).length - (c.nCore - b : ℕ) := by
    rw [le_sub_iff_add_le]
    have : (m + 1) * b + (c.nCore - b) ≤ (received is).length := by
      rw [Nat.add_mul, Nat.one_mul]; omega
    exact_mod_cast this
  have hc : (0 : ℚ) ≤ c.powerCap * c.cycleTime := mul_nonneg hp (by positivity)
  calc energy os * (b : ℕ) ≤ c.powerCap * ((m + 1) * c.cycleTime : ℕ) * (b : ℕ) :=
        mul_le_mul_of_nonneg_right h1 (by positivity)
    _ = c.powerCap * c.cycleTime * (((m + 1) * b : ℕ) : ℚ) := by push_cast; ring
    _ ≤ _ := mul_le_mul_of_nonneg_left h3 hc

/-- C124, energy and fuel: beside what is left of a cycle under way at deployment, for each
`cycle_time` steps at full power a batch of fuel, beyond the part of the core that is never discharged
(the difference of natural numbers is 0 if less was delivered). -/
theorem C124_energy_takes_fuel {c : Cfg} (hw : WellFormed c) (hp : 0 ≤ c.powerCap)
    {is : List In} {os : List Out} {s : State} (h : History c is os s) :
    energy os * (min c.nBatch c.nCore : ℕ) ≤ c.powerCap *
      (c.cycleTime * ((received is).length - (c.nCore - min c.nBatch c.nCore) : ℕ) +
        (if c.cycleStep = 0 then 0 else c.cycleTime - c.cycleStep : ℕ) * (min c.nBatch c.nCore : ℕ)) := by
  have h1 := C124_energy_takes_cycles hw hp h
  have h2 : cycles os * min c.nBatch c.nCore ≤
      (received is).length - (c.nCore - min c.nBatch c.nCore) := by
    rcases Nat.eq_zero_or_pos (cycles os) with h0 | hk
    · rw [h0]; simp
    · have h2 := C124_cycles_take_fuel hw h hk
      have hble : min c.nBatch c.nCore ≤ c.nCore := by omega
      obtain ⟨m, hm⟩ : ∃ m, cycles os = m + 1 := ⟨cycles os - 1, by omega⟩
      rw [hm, Nat.add_sub_cancel] at h2
      rw [hm, Nat.add_mul, Nat.one_mul]
      omega
  generalize (if c.cycleStep = 0 then 0 else c.cycleTime - c.cycleStep) = r at *
  generalize (received is).length - (c.nCore - min c.nBatch c.nCore) = f at *
  generalize min c.nBatch c.nCore = b at *
  have h3 : ((cycles os * b : ℕ) : ℚ) ≤ (f : ℕ) := by exact_mod_cast h2
  calc energy os * (b : ℕ) ≤ c.powerCap * (cycles os * c.cycleTime + r : ℕ) * (b : ℕ) :=
        mul_le_mul_of_nonneg_right h1 (by positivity)
    _ = c.powerCap * (c.cycleTime * ((cycles os * b : ℕ) : ℚ) + r * b) := by push_cast; ring
    _ ≤ _ := mul_le_mul_of_nonneg_left (by gcongr) hp

/-- The promptly supplied reactor, in ten steps: four cycles with a core of three and three more
assemblies, which is all that was delivered but for the one in fresh storage. The other: four cycles, six
assemblies. -/
example : ((play { exCfg with exitTime := none } promptHist).toOption.map fun r =>
      (cycles r.1, energy r.1, (received promptHist).length)) = some (4, 700, 7) ∧
    ((play exCfg exHist).toOption.map fun r =>
      (cycles r.1, energy r.1, (received exHist).length)) = some (4, 700, 6) :=
  ⟨by decide +kernel, by decide +kernel⟩

end Cyc.Reactor
