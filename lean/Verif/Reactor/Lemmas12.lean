import Verif.Reactor.Lemmas11

/-!
# Prefixes of histories, prompt supply, stalls, spent fuel
-/

namespace Cyc.Reactor

/-- The last step of a history. -/
theorem last_step {c : Cfg} (hw : WellFormed c) {is : List In} {os : List Out} {s' : State} {i : In}
    {o : Out} (h : History c (is ++ [i]) (os ++ [o]) s') :
    ∃ sa, History c is os sa ∧ AtStep c (is ++ [i]) (os ++ [o]) s' os.length i o sa s' := by
  have hlen := history_length h
  simp only [List.length_append, List.length_singleton] at hlen
  obtain ⟨i', sa, sb, at', ha, hb⟩ := history_at hw h (t := os.length) (o := o) (by simp)
  have e1 : (is ++ [i]).take os.length = is := by
    rw [show os.length = is.length by omega]; simp
  have e2 : (is ++ [i]).take (os.length + 1) = is ++ [i] := by
    rw [List.take_of_length_le]; simp; omega
  have hi : i' = i := by
    have := at'.input
    rw [show os.length = is.length by omega] at this
    simpa using this.symm
  rw [e1] at ha
  rw [e2] at hb
  have hs := (history_unique h hb).2
  subst hs hi
  refine ⟨sa, ?_, at'⟩
  simpa using ha

/-- The condition for power, in terms of the state at the end of the step. -/
theorem power_cond {c : Cfg} {s s' : State} {i : In} {o : Out} (op : OpFacts c s i o s') :
    (stepCount c s s' < c.cycleTime ∧ full c s') ↔
      (s'.core.count = c.nCore ∧ s'.cycleStep ≤ c.cycleTime) := by
  have hf : full c s' ↔ s'.core.count = c.nCore := Iff.rfl
  constructor
  · rintro ⟨h1, h2⟩
    refine ⟨h2, ?_⟩
    rw [op.cycleStep, if_pos (Or.inr h2)]; omega
  · rintro ⟨h1, h2⟩
    refine ⟨?_, h1⟩
    rw [op.cycleStep, if_pos (Or.inr (hf.2 h1))] at h2; omega

/-- A start comes after the cycle the reactor was deployed in. -/
theorem start_after_preset {c : Cfg} (hw : WellFormed c) {is : List In} {os : List Out} {s : State}
    (h : History c is os s) {t : Nat} {o : Out} (ho : os[t]? = some o) (hs : Starts o) :
    c.cycleStep = 0 ∨ c.cycleTime ≤ c.cycleStep + t := by
  obtain ⟨i, sa, sb, at', op, ph, _, _, _⟩ := at_phase hw h ho (starts_not_late hw h ho hs)
  have hst := op.starts.1 hs
  have htl : t < os.length := (List.getElem?_eq_some_iff.1 ho).1
  have hlen : (os.take t).length = t := by simp; omega
  cases ph with
  | waiting _ init _ => exact Or.inl init
  | cycle j oj hj _ _ count _ _ init =>
    rcases init with hz | hz
    · exact Or.inl hz
    · right; omega
  | preset init count _ =>
    right
    have hren : renews c sa sb := by
      by_contra hc
      have : stepCount c sa sb = sa.cycleStep := by unfold stepCount; rw [if_neg hc]
      omega
    have := hren.1
    omega

/-! ## Prompt supply -/

/-- With enough deliveries the core is full at the end of the step. -/
theorem full_of_supply {c : Cfg} {s s' : State} {i : In} {o : Out} (h : OpFacts c s i o s')
    (hle : (tickCore c s).length ≤ c.nCore)
    (hb : c.nCore - (tickCore c s).length ≤ i.buys.length) : full c s' := by
  unfold full
  rw [h.core]
  simp only [List.length_append, List.length_take, List.length_map]
  omega

/-- The counter under prompt supply, before step `t`. -/
def promptCount (c : Cfg) (t : Nat) : Nat :=
  if t = 0 then 0 else (t - 1) % (c.cycleTime + c.refuelTime) + 1

structure Prompt (c : Cfg) (t : Nat) (s : State) : Prop where
  count : s.cycleStep = promptCount c t
  flag : s.discharged = decide (c.cycleTime < s.cycleStep)

theorem promptCount_succ {c : Cfg} (hw : WellFormed c) (t : Nat) :
    promptCount c (t + 1) = t % (c.cycleTime + c.refuelTime) + 1 := by
  simp [promptCount]

theorem mod_step {P t : Nat} (hP : 0 < P) (ht : 0 < t) :
    ((t - 1) % P + 1 = P ∧ t % P = 0) ∨ ((t - 1) % P + 1 < P ∧ t % P = (t - 1) % P + 1) := by
  have h1 := Nat.div_add_mod (t - 1) P
  have h2 := Nat.mod_lt (t - 1) hP
  rcases Nat.lt_or_ge ((t - 1) % P + 1) P with h | h
  · right
    refine ⟨h, ?_⟩
    have e : t = P * ((t - 1) / P) + ((t - 1) % P + 1) := by omega
    conv_lhs => rw [e]
    rw [Nat.mul_add_mod, Nat.mod_eq_of_lt h]
  · left
    have h3 : (t - 1) % P + 1 = P := by omega
    refine ⟨h3, ?_⟩
    have e : t = P * ((t - 1) / P) + P := by omega
    rw [e, Nat.mul_add_mod, Nat.mod_self]

/-- One step under prompt supply. -/
theorem prompt_step {c : Cfg} (hw : WellFormed c) {s s' : State} {i : In} {o : Out} {t : Nat}
    (hp : Prompt c t s) (h : OpFacts c s i o s') (hf : full c s') (hnf : ¬ Fails o) :
    Prompt c (t + 1) s' ∧ (Starts o ↔ t % (c.cycleTime + c.refuelTime) = 0) := by
  have hct := hw.cycleTime
  set P := c.cycleTime + c.refuelTime with hP
  have hPpos : 0 < P := by omega
  have hcount := hp.count
  have hdone : tickDone c s = decide (c.cycleTime ≤ s.cycleStep) := by
    unfold tickDone
    by_cases hd : Due c s
    · have hr : roomFor c s := by
        by_contra hr
        exact hnf (h.fails.2 ⟨hd, hr⟩)
      rw [if_pos hd, decide_eq_true hr, decide_eq_true hd.1]
    · rw [if_neg hd, hp.flag]
      unfold Due at hd
      rw [hp.flag] at hd
      simp only [decide_eq_false_iff_not] at hd
      exact decide_eq_decide.2 (by omega)
  have hren : renews c s s' ↔ P ≤ s.cycleStep := by
    unfold renews
    rw [hdone]
    simp only [decide_eq_true_eq]
    constructor
    · exact fun hx => hx.1
    · exact fun hx => ⟨hx, hf, by omega⟩
  have hst := h.starts
  have hcs := h.cycleStep
  have hfl := h.discharged
  have hcs' : s'.cycleStep = stepCount c s s' + 1 := by rw [hcs, if_pos (Or.inr hf)]
  have hstep : stepCount c s s' = t % P := by
    unfold stepCount
    by_cases ht : t = 0
    · subst ht
      have : s.cycleStep = 0 := by rw [hcount]; simp [promptCount]
      rw [if_neg (by rw [hren]; omega), this]
      simp
    · have hc' : s.cycleStep = (t - 1) % P + 1 := by rw [hcount]; simp [promptCount, ht, hP]
      rcases mod_step hPpos (Nat.pos_of_ne_zero ht) with ⟨a, b⟩ | ⟨a, b⟩
      · rw [if_pos (by rw [hren]; omega), b]
      · rw [if_neg (by rw [hren]; omega), b, hc']
  refine ⟨⟨?_, ?_⟩, ?_⟩
  · rw [hcs', hstep, promptCount_succ hw]
  · rw [hfl, hcs']
    by_cases hr : renews c s s'
    · have : stepCount c s s' = 0 := by unfold stepCount; rw [if_pos hr]
      rw [if_pos hr, this]
      symm
      exact decide_eq_false (by omega)
    · have : stepCount c s s' = s.cycleStep := by unfold stepCount; rw [if_neg hr]
      rw [if_neg hr, this, hdone]
      exact decide_eq_decide.2 (by omega)
  · rw [hst, hstep]
    exact ⟨fun hx => hx.1, fun hx => ⟨hx, hf⟩⟩

/-- Under prompt supply, as long as the core is full at the end of every step, cycles start
periodically. -/
theorem prompt_starts {c : Cfg} (hw : WellFormed c) (hz : c.cycleStep = 0)
    {is : List In} {os : List Out} {s : State} (h : History c is os s)
    (hfull : ∀ (t : Nat) (i : In) (o : Out), is[t]? = some i → os[t]? = some o → ∀ sa sb,
      AtStep c is os s t i o sa sb → OpFacts c sa i o sb → Prompt c t sa → ¬ Late c o.time →
      full c sb)
    (hroom : ∀ o ∈ os, ¬ Fails o) {t : Nat} {o : Out} (ho : os[t]? = some o)
    (hl : ¬ Late c o.time) : Starts o ↔ t % (c.cycleTime + c.refuelTime) = 0 := by
  have key : ∀ (t : Nat) (o : Out), os[t]? = some o → ¬ Late c o.time →
      ∃ i sa sb, AtStep c is os s t i o sa sb ∧ OpFacts c sa i o sb ∧ Prompt c t sa := by
    intro t
    induction t with
    | zero =>
      intro o ho hl
      obtain ⟨s0, h0, hh, hr⟩ := h
      obtain ⟨i, sa, sb, hra, hha, at'⟩ := at_step hw h0 hh hr ho
      refine ⟨i, sa, sb, at', at'.op hw hl, ?_, ?_⟩
      · simp only [List.take_zero, run, Except.ok.injEq, Prod.mk.injEq, true_and] at hra
        rw [← hra, (enter_eq h0).2.2.2.2.1, hz]; simp [promptCount]
      · simp only [List.take_zero, run, Except.ok.injEq, Prod.mk.injEq, true_and] at hra
        rw [← hra, (enter_eq h0).2.2.2.2.2.1, (enter_eq h0).2.2.2.2.1, hz]
        simp
    | succ t ih =>
      intro o' ho' hl'
      have hlt : t < os.length := by
        have := (List.getElem?_eq_some_iff.1 ho').1; omega
      have ho := List.getElem?_eq_getElem hlt
      have ht := history_time hw h ho
      have ht' := history_time hw h ho'
      have hl : ¬ Late c os[t].time := late_mono (by omega) hl'
      obtain ⟨i, sa, sb, at', op, hp⟩ := ih _ ho hl
      obtain ⟨i', sb', at2⟩ := at'.next hw ho'
      refine ⟨i', sb, sb', at2, at2.op hw hl', ?_⟩
      exact (prompt_step hw hp op (hfull t i _ at'.input ho sa sb at' op hp hl)
        (hroom _ (List.mem_of_getElem? ho))).1
  obtain ⟨i, sa, sb, at', op, hp⟩ := key t o ho hl
  exact (prompt_step hw hp op (hfull t i _ at'.input ho sa sb at' op hp hl)
    (hroom _ (List.mem_of_getElem? ho))).2

/-! ## Stalls -/

/-- A batch waits to be discharged. -/
def Stalled (c : Cfg) (s : State) : Prop := c.cycleTime ≤ s.cycleStep ∧ s.discharged = false

/-- A step of a reactor with a waiting batch, when there is no room. -/
theorem stalled_step {c : Cfg} (hw : WellFormed c) {s s' : State} {i : In} {o : Out}
    (h : OpFacts c s i o s') (hst : Stalled c s) (hr : ¬ roomFor c s) :
    Fails o ∧ discharges o.recs = [] ∧ powers o.recs = [0] ∧ ¬ Starts o ∧ Stalled c s' ∧
      s.core.items.map tag <+: s'.core.items.map tag := by
  have hct := hw.cycleTime
  have hdue : Due c s := hst
  have hdone : tickDone c s = false := by
    unfold tickDone; rw [if_pos hdue]; exact decide_eq_false hr
  have hren : ¬ renews c s s' := fun hx => by have := hx.2.2; rw [hdone] at this; simp at this
  have hcnt : stepCount c s s' = s.cycleStep := by unfold stepCount; rw [if_neg hren]
  have h1 := hst.1
  have hcs : s'.cycleStep = s.cycleStep + 1 := by
    rw [h.cycleStep, hcnt, if_pos (Or.inl (by omega))]
  have hnd : nDis c s = 0 := by
    unfold nDis; rw [if_neg (fun hx => hr hx.2)]
  refine ⟨h.fails.2 ⟨hdue, hr⟩, ?_, ?_, ?_, ⟨by omega, ?_⟩, ?_⟩
  · rw [h.discharges, if_neg (fun hx => hr hx.2)]
  · rw [h.powers, hcnt, if_neg (by omega)]
  · rw [h.starts, hcnt]; omega
  · rw [h.discharged, if_neg hren, hdone]
  · rw [h.core, tickCore, hnd, List.drop_zero, List.append_assoc, List.map_append, burntCore_tag]
    exact List.prefix_append _ _

/-- With a waiting batch, a discharge happens exactly when there is room. -/
theorem stalled_discharges {c : Cfg} {s s' : State} {i : In} {o : Out}
    (h : OpFacts c s i o s') (hst : Stalled c s) :
    (roomFor c s → discharges o.recs = [min c.nBatch s.core.items.length] ∧ ¬ Fails o) ∧
    (¬ roomFor c s → discharges o.recs = [] ∧ Fails o) := by
  refine ⟨fun hr => ⟨?_, ?_⟩, fun hr => ⟨?_, ?_⟩⟩
  · rw [h.discharges, if_pos ⟨hst, hr⟩]
  · rw [h.fails]; exact fun hx => hx.2 hr
  · rw [h.discharges, if_neg (fun hx => hr hx.2)]
  · exact h.fails.2 ⟨hst, hr⟩

/-- The steps of a stall. -/
theorem stall_run {c : Cfg} (hw : WellFormed c) {is : List In} {os : List Out}
    {s : State} (h : History c is os s) {a : Nat} {oa : Out} (ha : os[a]? = some oa)
    (hfail : Fails oa) (d : Nat) : ∀ {ob : Out}, os[a + d]? = some ob → ¬ Late c ob.time →
    (∀ (j : Nat) (oj : Out), os[j]? = some oj → a < j → j ≤ a + d → discharges oj.recs = []) →
    ∃ sa sb, History c (is.take a) (os.take a) sa ∧
      History c (is.take (a + d + 1)) (os.take (a + d + 1)) sb ∧
      powers ob.recs = [0] ∧ ¬ Starts ob ∧ Fails ob ∧ discharges ob.recs = [] ∧ Stalled c sb ∧
      sa.core.items.map tag <+: sb.core.items.map tag := by
  induction d with
  | zero =>
    intro ob hb hl _
    have e : ob = oa := by rw [Nat.add_zero, ha] at hb; simpa using hb.symm
    subst e
    obtain ⟨i, sa, sb, at', ha', hb'⟩ := history_at hw h ha
    have op := at'.op hw hl
    have hf := op.fails.1 hfail
    obtain ⟨k1, k2, k3, k4, k5, k6⟩ := stalled_step hw op hf.1 hf.2
    exact ⟨sa, sb, ha', hb', k3, k4, k1, k2, k5, k6⟩
  | succ d ih =>
    intro ob hb hl hnone
    have hlt : a + d < os.length := by
      have := (List.getElem?_eq_some_iff.1 hb).1; omega
    have ho := List.getElem?_eq_getElem hlt
    have ht := history_time hw h ho
    have ht' := history_time hw h hb
    obtain ⟨sa, sm, h1, h2, _, _, _, _, h3, h4⟩ := ih ho (late_mono (by omega) hl)
      (fun j oj hj h1 h2 => hnone j oj hj h1 (by omega))
    obtain ⟨i, sm', sb, at', ha', hb'⟩ := history_at hw h hb
    have e := (history_unique h2 ha').2
    subst e
    have op := at'.op hw hl
    have hd := hnone _ ob hb (by omega) (by omega)
    have hr : ¬ roomFor c sm' := by
      intro hr
      have := (stalled_discharges op h3).1 hr
      rw [hd] at this
      simp at this
    obtain ⟨k1, k2, k3, k4, k5, k6⟩ := stalled_step hw op h3 hr
    exact ⟨sa, sb, h1, hb', k3, k4, k1, k2, k5, h4.trans k6⟩

/-- The flag is set only once the cycle is over. -/
theorem flag_of_history {c : Cfg} (hw : WellFormed c) {is : List In} {os : List Out} {s : State}
    (h : History c is os s) (hl : ∀ e, c.exitTime = some e → s.time ≤ e + 1) :
    s.discharged = true → c.cycleTime < s.cycleStep := by
  obtain ⟨s0, h0, hh, hr⟩ := h
  refine run_operating hw (P := fun _ _ s => s.discharged = true → c.cycleTime < s.cycleStep)
    h0 ?_ ?_ hh hr hl
  · rw [(enter_eq h0).2.2.2.2.2.1]; simp
  · intro is os s s' s1 s2 s3 i o inv hf hsch hp sp op hret hd
    have hct := hw.cycleTime
    have h1 := op.discharged
    by_cases hr : renews c s s'
    · rw [if_pos hr, hd] at h1; simp at h1
    · rw [if_neg hr, hd] at h1
      have hcnt : stepCount c s s' = s.cycleStep := by unfold stepCount; rw [if_neg hr]
      have hge : c.cycleTime ≤ s.cycleStep := by
        unfold tickDone at h1
        split at h1
        · rename_i hdue; exact hdue.1
        · have := hp h1.symm; omega
      rw [op.cycleStep, hcnt, if_pos (Or.inl (by omega))]
      omega

theorem start_counter {c : Cfg} {s s' : State} {i : In} {o : Out} (op : OpFacts c s i o s')
    (hs : Starts o) : s'.cycleStep = 1 := by
  obtain ⟨h1, h2⟩ := op.starts.1 hs
  rw [op.cycleStep, h1, if_pos (Or.inr h2)]

/-- Starts and discharges since a start. -/
theorem discharges_since_start {c : Cfg} (hw : WellFormed c) {is : List In} {os : List Out}
    {s : State} (h : History c is os s) {a : Nat} {oa : Out} (ha : os[a]? = some oa)
    (hsa : Starts oa) (d : Nat) : ∀ {ob : Out}, os[a + d]? = some ob → ¬ Late c ob.time →
    ∃ sb, History c (is.take (a + d + 1)) (os.take (a + d + 1)) sb ∧ 0 < sb.cycleStep ∧
      (Starts ob → sb.discharged = false) ∧
      (((os.take (a + d + 1)).drop (a + 1)).map fun o => (discharges o.recs).length).sum =
        ((os.take (a + d + 1)).drop (a + 1)).countP (fun o => decide (Rec.cycleStart ∈ o.recs)) +
          (if sb.discharged then 1 else 0) := by
  induction d with
  | zero =>
    intro ob hb hl
    have e : ob = oa := by rw [Nat.add_zero, ha] at hb; simpa using hb.symm
    subst e
    obtain ⟨i, sa, sb, at', ha', hb'⟩ := history_at hw h ha
    have op := at'.op hw hl
    have hcs := start_counter op hsa
    have hf := flag_of_history hw hb' (by
      intro e he
      by_contra hc
      have h1 := op.time
      have h2 := at'.timeA
      have h3 := at'.time
      exact hl ⟨e, he, by omega⟩)
    have hct := hw.cycleTime
    have hfd : sb.discharged = false := by
      cases hx : sb.discharged with
      | false => rfl
      | true => have := hf hx; omega
    refine ⟨sb, hb', by omega, fun _ => hfd, ?_⟩
    rw [hfd, List.drop_eq_nil_of_le (by simp)]
    simp
  | succ d ih =>
    intro ob hb hl
    have hlt : a + d < os.length := by
      have := (List.getElem?_eq_some_iff.1 hb).1; omega
    have ho := List.getElem?_eq_getElem hlt
    have ht := history_time hw h ho
    have ht' := history_time hw h hb
    obtain ⟨sm, h1, h2, _, h3⟩ := ih ho (late_mono (by omega) hl)
    obtain ⟨i, sm', sb, at', ha', hb'⟩ := history_at hw h hb
    have e := (history_unique h1 ha').2
    subst e
    have op := at'.op hw hl
    have hbal := discharge_balance op h2
    have hct := hw.cycleTime
    refine ⟨sb, hb', cycleStep_pos op h2, fun hs => ?_, ?_⟩
    · have hcs := start_counter op hs
      have hf := flag_of_history hw hb' (by
        intro e he
        by_contra hc
        have h1 := op.time
        have h2 := at'.timeA
        have h3 := at'.time
        exact hl ⟨e, he, by omega⟩)
      cases hx : sb.discharged with
      | false => rfl
      | true => have := hf hx; omega
    · have e : (os.take (a + (d + 1) + 1)).drop (a + 1) =
          (os.take (a + d + 1)).drop (a + 1) ++ [ob] := by
        rw [List.take_add_one, hb]
        have : a + 1 ≤ (os.take (a + (d + 1))).length := by simp; omega
        rw [List.drop_append_of_le_length this]
        rfl
      rw [e, List.map_append, List.sum_append, h3, List.countP_append]
      simp only [List.map_cons, List.map_nil, List.sum_cons, List.sum_nil, List.countP_singleton,
        decide_eq_true_eq]
      omega

/-! ## Spent fuel is burnt -/

theorem Burnt.mono {c : Cfg} {is : List In} {i : In} {T : Nat} {a : Assem} (h : Burnt c is T a)
    (ha : a.id ∉ i.buys.map fun d => d.2.id) : Burnt c (is ++ [i]) (T + 1) a := by
  obtain ⟨t, ht, k, name, h1, h2, h3⟩ := h
  exact ⟨t, by omega, k, name, by rw [boughtAs_other ha]; exact h1, h2, h3⟩

theorem burnt_burn {c : Cfg} {is : List In} {s : State} (g : Good c s) (hf : Filed c is s)
    (hs : Sched c s) {a : Assem} (ha : a ∈ held s) : Burnt c is s.time (burn c s a) := by
  obtain ⟨_, k, name, h1, h2, h3⟩ := burn_transmuted g hf hs ha
  exact ⟨s.time, le_rfl, k, name, h1, h2, h3⟩

/-- The invariant about spent fuel. -/
structure SpentInv (c : Cfg) (is : List In) (s : State) : Prop where
  running : s.cycleStep ≤ c.cycleTime → full c s ∨ s.spent.items = []
  waiting : c.cycleTime < s.cycleStep → s.discharged = false →
    (full c s ∧ ∀ a ∈ s.core.items.take c.nBatch, Burnt c is s.time a) ∨
    (s.spent.items = [] ∧ c.nSpent < min c.nBatch s.core.items.length) ∨ s.core.items = []
  spent : ∀ a ∈ s.spent.items, Burnt c is s.time a

theorem mem_take_burnt {α : Type} {f : α → α} {l : List α} {n : Nat} {x : α}
    (h : x ∈ ((l.take n).map f ++ l.drop n).take n) : ∃ y ∈ l, x = f y := by
  rw [List.take_append] at h
  rcases List.mem_append.1 h with h | h
  · have := List.mem_of_mem_take h
    obtain ⟨y, hy, rfl⟩ := List.mem_map.1 this
    exact ⟨y, List.mem_of_mem_take hy, rfl⟩
  · exfalso
    simp only [List.length_map, List.length_take] at h
    rcases Nat.le_total n l.length with hn | hn
    · rw [Nat.min_eq_left hn, Nat.sub_self] at h; simp at h
    · rw [List.drop_eq_nil_of_le hn] at h; simp at h

/-- The core in the state in which orders are made. -/
theorem StepSpec.core1 {c : Cfg} (hw : WellFormed c) {s s' s1 s2 s3 : State} {i : In}
    {o : Out} (h : Inv c s) (hr : retired c s = false) (sp : StepSpec c s i o s' s1 s2 s3) :
    s1.core.items = tickCore c s := by
  have e1 : s1 = tickedState c s := by
    have h1 := sp.ticked
    rw [tick_ok hw h.good hr] at h1
    simpa using h1.symm
  obtain ⟨l, hl, e⟩ := tickedState_eq c s
  rw [e1, e]; rfl

/-- The core in the state after the sales. -/
theorem StepSpec.core2 {c : Cfg} (hw : WellFormed c) {s s' s1 s2 s3 : State} {i : In}
    {o : Out} (h : Inv c s) (hr : retired c s = false) (sp : StepSpec c s i o s' s1 s2 s3) :
    s2.core.items = tickCore c s := by
  have e := sp.core1 hw h hr
  rw [sp.sold.rest]
  exact e

theorem StepSpec.spent2 {c : Cfg} {s s' s1 s2 s3 : State} {i : In}
    {o : Out} (sp : StepSpec c s i o s' s1 s2 s3) : s'.spent = s2.spent := by
  rw [sp.final]
  show (if retired c s then s3 else tockedState c s3).spent = _
  have : s3.spent = s2.spent := by rw [sp.accepted]; rfl
  split <;> exact this

/-- What a step puts into spent storage is burnt, and the invariant is kept. -/
theorem spent_step {c : Cfg} (hw : WellFormed c) {is : List In} {s s' s1 s2 s3 : State} {i : In}
    {o : Out} (inv : Inv c s) (hr : retired c s = false) (hf : Filed c is s) (hs : Sched c s)
    (h : SpentInv c is s)
    (sp : StepSpec c s i o s' s1 s2 s3) (op : OpFacts c s i o s') :
    SpentInv c (is ++ [i]) s' ∧ ∀ d ∈ o.shipped, Burnt c is s.time d.2 := by
  have hct := hw.cycleTime
  have hnb := hw.nBatch
  have hnew : ∀ a ∈ held s2, a.id ∉ i.buys.map fun d => d.2.id := by
    intro a ha hx
    obtain ⟨d, hd, e⟩ := List.mem_map.1 hx
    exact sp.notHeld d hd a ha e.symm
  have hspc := inv.good.spent.count
  have hcc := inv.good.core.count
  -- the oldest batch is burnt once its cycle is over
  have hold : c.cycleTime ≤ s.cycleStep → s.discharged = false →
      (∀ a ∈ (burntCore c s).take c.nBatch, Burnt c is s.time a) ∨
      (¬ roomFor c s ∧ s.spent.items = []) := by
    intro h1 h2
    rcases Nat.eq_or_lt_of_le h1 with he | hlt
    · left
      intro a ha
      unfold burntCore at ha
      rw [if_pos he.symm] at ha
      obtain ⟨b, hb, rfl⟩ := mem_take_burnt ha
      exact burnt_burn inv.good hf hs (mem_held_core hb)
    · have e : burntCore c s = s.core.items := by
        unfold burntCore; rw [if_neg (by omega)]
      rw [e]
      rcases h.waiting hlt h2 with ⟨_, hx⟩ | ⟨hx, hy⟩ | hx
      · exact Or.inl hx
      · right
        refine ⟨?_, hx⟩
        unfold roomFor
        omega
      · left; rw [hx]; simp
  have hdis : ∀ a ∈ (burntCore c s).take (nDis c s), Burnt c is s.time a := by
    intro a ha
    unfold nDis at ha
    split at ha
    · rename_i hd
      rcases hold hd.1.1 hd.1.2 with hx | hx
      · exact hx a ha
      · exact absurd hd.2 hx.1
    · simp at ha
  have hmoved : ∀ a, a ∈ s'.spent.items ∨ a ∈ o.shipped.map Prod.snd → Burnt c is s.time a := by
    intro a ha
    have := op.spent.symm.subset (List.mem_append.2 ha)
    rcases List.mem_append.1 this with hx | hx
    · exact h.spent a hx
    · exact hdis a hx
  have hsp' : s.spent.items = [] → nDis c s = 0 → s'.spent.items = [] := by
    intro h1 h2
    have := op.spent
    rw [h1, h2] at this
    simp only [List.take_zero, List.append_nil, List.nil_perm, List.append_eq_nil_iff] at this
    exact this.1
  refine ⟨⟨?_, ?_, ?_⟩, fun d hd => hmoved _ (Or.inr (List.mem_map_of_mem hd))⟩
  · intro hle
    by_cases hren : renews c s s'
    · exact Or.inl hren.2.1
    · have hcnt : stepCount c s s' = s.cycleStep := by unfold stepCount; rw [if_neg hren]
      have hlt : s.cycleStep < c.cycleTime := by
        have := op.cycleStep
        rw [hcnt] at this
        rcases Nat.eq_zero_or_pos s.cycleStep with hz | hz
        · omega
        · rw [if_pos (Or.inl hz)] at this; omega
      rcases h.running (by omega) with hx | hx
      · exact Or.inl (full_running op hlt hx)
      · exact Or.inr (hsp' hx (tickCore_running hlt).2.2)
  · intro hlt hnd
    have hren : ¬ renews c s s' := by
      intro hren
      have hcnt : stepCount c s s' = 0 := by unfold stepCount; rw [if_pos hren]
      have := op.cycleStep
      rw [hcnt, if_pos (Or.inr hren.2.1)] at this
      omega
    have hcnt : stepCount c s s' = s.cycleStep := by unfold stepCount; rw [if_neg hren]
    have hge : c.cycleTime ≤ s.cycleStep := by
      have := op.cycleStep
      rw [hcnt] at this
      split at this <;> omega
    have hdone : tickDone c s = false := by
      have := op.discharged
      rw [if_neg hren] at this
      rw [← this]; exact hnd
    have hdue : Due c s ∧ ¬ roomFor c s := by
      by_cases hd : Due c s
      · refine ⟨hd, ?_⟩
        unfold tickDone at hdone
        rw [if_pos hd] at hdone
        exact of_decide_eq_false hdone
      · exfalso
        unfold tickDone at hdone
        rw [if_neg hd] at hdone
        exact hd ⟨hge, hdone⟩
    have hnd0 : nDis c s = 0 := by unfold nDis; rw [if_neg (fun hx => hdue.2 hx.2)]
    have hlen : (burntCore c s).length ≤ s'.core.items.length := by
      rw [op.core, tickCore, hnd0]; simp
    rw [burntCore_length] at hlen
    have hempty : s.spent.items = [] →
        s'.spent.items = [] ∧ c.nSpent < min c.nBatch s'.core.items.length := by
      intro hx
      refine ⟨hsp' hx hnd0, ?_⟩
      have := hdue.2
      unfold roomFor at this
      rw [hx] at this
      simp only [List.length_nil, Nat.zero_add] at this
      omega
    rcases hold hge hdue.1.2 with hx | hx
    · -- the batch is burnt; is the core full?
      have hfull : full c s ∨ s.spent.items = [] := by
        rcases Nat.eq_or_lt_of_le hge with he | hlt'
        · exact h.running (by omega)
        · rcases h.waiting hlt' hdue.1.2 with ⟨hy, _⟩ | ⟨hy, _⟩ | hy
          · exact Or.inl hy
          · exact Or.inr hy
          · exfalso
            apply hdue.2
            unfold roomFor
            rw [hy]
            simpa using hspc
      rcases hfull with hfull | hempt
      · left
        unfold full at hfull
        have etick : tickCore c s = burntCore c s := by
          unfold tickCore
          have : nIn c s = 0 := by
            unfold nIn
            rw [hnd0]
            simp [burntCore_length, hfull]
          rw [hnd0, this]; simp
        have ecore : s'.core.items = burntCore c s := by
          rw [op.core, etick, burntCore_length, hfull]; simp
        refine ⟨?_, ?_⟩
        · unfold full; rw [ecore, burntCore_length, hfull]
        · intro a ha
          rw [ecore] at ha
          have hb := hx a ha
          rw [op.time]
          refine hb.mono (hnew a (mem_held_core ?_))
          rw [sp.core2 hw inv hr, etick]
          exact List.mem_of_mem_take ha
      · exact Or.inr (Or.inl (hempty hempt))
    · exact Or.inr (Or.inl (hempty hx.2))
  · intro a ha
    rw [op.time]
    refine (hmoved a (Or.inl ha)).mono (hnew a (mem_held_spent ?_))
    rw [← sp.spent2]; exact ha

theorem run_spent {c : Cfg} (hw : WellFormed c) {s0 : State} (h0 : enter c = .ok s0)
    {is : List In} {os : List Out} {s : State} (hh : HonestRun c s0 is)
    (hr : run c s0 is = .ok (os, s)) (hl : ∀ e, c.exitTime = some e → s.time ≤ e + 1) :
    SpentInv c is s := by
  refine run_operating hw (P := fun is _ s => SpentInv c is s) h0 ?_ ?_ hh hr hl
  · have hs := enter_eq h0
    refine ⟨fun _ => Or.inr hs.2.2.2.1, fun _ _ => Or.inr (Or.inr hs.2.2.1), ?_⟩
    rw [hs.2.2.2.1]; simp
  · intro is os s s' s1 s2 s3 i o inv hf hsch hp sp op hret
    exact (spent_step hw inv hret hf hsch hp sp op).1

/-! ## Orders near the exit -/

theorem ceilDiv_spec {a b : ℤ} (hb : 0 < b) : (ceilDiv a b - 1) * b < a ∧ a ≤ ceilDiv a b * b := by
  unfold ceilDiv
  have h1 := Int.emod_add_mul_ediv (-a) b
  have h2 := Int.emod_nonneg (-a) (by omega : b ≠ 0)
  have h3 := Int.emod_lt_of_pos (-a) hb
  constructor <;> nlinarith

/-- The order of a reactor that will exit, with the number of cycles characterised. -/
theorem orderSize_exit {c : Cfg} (hw : WellFormed c) {e : Nat} (he : c.exitTime = some e)
    (s : State) : ∃ k : ℤ,
      (k - 1) * ((c.cycleTime : ℤ) + c.refuelTime) <
        (e : ℤ) - s.time + 1 - ((c.cycleTime : ℤ) + c.refuelTime - s.cycleStep) ∧
      (e : ℤ) - s.time + 1 - ((c.cycleTime : ℤ) + c.refuelTime - s.cycleStep) ≤
        k * ((c.cycleTime : ℤ) + c.refuelTime) ∧
      orderSize c s = min (vacancy c s)
        (k * c.nBatch - c.nFresh + c.nCore - s.core.items.length).toNat := by
  have hct := hw.cycleTime
  obtain ⟨h1, h2⟩ := ceilDiv_spec (a := (e : ℤ) - s.time + 1 -
      ((c.cycleTime : ℤ) + c.refuelTime - s.cycleStep))
      (b := (c.cycleTime : ℤ) + c.refuelTime) (by omega)
  exact ⟨_, h1, h2, by unfold orderSize; rw [he]⟩

end Cyc.Reactor
