import Verif.Reactor.Lemmas10

/-!
# Cycles: how the cycle counter relates to the recorded cycle starts
-/

namespace Cyc.Reactor

/-- While a cycle runs the core is left alone by `Tick`. -/
theorem tickCore_running {c : Cfg} {s : State} (h : s.cycleStep < c.cycleTime) :
    tickCore c s = s.core.items ∧ nIn c s = 0 ∧ nDis c s = 0 := by
  have h1 : ¬ s.cycleStep ≥ c.cycleTime := by omega
  have h2 : nDis c s = 0 := by
    unfold nDis
    rw [if_neg]
    rintro ⟨⟨h3, _⟩, _⟩
    omega
  have h3 : nIn c s = 0 := by unfold nIn; rw [if_neg h1]
  refine ⟨?_, h3, h2⟩
  unfold tickCore burntCore
  rw [h2, h3, if_neg (by omega)]
  simp

/-- A full core stays full while a cycle runs. -/
theorem full_running {c : Cfg} {s s' : State} {i : In} {o : Out} (h : OpFacts c s i o s')
    (hlt : s.cycleStep < c.cycleTime) (hf : full c s) : full c s' := by
  unfold full at *
  rw [h.core, (tickCore_running hlt).1, hf]
  simp [hf]

/-- How the cycle counter relates to the starts recorded so far. -/
inductive Phase (c : Cfg) (os : List Out) (s : State) : Prop
  | waiting (step : s.cycleStep = 0) (init : c.cycleStep = 0) (none : ∀ o ∈ os, ¬ Starts o)
  | cycle (j : Nat) (o : Out) (at' : os[j]? = some o) (start : Starts o)
      (last : ∀ (j' : Nat) (o' : Out), os[j']? = some o' → j < j' → ¬ Starts o')
      (count : os.length = j + s.cycleStep) (pos : 0 < s.cycleStep)
      (full : s.cycleStep ≤ c.cycleTime → full c s)
      (init : c.cycleStep = 0 ∨ c.cycleTime ≤ c.cycleStep + j)
  | preset (init : 0 < c.cycleStep) (count : s.cycleStep = c.cycleStep + os.length)
      (none : ∀ o ∈ os, ¬ Starts o)

theorem getElem?_append_one {α : Type} {l : List α} {x y : α} {j : Nat}
    (h : (l ++ [x])[j]? = some y) : l[j]? = some y ∨ (j = l.length ∧ y = x) := by
  by_cases hj : j < l.length
  · left; rwa [List.getElem?_append_left hj] at h
  · right
    have := (List.getElem?_eq_some_iff.1 h).1
    simp at this
    have hj' : j = l.length := by omega
    subst hj'
    simp at h
    exact ⟨rfl, h.symm⟩

/-- Everything observable about the cycle in one step, and the next phase. -/
theorem phase_step {c : Cfg} (hw : WellFormed c) {os : List Out} {s s' : State} {i : In} {o : Out}
    (hp : Phase c os s) (h : OpFacts c s i o s') : Phase c (os ++ [o]) s' := by
  have hct := hw.cycleTime
  have hst := h.starts
  have hcs := h.cycleStep
  by_cases hr : renews c s s'
  · -- a new cycle begins
    have h0 : stepCount c s s' = 0 := by unfold stepCount; rw [if_pos hr]
    have hs : Starts o := hst.2 ⟨h0, hr.2.1⟩
    have hn : s'.cycleStep = 1 := by rw [hcs, h0]; simp [hr.2.1]
    refine .cycle os.length o (by simp) hs ?_ (by simp [hn]) (by omega) (fun _ => hr.2.1) ?_
    · intro j' o' hj' hlt
      have := (List.getElem?_eq_some_iff.1 hj').1
      simp at this; omega
    · have hge := hr.1
      cases hp with
      | waiting step init _ => left; exact init
      | cycle j _ _ _ _ count _ _ init =>
        rcases init with hz | hz
        · left; exact hz
        · right; omega
      | preset init count _ => right; omega
  · have h0 : stepCount c s s' = s.cycleStep := by unfold stepCount; rw [if_neg hr]
    cases hp with
    | waiting step init none =>
      rw [step] at h0
      by_cases hf : full c s'
      · have hs : Starts o := hst.2 ⟨h0, hf⟩
        have hn : s'.cycleStep = 1 := by rw [hcs, h0]; simp [hf]
        refine .cycle os.length o (by simp) hs ?_ (by simp [hn]) (by omega) (fun _ => hf)
          (Or.inl init)
        intro j' o' hj' hlt
        have := (List.getElem?_eq_some_iff.1 hj').1
        simp at this; omega
      · have hn : s'.cycleStep = 0 := by rw [hcs, h0]; simp [hf]
        refine .waiting hn init ?_
        intro o' ho'
        rcases List.mem_append.1 ho' with ho' | ho'
        · exact none o' ho'
        · simp only [List.mem_singleton] at ho'
          subst ho'
          rw [hst]; rintro ⟨_, hx⟩; exact hf hx
    | cycle j oj at' start last count pos hfull init =>
      have hns : ¬ Starts o := by rw [hst, h0]; rintro ⟨hx, _⟩; omega
      have hn : s'.cycleStep = s.cycleStep + 1 := by rw [hcs, h0, if_pos (Or.inl pos)]
      have hj : j < os.length := (List.getElem?_eq_some_iff.1 at').1
      refine .cycle j oj (by rw [List.getElem?_append_left hj]; exact at') start ?_ ?_ (by omega) ?_
        init
      · intro j' o' hj' hlt
        rcases getElem?_append_one hj' with hj' | ⟨_, rfl⟩
        · exact last j' o' hj' hlt
        · exact hns
      · simp [hn, count]; omega
      · intro hle
        exact full_running h (by omega) (hfull (by omega))
    | preset init count none =>
      have hns : ¬ Starts o := by rw [hst, h0]; rintro ⟨hx, _⟩; omega
      have hn : s'.cycleStep = s.cycleStep + 1 := by rw [hcs, h0, if_pos (Or.inl (by omega))]
      refine .preset init (by simp [hn, count]; omega) ?_
      intro o' ho'
      rcases List.mem_append.1 ho' with ho' | ho'
      · exact none o' ho'
      · simp only [List.mem_singleton] at ho'
        subst ho'; exact hns

/-- Induction along a history, with inputs and outputs so far. -/
theorem run_inductO {c : Cfg} (hw : WellFormed c) {P : List In → List Out → State → Prop}
    (hstep : ∀ {is : List In} {os : List Out} {s s' s1 s2 s3 : State} {i : In} {o : Out},
      Inv c s → P is os s → StepSpec c s i o s' s1 s2 s3 → P (is ++ [i]) (os ++ [o]) s')
    (is : List In) :
    ∀ {pre : List In} {opre : List Out} {s s' : State} {os : List Out}, Inv c s → P pre opre s →
      HonestRun c s is → run c s is = .ok (os, s') → P (pre ++ is) (opre ++ os) s' := by
  induction is with
  | nil =>
    intro pre opre s s' os _ hp _ hr
    simp only [run, Except.ok.injEq, Prod.mk.injEq] at hr
    obtain ⟨rfl, rfl⟩ := hr
    simpa using hp
  | cons i is ih =>
    intro pre opre s s' os h hp hh hr
    obtain ⟨o, s1, os', h1, h2, rfl⟩ := run_cons.1 hr
    obtain ⟨t1, t2, t3, sp⟩ := step_spec hw h.good hh.1 h1
    have := ih (pre := pre ++ [i]) (opre := opre ++ [o]) (sp.inv h) (hstep h hp sp)
      (hh.2 o s1 h1) h2
    simpa using this

/-- An invariant of operating reactors: preserved by every step before the exit time, hence true
in every state reached with no step after it. -/
theorem run_operating {c : Cfg} (hw : WellFormed c) {P : List In → List Out → State → Prop}
    {s0 : State} (h0 : enter c = .ok s0) (hinit : P [] [] s0)
    (hstep : ∀ {is : List In} {os : List Out} {s s' s1 s2 s3 : State} {i : In} {o : Out},
      Inv c s → Filed c is s → Sched c s → P is os s → StepSpec c s i o s' s1 s2 s3 →
      OpFacts c s i o s' → retired c s = false → P (is ++ [i]) (os ++ [o]) s')
    {is : List In} {os : List Out} {s : State} (hh : HonestRun c s0 is)
    (hr : run c s0 is = .ok (os, s)) (hl : ∀ e, c.exitTime = some e → s.time ≤ e + 1) :
    P is os s := by
  have key := run_inductO hw (P := fun is os s => (∀ e, c.exitTime = some e → s.time ≤ e + 1) →
      Filed c is s ∧ Sched c s ∧ P is os s)
    (fun {is os s s' s1 s2 s3 i o} hi hp sp hx => by
      have ht : s'.time = s.time + 1 := by rw [sp.final]
      have hret : retired c s = false := by
        unfold retired
        cases he : c.exitTime with
        | none => rfl
        | some e =>
          have := hx e he
          simp only [decide_eq_false_iff_not, not_lt]
          omega
      obtain ⟨a, b, d⟩ := hp fun e he => by have := hx e he; omega
      have op := op_facts hw hi hret sp
      exact ⟨a.step sp, op_sched hw hi.good op b, hstep hi a b d sp op hret⟩)
    is (pre := []) (opre := []) (enter_inv hw h0)
    (fun _ => ⟨enter_filed h0, enter_sched hw h0, hinit⟩) hh hr
  simpa using (key hl).2.2

theorem run_phase {c : Cfg} (hw : WellFormed c) {s0 : State} (h0 : enter c = .ok s0)
    {is : List In} {os : List Out} {s : State} (hh : HonestRun c s0 is)
    (hr : run c s0 is = .ok (os, s)) (hl : ∀ e, c.exitTime = some e → s.time ≤ e + 1) :
    Phase c os s := by
  refine run_operating hw (P := fun _ os s => Phase c os s) h0 ?_
    (fun _ _ _ hp _ op _ => phase_step hw hp op) hh hr hl
  have hs := (enter_eq h0).2.2.2.2.1
  rcases Nat.eq_zero_or_pos c.cycleStep with hz | hz
  · exact .waiting (by rw [hs, hz]) hz (by simp)
  · exact .preset hz (by simp [hs]) (by simp)

/-- Step `t` of a history, and the histories up to it. -/
theorem history_at {c : Cfg} (hw : WellFormed c) {is : List In} {os : List Out} {s : State}
    (h : History c is os s) {t : Nat} {o : Out} (ho : os[t]? = some o) :
    ∃ i sa sb, AtStep c is os s t i o sa sb ∧ History c (is.take t) (os.take t) sa ∧
      History c (is.take (t + 1)) (os.take (t + 1)) sb := by
  obtain ⟨s0, h0, hh, hr⟩ := h
  obtain ⟨i, sa, sb, hra, hha, at'⟩ := at_step hw h0 hh hr ho
  have e : is.take (t + 1) = is.take t ++ [i] := by rw [List.take_add_one, at'.input]; rfl
  have e' : os.take (t + 1) = os.take t ++ [o] := by rw [List.take_add_one, at'.output]; rfl
  have hrb : run c s0 (is.take (t + 1)) = .ok (os.take (t + 1), sb) := by
    rw [e, e']
    exact (run_append _ _).2 ⟨os.take t, sa, [o], hra,
      run_cons.2 ⟨o, sb, [], at'.stepped, rfl, rfl⟩, rfl⟩
  refine ⟨i, sa, sb, at', ⟨s0, h0, hha, hra⟩, s0, h0, ?_, hrb⟩
  rw [← List.take_append_drop (t + 1) is] at hh
  exact (honestRun_append _ _ hh hrb).1

/-- The outputs and the inputs of a history are equally many. -/
theorem history_length {c : Cfg} {is : List In} {os : List Out} {s : State}
    (h : History c is os s) : os.length = is.length := by
  obtain ⟨s0, _, _, hr⟩ := h
  exact run_length _ hr

/-- The state is determined by the history. -/
theorem history_unique {c : Cfg} {is : List In} {os os' : List Out} {s s' : State}
    (h : History c is os s) (h' : History c is os' s') : os' = os ∧ s' = s := by
  obtain ⟨s0, h0, _, hr⟩ := h
  obtain ⟨s1, h1, _, hr'⟩ := h'
  rw [h0] at h1
  simp only [Except.ok.injEq] at h1
  subst h1
  rw [hr] at hr'
  simp only [Except.ok.injEq, Prod.mk.injEq] at hr'
  exact ⟨hr'.1.symm, hr'.2.symm⟩

/-- A history extended by a step. -/
theorem History.snoc {c : Cfg} {is : List In} {os : List Out} {s : State}
    (h : History c is os s) {i : In}
    (hon : ∀ o' s1, offerPhase c i.reqs s = .ok (o', s1) → Honest c s o' i) {o : Out} {s' : State}
    (hs : step c s i = .ok (o, s')) : History c (is ++ [i]) (os ++ [o]) s' := by
  obtain ⟨s0, h0, hh, hr⟩ := h
  refine ⟨s0, h0, ?_, (run_append _ _).2 ⟨os, s, [o], hr, run_cons.2 ⟨o, s', [], hs, rfl, rfl⟩,
    rfl⟩⟩
  clear h0
  induction is generalizing s0 os with
  | nil =>
    simp only [run, Except.ok.injEq, Prod.mk.injEq] at hr
    obtain ⟨rfl, rfl⟩ := hr
    exact ⟨hon, fun _ _ _ => trivial⟩
  | cons j is ih =>
    obtain ⟨o1, s1, os', h1, h2, rfl⟩ := run_cons.1 hr
    refine ⟨hh.1, fun o2 s2 h3 => ?_⟩
    rw [h1] at h3
    simp only [Except.ok.injEq, Prod.mk.injEq] at h3
    rw [← h3.2]
    exact ih s1 (hh.2 o1 s1 h1) h2

/-- What step `t` of an unretired reactor sees: its phase, and the facts of the step. -/
theorem at_phase {c : Cfg} (hw : WellFormed c) {is : List In} {os : List Out} {s : State}
    (h : History c is os s) {t : Nat} {o : Out} (ho : os[t]? = some o) (hl : ¬ Late c o.time) :
    ∃ i sa sb, AtStep c is os s t i o sa sb ∧ OpFacts c sa i o sb ∧ Phase c (os.take t) sa ∧
      Sched c sa ∧ History c (is.take t) (os.take t) sa ∧
      History c (is.take (t + 1)) (os.take (t + 1)) sb := by
  obtain ⟨i, sa, sb, at', ha, hb⟩ := history_at hw h ho
  have hx : ∀ e, c.exitTime = some e → sa.time ≤ e + 1 := by
    intro e he
    rw [at'.timeA, ← at'.time]
    by_contra hc
    exact hl ⟨e, he, by omega⟩
  refine ⟨i, sa, sb, at', at'.op hw hl, ?_, ?_, ha, hb⟩
  · obtain ⟨s0, h0, hha, hra⟩ := ha
    exact run_phase hw h0 hha hra hx
  · obtain ⟨s0, h0, hha, hra⟩ := ha
    exact run_sched hw h0 hha hra hx

theorem late_mono {c : Cfg} {t t' : Nat} (h : t ≤ t') (hl : ¬ Late c t') : ¬ Late c t := by
  rintro ⟨e, he, hlt⟩
  exact hl ⟨e, he, by omega⟩

/-- The time of step `t`. -/
theorem history_time {c : Cfg} (hw : WellFormed c) {is : List In} {os : List Out} {s : State}
    (h : History c is os s) {t : Nat} {o : Out} (ho : os[t]? = some o) :
    o.time = c.enterTime + t := by
  obtain ⟨s0, h0, hh, hr⟩ := h
  obtain ⟨i, sa, sb, _, _, at'⟩ := at_step hw h0 hh hr ho
  exact at'.time

/-- Retired steps record no cycle start. -/
theorem starts_not_late {c : Cfg} (hw : WellFormed c) {is : List In} {os : List Out} {s : State}
    (h : History c is os s) {t : Nat} {o : Out} (ho : os[t]? = some o) (hs : Starts o) :
    ¬ Late c o.time := by
  intro hl
  obtain ⟨s0, h0, hh, hr⟩ := h
  obtain ⟨i, sa, sb, _, _, at'⟩ := at_step hw h0 hh hr ho
  exact (at'.ret hw hl).starts hs

theorem getElem?_take_some {α : Type} {l : List α} {t j : Nat} {x : α} :
    (l.take t)[j]? = some x ↔ j < t ∧ l[j]? = some x := by
  rw [List.getElem?_take]
  split <;> simp_all

/-- Two starts are at least one cycle and one outage apart. -/
theorem starts_apart {c : Cfg} (hw : WellFormed c) {is : List In} {os : List Out} {s : State}
    (h : History c is os s) {a b : Nat} {oa ob : Out} (ha : os[a]? = some oa)
    (hb : os[b]? = some ob) (sa : Starts oa) (sb : Starts ob) (hlt : a < b) :
    a + (c.cycleTime + c.refuelTime) ≤ b := by
  obtain ⟨i, s1, s2, _, op, ph, _, _, _⟩ := at_phase hw h hb (starts_not_late hw h hb sb)
  have hmem : (os.take b)[a]? = some oa := getElem?_take_some.2 ⟨hlt, ha⟩
  have hblen : b < os.length := (List.getElem?_eq_some_iff.1 hb).1
  cases ph with
  | waiting _ _ none => exact absurd sa (none oa (List.mem_of_getElem? hmem))
  | preset _ _ none => exact absurd sa (none oa (List.mem_of_getElem? hmem))
  | cycle j oj at' start last count pos _ _ =>
    have hle : a ≤ j := by
      by_contra hc
      exact last a oa hmem (by omega) sa
    have hst := op.starts.1 sb
    have hren : renews c s1 s2 := by
      by_contra hc
      have : stepCount c s1 s2 = s1.cycleStep := by unfold stepCount; rw [if_neg hc]
      omega
    have := hren.1
    have hlen : (os.take b).length = b := by simp; omega
    omega

/-- When power is produced, in terms of recorded cycle starts. -/
theorem power_iff {c : Cfg} (hw : WellFormed c) {is : List In} {os : List Out} {s : State}
    {t : Nat} {i : In} {o : Out} {sa sb : State} (at' : AtStep c is os s t i o sa sb)
    (op : OpFacts c sa i o sb) (ph : Phase c (os.take t) sa) :
    (stepCount c sa sb < c.cycleTime ∧ full c sb) ↔
      ((∃ j oj, os[j]? = some oj ∧ Starts oj ∧ j ≤ t ∧ t < j + c.cycleTime) ∨
        (0 < c.cycleStep ∧ c.cycleStep + t < c.cycleTime ∧ full c sb)) := by
  have hct := hw.cycleTime
  have htl : t < os.length := (List.getElem?_eq_some_iff.1 at'.output).1
  have hlen : (os.take t).length = t := by simp; omega
  have hnew : Starts o → ∃ j oj, os[j]? = some oj ∧ Starts oj ∧ j ≤ t ∧ t < j + c.cycleTime :=
    fun hs => ⟨t, o, at'.output, hs, le_rfl, by omega⟩
  by_cases hr : renews c sa sb
  · have h0 : stepCount c sa sb = 0 := by unfold stepCount; rw [if_pos hr]
    exact ⟨fun _ => Or.inl (hnew (op.starts.2 ⟨h0, hr.2.1⟩)), fun _ => ⟨by omega, hr.2.1⟩⟩
  · have h0 : stepCount c sa sb = sa.cycleStep := by unfold stepCount; rw [if_neg hr]
    rw [h0]
    have hold : ∀ j oj, os[j]? = some oj → Starts oj → j ≤ t →
        (os.take t)[j]? = some oj ∨ Starts o := by
      intro j oj hj hs hle
      rcases Nat.lt_or_eq_of_le hle with hlt | rfl
      · left; exact getElem?_take_some.2 ⟨hlt, hj⟩
      · right
        rw [at'.output] at hj
        simp only [Option.some.injEq] at hj
        rw [hj]; exact hs
    cases ph with
    | waiting step init none =>
      constructor
      · rintro ⟨_, hf⟩
        exact Or.inl (hnew (op.starts.2 ⟨by omega, hf⟩))
      · rintro (⟨j, oj, hj, hs, hle, _⟩ | ⟨hx, _⟩)
        · rcases hold j oj hj hs hle with hm | hs'
          · exact absurd hs (none oj (List.mem_of_getElem? hm))
          · exact ⟨by omega, (op.starts.1 hs').2⟩
        · omega
    | cycle j oj hj start last count pos hfull init =>
      have hjt : j < t := (getElem?_take_some.1 hj).1
      constructor
      · rintro ⟨hlt, _⟩
        exact Or.inl ⟨j, oj, (getElem?_take_some.1 hj).2, start, by omega, by omega⟩
      · rintro (⟨j', oj', hj', hs', hle, hlt⟩ | ⟨hx, hy, _⟩)
        · rcases hold j' oj' hj' hs' hle with hm | hs''
          · have : j' ≤ j := by
              by_contra hc
              exact last j' oj' hm (by omega) hs'
            exact ⟨by omega, full_running op (by omega) (hfull (by omega))⟩
          · have := op.starts.1 hs''
            exact ⟨by omega, this.2⟩
        · omega
    | preset init count none =>
      constructor
      · rintro ⟨hlt, hf⟩
        exact Or.inr ⟨init, by omega, hf⟩
      · rintro (⟨j, oj, hj, hs, hle, _⟩ | ⟨_, hy, hf⟩)
        · rcases hold j oj hj hs hle with hm | hs'
          · exact absurd hs (none oj (List.mem_of_getElem? hm))
          · have := op.starts.1 hs'
            exact ⟨by omega, this.2⟩
        · exact ⟨by omega, hf⟩

/-! ## The discharge flag -/

/-- In a step of a reactor whose cycle counter runs, successful discharges and cycle starts
balance, up to the flag. -/
theorem discharge_balance {c : Cfg} {s s' : State} {i : In} {o : Out} (h : OpFacts c s i o s')
    (hpos : 0 < s.cycleStep) :
    (discharges o.recs).length + (if s.discharged then 1 else 0) =
      (if .cycleStart ∈ o.recs then 1 else 0) + (if s'.discharged then 1 else 0) := by
  have hd := h.discharges
  have hf := h.discharged
  have hst : .cycleStart ∈ o.recs ↔ stepCount c s s' = 0 ∧ full c s' := h.starts
  have hcount : (discharges o.recs).length + (if s.discharged then 1 else 0) =
      if tickDone c s then 1 else 0 := by
    rw [hd]
    unfold tickDone
    by_cases hdue : Due c s
    · have : s.discharged = false := hdue.2
      by_cases hr : roomFor c s
      · simp [hdue, hr, this]
      · simp [hdue, hr, this]
    · simp [hdue]
  rw [hcount]
  by_cases hr : renews c s s'
  · have h0 : stepCount c s s' = 0 := by unfold stepCount; rw [if_pos hr]
    rw [if_pos hr] at hf
    rw [if_pos (hst.2 ⟨h0, hr.2.1⟩), hf, hr.2.2]
    rfl
  · have h0 : stepCount c s s' = s.cycleStep := by unfold stepCount; rw [if_neg hr]
    rw [if_neg hr] at hf
    have hns : ¬ Rec.cycleStart ∈ o.recs := fun hx => by have := (hst.1 hx).1; omega
    rw [if_neg hns, hf, Nat.zero_add]

/-- The counter, once running, keeps running. -/
theorem cycleStep_pos {c : Cfg} {s s' : State} {i : In} {o : Out} (h : OpFacts c s i o s')
    (hpos : 0 < s.cycleStep) : 0 < s'.cycleStep := by
  rw [h.cycleStep]
  by_cases hr : renews c s s'
  · rw [if_pos (Or.inr hr.2.1)]; omega
  · have h0 : stepCount c s s' = s.cycleStep := by unfold stepCount; rw [if_neg hr]
    rw [if_pos (Or.inl (by omega))]; omega

end Cyc.Reactor
