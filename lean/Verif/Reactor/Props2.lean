import Verif.Reactor.Lemmas12
import Verif.Reactor.Check

/-!
# Reactor properties: cycles, power, transmutation and discharge (C05-C10, C18)
-/

namespace Cyc.Reactor

/-! ## C05 and C18 -/

/-- C05, in terms of the state: at the end of each step of an unretired reactor exactly one power
value has been recorded, `power_cap` if the core is full and the cycle has now lasted at most
`cycle_time` steps (the counter includes this one), otherwise 0. -/
theorem C05_power_of_step {c : Cfg} (hw : WellFormed c) {is : List In} {os : List Out} {s' : State}
    {i : In} {o : Out} (h : History c (is ++ [i]) (os ++ [o]) s') (hl : ¬ Late c o.time) :
    powers o.recs =
      [if s'.core.count = c.nCore ∧ s'.cycleStep ≤ c.cycleTime then c.powerCap else 0] := by
  obtain ⟨sa, _, at'⟩ := last_step hw h
  have op := at'.op hw hl
  rw [op.powers]
  have hf : full c s' ↔ s'.core.count = c.nCore := Iff.rfl
  have e := power_cond op
  by_cases hx : stepCount c sa s' < c.cycleTime ∧ full c s'
  · rw [if_pos hx, if_pos (e.1 hx)]
  · rw [if_neg hx, if_neg (fun hy => hx (e.2 hy))]

/-- C05 and C06, in terms of what is recorded: in step `t` an unretired reactor records exactly one
power value. It is `power_cap` if a cycle start was recorded in one of the last `cycle_time` steps,
this one included (or, for a reactor deployed in mid-cycle, if that cycle still runs and the core
is full); otherwise it is 0. -/
theorem C05_power_follows_starts {c : Cfg} (hw : WellFormed c) {is : List In} {os : List Out}
    {s : State} (h : History c is os s) {t : Nat} {o : Out} (ho : os[t]? = some o)
    (hl : ¬ Late c o.time) :
    ∃ s', History c (is.take (t + 1)) (os.take (t + 1)) s' ∧
      (((∃ j oj, os[j]? = some oj ∧ Starts oj ∧ j ≤ t ∧ t < j + c.cycleTime) ∨
          (0 < c.cycleStep ∧ c.cycleStep + t < c.cycleTime ∧ s'.core.count = c.nCore)) →
        powers o.recs = [c.powerCap]) ∧
      (¬ ((∃ j oj, os[j]? = some oj ∧ Starts oj ∧ j ≤ t ∧ t < j + c.cycleTime) ∨
          (0 < c.cycleStep ∧ c.cycleStep + t < c.cycleTime ∧ s'.core.count = c.nCore)) →
        powers o.recs = [0]) := by
  obtain ⟨i', sa', sb', at2, op, ph, _, _, hb⟩ := at_phase hw h ho hl
  refine ⟨sb', hb, fun hx => ?_, fun hx => ?_⟩
  · rw [op.powers, if_pos ((power_iff hw at2 op ph).2 hx)]
  · rw [op.powers, if_neg (fun hy => hx ((power_iff hw at2 op ph).1 hy))]

/-- C05 and C18: a retired reactor records neither power nor side products. -/
theorem C05_retired_no_power {c : Cfg} (hw : WellFormed c) {is : List In} {os : List Out}
    {s : State} (h : History c is os s) {t : Nat} {o : Out} (ho : os[t]? = some o)
    (hl : Late c o.time) : powers o.recs = [] ∧ sides o.recs = [] := by
  obtain ⟨i, sa, sb, at', _, _⟩ := history_at hw h ho
  exact ⟨(at'.ret hw hl).powers, (at'.ret hw hl).sides⟩

/-- C18. In each step of an unretired reactor one row per side product is written, with the
configured quantities exactly when the step produces power (see `C05_power_of_step`). -/
theorem C18_side_products {c : Cfg} (hw : WellFormed c) {is : List In} {os : List Out} {s' : State}
    {i : In} {o : Out} (h : History c (is ++ [i]) (os ++ [o]) s') (hl : ¬ Late c o.time) :
    (s'.core.count = c.nCore ∧ s'.cycleStep ≤ c.cycleTime ∧ powers o.recs = [c.powerCap] ∧
      sides o.recs = c.sideProducts.zip c.sideQty) ∨
    (¬ (s'.core.count = c.nCore ∧ s'.cycleStep ≤ c.cycleTime) ∧ powers o.recs = [0] ∧
      sides o.recs = c.sideProducts.map fun p => (p, 0)) := by
  have hp := C05_power_of_step hw h hl
  obtain ⟨sa, _, at'⟩ := last_step hw h
  have op := at'.op hw hl
  have e : (stepCount c sa s' < c.cycleTime ∧ full c s') ↔
      (s'.core.count = c.nCore ∧ s'.cycleStep ≤ c.cycleTime) := power_cond op
  have hsd := op.sides
  by_cases hx : s'.core.count = c.nCore ∧ s'.cycleStep ≤ c.cycleTime
  · left
    rw [if_pos hx] at hp
    refine ⟨hx.1, hx.2, hp, ?_⟩
    rw [hsd]
    simp only [if_pos (e.2 hx)]
    refine List.ext_getElem ?_ fun n h1 h2 => ?_
    · have := hw.sideQty; simp; omega
    · simp at h1 h2
      simp [h2.2]
  · right
    rw [if_neg hx] at hp
    refine ⟨hx, hp, ?_⟩
    rw [hsd]
    simp only [if_neg (fun hy => hx (e.1 hy))]
    refine List.ext_getElem ?_ fun n h1 h2 => ?_
    · simp
    · simp

/-- Power and side product of the example: two cycles of two steps, a third after refuelling, a
stall, and a last cycle cut short by retirement. -/
example : ((play exCfg exHist).toOption.map fun r => r.1.map fun o => powers o.recs) =
    some ([[0], [0], [100], [100], [0], [100], [100], [0], [100], [100], [0], [0], [100], [], [],
      [], [], []]) ∧
    ((play exCfg exHist).toOption.map fun r => r.1.map fun o => (sides o.recs).map Prod.snd) =
    some ([[0], [0], [7], [7], [0], [7], [7], [0], [7], [7], [0], [0], [7], [], [], [], [], []]) :=
  ⟨by decide +kernel, by decide +kernel⟩

/-! ## C06 -/

/-- C06. If a cycle start is recorded in step `t`, then `power_cap` is recorded in each of the
`cycle_time` steps from `t` on, 0 in each of the next `refuel_time` steps, and no other start in
between; as far as the reactor is not retired. -/
theorem C06_cycle_runs {c : Cfg} (hw : WellFormed c) {is : List In} {os : List Out}
    {s : State} (h : History c is os s) {t : Nat} {o : Out} (ho : os[t]? = some o) (hs : Starts o)
    {d : Nat} {od : Out} (hd : os[t + d]? = some od) (hl : ¬ Late c od.time) :
    (d < c.cycleTime → powers od.recs = [c.powerCap]) ∧
    (c.cycleTime ≤ d → d < c.cycleTime + c.refuelTime → powers od.recs = [0]) ∧
    (0 < d → d < c.cycleTime + c.refuelTime → ¬ Starts od) := by
  obtain ⟨s', _, hon, hoff⟩ := C05_power_follows_starts hw h hd hl
  refine ⟨fun hlt => hon (Or.inl ⟨t, o, ho, hs, by omega, by omega⟩), fun h1 h2 => hoff ?_, ?_⟩
  · rintro (⟨j, oj, hj, hsj, h3, h4⟩ | ⟨h3, h4, _⟩)
    · have hlt : t < j := by omega
      have := starts_apart hw h ho hj hs hsj hlt
      omega
    · -- the start at `t` came after the preset cycle
      have := start_after_preset hw h ho hs
      omega
  · intro h1 h2 h3
    have := starts_apart hw h ho hd hs h3 (by omega)
    omega

/-- C06, converse: a step in which power is recorded as other than 0 lies within `cycle_time`
steps after a recorded start, unless the reactor was deployed in mid-cycle and that cycle is not
over. -/
theorem C06_power_only_in_cycles {c : Cfg} (hw : WellFormed c) {is : List In} {os : List Out}
    {s : State} (h : History c is os s) {t : Nat} {o : Out} (ho : os[t]? = some o) {p : ℚ}
    (hp : p ∈ powers o.recs) (h0 : p ≠ 0) :
    (∃ j oj, os[j]? = some oj ∧ Starts oj ∧ j ≤ t ∧ t < j + c.cycleTime) ∨
      (0 < c.cycleStep ∧ c.cycleStep + t < c.cycleTime) := by
  have hl : ¬ Late c o.time := by
    intro hl
    rw [(C05_retired_no_power hw h ho hl).1] at hp
    simp at hp
  obtain ⟨s', _, _, hoff⟩ := C05_power_follows_starts hw h ho hl
  by_contra hn
  push Not at hn
  rw [hoff (by
    rintro (⟨j, oj, h1, h2, h3, h4⟩ | ⟨h1, h2, _⟩)
    · have := hn.1 j oj h1 h2 h3; omega
    · have := hn.2 h1; omega)] at hp
  simp at hp
  exact h0 hp

/-- The starts of the example. -/
example : ((play exCfg exHist).toOption.map fun r => r.1.map fun o =>
    decide (Rec.cycleStart ∈ o.recs)) = some ([false, false, true, false, false, true, false, false,
      true, false, false, false, true, false, false, false, false, false]) := by decide +kernel

/-! ## C07 -/

/-- C07. A reactor without a scheduled exit, whose every order is filled in the step it is made and
whose discharges never fail, starts cycles in exactly the steps divisible by
`cycle_time + refuel_time`, counted from its deployment.
Missing: a reactor deployed in mid-cycle (`cycle_step` not 0), which starts no cycle when it is
deployed; see `C07_mid_cycle` (`Props10.lean`). -/
theorem C07_periodic_partial {c : Cfg} (hw : WellFormed c) (hx : c.exitTime = none) (hz : c.cycleStep = 0)
    {is : List In} {os : List Out} {s : State} (h : History c is os s)
    (hprompt : ∀ (t : Nat) (i : In) (o : Out), is[t]? = some i → os[t]? = some o →
      i.buys.length = o.offer.requests.length)
    (hroom : ∀ o ∈ os, ¬ Fails o) {t : Nat} {o : Out} (ho : os[t]? = some o) :
    Starts o ↔ t % (c.cycleTime + c.refuelTime) = 0 := by
  refine (prompt_starts hw hz h (fun t i o hi ho sa sb at' op _ _ => ?_) hroom ho
    (by rintro ⟨e, he, _⟩; rw [hx] at he; simp at he))
  obtain ⟨s1, s2, s3, sp⟩ := at'.spec hw
  have hret : retired c sa = false := by unfold retired; rw [hx]
  have e := hprompt t i o hi ho
  rw [sp.requests, List.length_replicate] at e
  have horder : orderSize c s1 = vacancy c s1 := by unfold orderSize; rw [hx]
  simp only [nOrders, hret, Bool.false_eq_true, if_false, horder] at e
  have hc : s1.core.items = tickCore c sa := sp.core1 hw at'.invA hret
  have := sp.good1.core.count
  unfold vacancy at e
  rw [hc] at e
  rw [hc] at this
  exact full_of_supply op this (by omega)

/-- A promptly supplied reactor: every order is filled, and spent fuel is sold in time. -/
def promptHist : List In :=
  [supply [0, 1, 2, 3], idle, supply [4], idle, idle, supply [5], idle, buyer 1 [], supply [6], idle]

/-- Its orders are filled, no discharge fails, and cycles start in steps 0, 3, 6 and 9. -/
example : fair { exCfg with exitTime := none } promptHist = true ∧
    ((play { exCfg with exitTime := none } promptHist).toOption.map fun r =>
      (r.1.map fun o => o.offer.requests.length)) =
        some (promptHist.map fun i => i.buys.length) ∧
    ((play { exCfg with exitTime := none } promptHist).toOption.map fun r =>
      (r.1.map fun o => decide (Rec.dischargeFailed ∈ o.recs))) = some (List.replicate 10 false) ∧
    ((play { exCfg with exitTime := none } promptHist).toOption.map fun r =>
      (r.1.map fun o => decide (Rec.cycleStart ∈ o.recs))) =
        some ([true, false, false, true, false, false, true, false, false, true]) :=
  ⟨by decide +kernel, by decide +kernel, by decide +kernel, by decide +kernel⟩

/-! ## C08 -/

/-- C08, one step of an operating reactor: which objects it then holds and has shipped. They are
those it had and those delivered, unchanged, except that at the end of a cycle exactly the oldest
`n_assem_batch` assemblies of the core are replaced by their transmuted selves. -/
theorem C08_only_the_oldest_batch_changes {c : Cfg} (hw : WellFormed c) {is : List In}
    {os : List Out} {s s' : State} {i : In} {o : Out} (h : History c is os s)
    (h' : History c (is ++ [i]) (os ++ [o]) s') (hl : ¬ Late c o.time) :
    ∃ burned, List.Forall₂ (Transmuted c is o.time) (s.core.items.take c.nBatch) burned ∧
      (Ends o → (held s' ++ o.shipped.map Prod.snd).Perm
        (s.fresh.items ++ (burned ++ s.core.items.drop c.nBatch) ++ s.spent.items ++
          i.buys.map Prod.snd)) ∧
      (¬ Ends o → (held s' ++ o.shipped.map Prod.snd).Perm
        (held s ++ i.buys.map Prod.snd)) := by
  obtain ⟨sa, ha, at'⟩ := last_step hw h'
  have e := (history_unique h ha).2
  subst e
  have op := at'.op hw hl
  have hs : Sched c sa := by
    obtain ⟨s0, h0, hh, hr⟩ := ha
    refine run_sched hw h0 hh hr fun e he => ?_
    by_contra hc
    exact hl ⟨e, he, by rw [at'.time, ← at'.timeA]; omega⟩
  have hf : Filed c is sa := by
    obtain ⟨s0, h0, hh, hr⟩ := ha
    exact run_filed hw h0 hh hr
  have ht : o.time = sa.time := by rw [at'.time, at'.timeA]
  have hm := op_moved op
  refine ⟨(sa.core.items.take c.nBatch).map (burn c sa), ?_, ?_, ?_⟩
  · rw [List.forall₂_map_right_iff, ht]
    exact List.forall₂_same.2 fun a ha =>
      burn_transmuted at'.invA.good hf hs (mem_held_core (List.mem_of_mem_take ha))
  · intro he
    have e : burntCore c sa = (sa.core.items.take c.nBatch).map (burn c sa) ++
        sa.core.items.drop c.nBatch := by
      unfold burntCore; rw [if_pos (op.ends.1 he)]
    rwa [e] at hm
  · intro he
    have e : burntCore c sa = sa.core.items := by
      unfold burntCore; rw [if_neg (fun hx => he (op.ends.2 hx))]
    rwa [e] at hm

/-- C08, the end of a cycle is where the rows say: a transmutation row is written exactly then,
with the number of assemblies transmuted. -/
theorem C08_transmute_rows {c : Cfg} (hw : WellFormed c) {is : List In}
    {os : List Out} {s s' : State} {i : In} {o : Out} (h : History c is os s)
    (h' : History c (is ++ [i]) (os ++ [o]) s') (hl : ¬ Late c o.time) :
    (Ends o → transmutes o.recs = [min c.nBatch s.core.count]) ∧
    (¬ Ends o → transmutes o.recs = []) := by
  obtain ⟨sa, ha, at'⟩ := last_step hw h'
  have e := (history_unique h ha).2
  subst e
  have op := at'.op hw hl
  refine ⟨fun he => ?_, fun he => ?_⟩
  · rw [op.transmutes, if_pos (op.ends.1 he)]; rfl
  · rw [op.transmutes, if_neg (fun hx => he (op.ends.2 hx))]

/-- C08, the end of a cycle falls `cycle_time` steps after its start. -/
theorem C08_end_of_cycle {c : Cfg} (hw : WellFormed c) {is : List In} {os : List Out}
    {s : State} (h : History c is os s) {t : Nat} {o : Out} (ho : os[t]? = some o) (hs : Starts o)
    {d : Nat} {od : Out} (hd : os[t + d]? = some od) (hl : ¬ Late c od.time)
    (hn : ∀ (j : Nat) (oj : Out), os[j]? = some oj → t < j → j < t + d → ¬ Starts oj)
    (h0 : 0 < d) : Ends od ↔ d = c.cycleTime := by
  obtain ⟨i, sa, sb, at', op, ph, _, _, _⟩ := at_phase hw h hd hl
  have htl : t + d < os.length := (List.getElem?_eq_some_iff.1 hd).1
  have hlen : (os.take (t + d)).length = t + d := by simp; omega
  have hmem : (os.take (t + d))[t]? = some o := getElem?_take_some.2 ⟨by omega, ho⟩
  rw [op.ends]
  cases ph with
  | waiting _ _ none => exact absurd hs (none o (List.mem_of_getElem? hmem))
  | preset _ _ none => exact absurd hs (none o (List.mem_of_getElem? hmem))
  | cycle j oj hj start last count pos _ _ =>
    have h1 : t ≤ j := by
      by_contra hc
      exact last t o hmem (by omega) hs
    have h2 : j = t := by
      by_contra hc
      obtain ⟨h3, h4⟩ := getElem?_take_some.1 hj
      exact hn j oj h4 (by omega) h3 start
    omega

/-- C08, before retirement all spent fuel is burnt: every assembly in spent storage, and every
assembly that was shipped in the last step, has the composition of an output recipe that was in
force for the commodity it was bought as. -/
theorem C08_spent_fuel_is_burnt {c : Cfg} (hw : WellFormed c) {is : List In}
    {os : List Out} {s' : State} {i : In} {o : Out}
    (h' : History c (is ++ [i]) (os ++ [o]) s') (hl : ¬ Late c o.time) :
    (∀ a ∈ s'.spent.items, Burnt c (is ++ [i]) s'.time a) ∧
    (∀ d ∈ o.shipped, Burnt c is o.time d.2) := by
  obtain ⟨sa, ha, at'⟩ := last_step hw h'
  have op := at'.op hw hl
  have ht : o.time = sa.time := by rw [at'.time, at'.timeA]
  have hx : ∀ e, c.exitTime = some e → sa.time ≤ e := by
    intro e he
    by_contra hc
    exact hl ⟨e, he, by omega⟩
  obtain ⟨s1, s2, s3, sp⟩ := at'.spec hw
  obtain ⟨s0, h0, hh, hr⟩ := ha
  have hx' : ∀ e, c.exitTime = some e → sa.time ≤ e + 1 := fun e he => by
    have := hx e he; omega
  have hret : retired c sa = false := by
    rw [not_late_iff, ← ht]; exact hl
  obtain ⟨k1, k2⟩ := spent_step hw at'.invA hret (run_filed hw h0 hh hr)
    (run_sched hw h0 hh hr hx') (run_spent hw h0 hh hr hx') sp op
  exact ⟨k1.spent, fun d hd => by rw [ht]; exact k2 d hd⟩

/-- The compositions in the example: recipe 1 is fresh fuel, 3 the output recipe until step 4, and
6 the one after. Assembly 0 is burnt with the old recipe, in step 4 (in force before that step),
1 with the new one in step 7; both wait in spent storage. -/
example : ((play exCfg (exHist.take 8)).toOption.map fun r =>
      r.2.spent.items.map fun a => (a.id, a.comp)) = some [(0, 3), (1, 6)] ∧
    ((play exCfg (exHist.take 8)).toOption.map fun r =>
      r.2.core.items.map fun a => (a.id, a.comp)) = some [(2, 1), (3, 1), (4, 1)] :=
  ⟨by decide +kernel, by decide +kernel⟩

/-! ## C09 -/

/-- C09, one step of an operating reactor, up to the moment `sm` in which trades are made. At most
one discharge is recorded. If one is, it moved `n = min n_assem_batch core` assemblies, the first
`n` of the core, in order, to the end of spent storage; if none is, nothing left the core and
nothing was added to spent storage. The rest of the core keeps its order, and what is loaded from
fresh storage is the oldest there and goes behind. -/
theorem C09_discharge_fifo {c : Cfg} (hw : WellFormed c) {is : List In} {os : List Out}
    {s s' : State} {i : In} {o : Out} {of : Offer} {sm : State} (h : History c is os s)
    (h' : History c (is ++ [i]) (os ++ [o]) s') (hl : ¬ Late c o.time)
    (ho : offerPhase c i.reqs s = .ok (of, sm)) :
    ∃ n m, ((discharges o.recs = [n] ∧ n = min c.nBatch s.core.count) ∨
        (discharges o.recs = [] ∧ n = 0)) ∧
      sm.spent.items.map tag = s.spent.items.map tag ++ (s.core.items.take n).map tag ∧
      sm.core.items.map tag = (s.core.items.drop n).map tag ++ (s.fresh.items.take m).map tag ∧
      sm.fresh.items = s.fresh.items.drop m ∧
      s'.core.items.map tag = sm.core.items.map tag ++
        ((i.buys.map Prod.snd).take (c.nCore - sm.core.count)).map tag ∧
      s'.fresh.items = sm.fresh.items ++ (i.buys.map Prod.snd).drop (c.nCore - sm.core.count) := by
  obtain ⟨sa, ha, at'⟩ := last_step hw h'
  have e := (history_unique h ha).2
  subst e
  have op := at'.op hw hl
  have ht : o.time = sa.time := by rw [at'.time, at'.timeA]
  have hret : retired c sa = false := by rw [not_late_iff, ← ht]; exact hl
  obtain ⟨s1, e1, _, _, _, _, eo⟩ := offerPhase_ok hw at'.invA.good i.reqs
  rw [eo] at ho
  simp only [Except.ok.injEq, Prod.mk.injEq] at ho
  obtain ⟨_, rfl⟩ := ho
  have e1' : s1 = tickedState c sa := by
    rw [tick_ok hw at'.invA.good hret] at e1
    simpa using e1.symm
  obtain ⟨l, hl, e⟩ := tickedState_eq c sa
  rw [e] at e1'
  have c1 : s1.core.items = tickCore c sa := by rw [e1']; rfl
  have p1 : s1.spent.items = sa.spent.items ++ (burntCore c sa).take (nDis c sa) := by rw [e1']
  have f1 : s1.fresh.items = sa.fresh.items.drop (nIn c sa) := by rw [e1']
  have cd : (demandedState c sa s1).core.count = (tickCore c sa).length := by
    show s1.core.items.length = _; rw [c1]
  have tk : ∀ n, ((burntCore c sa).take n).map tag = (sa.core.items.take n).map tag := fun n => by
    rw [List.map_take, burntCore_tag, ← List.map_take]
  have dk : ∀ n, ((burntCore c sa).drop n).map tag = (sa.core.items.drop n).map tag := fun n => by
    rw [List.map_drop, burntCore_tag, ← List.map_drop]
  refine ⟨min (nDis c sa) sa.core.items.length, nIn c sa, ?_, ?_, ?_, f1, ?_, ?_⟩
  · rw [op.discharges]
    unfold nDis
    by_cases hx : Due c sa ∧ roomFor c sa
    · left; rw [if_pos hx, if_pos hx]; exact ⟨rfl, rfl⟩
    · right; rw [if_neg hx, if_neg hx]; exact ⟨rfl, by simp⟩
  · show s1.spent.items.map tag = _
    rw [p1, List.map_append, tk, take_min_length]
  · show s1.core.items.map tag = _
    rw [c1, tickCore, List.map_append, dk, drop_min_length]
  · rw [cd, op.core, List.map_append]
    show _ = s1.core.items.map tag ++ _
    rw [c1]
  · rw [cd, op.fresh]
    show _ = s1.fresh.items ++ _
    rw [f1]

/-- C09, one batch per cycle: after a cycle start, up to the step before any later start, at most
one discharge succeeds; and up to and including that start exactly one. -/
theorem C09_one_discharge_per_cycle {c : Cfg} (hw : WellFormed c) {is : List In} {os : List Out}
    {s : State} (h : History c is os s) {a b : Nat} {oa ob : Out} (ha : os[a]? = some oa)
    (sa : Starts oa) (hb : os[b]? = some ob) (hab : a < b) (hlb : ¬ Late c ob.time)
    (hn : ∀ (j : Nat) (oj : Out), os[j]? = some oj → a < j → j < b → ¬ Starts oj) :
    (((os.take (b + 1)).drop (a + 1)).map fun o => (discharges o.recs).length).sum ≤ 1 ∧
    (Starts ob →
      (((os.take (b + 1)).drop (a + 1)).map fun o => (discharges o.recs).length).sum = 1) := by
  obtain ⟨s', _, _, h1, h2⟩ := discharges_since_start hw h ha sa (b - a)
    (show os[a + (b - a)]? = some ob by rw [show a + (b - a) = b by omega]; exact hb) hlb
  rw [show a + (b - a) = b by omega] at h2
  have hnone : ((os.take b).drop (a + 1)).countP (fun o => decide (Rec.cycleStart ∈ o.recs)) = 0 := by
    rw [List.countP_eq_zero]
    intro o ho
    obtain ⟨k, hk⟩ := List.mem_iff_getElem?.1 ho
    rw [List.getElem?_drop] at hk
    obtain ⟨h3, h4⟩ := getElem?_take_some.1 hk
    have := hn _ o h4 (by omega) h3
    simpa [Starts] using this
  have e : (os.take (b + 1)).drop (a + 1) = (os.take b).drop (a + 1) ++ [ob] := by
    rw [List.take_add_one, hb]
    have : a + 1 ≤ (os.take b).length := by
      have := (List.getElem?_eq_some_iff.1 hb).1
      simp; omega
    simp [List.drop_append_of_le_length this]
  rw [e, List.countP_append, hnone] at h2
  rw [e]
  by_cases hs : Starts ob
  · have hs' : Rec.cycleStart ∈ ob.recs := hs
    have hf := h1 hs
    rw [hf] at h2
    simp only [List.countP_singleton, decide_eq_true_eq, if_pos hs', Bool.false_eq_true,
      if_false] at h2
    omega
  · have hs' : Rec.cycleStart ∉ ob.recs := hs
    refine ⟨?_, fun hx => absurd hx hs⟩
    simp only [List.countP_singleton, decide_eq_true_eq, if_neg hs'] at h2
    split at h2 <;> omega

/-- Discharges of the example: one between any two starts. -/
example : ((play exCfg exHist).toOption.map fun r => (r.1.take 13).map fun o => discharges o.recs) =
    some [[], [], [], [], [1], [], [], [1], [], [], [], [], [1]] := by decide +kernel

/-! ## C10 -/

/-- C10. If a discharge fails for lack of room, then for as long as no discharge succeeds the
reactor (unless retired) produces no power and starts no cycle, the failure is recorded in every
step, and nothing leaves the core: what was there when the stall began is still there, in order. -/
theorem C10_stall {c : Cfg} (hw : WellFormed c) {is : List In} {os : List Out}
    {s : State} (h : History c is os s) {a : Nat} {oa : Out} (ha : os[a]? = some oa)
    (hfail : Fails oa) (d : Nat) {ob : Out} (hb : os[a + d]? = some ob) (hlb : ¬ Late c ob.time)
    (hnone : ∀ (j : Nat) (oj : Out), os[j]? = some oj → a < j → j ≤ a + d →
      discharges oj.recs = []) :
    powers ob.recs = [0] ∧ ¬ Starts ob ∧ Fails ob ∧ discharges ob.recs = [] ∧
    ∃ sa sb, History c (is.take a) (os.take a) sa ∧
      History c (is.take (a + d + 1)) (os.take (a + d + 1)) sb ∧
      sa.core.items.map tag <+: sb.core.items.map tag := by
  obtain ⟨sa, sb, h1, h2, h3, h4, h5, h6, _, h7⟩ := stall_run hw h ha hfail d hb hlb hnone
  exact ⟨h3, h4, h5, h6, sa, sb, h1, h2, h7⟩

/-- C10, the end of a stall: in the step after a failed discharge (of a reactor that is not
retired) the discharge succeeds if there is room for the batch at the start of the step, and fails
again if there is not. -/
theorem C10_stall_ends_with_room {c : Cfg} (hw : WellFormed c) {is : List In} {os : List Out}
    {s s' : State} {i : In} {ol o : Out} (h : History c is (os ++ [ol]) s)
    (h' : History c (is ++ [i]) (os ++ [ol] ++ [o]) s') (hfail : Fails ol) (hl : ¬ Late c o.time) :
    (s.spent.count + min c.nBatch s.core.count ≤ c.nSpent →
      discharges o.recs = [min c.nBatch s.core.count] ∧ ¬ Fails o) ∧
    (c.nSpent < s.spent.count + min c.nBatch s.core.count →
      discharges o.recs = [] ∧ Fails o) := by
  obtain ⟨sa, ha, at'⟩ := last_step hw h'
  have e := (history_unique h ha).2
  subst e
  have op := at'.op hw hl
  have hst : Stalled c sa := by
    obtain ⟨is', i', rfl⟩ : ∃ is' i', is = is' ++ [i'] := by
      have := history_length h
      rcases List.eq_nil_or_concat is with hx | ⟨is', i', hx⟩
      · rw [hx] at this; simp at this
      · exact ⟨is', i', by simpa using hx⟩
    obtain ⟨sx, _, at2⟩ := last_step hw ha
    have hl2 : ¬ Late c ol.time := by
      refine late_mono ?_ hl
      rw [at2.time, at'.time]
      simp
    have op2 := at2.op hw hl2
    have hf := op2.fails.1 hfail
    exact (stalled_step hw op2 hf.1 hf.2).2.2.2.2.1
  obtain ⟨k1, k2⟩ := stalled_discharges op hst
  exact ⟨k1, fun hx => k2 (by unfold roomFor; exact Nat.not_le.2 hx)⟩

/-- The stall of the example: the discharge of steps 10 and 11 fails (a sale in step 11 makes
room), and the one of step 12 succeeds. -/
example : ((play exCfg exHist).toOption.map fun r => (r.1.take 13).map fun o =>
    decide (Rec.dischargeFailed ∈ o.recs)) = some [false, false, false, false, false, false, false,
      false, false, false, true, true, false] := by decide +kernel

end Cyc.Reactor
