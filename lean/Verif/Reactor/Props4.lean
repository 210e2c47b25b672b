import Verif.Reactor.Lemmas12
import Verif.Reactor.Check

/-!
# Reactor properties: fuel is not held back

Property C66 of `properties.jsonl` and a further theorem for C14. Both were added because edited
models (`seeded/LOG.jsonl`) that load one assembly too few, or that stop discharging a retired core
after one batch, were not refuted by the other statements.
-/

namespace Cyc.Reactor

/-- In a step of an operating reactor a core that `Tick` leaves short takes all fresh fuel, if it
was so at the start of the step. -/
theorem tick_fills {c : Cfg} {s : State} (h : s.core.items.length = c.nCore ∨ s.fresh.items = []) :
    (tickCore c s).length = c.nCore ∨ s.fresh.items.drop (nIn c s) = [] ∨
      c.nCore < (tickCore c s).length := by
  unfold tickCore nIn
  by_cases hc : s.cycleStep ≥ c.cycleTime
  · rw [if_pos hc]
    generalize ((burntCore c s).drop (nDis c s)) = l
    simp only [List.length_append, List.length_take, List.drop_eq_nil_iff]
    omega
  · have hd : nDis c s = 0 := by
      unfold nDis; rw [if_neg]; rintro ⟨⟨h1, _⟩, _⟩; exact hc h1
    rw [if_neg hc, hd]
    simp only [List.drop_zero, List.take_zero, List.append_nil, burntCore_length]
    rcases h with h | h
    · exact Or.inl h
    · exact Or.inr (Or.inl h)

/-- The state between two steps of an operating reactor: full core or no fresh fuel. -/
theorem filled_run {c : Cfg} (hw : WellFormed c) {is : List In} {os : List Out} {s : State}
    (h : History c is os s) (hl : ∀ e, c.exitTime = some e → s.time ≤ e + 1) :
    s.core.items.length = c.nCore ∨ s.fresh.items = [] := by
  obtain ⟨s0, h0, hh, hr⟩ := h
  refine run_operating hw
    (P := fun _ _ s => s.core.items.length = c.nCore ∨ s.fresh.items = []) h0 ?_ ?_ hh hr hl
  · exact Or.inr (enter_eq h0).2.1
  · intro is os s s' s1 s2 s3 i o inv hf hsch hp sp op hret
    have hle := op.coreLe
    have hco := op.core
    rw [op.fresh]
    rcases tick_fills hp with hx | hx | hx
    · left; rw [hco, List.length_append, hx]; simp
    · rw [hx, List.nil_append, List.drop_eq_nil_iff]
      by_cases hn : (i.buys.map Prod.snd).length ≤ c.nCore - (tickCore c s).length
      · exact Or.inr hn
      · left
        rw [hco, List.length_append, List.length_take] at hle ⊢
        omega
    · rw [hco, List.length_append] at hle; omega

/-- C66: a reactor that has not passed its exit time never holds fresh fuel back. Both when trades
are made (`sm`) and at the end of the step, either the core is full or there is no fresh
assembly in store. -/
theorem C66_no_fuel_held_back {c : Cfg} (hw : WellFormed c) {is : List In} {os : List Out}
    {s s' : State} {i : In} {o : Out} {of : Offer} {sm : State} (h : History c is os s)
    (h' : History c (is ++ [i]) (os ++ [o]) s') (hl : ¬ Late c o.time)
    (ho : offerPhase c i.reqs s = .ok (of, sm)) :
    (sm.core.count = c.nCore ∨ sm.fresh.count = 0) ∧
    (s'.core.count = c.nCore ∨ s'.fresh.count = 0) := by
  obtain ⟨sa, ha, at'⟩ := last_step hw h'
  have e := (history_unique h ha).2
  subst e
  have op := at'.op hw hl
  have ht : o.time = sa.time := by rw [at'.time, at'.timeA]
  have hret : retired c sa = false := by rw [not_late_iff, ← ht]; exact hl
  have hle : ∀ e, c.exitTime = some e → sa.time ≤ e := by
    intro e he
    by_contra hx
    exact hl ⟨e, he, by omega⟩
  have fa := filled_run hw ha fun e he => by have := hle e he; omega
  have fb := filled_run hw h' fun e he => by have := hle e he; have := op.time; omega
  constructor
  · obtain ⟨s1, e1, _, _, _, _, eo⟩ := offerPhase_ok hw at'.invA.good i.reqs
    rw [eo] at ho
    simp only [Except.ok.injEq, Prod.mk.injEq] at ho
    obtain ⟨_, rfl⟩ := ho
    have e1' : s1 = tickedState c sa := by
      rw [tick_ok hw at'.invA.good hret] at e1
      simpa using e1.symm
    obtain ⟨l, hl, e⟩ := tickedState_eq c sa
    rw [e] at e1'
    have c1 : s1.core.items = tickCore c sa := by rw [e1']; rfl
    have f1 : s1.fresh.items = sa.fresh.items.drop (nIn c sa) := by rw [e1']
    show s1.core.items.length = _ ∨ s1.fresh.items.length = 0
    rw [c1, f1]
    rcases tick_fills fa with hx | hx | hx
    · exact Or.inl hx
    · exact Or.inr (by rw [hx]; rfl)
    · have := op.coreLe
      rw [op.core, List.length_append] at this; omega
  · rcases fb with hx | hx
    · exact Or.inl hx
    · exact Or.inr (by simp [Buf.count, hx])

/-- The hypotheses of `C66_no_fuel_held_back` are met by each step of the example until its exit
time, among them steps with a full core and a fresh assembly in store, and steps with a core that is
short. -/
example : fair exCfg exHist = true ∧
    ((List.range 13).map fun t => (play exCfg (exHist.take (t + 1))).toOption.map fun r =>
      (r.2.core.count, r.2.fresh.count)).all (fun x => x.any fun p => p.1 = 3 || p.2 = 0) = true ∧
    ((play exCfg (exHist.take 3)).toOption.map fun r => (r.2.core.count, r.2.fresh.count)) =
      some (3, 1) :=
  ⟨by decide +kernel, by decide +kernel, by decide +kernel⟩

/-- C14, a reactor past its exit time gives up all fuel it has room for, before trades are made:
core fuel stays only if spent storage has no room for one more batch, and fresh fuel stays only if
spent storage is full. -/
theorem C14_fuel_moved_out {c : Cfg} (hw : WellFormed c) {is : List In} {os : List Out}
    {s s' : State} {i : In} {o : Out} {of : Offer} {sm : State} (h : History c is os s)
    (h' : History c (is ++ [i]) (os ++ [o]) s') (hl : Late c o.time)
    (ho : offerPhase c i.reqs s = .ok (of, sm)) :
    (sm.core.count = 0 ∨ c.nSpent < sm.spent.count + min c.nBatch sm.core.count) ∧
    (sm.fresh.count = 0 ∨ sm.spent.count = c.nSpent) := by
  obtain ⟨sa, ha, at'⟩ := last_step hw h'
  have e := (history_unique h ha).2
  subst e
  have ht : o.time = sa.time := by rw [at'.time, at'.timeA]
  have hret : retired c sa = true := by
    by_contra hn
    rw [Bool.not_eq_true, not_late_iff, ← ht] at hn
    exact hn hl
  obtain ⟨t1, t2, t3, e, e1, g1, d2, g2, hcore, d3, g3, hfresh⟩ := tickRetired_ok hw at'.invA.good
  obtain ⟨s1, e1, _, _, _, _, eo⟩ := offerPhase_ok hw at'.invA.good i.reqs
  rw [eo] at ho
  simp only [Except.ok.injEq, Prod.mk.injEq] at ho
  obtain ⟨_, rfl⟩ := ho
  have es1 : s1 = if checkDecommission t3 then t3.record .schedDecom else t3 := by
    unfold tick at e1; rw [if_pos hret, e] at e1; simpa using e1.symm
  have hc : (demandedState c sa s1).core.items = t3.core.items := by
    show s1.core.items = _; rw [es1]; split <;> rfl
  have hf : (demandedState c sa s1).fresh.items = t3.fresh.items := by
    show s1.fresh.items = _; rw [es1]; split <;> rfl
  have hs : (demandedState c sa s1).spent.items = t3.spent.items := by
    show s1.spent.items = _; rw [es1]; split <;> rfl
  unfold Buf.count
  rw [hc, hf, hs]
  have hco : t3.core = t2.core := d3.same.2.2
  obtain ⟨j, _, j2⟩ := d3.moved
  refine ⟨?_, ?_⟩
  · rcases hcore with hx | hx
    · left; rw [hco, hx]; rfl
    · right
      unfold roomFor at hx
      rw [j2, hco, List.length_append]
      omega
  · rcases hfresh with hx | hx
    · left; rw [hx]; rfl
    · exact Or.inr hx

/-- In the example fuel stays in the core at retirement because spent storage is full. -/
example : fair exCfg exHist = true ∧
    ((play exCfg (exHist.take 13)).toOption.bind fun r =>
      (offerPhase exCfg idle.reqs r.2).toOption.map fun x =>
        (x.2.core.count, x.2.spent.count, x.2.fresh.count)) = some (3, 2, 0) :=
  ⟨by decide +kernel, by decide +kernel⟩

/-- A step of a retired reactor whose spent storage is empty moves at least one assembly out of the
core or fresh storage, if there is any, and requests decommissioning if there is none. -/
theorem retired_progress {c : Cfg} (hw : WellFormed c) (hb : c.nBatch ≤ c.nSpent)
    {s s' s1 s2 s3 : State} {i : In} {o : Out} (h : Inv c s) (hr : retired c s = true)
    (sp : StepSpec c s i o s' s1 s2 s3) (he : s.spent.items = []) :
    (s'.core.items.length + s'.fresh.items.length < s.core.items.length + s.fresh.items.length ∨
      s'.core.items.length + s'.fresh.items.length = 0) ∧
    (s.core.items = [] → s.fresh.items = [] → .schedDecom ∈ o.recs) := by
  have hnb := hw.nBatch
  obtain ⟨t1, t2, t3, e, e1, g1, d2, g2, hcore, d3, g3, hend⟩ := tickRetired_ok hw h.good
  have ht : tick c s = .ok (if checkDecommission t3 then t3.record .schedDecom else t3) := by
    unfold tick; rw [if_pos hr]; exact e
  have es1 : s1 = if checkDecommission t3 then t3.record .schedDecom else t3 := by
    have := sp.ticked; rw [ht] at this; simpa using this.symm
  have hno : nOrders c s s1 = 0 := by unfold nOrders; rw [if_pos hr]
  have hbuys : i.buys = [] := by
    have := sp.notTooMany; rw [hno] at this
    exact List.eq_nil_of_length_eq_zero (by omega)
  have hdem : demandedState c s s1 = s1 := by
    unfold demandedState; rw [hno]; simp
  have hs' : s' = { s3 with time := s.time + 1, log := [] } := by
    have := sp.final; rwa [hr] at this
  have hrecs : o.recs = s3.log := by have := sp.recs; rw [hr] at this; exact this
  have e3 : s3 = s2 := by
    rw [sp.accepted, hbuys]
    simp [acceptedState, indexed, acceptRecs]
  have hsold := sp.sold
  rw [hdem] at hsold
  have e2 := hsold.rest
  have hs1 : s1.fresh = t3.fresh ∧ s1.core = t3.core ∧ s1.spent = t3.spent := by
    rw [es1]; split <;> exact ⟨rfl, rfl, rfl⟩
  have hf : s'.fresh = t3.fresh := by
    rw [hs']; show s3.fresh = _; rw [e3, e2]; exact hs1.1
  have hc : s'.core = t3.core := by
    rw [hs']; show s3.core = _; rw [e3, e2]; exact hs1.2.1
  have hlog : o.recs = s1.log := by rw [hrecs, e3, e2]
  have hc1 : t1.core.items.length = s.core.items.length := by
    rw [e1]; split
    · simp only [burntState, State.record, List.length_append, List.length_map, List.length_take,
        List.length_drop]
      omega
    · rfl
  have hf1 : t1.fresh = s.fresh := by rw [e1]; split <;> rfl
  have hp1 : t1.spent = s.spent := by rw [e1]; split <;> rfl
  obtain ⟨j, j1, j2⟩ := d2.moved
  obtain ⟨q, q1, q2⟩ := d3.moved
  rw [hp1, he, List.nil_append] at j2
  rw [d2.rest.2.1, hf1] at q1 q2
  have hco : t3.core = t2.core := d3.same.2.2
  constructor
  · rw [hf, hc, hco, q1]
    rw [q1, q2, j2] at hend
    unfold roomFor at hcore
    rw [j2, j1] at hcore
    rw [j1]
    simp only [List.length_append, List.length_drop, List.length_take, List.drop_eq_nil_iff] at *
    omega
  · intro k1 k2
    have k3 : t1.core.items = [] := List.eq_nil_of_length_eq_zero (by rw [hc1, k1]; rfl)
    have hd : checkDecommission t3 = true := by
      unfold checkDecommission Buf.count
      rw [hco, j1, q2, j2, k2, k3]
      simp
    rw [hlog, es1, if_pos hd]
    simp [State.record]

/-- C14, a reactor past its exit time drains. Suppose spent storage can hold a batch and is empty at
the start and after each of the further steps (every offer is taken up). Then each step moves out
some fuel: after as many steps as there are assemblies outside spent storage nothing is left, and
from then on every step requests decommissioning. -/
theorem C14_drains {c : Cfg} (hw : WellFormed c) (hb : c.nBatch ≤ c.nSpent) {is : List In}
    {os : List Out} {s : State} (h : History c is os s) (hl : Late c s.time)
    {js : List In} {ps : List Out} {s' : State} (h' : History c (is ++ js) (os ++ ps) s')
    (hs : ∀ n ≤ js.length, ∀ sn, History c (is ++ js.take n) (os ++ ps.take n) sn →
      sn.spent.count = 0) :
    (s'.core.count + s'.fresh.count + js.length ≤ s.core.count + s.fresh.count ∨
      held s' = []) ∧
    (∀ (t : Nat) (o : Out), s.core.count + s.fresh.count < t → ps[t]? = some o →
      .schedDecom ∈ o.recs) := by
  have hlen := history_length h
  have hlen' := history_length h'
  simp only [List.length_append] at hlen'
  obtain ⟨e, hex, hlt⟩ := hl
  -- the state after `n` further steps
  have key : ∀ n ≤ js.length, ∃ sn, History c (is ++ js.take n) (os ++ ps.take n) sn ∧
      e < sn.time ∧
      (sn.core.items.length + sn.fresh.items.length + n ≤
        s.core.items.length + s.fresh.items.length ∨
        sn.core.items.length + sn.fresh.items.length = 0) ∧
      ∀ o, ps[n]? = some o → sn.core.items.length + sn.fresh.items.length = 0 →
        .schedDecom ∈ o.recs := by
    have one : ∀ n ≤ js.length, ∀ sn, History c (is ++ js.take n) (os ++ ps.take n) sn →
        e < sn.time → ∀ o, ps[n]? = some o → ∃ sb,
        History c (is ++ js.take (n + 1)) (os ++ ps.take (n + 1)) sb ∧ e < sb.time ∧
        (sb.core.items.length + sb.fresh.items.length <
            sn.core.items.length + sn.fresh.items.length ∨
          sb.core.items.length + sb.fresh.items.length = 0) ∧
        (sn.core.items = [] → sn.fresh.items = [] → .schedDecom ∈ o.recs) := by
      intro n hn sn hsn hlate o ho
      have ho' : (os ++ ps)[os.length + n]? = some o := by
        rw [List.getElem?_append_right (by omega)]; simpa using ho
      obtain ⟨i, sa, sb, at', ha, hb'⟩ := history_at hw h' ho'
      have e1 : (is ++ js).take (os.length + n) = is ++ js.take n := by
        rw [hlen, List.take_length_add_append]
      have e2 : (os ++ ps).take (os.length + n) = os ++ ps.take n := by
        rw [List.take_length_add_append]
      have e3 : (is ++ js).take (os.length + n + 1) = is ++ js.take (n + 1) := by
        rw [hlen, Nat.add_assoc, List.take_length_add_append]
      have e4 : (os ++ ps).take (os.length + n + 1) = os ++ ps.take (n + 1) := by
        rw [Nat.add_assoc, List.take_length_add_append]
      rw [e1, e2] at ha
      rw [e3, e4] at hb'
      have hu := (history_unique hsn ha).2
      subst hu
      have hret : retired c sa = true := by rw [late_iff]; exact ⟨e, hex, hlate⟩
      obtain ⟨s1, s2, s3, sp⟩ := at'.spec hw
      have he : sa.spent.items = [] :=
        List.eq_nil_of_length_eq_zero (hs n hn sa ha)
      obtain ⟨p1, p2⟩ := retired_progress hw hb at'.invA hret sp he
      refine ⟨sb, hb', ?_, p1, p2⟩
      rw [sp.final]
      show e < sa.time + 1
      omega
    intro n
    induction n with
    | zero =>
      intro _
      refine ⟨s, by simpa using h, hlt, Or.inl (by omega), fun o ho hz => ?_⟩
      obtain ⟨sb, _, _, _, hd⟩ := one 0 (by omega) s (by simpa using h) hlt o ho
      exact hd (List.eq_nil_of_length_eq_zero (by omega))
        (List.eq_nil_of_length_eq_zero (by omega))
    | succ n ih =>
      intro hn
      obtain ⟨sn, hsn, hlate, hcnt, _⟩ := ih (by omega)
      have hx : n < ps.length := by omega
      obtain ⟨sb, hsb, hlate', hcnt', _⟩ :=
        one n (by omega) sn hsn hlate ps[n] (List.getElem?_eq_getElem hx)
      refine ⟨sb, hsb, hlate', by omega, fun o ho hz => ?_⟩
      obtain ⟨_, _, _, _, hd⟩ := one (n + 1) hn sb hsb hlate' o ho
      exact hd (List.eq_nil_of_length_eq_zero (by omega))
        (List.eq_nil_of_length_eq_zero (by omega))
  constructor
  · obtain ⟨sn, hsn, _, hcnt, _⟩ := key js.length le_rfl
    have hsp := hs js.length le_rfl sn hsn
    have e2 : ps.take js.length = ps := List.take_of_length_le (by omega)
    rw [List.take_length, e2] at hsn
    have hu := (history_unique h' hsn).2
    subst hu
    rcases hcnt with hx | hx
    · exact Or.inl hx
    · right
      unfold held
      rw [List.eq_nil_of_length_eq_zero (show sn.core.items.length = 0 by omega),
        List.eq_nil_of_length_eq_zero (show sn.fresh.items.length = 0 by omega),
        List.eq_nil_of_length_eq_zero (show sn.spent.items.length = 0 from hsp)]
      rfl
  · intro t o ht ho
    have hx := (List.getElem?_eq_some_iff.1 ho).1
    obtain ⟨sn, hsn, _, hcnt, hd⟩ := key t (by omega)
    refine hd o ho ?_
    unfold Buf.count at ht
    omega

/-- The hypotheses of `C14_drains` in the example: from step 15 on, past the exit time, each offer is
taken up and spent storage is empty after each step. The last three assemblies leave in two steps,
and the steps after that request decommissioning. -/
example : fair exCfg (exHist.take 15 ++ [buyer 2 [], buyer 1 [], idle, idle, idle]) = true ∧
    ((List.range 6).map fun n => (play exCfg
        (exHist.take 15 ++ [buyer 2 [], buyer 1 [], idle, idle, idle].take n)).toOption.map fun r =>
      (r.2.time, r.2.core.count + r.2.fresh.count, r.2.spent.count,
        r.1.getLast?.any fun o => decide (.schedDecom ∈ o.recs))) =
      [some (15, 3, 0, false), some (16, 1, 0, false), some (17, 0, 0, false),
        some (18, 0, 0, true), some (19, 0, 0, true), some (20, 0, 0, true)] :=
  ⟨by decide +kernel, by decide +kernel⟩

end Cyc.Reactor
