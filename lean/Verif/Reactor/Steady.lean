import Verif.Reactor.Lemmas12

/-!
# A reactor that lacks nothing

Every order is filled and all spent fuel is sold in the step in which it is discharged.
-/

namespace Cyc.Reactor

/-- How many assemblies are exchanged in step `t` by a reactor that lacks nothing: a batch at the end of
every cycle. -/
def batchAt (c : Cfg) (t : Nat) : Nat :=
  if 0 < t ∧ t % (c.cycleTime + c.refuelTime) = c.cycleTime % (c.cycleTime + c.refuelTime)
  then min c.nBatch c.nCore else 0

/-- How many assemblies are delivered in step `t` to a reactor that lacks nothing: all of the core and
the fresh fuel storage at first, and then what is exchanged. -/
def supplyAt (c : Cfg) (t : Nat) : Nat := if t = 0 then c.nCore + c.nFresh else batchAt c t

/-- The state before step `t`. -/
structure Steady (c : Cfg) (t : Nat) (s : State) : Prop where
  prompt : Prompt c t s
  spent : s.spent.items = []
  core : s.core.items.length = if t = 0 then 0 else c.nCore
  fresh : s.fresh.items.length = if t = 0 then 0 else c.nFresh

theorem steady_start {c : Cfg} (hz : c.cycleStep = 0) {s : State} (h : enter c = .ok s) :
    Steady c 0 s := by
  unfold enter at h
  dsimp only at h
  split at h
  · cases h
  · simp only [Except.ok.injEq] at h
    subst h
    exact ⟨⟨by simp [hz, promptCount], by simp [hz]⟩, rfl, rfl, rfl⟩

theorem StepSpec.fresh1 {c : Cfg} (hw : WellFormed c) {s s' s1 s2 s3 : State} {i : In}
    {o : Out} (h : Inv c s) (hr : retired c s = false) (sp : StepSpec c s i o s' s1 s2 s3) :
    s1.fresh.items = s.fresh.items.drop (nIn c s) := by
  have e1 : s1 = tickedState c s := by
    have h1 := sp.ticked
    rw [tick_ok hw h.good hr] at h1
    simpa using h1.symm
  obtain ⟨l, hl, e⟩ := tickedState_eq c s
  rw [e1, e]

/-- A reactor without storage for fresh fuel orders what is missing in the core, even if it is to retire
soon. -/
theorem orders_vacancy {c : Cfg} (hw : WellFormed c) (hx : c.exitTime = none ∨ c.nFresh = 0)
    {s s' s1 s2 s3 : State} {i : In} {o : Out} (hret : retired c s = false)
    (sp : StepSpec c s i o s' s1 s2 s3) : nOrders c s s1 = vacancy c s1 := by
  unfold nOrders
  rw [hret]
  simp only [Bool.false_eq_true, if_false]
  unfold orderSize
  cases he : c.exitTime with
  | none => rfl
  | some e =>
    have hx := hx.resolve_left (by rw [he]; simp)
    have h1 := sp.good1.core.count
    have h2 := sp.good1.fresh.count
    have h3 : s1.time ≤ e := by
      unfold retired at hret
      rw [he] at hret
      have := sp.time1
      simp at hret
      omega
    have hct := hw.cycleTime
    refine min_eq_left ?_
    have hceil : 0 ≤ ceilDiv ((e : ℤ) - s1.time + 1 - ((c.cycleTime : ℤ) + c.refuelTime - s1.cycleStep))
        ((c.cycleTime : ℤ) + c.refuelTime) := by
      unfold ceilDiv
      rw [Left.nonneg_neg_iff]
      refine Int.le_of_lt_add_one (Int.ediv_lt_of_lt_mul (by omega) ?_)
      omega
    have := mul_nonneg hceil (Int.natCast_nonneg c.nBatch)
    generalize ceilDiv ((e : ℤ) - s1.time + 1 - ((c.cycleTime : ℤ) + c.refuelTime - s1.cycleStep))
        ((c.cycleTime : ℤ) + c.refuelTime) * (c.nBatch : ℤ) = x at this ⊢
    unfold vacancy
    omega

theorem steady_step' {c : Cfg} (hw : WellFormed c) (hx : c.exitTime = none ∨ c.nFresh = 0)
    (hb : min c.nBatch c.nCore ≤ c.nSpent) {s s' s1 s2 s3 : State} {i : In} {o : Out} {t : Nat}
    (hret : retired c s = false)
    (inv : Inv c s) (S : Steady c t s) (sp : StepSpec c s i o s' s1 s2 s3)
    (hp : i.buys.length = nOrders c s s1) (he : s'.spent.items = []) :
    Steady c (t + 1) s' ∧ ¬ Fails o ∧ (Starts o ↔ t % (c.cycleTime + c.refuelTime) = 0) ∧
    powers o.recs = [if t % (c.cycleTime + c.refuelTime) < c.cycleTime then c.powerCap else 0] ∧
    i.buys.length = supplyAt c t ∧ o.shipped.length = batchAt c t := by
  have op := op_facts hw inv hret sp
  have hc := sp.core1 hw inv hret
  have hf := sp.fresh1 hw inv hret
  have h1 := sp.good1.core.count
  have h2 := sp.good1.fresh.count
  have hlen : i.buys.length = vacancy c s1 := by
    rw [hp, orders_vacancy hw hx hret sp]
  have hroom : roomFor c s := by
    unfold roomFor
    rw [S.spent, List.length_nil, Nat.zero_add]
    refine le_trans ?_ hb
    rw [S.core]
    split <;> omega
  have hnf : ¬ Fails o := fun h => (op.fails.1 h).2 hroom
  have hcore := congrArg List.length op.core
  have hfresh := congrArg List.length op.fresh
  unfold vacancy at hlen
  rw [hc, hf] at hlen
  rw [hc] at h1
  rw [hf] at h2
  simp only [List.length_append, List.length_take, List.length_map, List.length_drop] at hcore hfresh hlen h2
  have ft : full c s' := by unfold full; omega
  obtain ⟨hp', hst⟩ := prompt_step hw S.prompt op ft hnf
  -- the number of assemblies that leave the core
  have hct := hw.cycleTime
  have hdue : Due c s ↔ 0 < t ∧
      t % (c.cycleTime + c.refuelTime) = c.cycleTime % (c.cycleTime + c.refuelTime) := by
    unfold Due
    rw [S.prompt.flag, S.prompt.count]
    unfold promptCount
    split
    · rename_i h0
      simp only [decide_eq_false_iff_not]
      omega
    · rename_i h0
      simp only [decide_eq_false_iff_not]
      have hm := mod_step (P := c.cycleTime + c.refuelTime) (t := t) (by omega) (by omega)
      generalize (t - 1) % (c.cycleTime + c.refuelTime) = x at hm ⊢
      generalize t % (c.cycleTime + c.refuelTime) = y at hm ⊢
      rcases Nat.eq_zero_or_pos c.refuelTime with r0 | r0
      · have e : c.cycleTime % (c.cycleTime + c.refuelTime) = 0 := by rw [r0]; simp
        rw [e]
        omega
      · have e : c.cycleTime % (c.cycleTime + c.refuelTime) = c.cycleTime := Nat.mod_eq_of_lt (by omega)
        rw [e]
        omega
  have hdis : min (nDis c s) s.core.items.length = batchAt c t := by
    unfold nDis batchAt
    by_cases hd : Due c s
    · rw [if_pos ⟨hd, hroom⟩, if_pos (hdue.1 hd), S.core, if_neg (by have := (hdue.1 hd).1; omega)]
    · rw [if_neg (fun h => hd h.1), if_neg fun h => hd (hdue.2 h)]
      omega
  have hsp := op.spent.length_eq
  rw [S.spent, he] at hsp
  simp only [List.length_append, List.length_take, List.length_map, List.length_nil,
    burntCore_length, hdis, Nat.zero_add] at hsp
  have htc : (tickCore c s).length = s.core.items.length - nDis c s + min (nIn c s) s.fresh.items.length := by
    unfold tickCore
    simp only [List.length_append, List.length_take, List.length_drop, burntCore_length]
  have hin : nIn c s ≤ s.fresh.items.length := by
    unfold nIn; split
    · exact min_le_right _ _
    · exact Nat.zero_le _
  refine ⟨⟨hp', he, ?_, ?_⟩, hnf, hst, ?_, ?_, hsp.symm⟩
  · rw [if_neg (by omega)]; exact ft
  · rw [if_neg (by omega)]; omega
  · have e : stepCount c s s' = t % (c.cycleTime + c.refuelTime) := by
      have e1 := hp'.count
      rw [promptCount_succ hw, op.cycleStep, if_pos (Or.inr ft)] at e1
      omega
    rw [op.powers, e]
    simp only [ft, and_true]
  · unfold supplyAt
    have e1 := S.core
    have e2 := S.fresh
    split
    · rename_i h0
      rw [if_pos h0] at e1 e2
      omega
    · rename_i h0
      rw [if_neg h0] at e1 e2
      omega

theorem steady_step {c : Cfg} (hw : WellFormed c) (hx : c.exitTime = none)
    (hb : min c.nBatch c.nCore ≤ c.nSpent) {s s' s1 s2 s3 : State} {i : In} {o : Out} {t : Nat}
    (inv : Inv c s) (S : Steady c t s) (sp : StepSpec c s i o s' s1 s2 s3)
    (hp : i.buys.length = nOrders c s s1) (he : s'.spent.items = []) :
    Steady c (t + 1) s' ∧ ¬ Fails o ∧ (Starts o ↔ t % (c.cycleTime + c.refuelTime) = 0) ∧
    powers o.recs = [if t % (c.cycleTime + c.refuelTime) < c.cycleTime then c.powerCap else 0] ∧
    i.buys.length = supplyAt c t ∧ o.shipped.length = batchAt c t :=
  steady_step' hw (Or.inl hx) hb (by unfold retired; rw [hx]) inv S sp hp he

end Cyc.Reactor
