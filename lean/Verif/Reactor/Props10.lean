import Verif.Reactor.Props7

/-!
# Reactors deployed in mid-cycle (C07, C123)

`C07_periodic_partial` and `C123_attained_partial` are about reactors that are deployed at the start of a cycle. Here the input
`cycle_step` is arbitrary: how many steps of a cycle are taken to be over when the reactor is deployed.
-/

namespace Cyc.Reactor

/-- The steps of the first period that are over at deployment: the input `cycle_step`, up to a whole
period. -/
def elapsed (c : Cfg) : Nat := min c.cycleStep (c.cycleTime + c.refuelTime)

/-- The state before step `t` under prompt supply. -/
structure PromptFrom (c : Cfg) (t : Nat) (s : State) : Prop where
  count : s.cycleStep = if t = 0 then c.cycleStep else
    (t + elapsed c - 1) % (c.cycleTime + c.refuelTime) + 1
  flag : s.discharged = true → c.cycleTime ≤ s.cycleStep

/-- One step under prompt supply. -/
theorem promptFrom_step {c : Cfg} (hw : WellFormed c) {s s' : State} {i : In} {o : Out} {t : Nat}
    (hp : PromptFrom c t s) (h : OpFacts c s i o s') (hf : full c s') (hnf : ¬ Fails o) :
    PromptFrom c (t + 1) s' ∧ (Starts o ↔ (t + elapsed c) % (c.cycleTime + c.refuelTime) = 0) ∧
      powers o.recs = [if (t + elapsed c) % (c.cycleTime + c.refuelTime) < c.cycleTime then
        c.powerCap else 0] := by
  have hct := hw.cycleTime
  have hcount := hp.count
  have hE : elapsed c = min c.cycleStep (c.cycleTime + c.refuelTime) := rfl
  have hP : ∃ P, P = c.cycleTime + c.refuelTime := ⟨_, rfl⟩
  obtain ⟨P, hP⟩ := hP
  rw [← hP] at hcount hE ⊢
  have hPpos : 0 < P := by omega
  have hdone : tickDone c s = decide (c.cycleTime ≤ s.cycleStep) := by
    unfold tickDone
    by_cases hd : Due c s
    · have hr : roomFor c s := by
        by_contra hr
        exact hnf (h.fails.2 ⟨hd, hr⟩)
      rw [if_pos hd, decide_eq_true hr, decide_eq_true hd.1]
    · rw [if_neg hd]
      have hfl := hp.flag
      unfold Due at hd
      cases e : s.discharged with
      | true => rw [decide_eq_true (hfl e)]
      | false =>
        symm
        exact decide_eq_false fun hx => hd ⟨hx, e⟩
  have hren : renews c s s' ↔ P ≤ s.cycleStep := by
    unfold renews
    rw [hdone, ← hP]
    simp only [decide_eq_true_eq]
    constructor
    · exact fun hx => hx.1
    · exact fun hx => ⟨hx, hf, by omega⟩
  have hst := h.starts
  have hcs := h.cycleStep
  have hfl := h.discharged
  have hcs' : s'.cycleStep = stepCount c s s' + 1 := by rw [hcs, if_pos (Or.inr hf)]
  have hstep : stepCount c s s' = (t + elapsed c) % P := by
    unfold stepCount
    by_cases ht : t = 0
    · rw [if_pos ht] at hcount
      subst ht
      rw [Nat.zero_add, hE, hcount] at *
      rcases Nat.lt_or_ge c.cycleStep P with hl | hl
      · rw [if_neg (by rw [hren]; omega), Nat.min_eq_left hl.le, Nat.mod_eq_of_lt hl]
      · rw [if_pos (by rw [hren]; omega), Nat.min_eq_right hl, Nat.mod_self]
    · rw [if_neg ht] at hcount
      rcases mod_step hPpos (t := t + elapsed c) (by omega) with ⟨a, b⟩ | ⟨a, b⟩
      · rw [if_pos (by rw [hren]; omega), b]
      · rw [if_neg (by rw [hren]; omega), b, hcount]
  refine ⟨⟨?_, ?_⟩, ?_, ?_⟩
  · rw [hcs', hstep, if_neg (by omega), ← hP]
    congr 2
    omega
  · rw [hfl, hcs']
    by_cases hr : renews c s s'
    · rw [if_pos hr]; simp
    · have : stepCount c s s' = s.cycleStep := by unfold stepCount; rw [if_neg hr]
      rw [if_neg hr, this, hdone]
      simp only [decide_eq_true_eq]
      omega
  · rw [hst, hstep]
    exact ⟨fun hx => hx.1, fun hx => ⟨hx, hf⟩⟩
  · rw [h.powers, hstep]
    simp only [hf, and_true]

/-- All steps under prompt supply. -/
theorem prompt_from {c : Cfg} (hw : WellFormed c) (hx : c.exitTime = none)
    {is : List In} {os : List Out} {s : State} (h : History c is os s)
    (hprompt : ∀ (t : Nat) (i : In) (o : Out), is[t]? = some i → os[t]? = some o →
      i.buys.length = o.offer.requests.length)
    (hroom : ∀ o ∈ os, ¬ Fails o) {t : Nat} {o : Out} (ho : os[t]? = some o) :
    (Starts o ↔ (t + elapsed c) % (c.cycleTime + c.refuelTime) = 0) ∧
      powers o.recs = [if (t + elapsed c) % (c.cycleTime + c.refuelTime) < c.cycleTime then
        c.powerCap else 0] := by
  have hnl : ∀ o : Out, ¬ Late c o.time := by
    rintro o ⟨e, he, _⟩; rw [hx] at he; simp at he
  have hfull : ∀ (t : Nat) (i : In) (o : Out), is[t]? = some i → os[t]? = some o → ∀ sa sb,
      AtStep c is os s t i o sa sb → OpFacts c sa i o sb → full c sb := by
    intro t i o hi ho sa sb at' op
    obtain ⟨s1, s2, s3, sp⟩ := at'.spec hw
    have hret : retired c sa = false := by unfold retired; rw [hx]
    have e := hprompt t i o hi ho
    rw [sp.requests, List.length_replicate] at e
    have horder : orderSize c s1 = vacancy c s1 := by unfold orderSize; rw [hx]
    simp only [nOrders, hret, Bool.false_eq_true, if_false, horder] at e
    have hc : s1.core.items = tickCore c sa := sp.core1 hw at'.invA hret
    have := sp.good1.core.count
    unfold vacancy at e
    rw [hc] at e
    rw [hc] at this
    exact full_of_supply op this (by omega)
  have key : ∀ (t : Nat) (o : Out), os[t]? = some o →
      ∃ i sa sb, AtStep c is os s t i o sa sb ∧ OpFacts c sa i o sb ∧ PromptFrom c t sa := by
    intro t
    induction t with
    | zero =>
      intro o ho
      obtain ⟨s0, h0, hh, hr⟩ := h
      obtain ⟨i, sa, sb, hra, hha, at'⟩ := at_step hw h0 hh hr ho
      simp only [List.take_zero, run, Except.ok.injEq, Prod.mk.injEq, true_and] at hra
      refine ⟨i, sa, sb, at', at'.op hw (hnl o), ?_, ?_⟩
      · rw [← hra, (enter_eq h0).2.2.2.2.1]; simp
      · rw [← hra, (enter_eq h0).2.2.2.2.2.1]; simp
    | succ t ih =>
      intro o' ho'
      have hlt : t < os.length := by
        have := (List.getElem?_eq_some_iff.1 ho').1; omega
      have ho := List.getElem?_eq_getElem hlt
      obtain ⟨i, sa, sb, at', op, hp⟩ := ih _ ho
      obtain ⟨i', sb', at2⟩ := at'.next hw ho'
      exact ⟨i', sb, sb', at2, at2.op hw (hnl o'),
        (promptFrom_step hw hp op (hfull t i _ at'.input ho sa sb at' op)
          (hroom _ (List.mem_of_getElem? ho))).1⟩
  obtain ⟨i, sa, sb, at', op, hp⟩ := key t o ho
  exact (promptFrom_step hw hp op (hfull t i _ at'.input ho sa sb at' op)
    (hroom _ (List.mem_of_getElem? ho))).2

/-- C07, for any `cycle_step`: a reactor without a scheduled exit, whose every order is filled in the
step it is made and whose discharges never fail, starts cycles in exactly the steps in which, counted
from its deployment and with the steps taken to be over then (at most a whole period), a multiple of
`cycle_time + refuel_time` steps is over. -/
theorem C07_mid_cycle {c : Cfg} (hw : WellFormed c) (hx : c.exitTime = none)
    {is : List In} {os : List Out} {s : State} (h : History c is os s)
    (hprompt : ∀ (t : Nat) (i : In) (o : Out), is[t]? = some i → os[t]? = some o →
      i.buys.length = o.offer.requests.length)
    (hroom : ∀ o ∈ os, ¬ Fails o) {t : Nat} {o : Out} (ho : os[t]? = some o) :
    Starts o ↔ (t + min c.cycleStep (c.cycleTime + c.refuelTime)) %
      (c.cycleTime + c.refuelTime) = 0 :=
  (prompt_from hw hx h hprompt hroom ho).1

/-- The steps at full power among the first `n` of an ideal reactor that is deployed when `k` steps of
a period are over. -/
def idealFrom (c : Cfg) (k n : Nat) : Nat :=
  (List.range n).countP fun j => decide ((j + k) % (c.cycleTime + c.refuelTime) < c.cycleTime)

/-- C123, for any `cycle_step`: under the same conditions a reactor records exactly what an ideal one
does that is at the same place of the period when it is deployed. -/
theorem C123_mid_cycle {c : Cfg} (hw : WellFormed c) (hx : c.exitTime = none)
    {is : List In} {os : List Out} {s : State} (h : History c is os s)
    (hprompt : ∀ (t : Nat) (i : In) (o : Out), is[t]? = some i → os[t]? = some o →
      i.buys.length = o.offer.requests.length)
    (hroom : ∀ o ∈ os, ¬ Fails o) : energy os = c.powerCap *
      idealFrom c (min c.cycleStep (c.cycleTime + c.refuelTime)) os.length := by
  have key : ∀ n ≤ os.length, energy (os.take n) = c.powerCap * idealFrom c (elapsed c) n := by
    intro n
    induction n with
    | zero => intro _; simp [energy, idealFrom]
    | succ n ih =>
      intro hn
      have ho : os[n]? = some os[n] := List.getElem?_eq_getElem (by omega)
      have e := (prompt_from hw hx h hprompt hroom ho).2
      have e2 : idealFrom c (elapsed c) (n + 1) = idealFrom c (elapsed c) n +
          if (n + elapsed c) % (c.cycleTime + c.refuelTime) < c.cycleTime then 1 else 0 := by
        simp [idealFrom, List.range_succ, List.countP_append, List.countP_cons]
      rw [List.take_add_one, ho, energy_append, ih (by omega), e2]
      simp only [energy, Option.toList_some, List.flatMap_cons, List.flatMap_nil, List.append_nil,
        e, List.sum_cons, List.sum_nil]
      split <;> push_cast <;> ring
  have := key os.length (le_refl _)
  rwa [List.take_length] at this

/-- A reactor that is deployed after one step of a cycle, promptly supplied. -/
def midCfg : Cfg := { exCfg with exitTime := none, cycleStep := 1 }

def midHist : List In :=
  [supply [0, 1, 2, 3], supply [4], idle, idle, supply [5], idle, buyer 1 [], supply [6], idle]

/-- C07 as stated fails for it: its orders are filled, no discharge fails, and cycles start in steps 2, 5
and 8, not in that of the deployment; there is full power in six of nine steps. -/
theorem C07_counterexample : fair midCfg midHist = true ∧
    ((play midCfg midHist).toOption.map fun r =>
      (r.1.map fun o => o.offer.requests.length)) = some (midHist.map fun i => i.buys.length) ∧
    ((play midCfg midHist).toOption.map fun r =>
      (r.1.map fun o => decide (Rec.dischargeFailed ∈ o.recs))) = some (List.replicate 9 false) ∧
    ((play midCfg midHist).toOption.map fun r =>
      (r.1.map fun o => decide (Rec.cycleStart ∈ o.recs))) =
        some [false, false, true, false, false, true, false, false, true] ∧
    ((play midCfg midHist).toOption.map fun r => energy r.1) =
      some (midCfg.powerCap * idealFrom midCfg 1 9) :=
  ⟨by decide +kernel, by decide +kernel, by decide +kernel, by decide +kernel, by decide +kernel⟩

/-- C123 as stated fails for it, too: in its first two steps it records less than the ideal reactor. -/
theorem C123_counterexample : fair midCfg (midHist.take 2) = true ∧
    ((play midCfg (midHist.take 2)).toOption.map fun r =>
      (r.1.map fun o => o.offer.requests.length)) =
        some ((midHist.take 2).map fun i => i.buys.length) ∧
    ((play midCfg (midHist.take 2)).toOption.map fun r =>
      (r.1.map fun o => decide (Rec.dischargeFailed ∈ o.recs))) = some [false, false] ∧
    ((play midCfg (midHist.take 2)).toOption.map fun r =>
      decide (energy r.1 < midCfg.powerCap * ideal midCfg 2)) = some true :=
  ⟨by decide +kernel, by decide +kernel, by decide +kernel, by decide +kernel⟩

end Cyc.Reactor
