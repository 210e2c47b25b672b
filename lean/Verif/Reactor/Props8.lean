import Verif.Reactor.Lemmas13
import Verif.Reactor.Check

/-!
# Reactor properties: fuel for the last cycles, with fresh storage (C13)
-/

namespace Cyc.Reactor

/-- C13, with fresh storage. Let the orders of a reactor be filled in the step they are made and its
discharges not fail. If fresh storage holds no more than a batch and there is time for a second cycle to
start, or if there is time for `k` further cycles to start and these take at least twice what fresh storage
holds, then every cycle starts on time up to the exit, the last one included.

A reactor without fresh storage is the case `k = 0`. The full statement makes no assumption about fresh
storage and is false: see `C13_may_never_start` and `C13_last_cycle_missed`. -/
theorem C13_enough_with_fresh_storage_partial {c : Cfg} (hw : WellFormed c) {e : Nat}
    (he : c.exitTime = some e) (hz : c.cycleStep = 0)
    (hfresh : (c.nFresh ≤ c.nBatch ∧ c.enterTime + (c.cycleTime + c.refuelTime) ≤ e) ∨
      ∃ k, 2 * c.nFresh ≤ k * c.nBatch ∧ c.enterTime + k * (c.cycleTime + c.refuelTime) ≤ e)
    {is : List In} {os : List Out} {s : State} (h : History c is os s)
    (hprompt : ∀ (t : Nat) (i : In) (o : Out), is[t]? = some i → os[t]? = some o →
      i.buys.length = o.offer.requests.length)
    (hroom : ∀ o ∈ os, ¬ Fails o) {t : Nat} {o : Out} (ho : os[t]? = some o)
    (hle : c.enterTime + t ≤ e) :
    Starts o ↔ t % (c.cycleTime + c.refuelTime) = 0 := by
  have hct := hw.cycleTime
  have hPpos : 0 < c.cycleTime + c.refuelTime := by omega
  have hen : (c.nFresh ≤ c.nBatch ∧ 1 ≤ cyclesAfter c e 0) ∨
      2 * (c.nFresh : ℤ) ≤ cyclesAfter c e 0 * c.nBatch := by
    rw [cyclesAfter_zero]
    refine hfresh.imp (fun ⟨h1, h2⟩ => ⟨h1, ?_⟩) fun ⟨k, h1, h2⟩ => ?_
    · have : 1 ≤ (e - c.enterTime) / (c.cycleTime + c.refuelTime) :=
        (Nat.le_div_iff_mul_le hPpos).2 (by omega)
      exact_mod_cast this
    · have : k ≤ (e - c.enterTime) / (c.cycleTime + c.refuelTime) :=
        (Nat.le_div_iff_mul_le hPpos).2 (by omega)
      have := h1.trans (Nat.mul_le_mul_right c.nBatch this)
      exact_mod_cast this
  have onTime : ∀ (t : Nat) (o : Out), os[t]? = some o → c.enterTime + t ≤ e → ¬ Late c o.time := by
    intro t o ho hle
    rintro ⟨e', he', hlt⟩
    rw [history_time hw h ho] at hlt
    rw [he] at he'
    simp only [Option.some.injEq] at he'
    omega
  have one : ∀ (t : Nat) (i : In) (o : Out) (sa sb : State), c.enterTime + t ≤ e →
      AtStep c is os s t i o sa sb → OpFacts c sa i o sb → Prompt c t sa → Supplied c e t sa →
      Prompt c (t + 1) sb ∧ Supplied c e (t + 1) sb ∧
        (Starts o ↔ t % (c.cycleTime + c.refuelTime) = 0) := by
    intro t i o sa sb hle at' op hp hs
    obtain ⟨s1, s2, s3, sp⟩ := at'.spec hw
    have hl := onTime t o at'.output hle
    have ht : o.time = sa.time := by rw [at'.time, at'.timeA]
    have hret : retired c sa = false := by rw [not_late_iff, ← ht]; exact hl
    have hq := hprompt t i o at'.input at'.output
    rw [sp.requests, List.length_replicate] at hq
    simp only [nOrders, hret, Bool.false_eq_true, if_false] at hq
    exact supplied_step hw he hen hle hp hs at'.invA sp op
      (hroom _ (List.mem_of_getElem? at'.output)) at'.timeA hret hq
  have key : ∀ (t : Nat) (o : Out), os[t]? = some o → c.enterTime + t ≤ e →
      ∃ i sa sb, AtStep c is os s t i o sa sb ∧ OpFacts c sa i o sb ∧ Prompt c t sa ∧
        Supplied c e t sa := by
    intro t
    induction t with
    | zero =>
      intro o ho hle
      have hl := onTime 0 o ho hle
      obtain ⟨s0, h0, hh, hr⟩ := h
      obtain ⟨i, sa, sb, hra, hha, at'⟩ := at_step hw h0 hh hr ho
      refine ⟨i, sa, sb, at', at'.op hw hl, ⟨?_, ?_⟩, ⟨fun hx => by omega, fun hx => by omega⟩⟩
      · simp only [List.take_zero, run, Except.ok.injEq, Prod.mk.injEq, true_and] at hra
        rw [← hra, (enter_eq h0).2.2.2.2.1, hz]; simp [promptCount]
      · simp only [List.take_zero, run, Except.ok.injEq, Prod.mk.injEq, true_and] at hra
        rw [← hra, (enter_eq h0).2.2.2.2.2.1, (enter_eq h0).2.2.2.2.1, hz]
        simp
    | succ t ih =>
      intro o' ho' hle'
      have hlt : t < os.length := by
        have := (List.getElem?_eq_some_iff.1 ho').1; omega
      obtain ⟨i, sa, sb, at', op, hp, hs⟩ := ih _ (List.getElem?_eq_getElem hlt) (by omega)
      obtain ⟨i', sb', at2⟩ := at'.next hw ho'
      obtain ⟨p1, p2, _⟩ := one t i _ sa sb (by omega) at' op hp hs
      exact ⟨i', sb, sb', at2, at2.op hw (onTime _ _ ho' hle'), p1, p2⟩
  obtain ⟨i, sa, sb, at', op, hp, hs⟩ := key t o ho hle
  exact (one t i o sa sb hle at' op hp hs).2.2

/-- Supply and sale of a reactor with fresh storage. -/
def exStocked : List In :=
  [supply [0, 1, 2, 3], idle, supply [4], buyer 1 [], idle, idle, buyer 1 [], idle]

/-- A reactor with room for one fresh assembly, batches of one, and its exit in step 7: all orders are
filled, no discharge fails, and the three cycles there is time for start. -/
example : exCfg.nFresh ≤ exCfg.nBatch ∧ fair { exCfg with exitTime := some 7 } exStocked = true ∧
    ((play { exCfg with exitTime := some 7 } exStocked).toOption.map fun r =>
        r.1.map fun o => (o.offer.requests.length, decide (Rec.cycleStart ∈ o.recs),
          decide (Rec.dischargeFailed ∈ o.recs))) =
      some [(4, true, false), (0, false, false), (1, false, false), (0, true, false),
        (0, false, false), (0, false, false), (0, true, false), (0, false, false)] :=
  ⟨by decide +kernel, by decide +kernel, by decide +kernel⟩

/-- C13 is false of the code, also for a reactor that runs: with room for two fresh assemblies, batches of
one and time for three cycles, all orders are filled and no discharge fails, and yet the third cycle, due in
step 6 of 8, does not start. (Here two further cycles take two assemblies, not twice two.) -/
theorem C13_last_cycle_missed : ∃ c : Cfg, WellFormed c ∧ c.exitTime = some 8 ∧ c.enterTime = 0 ∧
    c.cycleStep = 0 ∧ c.cycleTime + c.refuelTime = 3 ∧ c.nFresh = 2 ∧ c.nBatch = 1 ∧
    ∃ is os s, is.length = 9 ∧ History c is os s ∧
      (∀ (t : Nat) (i : In) (o : Out), is[t]? = some i → os[t]? = some o →
        i.buys.length = o.offer.requests.length) ∧
      (∀ o ∈ os, ¬ Fails o) ∧
      ∀ (t : Nat) (o : Out), os[t]? = some o → (Starts o ↔ t = 0 ∨ t = 3) := by
  have hw : WellFormed { exCfg with nFresh := 2, exitTime := some 8 } :=
    { exCfg_wf with }
  refine ⟨{ exCfg with nFresh := 2, exitTime := some 8 }, hw, rfl, rfl, rfl, rfl, rfl, rfl,
    [supply [0, 1, 2], idle, supply [3], idle, idle, idle, idle, idle, idle], ?_⟩
  obtain ⟨os, s, hp, h⟩ := history_of (c := { exCfg with nFresh := 2, exitTime := some 8 })
    (is := [supply [0, 1, 2], idle, supply [3], idle, idle, idle, idle, idle, idle])
    (by decide +kernel) (by decide +kernel)
  have h1 : ((play { exCfg with nFresh := 2, exitTime := some 8 }
    [supply [0, 1, 2], idle, supply [3], idle, idle, idle, idle, idle, idle]).toOption.map
      fun r => r.1.map fun o => (o.offer.requests.length, decide (Rec.cycleStart ∈ o.recs),
        decide (Rec.dischargeFailed ∈ o.recs))) = some [(3, true, false), (0, false, false),
          (1, false, false), (0, true, false), (0, false, false), (0, false, false),
          (0, false, false), (0, false, false), (0, false, false)] := by decide +kernel
  rw [hp] at h1
  simp only [Except.toOption, Option.map_some, Option.some.injEq] at h1
  have at' : ∀ (t : Nat) (o : Out), os[t]? = some o →
      [(3, true, false), (0, false, false), (1, false, false), (0, true, false), (0, false, false),
        (0, false, false), (0, false, false), (0, false, false), (0, false, false)][t]? =
        some (o.offer.requests.length, decide (Rec.cycleStart ∈ o.recs),
          decide (Rec.dischargeFailed ∈ o.recs)) := by
    intro t o ho
    rw [← h1, List.getElem?_map, ho, Option.map_some]
  refine ⟨os, s, rfl, h, fun t i o hi ho => ?_, fun o ho hf => ?_, fun t o ho => ?_⟩
  · have h2 := at' t o ho
    match t, hi, h2 with
    | 0, hi, h2 | 1, hi, h2 | 2, hi, h2 | 3, hi, h2 | 4, hi, h2 | 5, hi, h2 | 6, hi, h2 | 7, hi, h2
    | 8, hi, h2 =>
      simp only [List.getElem?_cons_zero, List.getElem?_cons_succ, Option.some.injEq,
        Prod.mk.injEq] at hi h2
      rw [← hi, ← h2.1]; rfl
    | n + 9, hi, h2 => simp at h2
  · obtain ⟨t, ht⟩ := List.mem_iff_getElem?.1 ho
    have h2 := at' t o ht
    rw [decide_eq_true (show Rec.dischargeFailed ∈ o.recs from hf)] at h2
    match t, h2 with
    | 0, h2 | 1, h2 | 2, h2 | 3, h2 | 4, h2 | 5, h2 | 6, h2 | 7, h2 | 8, h2 | n + 9, h2 => simp at h2
  · have h2 := at' t o ho
    have e : Starts o ↔ decide (Rec.cycleStart ∈ o.recs) = true := by simp [Starts]
    rw [e]
    match t, h2 with
    | 0, h2 | 1, h2 | 2, h2 | 3, h2 | 4, h2 | 5, h2 | 6, h2 | 7, h2 | 8, h2 =>
      simp only [List.getElem?_cons_zero, List.getElem?_cons_succ, Option.some.injEq,
        Prod.mk.injEq] at h2
      rw [← h2.2.1]; simp
    | n + 9, h2 => simp at h2

end Cyc.Reactor
