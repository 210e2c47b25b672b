import Verif.Reactor.Lemmas12
import Verif.Reactor.Check

/-!
# Reactor properties: the end of life (C13-C15)
-/

namespace Cyc.Reactor

/-! ## C13 -/

/-- C13, what is ordered by a reactor that will exit at `e`. In the state `sm` in which orders are
made, let `k` be the number of cycles that begin after the current one and before the exit (the
time left after the current cycle, in cycles, rounded up). The order is for no more than the vacant
positions, and for no more than it takes to bring the core to `n_assem_core` plus what `k` batches
exceed the capacity of fresh storage; and for exactly the lesser of the two. In particular, as long
as `k` batches are at least what fresh storage can hold, the core is filled.

The full statement of C13 says that the core plus the order always suffices for every cycle that
can still start. The code subtracts the capacity of fresh storage where its content is meant, so
this is false: see `C13_may_never_start`. -/
theorem C13_order_near_exit_partial {c : Cfg} (hw : WellFormed c) {e : Nat}
    (he : c.exitTime = some e) {is : List In} {os : List Out} {s : State} (h : History c is os s)
    (hl : ¬ Late c s.time) {reqs : String → List ℚ} {of : Offer} {sm : State}
    (ho : offerPhase c reqs s = .ok (of, sm)) :
    of.requests.length ≤ (c.nCore - sm.core.count) + (c.nFresh - sm.fresh.count) ∧
    ∃ k : ℤ,
      (k - 1) * (c.cycleTime + c.refuelTime) <
        (e : ℤ) + 1 - sm.time - ((c.cycleTime : ℤ) + c.refuelTime - sm.cycleStep) ∧
      (e : ℤ) + 1 - sm.time - ((c.cycleTime : ℤ) + c.refuelTime - sm.cycleStep) ≤
        k * (c.cycleTime + c.refuelTime) ∧
      (of.requests.length : ℤ) =
        min ((c.nCore - sm.core.count : ℤ) + (c.nFresh - sm.fresh.count))
          (max 0 ((c.nCore - sm.core.count : ℤ) + (k * c.nBatch - c.nFresh))) ∧
      ((c.nFresh : ℤ) ≤ k * c.nBatch → c.nCore ≤ sm.core.count + of.requests.length) := by
  obtain ⟨s0, h0, hh, hr⟩ := h
  have inv := run_inv hw (enter_inv hw h0) hh hr
  obtain ⟨s1, _, g1, _, _, _, eo⟩ := offerPhase_ok hw inv.good reqs
  rw [eo] at ho
  simp only [Except.ok.injEq, Prod.mk.injEq] at ho
  obtain ⟨rfl, rfl⟩ := ho
  have hret : retired c s = false := not_late_iff.2 hl
  have hlen : (List.replicate (nOrders c s s1) (onePortfolio c s1)).length = orderSize c s1 := by
    simp [nOrders, hret]
  have hct := hw.cycleTime
  have e1 : (demandedState c s s1).core = s1.core := rfl
  have e2 : (demandedState c s s1).fresh = s1.fresh := rfl
  have e3 : (demandedState c s s1).time = s1.time := rfl
  have e4 : (demandedState c s s1).cycleStep = s1.cycleStep := rfl
  rw [e1, e2, e3, e4]
  dsimp only
  rw [hlen]
  have hc := g1.core.count
  have hf := g1.fresh.count
  obtain ⟨k, k1, k2, ho⟩ := orderSize_exit hw he s1
  have c1 : s1.core.count = s1.core.items.length := rfl
  have c2 : s1.fresh.count = s1.fresh.items.length := rfl
  rw [c1, c2]
  unfold vacancy at ho
  refine ⟨orderSize_le c s1, k, by omega, by omega, ?_, ?_⟩
  · rw [ho]
    generalize k * (c.nBatch : ℤ) = m
    omega
  · intro hk
    rw [ho]
    generalize k * (c.nBatch : ℤ) = m at *
    omega

/-- C13 is false of the code: a reactor with a core of three assemblies and a fresh storage of
three, with cycles of two steps and one step of refuelling, deployed for three steps, never orders
any fuel, and so never runs, although every order it makes is filled. -/
theorem C13_may_never_start : ∃ c : Cfg, WellFormed c ∧ c.exitTime = some 2 ∧ c.enterTime = 0 ∧
    c.cycleTime + c.refuelTime = 3 ∧ ∃ is os s, is.length = 3 ∧ History c is os s ∧
      (∀ o ∈ os, o.offer.requests = []) ∧ ∀ o ∈ os, powers o.recs = [0] := by
  have hw : WellFormed { exCfg with nFresh := 3, exitTime := some 2 } :=
    { exCfg_wf with }
  refine ⟨{ exCfg with nFresh := 3, exitTime := some 2 }, hw, rfl, rfl, rfl, [idle, idle, idle], ?_⟩
  obtain ⟨os, s, hp, h⟩ := history_of (c := { exCfg with nFresh := 3, exitTime := some 2 })
    (is := [idle, idle, idle]) (by decide +kernel) (by decide +kernel)
  refine ⟨os, s, rfl, h, ?_⟩
  have h1 : ((play { exCfg with nFresh := 3, exitTime := some 2 } [idle, idle, idle]).toOption.map
    fun r => r.1.map fun o => o.offer.requests) = some [[], [], []] := by decide +kernel
  have h2 : ((play { exCfg with nFresh := 3, exitTime := some 2 } [idle, idle, idle]).toOption.map
    fun r => r.1.map fun o => powers o.recs) = some [[0], [0], [0]] := by decide +kernel
  rw [hp] at h1 h2
  simp only [Except.toOption, Option.map_some, Option.some.injEq] at h1 h2
  constructor
  · intro o ho
    have := List.mem_map_of_mem (f := fun o => o.offer.requests) ho
    rw [h1] at this; simpa using this
  · intro o ho
    have := List.mem_map_of_mem (f := fun o => powers o.recs) ho
    rw [h2] at this; simpa using this

/-- C13, the case in which the full statement holds: a reactor without fresh storage, whose orders
are filled and whose discharges do not fail, starts every cycle up to its exit. -/
theorem C13_enough_without_fresh_storage_partial {c : Cfg} (hw : WellFormed c) {e : Nat}
    (he : c.exitTime = some e) (hnf : c.nFresh = 0) (hz : c.cycleStep = 0)
    {is : List In} {os : List Out} {s : State} (h : History c is os s)
    (hprompt : ∀ (t : Nat) (i : In) (o : Out), is[t]? = some i → os[t]? = some o →
      i.buys.length = o.offer.requests.length)
    (hroom : ∀ o ∈ os, ¬ Fails o) {t : Nat} {o : Out} (ho : os[t]? = some o)
    (hle : c.enterTime + t ≤ e) :
    Starts o ↔ t % (c.cycleTime + c.refuelTime) = 0 := by
  have hct := hw.cycleTime
  have hlate : ¬ Late c o.time := by
    rintro ⟨e', he', hlt⟩
    rw [history_time hw h ho] at hlt
    rw [he] at he'
    simp only [Option.some.injEq] at he'
    omega
  refine (prompt_starts hw hz h (fun t i o hi ho sa sb at' op hp hl => ?_) hroom ho hlate)
  obtain ⟨s1, s2, s3, sp⟩ := at'.spec hw
  have ht : o.time = sa.time := by rw [at'.time, at'.timeA]
  have hret : retired c sa = false := by rw [not_late_iff, ← ht]; exact hl
  have hle : sa.time ≤ e := by
    by_contra hc
    exact hl ⟨e, he, by omega⟩
  have hq := hprompt t i o hi ho
  rw [sp.requests, List.length_replicate] at hq
  simp only [nOrders, hret, Bool.false_eq_true, if_false] at hq
  have hc : s1.core.items = tickCore c sa := sp.core1 hw at'.invA hret
  have hcl := sp.good1.core.count
  rw [hc] at hcl
  obtain ⟨k, _, k2, hk⟩ := orderSize_exit hw he s1
  rw [hk] at hq
  unfold vacancy at hq
  rw [hc, hnf] at hq
  have hk0 : 0 ≤ k := by
    rw [sp.time1] at k2
    by_contra hn
    have : k * ((c.cycleTime : ℤ) + c.refuelTime) ≤ (-1) * ((c.cycleTime : ℤ) + c.refuelTime) := by
      apply mul_le_mul_of_nonneg_right <;> omega
    omega
  have hm : 0 ≤ k * (c.nBatch : ℤ) := by positivity
  generalize k * (c.nBatch : ℤ) = m at *
  exact full_of_supply op hcl (by omega)

/-- A reactor without fresh storage that is promptly supplied, with exit at step 7. -/
example : fair { exCfg with nFresh := 0, exitTime := some 7 }
      [supply [0, 1, 2], idle, supply [3], idle, idle, supply [4], idle, idle] = true ∧
    ((play { exCfg with nFresh := 0, exitTime := some 7 }
      [supply [0, 1, 2], idle, supply [3], idle, idle, supply [4], idle, idle]).toOption.map fun r =>
        r.1.map fun o => (o.offer.requests.length, decide (Rec.cycleStart ∈ o.recs),
          decide (Rec.dischargeFailed ∈ o.recs))) =
      some [(3, true, false), (0, false, false), (1, false, false), (0, true, false),
        (0, false, false), (1, false, false), (0, true, false), (0, false, false)] :=
  ⟨by decide +kernel, by decide +kernel⟩

/-! ## C14 -/

/-- C14. After the exit time a reactor records no power and no side product, orders nothing,
receives nothing, and neither starts nor ends a cycle. -/
theorem C14_retired_is_quiet {c : Cfg} (hw : WellFormed c) {is : List In} {os : List Out}
    {s : State} (h : History c is os s) {t : Nat} {i : In} {o : Out} (hi : is[t]? = some i)
    (ho : os[t]? = some o) (hl : Late c o.time) :
    powers o.recs = [] ∧ sides o.recs = [] ∧ o.offer.requests = [] ∧ i.buys = [] ∧ ¬ Starts o ∧
      ¬ Ends o := by
  obtain ⟨i', sa, sb, at', _, _⟩ := history_at hw h ho
  have e : i' = i := by have := at'.input; rw [hi] at this; simpa using this.symm
  subst e
  have r := at'.ret hw hl
  exact ⟨r.powers, r.sides, r.requests, r.noBuys, r.starts, r.ends⟩

/-- C14, the transmutation on retirement. In the first step after the exit time the oldest half
(rounded up) of the core positions, or all of them with `decom_transmute_all`, are transmuted to
the output recipe in force for the commodity they were bought as; the number is recorded. Nothing
else is changed, then or in later steps. -/
theorem C14_transmutation_on_retirement {c : Cfg} (hw : WellFormed c) {e : Nat}
    (he : c.exitTime = some e) {is : List In} {os : List Out} {s s' : State} {i : In} {o : Out}
    (h : History c is os s) (h' : History c (is ++ [i]) (os ++ [o]) s') :
    let n := if c.decomTransmuteAll then c.nCore else (c.nCore + 1) / 2
    (o.time = e + 1 → transmutes o.recs = [min n s.core.count] ∧
      ∃ burned, List.Forall₂ (Transmuted c is o.time) (s.core.items.take n) burned ∧
        (held s' ++ o.shipped.map Prod.snd).Perm
          (s.fresh.items ++ (burned ++ s.core.items.drop n) ++ s.spent.items)) ∧
    (e + 1 < o.time → transmutes o.recs = [] ∧
      (held s' ++ o.shipped.map Prod.snd).Perm (held s)) := by
  obtain ⟨sa, ha, at'⟩ := last_step hw h'
  have e1 := (history_unique h ha).2
  subst e1
  have ht : o.time = sa.time := by rw [at'.time, at'.timeA]
  intro n
  have hn : n = nRetire c := rfl
  constructor
  · intro hx
    have r := at'.ret hw ⟨e, he, by omega⟩
    have hfirst : FirstLate c sa := by unfold FirstLate; rw [he, ← ht, hx]; rfl
    have ht' := r.transmutes
    have hm := r.moved
    unfold retiredCore at hm
    rw [if_pos hfirst] at ht' hm
    refine ⟨ht', (sa.core.items.take (nRetire c)).map (burn c sa), ?_, hm⟩
    have hs : Sched c sa := by
      obtain ⟨s0, h0, hh, hr⟩ := ha
      refine run_sched hw h0 hh hr fun e' he' => ?_
      rw [he] at he'
      simp only [Option.some.injEq] at he'
      omega
    have hf : Filed c is sa := by
      obtain ⟨s0, h0, hh, hr⟩ := ha
      exact run_filed hw h0 hh hr
    rw [List.forall₂_map_right_iff, ht]
    exact List.forall₂_same.2 fun a ha =>
      burn_transmuted at'.invA.good hf hs (mem_held_core (List.mem_of_mem_take ha))
  · intro hx
    have r := at'.ret hw ⟨e, he, by omega⟩
    have hfirst : ¬ FirstLate c sa := by
      unfold FirstLate; rw [he, ← ht]
      simp only [Option.map_some, Option.some.injEq]; omega
    have ht' := r.transmutes
    have hm := r.moved
    unfold retiredCore at hm
    rw [if_neg hfirst] at ht' hm
    exact ⟨ht', hm⟩

/-- C14, decommissioning: it is requested only after the exit time and in a step that ends with
core and spent storage empty and in which nothing is shipped; and the condition the institution
checks is that core and spent storage are empty. -/
theorem C14_decommission_only_when_empty {c : Cfg} (hw : WellFormed c) {is : List In}
    {os : List Out} {s' : State} {i : In} {o : Out}
    (h' : History c (is ++ [i]) (os ++ [o]) s') :
    (.schedDecom ∈ o.recs → Late c o.time ∧ s'.core.count = 0 ∧ s'.spent.count = 0 ∧
      o.shipped = []) ∧
    (checkDecommission s' = true ↔ s'.core.items = [] ∧ s'.spent.items = []) := by
  constructor
  · intro hd
    obtain ⟨sa, ha, at'⟩ := last_step hw h'
    by_cases hl : Late c o.time
    · have r := (at'.ret hw hl).decom hd
      exact ⟨hl, by simp [Buf.count, r.1], by simp [Buf.count, r.2.1], r.2.2.1⟩
    · exact absurd hd (at'.op hw hl).noDecom
  · simp [checkDecommission, Buf.count]

/-- Retirement in the example: two of the three core assemblies are transmuted in step 13, fuel
leaves as there is room, and decommissioning is requested once all is gone. -/
example : ((play exCfg (exHist ++ [idle])).toOption.map fun r => (r.1.drop 12).map fun o =>
      (transmutes o.recs, discharges o.recs, o.shipped.map fun d => d.2.id,
        decide (Rec.schedDecom ∈ o.recs))) =
    some [([], [1], [], false), ([2], [], [], false), ([], [], [1, 2], false),
      ([], [1, 1], [], false), ([], [], [3, 4], false), ([], [1], [5], false), ([], [], [], true)] := by
  decide +kernel

/-! ## C15 -/

/-- C15, when the reactor itself requests decommissioning (`Tick`) it holds no fuel at all,
provided it has any spent storage.

The full statement also covers the condition that an institution checks
(`CheckDecommissionCondition`); that one is met with fresh fuel in stock, and the statement is
false of it: see `C15_fresh_fuel_forgotten`. -/
theorem C15_own_request_loses_nothing_partial {c : Cfg} (hw : WellFormed c) (hns : 0 < c.nSpent)
    {is : List In} {os : List Out} {s' : State} {i : In} {o : Out}
    (h' : History c (is ++ [i]) (os ++ [o]) s') (hd : .schedDecom ∈ o.recs) : held s' = [] := by
  obtain ⟨sa, ha, at'⟩ := last_step hw h'
  by_cases hl : Late c o.time
  · obtain ⟨h1, h2, _, h3⟩ := (at'.ret hw hl).decom hd
    have h3 : s'.fresh.items = [] := by
      rcases h3 with h3 | h3
      · exact h3
      · omega
    simp [held, h1, h2, h3]
  · exact absurd hd (at'.op hw hl).noDecom

/-- A reactor with one position of each kind, one-step cycles and exit at step 3. -/
def tinyCfg : Cfg :=
  { exCfg with nCore := 1, nFresh := 1, nSpent := 1, cycleTime := 1, refuelTime := 0,
               exitTime := some 3 }

/-- Its spent storage is emptied in the two steps after the exit time. -/
def tinyHist : List In := [supply [0, 1], supply [2], idle, idle, buyer 1 [], buyer 1 []]

/-- C15 is false of the code: in this history of a well-formed reactor the condition for its
decommissioning is met, after the exit time, while it still holds a fresh assembly. -/
theorem C15_fresh_fuel_forgotten : WellFormed tinyCfg ∧ ∃ os s, History tinyCfg tinyHist os s ∧
    Late tinyCfg s.time ∧ checkDecommission s = true ∧ (held s).map Assem.id = [2] := by
  refine ⟨{ exCfg_wf with
    nBatch := by simp [tinyCfg, exCfg]
    cycleTime := by simp [tinyCfg] }, ?_⟩
  obtain ⟨os, s, hp, h⟩ := history_of (c := tinyCfg) (is := tinyHist) (by decide +kernel)
    (by decide +kernel)
  have h1 : ((play tinyCfg tinyHist).toOption.map fun r =>
      (r.2.time, checkDecommission r.2, (held r.2).map Assem.id)) = some (6, true, [2]) := by
    decide +kernel
  rw [hp] at h1
  simp only [Except.toOption, Option.map_some, Option.some.injEq, Prod.mk.injEq] at h1
  exact ⟨os, s, h, ⟨3, rfl, by omega⟩, h1.2.1, h1.2.2⟩

end Cyc.Reactor
