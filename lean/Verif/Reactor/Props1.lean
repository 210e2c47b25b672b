import Verif.Reactor.Check

/-!
# Reactor properties: inventories, orders, offers and sales (C01-C04, C11, C12, C16, C17)
-/

namespace Cyc.Reactor

/-! ## C01 -/

/-- C01. After any history that the calls survive, in any market, with any configuration: what was
received is, as a collection of (object, quantity) pairs, what is held and what was shipped. -/
theorem C01_assemblies_conserved {c : Cfg} {s0 s : State} {is : List In} {os : List Out}
    (h0 : enter c = .ok s0) (hr : run c s0 is = .ok (os, s)) :
    ((received is).map tag).Perm ((held s ++ shipped os).map tag) := by
  have key : ∀ (is : List In) {s0 : State} {os : List Out}, run c s0 is = .ok (os, s) →
      ((held s0 ++ received is).map tag).Perm ((held s ++ shipped os).map tag) := by
    intro is
    induction is with
    | nil =>
      intro s0 os hr
      simp only [run, Except.ok.injEq, Prod.mk.injEq] at hr
      obtain ⟨rfl, rfl⟩ := hr
      simp [received, shipped]
    | cons i is ih =>
      intro s0 os hr
      obtain ⟨o, s1, os', h1, h2, rfl⟩ := run_cons.1 hr
      have a := step_held h1
      have b := ih h2
      have e1 : received (i :: is) = i.buys.map Prod.snd ++ received is := by simp [received]
      have e2 : shipped (o :: os') = o.shipped.map Prod.snd ++ shipped os' := by simp [shipped]
      rw [e1, e2]
      simp only [List.map_append] at a b ⊢
      rw [← List.append_assoc]
      refine (List.Perm.append_right _ a).trans ?_
      rw [← Multiset.coe_eq_coe] at b ⊢
      simp only [← Multiset.coe_add] at b ⊢
      have b' := congrArg (fun m => m + (↑((o.shipped.map Prod.snd).map tag) : Multiset (Nat × ℚ))) b
      calc _ = (↑((held s1).map tag) + ↑((received is).map tag) +
            ↑((o.shipped.map Prod.snd).map tag) : Multiset (Nat × ℚ)) := by abel
        _ = _ := b'
        _ = _ := by abel
  have := key is hr
  obtain ⟨_, e1, e2, e3, _⟩ := enter_eq h0
  have e : held s0 = [] := by simp [held, e1, e2, e3]
  rwa [e, List.nil_append] at this

/-- The example history ends with all six assemblies shipped. -/
example : ∃ s0 s os, enter exCfg = .ok s0 ∧ run exCfg s0 exHist = .ok (os, s) ∧
    (received exHist).length = 6 ∧ (shipped os).length = 6 := by
  obtain ⟨os, s, hp, s0, h0, _, hr⟩ := exHist_happens
  refine ⟨s0, s, os, h0, hr, by decide, ?_⟩
  have : ((play exCfg exHist).toOption.map fun r => (shipped r.1).length) = some 6 := by
    decide +kernel
  rw [hp] at this
  simpa [Except.toOption] using this

/-! ## C02 -/

/-- C02. Between steps, and when the trades of a step are made, no inventory exceeds its limit. -/
theorem C02_limits {c : Cfg} (hw : WellFormed c) {is : List In} {os : List Out} {s : State}
    (h : History c is os s) :
    (s.core.count ≤ c.nCore ∧ s.fresh.count ≤ c.nFresh ∧ s.spent.count ≤ c.nSpent) ∧
    ∀ reqs of sm, offerPhase c reqs s = .ok (of, sm) →
      sm.core.count ≤ c.nCore ∧ sm.fresh.count ≤ c.nFresh ∧ sm.spent.count ≤ c.nSpent := by
  obtain ⟨s0, h0, hh, hr⟩ := h
  have inv := run_inv hw (enter_inv hw h0) hh hr
  refine ⟨⟨inv.good.core.count, inv.good.fresh.count, inv.good.spent.count⟩, ?_⟩
  intro reqs of sm ho
  obtain ⟨s1, _, g1, _, _, _, e⟩ := offerPhase_ok hw inv.good reqs
  rw [e] at ho
  simp only [Except.ok.injEq, Prod.mk.injEq] at ho
  rw [← ho.2]
  exact ⟨g1.core.count, g1.fresh.count, g1.spent.count⟩

/-- The limits are reached: after nine steps of the example all three inventories are full. -/
example : ∃ os s, History exCfg (exHist.take 9) os s ∧ s.core.count = exCfg.nCore ∧
    s.fresh.count = exCfg.nFresh ∧ s.spent.count = exCfg.nSpent := by
  obtain ⟨os, s, hp, h⟩ := history_of (c := exCfg) (is := exHist.take 9) (by decide +kernel)
    (by decide +kernel)
  have : ((play exCfg (exHist.take 9)).toOption.map fun r =>
      (r.2.core.count, r.2.fresh.count, r.2.spent.count)) = some (3, 1, 2) := by decide +kernel
  rw [hp] at this
  simp only [Except.toOption, Option.map_some, Option.some.injEq, Prod.mk.injEq] at this
  exact ⟨os, s, h, this⟩

/-! ## C03 and C16 -/

/-- C03, the number of orders: without a scheduled exit one per vacant position (`sm` is the state
in which the orders are made). -/
theorem C03_orders_vacancy {c : Cfg} (hw : WellFormed c) (hx : c.exitTime = none) {is : List In}
    {os : List Out} {s : State} (h : History c is os s) {reqs : String → List ℚ} {of : Offer}
    {sm : State} (ho : offerPhase c reqs s = .ok (of, sm)) :
    of.requests.length = (c.nCore - sm.core.count) + (c.nFresh - sm.fresh.count) := by
  obtain ⟨s0, h0, hh, hr⟩ := h
  have inv := run_inv hw (enter_inv hw h0) hh hr
  obtain ⟨s1, _, g1, _, _, _, e⟩ := offerPhase_ok hw inv.good reqs
  rw [e] at ho
  simp only [Except.ok.injEq, Prod.mk.injEq] at ho
  obtain ⟨rfl, rfl⟩ := ho
  have hret : retired c s = false := by unfold retired; rw [hx]
  have horder : orderSize c s1 = vacancy c s1 := by unfold orderSize; rw [hx]
  simp only [nOrders, hret, List.length_replicate, Bool.false_eq_true, if_false, horder]
  rfl

/-- C03 and C16, what is ordered: each order is a list with one request per input commodity, in
that order, for one assembly of that commodity, with the preference and the recipe that the
schedules put in force in this very step (changes of this step included, later ones not). -/
theorem C16_orders_follow_schedule {c : Cfg} (hw : WellFormed c) {is : List In} {os : List Out}
    {s : State} (h : History c is os s) {t : Nat} {o : Out} (ho : os[t]? = some o)
    {p : List Request} (hp : p ∈ o.offer.requests) :
    p.length = c.inCommods.length ∧
    ∀ (j : Nat) (r : Request), p[j]? = some r →
      c.inCommods[j]? = some r.commod ∧ r.qty = c.assemSize ∧
      InForceAt c (prefSchedule c) (o.time + 1) (initialPref c j) j r.pref ∧
      ∃ name, InForceAt c (inSchedule c) (o.time + 1) (c.inRecipes.getD j "") j name ∧
        c.recipe name = some r.comp := by
  obtain ⟨s0, h0, hh, hr⟩ := h
  obtain ⟨i, sa, sb, hra, hha, at'⟩ := at_step hw h0 hh hr ho
  obtain ⟨s1, s2, s3, sp⟩ := at'.spec hw
  have hret : retired c sa = false := by
    cases hx : retired c sa with
    | false => rfl
    | true =>
      rw [sp.requests] at hp
      simp [nOrders, hx] at hp
  have hl : ∀ e, c.exitTime = some e → sa.time ≤ e + 1 := by
    intro e he
    unfold retired at hret
    rw [he] at hret
    simp only [decide_eq_false_iff_not] at hret
    omega
  have hs := run_sched hw h0 hha hra hl
  have hop := op_facts hw at'.invA hret sp
  have hs' := op_sched hw at'.invA.good hop hs
  rw [sp.requests] at hp
  have hp' := List.eq_of_mem_replicate hp
  have e1 : s1 = tickedState c sa := by
    have h1 := sp.ticked
    rw [tick_ok hw at'.invA.good hret] at h1
    simpa using h1.symm
  obtain ⟨l, _, e⟩ := tickedState_eq c sa
  have hpr : s1.prefs = sb.prefs := by rw [hop.prefs, e1, e]
  have hin : s1.inRecipes = sb.inRecipes := by rw [hop.inRecipes, e1, e]
  refine ⟨by rw [hp']; simp [onePortfolio], fun j r hj => ?_⟩
  rw [hp'] at hj
  have hlt : j < c.inCommods.length := by
    have := (List.getElem?_eq_some_iff.1 hj).1
    simpa [onePortfolio] using this
  have hr' : r = reqAt c s1 j := by
    have : (onePortfolio c s1)[j]? = some (reqAt c s1 j) := by
      simp [onePortfolio, hlt]
    rw [this] at hj
    simpa using hj.symm
  subst hr'
  have ht : o.time + 1 = sb.time := by rw [hop.time, sp.time]
  refine ⟨by simp [reqAt, hlt], rfl, ?_, sb.inRecipes.getD j "", ?_, ?_⟩
  · rw [ht]
    have := hs'.prefs j hlt
    rw [← hpr] at this
    exact this
  · rw [ht]; exact hs'.inRecipes j hlt
  · rw [← hin]
    have hlt' : j < s1.inRecipes.length := by rw [sp.good1.inRecipes]; exact hlt
    have hk := sp.good1.knownIn (s1.inRecipes[j]) (List.getElem_mem hlt')
    obtain ⟨v, hv⟩ := Option.isSome_iff_exists.1 hk
    simp [reqAt, hlt', hv]

/-- C16: the schedule determines the value in force, so the theorem above leaves no choice. -/
theorem C16_in_force_unique {α : Type} {c : Cfg} {es : List (Nat × String × α)} {t : Nat}
    {init : α} {j : Nat} {v v' : α} (h : InForceAt c es t init j v)
    (h' : InForceAt c es t init j v') : v = v' := inForceAt_unique h h'

/-- C03, after the exit time: nothing is ordered. -/
theorem C03_retired_orders_nothing {c : Cfg} (hw : WellFormed c) {is : List In} {os : List Out}
    {s : State} (h : History c is os s) {t : Nat} {o : Out} (ho : os[t]? = some o)
    (hl : Late c o.time) : o.offer.requests = [] := by
  obtain ⟨s0, h0, hh, hr⟩ := h
  obtain ⟨i, sa, sb, _, _, at'⟩ := at_step hw h0 hh hr ho
  exact (at'.ret hw hl).requests

/-- In the example, the order of step 1 prefers the first fuel, that of step 2 (when the change is
due) the second; the recipe of the first changes at step 4; steps after 12 order nothing. -/
example : ((play exCfg exHist).toOption.map fun r => r.1.map fun o =>
    o.offer.requests.head?.map fun p => p.map fun r => (r.pref, r.comp)) =
    some ([some [(2, 1), (1, 2)], some [(2, 1), (1, 2)], some [(2, 1), (3, 2)], none,
      some [(2, 5), (3, 2)], some [(2, 5), (3, 2)], none, some [(2, 5), (3, 2)],
      some [(2, 5), (3, 2)], none, none, none, none, none, none, none, none, none]) := by
  decide +kernel

/-- And the value in force is the one the specification names. -/
example : InForceAt exCfg (prefSchedule exCfg) 3 (initialPref exCfg 1) 1 3 ∧
    InForceAt exCfg (prefSchedule exCfg) 2 (initialPref exCfg 1) 1 1 := by
  have hp : position exCfg (exCfg.inCommods.getD 1 "") = 1 := by decide
  constructor
  · unfold InForceAt
    rw [if_pos hp]
    left
    refine ⟨0, 2, rfl, by decide, by decide, ?_⟩
    intro i' τ' v' h _ _
    have : i' = 0 := by
      have := (List.getElem?_eq_some_iff.1 h).1
      simp [prefSchedule, exCfg] at this
      exact this
    subst this
    simp [prefSchedule, exCfg] at h
    omega
  · unfold InForceAt
    rw [if_pos hp]
    right
    refine ⟨by norm_num [initialPref, exCfg], ?_⟩
    rintro i τ v' h ⟨_, h2⟩
    have : i = 0 := by
      have := (List.getElem?_eq_some_iff.1 h).1
      simp [prefSchedule, exCfg] at this
      exact this
    subst this
    simp [prefSchedule, exCfg] at h
    omega

/-! ## C04 -/

/-- C04. A consistent configuration is accepted, and no call fails in any history in which the
market honours the contract. -/
theorem C04_never_fails {c : Cfg} (hw : WellFormed c) :
    ∃ s0, enter c = .ok s0 ∧ ∀ is, HonestRun c s0 is → ∃ os s, run c s0 is = .ok (os, s) := by
  obtain ⟨s0, h0⟩ := enter_ok hw
  refine ⟨s0, h0, fun is hh => ?_⟩
  obtain ⟨os, s, hr, _⟩ := run_ok hw is (enter_good hw h0) hh
  exact ⟨os, s, hr⟩

/-- The same for the next step of a history: whatever is requested of the reactor, it makes its
orders and offers, and every contract-honouring outcome of the exchange is then carried out. -/
theorem C04_next_step_succeeds {c : Cfg} (hw : WellFormed c) {is : List In} {os : List Out}
    {s : State} (h : History c is os s) (reqs : String → List ℚ) :
    ∃ of sm, offerPhase c reqs s = .ok (of, sm) ∧
      ∀ sells buys, Honest c s of ⟨reqs, sells, buys⟩ →
        ∃ o s', step c s ⟨reqs, sells, buys⟩ = .ok (o, s') := by
  obtain ⟨s0, h0, hh, hr⟩ := h
  have inv := run_inv hw (enter_inv hw h0) hh hr
  obtain ⟨s1, _, _, _, _, _, e⟩ := offerPhase_ok hw inv.good reqs
  refine ⟨_, _, e, fun sells buys hon => ?_⟩
  obtain ⟨o, s', _, _, _, h1, _⟩ := step_ok hw inv.good (i := ⟨reqs, sells, buys⟩) (fun o s1 ho => by
    simp only [e, Except.ok.injEq, Prod.mk.injEq] at ho
    rw [← ho.1]; exact hon)
  exact ⟨o, s', h1⟩

example : WellFormed exCfg ∧ fair exCfg exHist = true := ⟨exCfg_wf, by decide +kernel⟩

/-! ## C11 and C12 -/

/-- C11. The sales of commodity `k` in a step hand over the oldest spent assemblies to be sold as
`k`, in order; the others stay, in order. `sm` is the state in which the trades are made. -/
theorem C11_sales_oldest_first {c : Cfg} (hw : WellFormed c) {is : List In} {os : List Out}
    {s : State} (h : History c is os s) {i : In} {of : Offer} {sm : State}
    (ho : offerPhase c i.reqs s = .ok (of, sm)) (hon : Honest c s of i) {o : Out} {s' : State}
    (hs : step c s i = .ok (o, s')) (k : String) :
    ((o.shipped.filter fun d => d.1 = k).map Prod.snd) =
      (spentAs c is sm k).take (i.sells.count k) ∧
    spentAs c (is ++ [i]) s' k = (spentAs c is sm k).drop (i.sells.count k) ∧
    i.sells.count k ≤ (spentAs c is sm k).length := by
  obtain ⟨s0, h0, hh, hr⟩ := h
  have inv := run_inv hw (enter_inv hw h0) hh hr
  obtain ⟨s1, s2, s3, sp⟩ := step_spec hw inv.good (fun o' s1 ho' => by
    rw [ho] at ho'
    simp only [Except.ok.injEq, Prod.mk.injEq] at ho'
    rw [← ho'.1]; exact hon) hs
  have filed := run_filed hw h0 hh hr
  have f1 : Filed c is (demandedState c s s1) := by
    have := filed.tick sp.ticked sp.resIdx1
    exact this
  obtain ⟨t1, e1, _, _, _, _, eo⟩ := offerPhase_ok hw inv.good i.reqs
  rw [sp.ticked] at e1
  simp only [Except.ok.injEq] at e1
  subst e1
  rw [eo] at ho
  simp only [Except.ok.injEq, Prod.mk.injEq] at ho
  obtain ⟨rfl, rfl⟩ := ho
  have fs : Filed c (is ++ [i]) s' := filed.step sp
  have a := sp.sold.sold k
  have b := sp.sold.kept k
  rw [spentOf_filed f1] at a b
  have hsold : soldAs o.shipped k = ((o.shipped.filter fun d => d.1 = k).map Prod.snd) := rfl
  have hcount : i.sells.count k ≤ (spentAs c is (demandedState c s s1) k).length := by
    have hl := congrArg List.length a
    have : (soldAs o.shipped k).length = i.sells.count k := by
      have hc := sp.sold.commods
      rw [← hc]
      unfold soldAs
      rw [List.length_map, List.count, List.countP_map, List.countP_eq_length_filter]
      congr 1
    rw [this, List.length_take] at hl
    omega
  refine ⟨hsold ▸ a, ?_, hcount⟩
  rw [← spentOf_filed fs]
  have e2 : s'.spent = s2.spent := by
    rw [sp.final]
    show (if retired c s then s3 else tockedState c s3).spent = _
    have : s3.spent = s2.spent := by rw [sp.accepted]; rfl
    split <;> exact this
  have e3 : s'.resIdx = indexed c i.buys s2.resIdx := by
    rw [sp.final]
    show (if retired c s then s3 else tockedState c s3).resIdx = _
    have : s3.resIdx = indexed c i.buys s2.resIdx := by rw [sp.accepted]; rfl
    split <;> exact this
  have e4 : spentOf c s' k = spentOf c s2 k := by
    unfold spentOf
    rw [e2]
    apply List.filter_congr
    intro a ha
    have hn : a.id ∉ i.buys.map fun d => d.2.id := by
      intro hx
      obtain ⟨d, hd, e⟩ := List.mem_map.1 hx
      exact sp.notHeld d hd a (mem_held_spent ha) e.symm
    unfold outCommodOf
    rw [e3, indexed_of_not_mem _ hn]
  rw [e4, b]

/-- Spent storage holds, between them, only what is to be sold as one of the output commodities;
so the per-commodity statement above accounts for all of it. -/
theorem C11_all_spent_fuel_is_for_sale {c : Cfg} (hw : WellFormed c) {is : List In} {os : List Out}
    {s : State} (h : History c is os s) {a : Assem} (ha : a ∈ s.spent.items) :
    ∃ k ∈ c.outCommods, a ∈ spentAs c is s k := by
  obtain ⟨s0, h0, hh, hr⟩ := h
  obtain ⟨k, e1, e2, _⟩ := run_filed hw h0 hh hr a (mem_held_spent ha)
  have hlt : position c k < c.outCommods.length := by rw [hw.outCommods]; exact position_lt e2
  refine ⟨outCommodFor c k, ?_, ?_⟩
  · simp [outCommodFor, hlt]
  · simp [spentAs, ha, e1]

/-- C12. The offers made in a step: one portfolio for each output commodity that is requested and
of which spent fuel is held, in the state `sm` in which the trades are made; its capacity is the
total quantity held of that commodity; every bid offers a spent assembly of that commodity; and
the bids for one request are the oldest ones, just enough of them to reach the quantity requested
(or all). -/
theorem C12_offers {c : Cfg} (hw : WellFormed c) {is : List In} {os : List Out}
    {s : State} (h : History c is os s) {reqs : String → List ℚ} {of : Offer} {sm : State}
    (ho : offerPhase c reqs s = .ok (of, sm)) :
    (∀ b ∈ of.bids, b.commod ∈ c.outCommods ∧ spentAs c is sm b.commod ≠ [] ∧
      b.cap = totalQty (spentAs c is sm b.commod) ∧
      (∀ x ∈ b.bids, x.1 < (reqs b.commod).length ∧ x.2 ∈ spentAs c is sm b.commod) ∧
      ∀ (j : Nat) (q : ℚ), (reqs b.commod)[j]? = some q → ∃ n, 0 < n ∧
        (b.bids.filter fun x => x.1 = j).map Prod.snd = (spentAs c is sm b.commod).take n ∧
        (q ≤ totalQty ((spentAs c is sm b.commod).take n) ∨
          n = (spentAs c is sm b.commod).length) ∧
        ∀ m, 0 < m → m < n → totalQty ((spentAs c is sm b.commod).take m) < q) ∧
    (of.bids.map BidPort.commod).Nodup ∧
    (∀ k ∈ c.outCommods, reqs k ≠ [] → spentAs c is sm k ≠ [] →
      k ∈ of.bids.map BidPort.commod) := by
  obtain ⟨s0, h0, hh, hr⟩ := h
  have inv := run_inv hw (enter_inv hw h0) hh hr
  obtain ⟨s1, ht, g1, _, hi, _, e⟩ := offerPhase_ok hw inv.good reqs
  rw [e] at ho
  simp only [Except.ok.injEq, Prod.mk.injEq] at ho
  obtain ⟨rfl, rfl⟩ := ho
  have filed : Filed c is (demandedState c s s1) := by
    have := (run_filed hw h0 hh hr).tick ht hi
    exact this
  have es : ∀ k, spentOf c s1 k = spentAs c is (demandedState c s s1) k :=
    fun k => spentOf_filed filed k
  have hport : ∀ k b, bidPort c reqs s1 k = some b → b.commod = k ∧ reqs k ≠ [] ∧
      spentOf c s1 k ≠ [] ∧ b.cap = totalQty (spentOf c s1 k) ∧
      b.bids = bidsForAll (spentOf c s1 k) (reqs k) 0 := by
    intro k b hb
    unfold bidPort at hb
    split at hb
    · simp at hb
    · rename_i hn
      push Not at hn
      simp only [Option.some.injEq] at hb
      subst hb
      exact ⟨rfl, hn.1, hn.2, rfl, rfl⟩
  refine ⟨?_, ?_, ?_⟩
  · intro b hb
    obtain ⟨k, hk, hb⟩ := List.mem_filterMap.1 hb
    obtain ⟨rfl, h1, h2, h3, h4⟩ := hport k b hb
    rw [es] at h2 h3 h4
    refine ⟨mem_uniqOutCommods.1 hk, h2, h3, ?_, ?_⟩
    · intro x hx
      rw [h4] at hx
      obtain ⟨a1, a2, a3⟩ := bidsForAll_mem _ _ _ x hx
      exact ⟨by omega, a1⟩
    · intro j q hq
      obtain ⟨n, a0, a1, a2, a3, a4⟩ := bidsFor_spec j q (spentAs c is (demandedState c s s1) b.commod) 0
      refine ⟨n, a4 (List.length_pos_iff.2 h2), ?_, ?_, ?_⟩
      · rw [h4]
        have := bidsForAll_at (spentAs c is (demandedState c s s1) b.commod) (reqs b.commod) 0 j q hq
        rw [Nat.zero_add] at this
        rw [this, a1]
      · rcases a2 with a2 | a2
        · exact Or.inr a2
        · left; simpa using a2
      · intro m hm hlt
        have := a3 m hm hlt
        simpa using this
  · have hsub : ((uniqOutCommods c).filterMap (bidPort c reqs s1)).map BidPort.commod =
        (uniqOutCommods c).filter fun k => (bidPort c reqs s1 k).isSome := by
      induction uniqOutCommods c with
      | nil => rfl
      | cons k ks ih =>
        cases hb : bidPort c reqs s1 k with
        | none => simp [hb, ih]
        | some b => simp [hb, ih, (hport k b hb).1]
    rw [hsub]
    exact (uniqOutCommods_nodup c).filter _
  · intro k hk h1 h2
    have h2' : spentOf c s1 k ≠ [] := by rw [es]; exact h2
    refine List.mem_map.2 ⟨⟨k, bidsForAll (spentOf c s1 k) (reqs k) 0,
      totalQty (spentOf c s1 k)⟩, ?_, rfl⟩
    refine List.mem_filterMap.2 ⟨k, mem_uniqOutCommods.2 hk, ?_⟩
    unfold bidPort
    rw [if_neg (by push Not; exact ⟨h1, h2'⟩)]

/-- In step 11 of the example, with both spent positions occupied, one request for half a unit and
one for a whole one are answered with one and two bids, and the older assembly is sold. -/
example :
    ((play exCfg exHist).toOption.map fun r => (r.1.drop 11).head?.map fun o =>
      o.offer.bids.map fun b => b.bids.map fun x => (x.1, x.2.id)) =
        some (some [[(0, 0), (1, 0), (1, 1)]]) ∧
    ((play exCfg exHist).toOption.map fun r => (r.1.drop 11).head?.map fun o =>
      o.offer.bids.map fun b => (b.commod, b.cap)) = some (some [("spent_uox", 1)]) ∧
    ((play exCfg exHist).toOption.map fun r => (r.1.drop 11).head?.map fun o =>
      o.shipped.map fun d => (d.1, d.2.id)) = some (some [("spent_uox", 0)]) := by
  refine ⟨?_, ?_, ?_⟩ <;> decide +kernel

/-! ## C17 -/

/-- C17, the schedules: a reactor whose change schedules do not correspond is rejected with an
error on deployment, and one whose schedules correspond is accepted. -/
theorem C17_schedules_checked_partial (c : Cfg) :
    ((∃ s, enter c = .ok s) ↔
      c.recipeChangeCommods.length = c.recipeChangeTimes.length ∧
      c.recipeChangeIn.length = c.recipeChangeTimes.length ∧
      c.recipeChangeOut.length = c.recipeChangeTimes.length ∧
      c.prefChangeCommods.length = c.prefChangeTimes.length ∧
      c.prefChangeValues.length = c.prefChangeTimes.length) ∧
    ((¬ ∃ s, enter c = .ok s) → enter c = .error .value) := by
  unfold enter
  dsimp only
  split
  · rename_i h
    refine ⟨⟨fun ⟨s, hs⟩ => absurd hs (by simp), fun hx => ?_⟩, fun _ => rfl⟩
    obtain ⟨h1, h2, h3, h4, h5⟩ := hx
    exact absurd h (by push Not; exact ⟨h1, h2, h3, h4, h5⟩)
  · rename_i h
    push Not at h
    exact ⟨⟨fun _ => h, fun _ => ⟨_, rfl⟩⟩, fun hn => absurd ⟨_, rfl⟩ hn⟩

/-- The full statement of C17 asks the same of the fuel vectors. The code does not check them:
this configuration, with one input recipe for two input commodities, is accepted and its first
order reads past the end of a vector. -/
theorem C17_fuel_vectors_unchecked : ∃ c : Cfg, c.inRecipes.length ≠ c.inCommods.length ∧
    ∃ s, enter c = .ok s ∧ step c s idle = .error .ub := by
  refine ⟨{ exCfg with inRecipes := ["u"] }, by decide, ?_⟩
  have h : ((enter { exCfg with inRecipes := ["u"] }).toOption.map fun s =>
      match step { exCfg with inRecipes := ["u"] } s idle with
      | .error .ub => true
      | _ => false) = some true := by decide +kernel
  cases he : enter { exCfg with inRecipes := ["u"] } with
  | error e => rw [he] at h; simp [Except.toOption] at h
  | ok s =>
    refine ⟨s, rfl, ?_⟩
    rw [he] at h
    simp only [Except.toOption, Option.map_some, Option.some.injEq] at h
    split at h
    · assumption
    · exact absurd h (by simp)

end Cyc.Reactor
