import Verif.Reactor.Lemmas5

/-!
# One whole step of a reactor, and the invariant along a history
-/

namespace Cyc.Reactor

/-- The number of assemblies a reactor orders, given its state before and after `Tick`. -/
def nOrders (c : Cfg) (s s1 : State) : Nat := if retired c s then 0 else orderSize c s1

/-- The state after `GetMatlRequests`: one demand row per assembly ordered. -/
def demandedState (c : Cfg) (s s1 : State) : State :=
  { s1 with log := s1.log ++ List.replicate (nOrders c s s1) (demandRec c s1) }

/-- What happened in a step, in terms of the states after `Tick` (`s1`) and after the sales
(`s2`). -/
structure StepSpec (c : Cfg) (s : State) (i : In) (o : Out) (s' s1 s2 s3 : State) : Prop where
  ticked : tick c s = .ok s1
  good1 : Good c s1
  time1 : s1.time = s.time
  resIdx1 : s1.resIdx = s.resIdx
  hybrid1 : s1.hybrid = s.hybrid
  time : o.time = s.time
  requests : o.offer.requests =
    List.replicate (nOrders c s s1) (onePortfolio c s1)
  bids : o.offer.bids = (uniqOutCommods c).filterMap (bidPort c i.reqs s1)
  sold : Sold c (demandedState c s s1) s2 i.sells o.shipped
  good2 : Good c s2
  supplied : ∀ d ∈ i.buys, d.1 ∈ c.inCommods ∧ d.2.qty = c.assemSize
  notTooMany : i.buys.length ≤ nOrders c s s1
  fits : i.buys.length ≤ vacancy c s2
  distinct : (i.buys.map fun d => d.2.id).Nodup
  notHeld : ∀ d ∈ i.buys, ∀ a ∈ held s2, a.id ≠ d.2.id
  accepted : s3 = { acceptedState c i.buys s2 with log := s2.log ++ acceptRecs c i.buys s2 }
  good3 : Good c s3
  recs : o.recs = (if retired c s then s3 else tockedState c s3).log
  final : s' = { (if retired c s then s3 else tockedState c s3) with time := s.time + 1, log := [] }
  good : Good c s'

theorem retired_congr {c : Cfg} {s s' : State} (h : s'.time = s.time) :
    retired c s' = retired c s := by unfold retired; rw [h]

/-- `Tick` keeps the time, the fuel index and the hybrid flag, and the invariant. -/
theorem tick_good {c : Cfg} (hw : WellFormed c) {s : State} (h : Good c s) :
    ∃ s1, tick c s = .ok s1 ∧ Good c s1 ∧ s1.time = s.time ∧ s1.resIdx = s.resIdx ∧
      s1.hybrid = s.hybrid := by
  cases hr : retired c s with
  | false =>
    refine ⟨_, tick_ok hw h hr, h.tickedState hw, ?_, ?_, ?_⟩ <;>
    · obtain ⟨l, _, e⟩ := tickedState_eq c s
      rw [e]
  | true =>
    obtain ⟨s1, s2, s3, e, e1, g1, d2, g2, _, d3, g3, _⟩ := tickRetired_ok hw h
    have ht : tick c s = .ok (if checkDecommission s3 then s3.record .schedDecom else s3) := by
      unfold tick; rw [if_pos hr]; exact e
    have t1 : s1.time = s.time ∧ s1.resIdx = s.resIdx ∧ s1.hybrid = s.hybrid := by
      rw [e1]; split <;> exact ⟨rfl, rfl, rfl⟩
    have hd := d2.rest
    have hd3 := d3.rest
    have key : s3.time = s.time ∧ s3.resIdx = s.resIdx ∧ s3.hybrid = s.hybrid :=
      ⟨hd3.1.trans (hd.1.trans t1.1),
        hd3.2.2.2.2.2.2.1.trans (hd.2.2.2.2.2.2.2.1.trans t1.2.1),
        hd3.2.2.2.2.2.2.2.1.trans (hd.2.2.2.2.2.2.2.2.trans t1.2.2)⟩
    refine ⟨_, ht, ?_, ?_⟩
    · split
      · exact g3.record _
      · exact g3
    · split
      · exact key
      · exact key

theorem offerPhase_ok {c : Cfg} (hw : WellFormed c) {s : State} (h : Good c s)
    (reqs : String → List ℚ) :
    ∃ s1, tick c s = .ok s1 ∧ Good c s1 ∧ s1.time = s.time ∧ s1.resIdx = s.resIdx ∧
      s1.hybrid = s.hybrid ∧
      offerPhase c reqs s = .ok
        (⟨List.replicate (nOrders c s s1) (onePortfolio c s1),
          (uniqOutCommods c).filterMap (bidPort c reqs s1)⟩, demandedState c s s1) := by
  obtain ⟨s1, h1, g1, t1, i1, b1⟩ := tick_good hw h
  refine ⟨s1, h1, g1, t1, i1, b1, ?_⟩
  unfold offerPhase
  simp only [h1, ok_bind, getMatlRequests_ok hw g1, retired_congr t1]
  have := getMatlBids_ok hw reqs (g1.withLog (s1.log ++ List.replicate (nOrders c s s1)
    (demandRec c s1)))
  unfold nOrders at this ⊢
  rw [this]
  rfl

theorem orderSize_le (c : Cfg) (s : State) : orderSize c s ≤ vacancy c s := by
  unfold orderSize
  split
  · exact le_rfl
  · exact min_le_left _ _

theorem mem_onePortfolio {c : Cfg} {s : State} {r : Request} (h : r ∈ onePortfolio c s) :
    r.commod ∈ c.inCommods ∧ r.qty = c.assemSize := by
  unfold onePortfolio at h
  obtain ⟨j, hj, rfl⟩ := List.mem_map.1 h
  have : j < c.inCommods.length := List.mem_range.1 hj
  exact ⟨by simp [reqAt, this], rfl⟩

/-- A reactor requests a fuel with a recipe the input names for it. -/
theorem onePortfolio_named {c : Cfg} {s : State} (g : Good c s) {r : Request}
    (h : r ∈ onePortfolio c s) : ∃ x, Names c r.commod x ∧ c.recipe x = some r.comp := by
  unfold onePortfolio at h
  obtain ⟨j, hj, rfl⟩ := List.mem_map.1 h
  have hj : j < c.inCommods.length := List.mem_range.1 hj
  have hr : j < s.inRecipes.length := by rw [g.inRecipes]; exact hj
  refine ⟨s.inRecipes[j], g.named j _ _ ?_ (List.getElem?_eq_getElem hr), ?_⟩
  · simp [reqAt, hj]
  · obtain ⟨n, hn⟩ := Option.isSome_iff_exists.1 (g.knownIn _ (List.getElem_mem hr))
    simp [reqAt, hr, hn]

theorem asked_supplied {c : Cfg} {s : State} {n : Nat} {buys : List (String × Assem)}
    {ps : List (List Request)} (hp : ps.Subperm (List.replicate n (onePortfolio c s)))
    (hf : List.Forall₂ (fun (d : String × Assem) (p : List Request) =>
      ∃ r ∈ p, r.commod = d.1 ∧ r.qty = d.2.qty) buys ps) :
    buys.length ≤ n ∧ ∀ d ∈ buys, d.1 ∈ c.inCommods ∧ d.2.qty = c.assemSize := by
  refine ⟨?_, ?_⟩
  · rw [hf.length_eq]
    have := hp.length_le
    simpa using this
  · have hall : ∀ p ∈ ps, p = onePortfolio c s := fun p hp' =>
      List.eq_of_mem_replicate (hp.subset hp')
    clear hp
    induction hf with
    | nil => intro d hd; simp at hd
    | cons h1 _ ih =>
      intro d hd
      rcases List.mem_cons.1 hd with rfl | hd
      · obtain ⟨r, hr, e1, e2⟩ := h1
        rw [hall _ (List.mem_cons_self)] at hr
        have := mem_onePortfolio hr
        exact ⟨e1 ▸ this.1, e2 ▸ this.2⟩
      · exact ih (fun p hp' => hall p (by simp [hp'])) d hd

theorem tick_heldIds {c : Cfg} {s s1 : State} (h : tick c s = .ok s1) :
    ((held s1).map Assem.id).Perm ((held s).map Assem.id) := by
  have h1 := tick_same h
  have h2 : ∀ l : List Assem, l.map Assem.id = (l.map tag).map Prod.fst := by
    intro l; simp [tag, Function.comp_def]
  rw [h2, h2]
  exact h1.map _

/-- A step of a well-formed reactor in a market that honours the contract returns normally. -/
theorem step_ok {c : Cfg} (hw : WellFormed c) {s : State} (h : Good c s) {i : In}
    (hh : ∀ o s1, offerPhase c i.reqs s = .ok (o, s1) → Honest c s o i) :
    ∃ o s' s1 s2 s3, step c s i = .ok (o, s') ∧ StepSpec c s i o s' s1 s2 s3 := by
  obtain ⟨s1, h1, g1, t1, i1, b1, ho⟩ := offerPhase_ok hw h i.reqs
  have hon := hh _ _ ho
  obtain ⟨ps, hp, hf⟩ := hon.asked
  obtain ⟨hlen, hsup⟩ := asked_supplied hp hf
  set n := nOrders c s s1 with hn
  set sR : State := demandedState c s s1 with hsR
  have gR : Good c sR := g1.withLog _
  have hcount : ∀ k ∈ i.sells, i.sells.count k ≤ (spentOf c sR k).length := by
    intro k hk
    obtain ⟨b, hb, e1, e2⟩ := hon.offered k hk
    obtain ⟨k', _, hk'⟩ := List.mem_filterMap.1 hb
    unfold bidPort at hk'
    split at hk'
    · simp at hk'
    · simp only [Option.some.injEq] at hk'
      subst hk'
      simp only at e1 e2
      subst e1
      rw [totalQty_spentOf g1] at e2
      have := le_of_mul_le_mul_right e2 hw.assemSize
      exact_mod_cast this
  have hvac : n ≤ vacancy c sR := by
    rw [hn]; unfold nOrders; split
    · exact Nat.zero_le _
    · exact orderSize_le c s1
  -- the sales
  have hsale : ∃ resp s2, (if i.sells = [] then pure ([], sR) else getMatlTrades c i.sells sR :
      R (List (String × Assem) × State)) = .ok (resp, s2) ∧ Sold c sR s2 i.sells resp := by
    by_cases he : i.sells = []
    · refine ⟨[], sR, by simp [he], ?_⟩
      rw [he]
      exact ⟨rfl, fun k => by simp [soldAs], fun k => by simp, by simp, fun a => by simp, rfl, rfl⟩
    · rw [if_neg he]
      exact getMatlTrades_ok hw gR hcount
  obtain ⟨resp, s2, hs, hsold⟩ := hsale
  have g2 := gR.sold hsold
  have hrest := hsold.rest
  have hcore2 : s2.core = s1.core := by rw [hrest]; rfl
  have hfresh2 : s2.fresh = s1.fresh := by rw [hrest]; rfl
  have hvac2 : vacancy c s2 = vacancy c sR := by unfold vacancy; rw [hcore2, hfresh2]; rfl
  have hfit : i.buys.length ≤ vacancy c s2 := by rw [hvac2]; exact hlen.trans hvac
  have htime2 : s2.time = s.time := by rw [hrest]; exact t1
  have hheld2 : ∀ a ∈ held s2, a ∈ held s1 := by
    intro a ha
    have hpp := hsold.perm
    simp only [held, hcore2, hfresh2, List.mem_append] at ha ⊢
    rcases ha with ha | ha
    · exact Or.inl ha
    · right
      have hx : a ∈ sR.spent.items := hpp.symm.subset (by simp [ha])
      exact hx
  have hnot : ∀ d ∈ i.buys, ∀ a ∈ held s2, a.id ≠ d.2.id := by
    intro d hd a ha
    have hm : a.id ∈ (held s).map Assem.id :=
      (tick_heldIds h1).subset (List.mem_map_of_mem (hheld2 a ha))
    obtain ⟨b, hb, e⟩ := List.mem_map.1 hm
    rw [← e]
    exact hon.notHeld d hd b hb
  have hacc := acceptMatlTrades_ok hw g2 hsup hfit
  have g3 : Good c { acceptedState c i.buys s2 with log := s2.log ++ acceptRecs c i.buys s2 } :=
    (g2.accepted hsup hfit hon.distinct hnot).withLog _
  have ht3 : retired c { acceptedState c i.buys s2 with
      log := s2.log ++ acceptRecs c i.buys s2 } = retired c s := retired_congr htime2
  have htock : tock c { acceptedState c i.buys s2 with log := s2.log ++ acceptRecs c i.buys s2 } =
      .ok (if retired c s then
          { acceptedState c i.buys s2 with log := s2.log ++ acceptRecs c i.buys s2 }
        else tockedState c
          { acceptedState c i.buys s2 with log := s2.log ++ acceptRecs c i.buys s2 }) := by
    cases hr : retired c s with
    | true => rw [tock_retired (ht3.trans hr)]; rfl
    | false => rw [tock_ok hw (ht3.trans hr)]; rfl
  set s3 : State := { acceptedState c i.buys s2 with log := s2.log ++ acceptRecs c i.buys s2 }
    with hs3
  set s4 : State := if retired c s then s3 else tockedState c s3 with hs4
  have g4 : Good c s4 := by
    rw [hs4]; split
    · exact g3
    · exact g3.tockedState
  have ht4 : s4.time = s.time := by
    rw [hs4]; split
    · exact htime2
    · exact htime2
  refine ⟨{ time := s.time, offer := ⟨List.replicate n (onePortfolio c s1),
      (uniqOutCommods c).filterMap (bidPort c i.reqs s1)⟩, shipped := resp, recs := s4.log },
    { s4 with time := s.time + 1, log := [] }, s1, s2, s3, ?_,
    ⟨h1, g1, t1, i1, b1, rfl, rfl, rfl, hsold, g2, hsup, hlen, hfit, hon.distinct, hnot, rfl, g3,
      rfl, rfl, ?_⟩⟩
  · unfold step
    rw [ho]
    simp only [ok_bind]
    have hset : settlePhase c i.sells i.buys sR = .ok (resp, { s4 with time := s4.time + 1 }) := by
      unfold settlePhase
      by_cases he : i.sells = []
      · simp only [he, if_true, pure_eq_ok, Except.ok.injEq, Prod.mk.injEq] at hs
        obtain ⟨rfl, rfl⟩ := hs
        simp only [he, if_true, pure_eq_ok, ok_bind, hacc, htock]
      · rw [if_neg he] at hs
        simp only [if_neg he, hs, ok_bind, hacc, htock, pure_eq_ok]
    rw [hset]
    simp only [ok_bind, pure_eq_ok, ht4]
  · exact ⟨g4.fresh, g4.core, g4.spent, g4.nodup, g4.idx, g4.prefs, g4.inRecipes, g4.outRecipes,
      g4.knownIn, g4.knownOut, g4.named⟩

/-- The same, for a step that is known to have happened. -/
theorem step_spec {c : Cfg} (hw : WellFormed c) {s : State} (h : Good c s) {i : In}
    (hh : ∀ o s1, offerPhase c i.reqs s = .ok (o, s1) → Honest c s o i) {o : Out} {s' : State}
    (hs : step c s i = .ok (o, s')) : ∃ s1 s2 s3, StepSpec c s i o s' s1 s2 s3 := by
  obtain ⟨o', s'', s1, s2, s3, e, sp⟩ := step_ok hw h hh
  rw [hs] at e
  simp only [Except.ok.injEq, Prod.mk.injEq] at e
  obtain ⟨rfl, rfl⟩ := e
  exact ⟨s1, s2, s3, sp⟩

/-! ## Deployment -/

theorem enter_good {c : Cfg} (hw : WellFormed c) {s : State} (h : enter c = .ok s) : Good c s := by
  unfold enter at h
  dsimp only at h
  split at h
  · exact absurd h (by simp)
  · simp only [Except.ok.injEq] at h
    subst h
    refine ⟨⟨rfl, by simp, by simp⟩, ⟨rfl, by simp, by simp⟩, ⟨rfl, by simp, by simp⟩,
      by simp [held], by simp [held], ?_, hw.inRecipes, hw.outRecipes,
      fun r hr => hw.known r (Or.inl hr), fun r hr => hw.known r (Or.inr (Or.inl hr)),
      fun j k r hk hr => Or.inl (List.mem_of_getElem? (List.getElem?_zip_eq_some.2 ⟨hk, hr⟩))⟩
    simp only
    split
    · simp [hw.outCommods]
    · rcases hw.prefs with h0 | h0
      · contradiction
      · exact h0

theorem enter_ok {c : Cfg} (hw : WellFormed c) : ∃ s, enter c = .ok s := by
  unfold enter
  dsimp only
  rw [if_neg]
  · exact ⟨_, rfl⟩
  · simp [hw.recipeChangeCommods, hw.recipeChangeIn, hw.recipeChangeOut, hw.prefChangeCommods,
      hw.prefChangeValues]

/-! ## Histories -/

theorem run_cons {c : Cfg} {s s'' : State} {i : In} {is : List In} {os : List Out} :
    run c s (i :: is) = .ok (os, s'') ↔
      ∃ o s' os', step c s i = .ok (o, s') ∧ run c s' is = .ok (os', s'') ∧ os = o :: os' := by
  rw [run, bind_ok]
  constructor
  · rintro ⟨⟨o, s'⟩, h1, h2⟩
    rw [bind_ok] at h2
    obtain ⟨⟨os', s2⟩, h2, h3⟩ := h2
    simp only [pure_eq_ok, Except.ok.injEq, Prod.mk.injEq] at h3
    obtain ⟨rfl, rfl⟩ := h3
    exact ⟨o, s', os', h1, h2, rfl⟩
  · rintro ⟨o, s', os', h1, h2, rfl⟩
    exact ⟨(o, s'), h1, by simp [h2]⟩

theorem run_append {c : Cfg} (is1 is2 : List In) : ∀ {s s'' : State} {os : List Out},
    run c s (is1 ++ is2) = .ok (os, s'') ↔
      ∃ os1 s' os2, run c s is1 = .ok (os1, s') ∧ run c s' is2 = .ok (os2, s'') ∧
        os = os1 ++ os2 := by
  induction is1 with
  | nil =>
    intro s s'' os
    simp only [List.nil_append, run, Except.ok.injEq, Prod.mk.injEq]
    constructor
    · intro h; exact ⟨[], s, os, ⟨rfl, rfl⟩, h, rfl⟩
    · rintro ⟨os1, s', os2, ⟨rfl, rfl⟩, h, rfl⟩; exact h
  | cons i is1 ih =>
    intro s s'' os
    rw [List.cons_append, run_cons]
    constructor
    · rintro ⟨o, s', os', h1, h2, rfl⟩
      obtain ⟨os1, s3, os2, h3, h4, rfl⟩ := ih.1 h2
      exact ⟨o :: os1, s3, os2, run_cons.2 ⟨o, s', os1, h1, h3, rfl⟩, h4, rfl⟩
    · rintro ⟨os1, s3, os2, h3, h4, rfl⟩
      obtain ⟨o, s', os', h1, h2, rfl⟩ := run_cons.1 h3
      exact ⟨o, s', os' ++ os2, h1, ih.2 ⟨os', s3, os2, h2, h4, rfl⟩, rfl⟩

theorem run_length {c : Cfg} (is : List In) : ∀ {s s' : State} {os : List Out},
    run c s is = .ok (os, s') → os.length = is.length := by
  induction is with
  | nil =>
    intro s s' os h
    simp only [run, Except.ok.injEq, Prod.mk.injEq] at h
    rw [← h.1]; rfl
  | cons i is ih =>
    intro s s' os h
    obtain ⟨o, s1, os', _, h2, rfl⟩ := run_cons.1 h
    simp [ih h2]

theorem honestRun_append {c : Cfg} (is1 is2 : List In) : ∀ {s s' : State} {os : List Out},
    HonestRun c s (is1 ++ is2) → run c s is1 = .ok (os, s') →
      HonestRun c s is1 ∧ HonestRun c s' is2 := by
  induction is1 with
  | nil =>
    intro s s' os h hr
    simp only [run, Except.ok.injEq, Prod.mk.injEq] at hr
    exact ⟨trivial, hr.2 ▸ h⟩
  | cons i is1 ih =>
    intro s s' os h hr
    obtain ⟨o, s1, os', h1, h2, rfl⟩ := run_cons.1 hr
    obtain ⟨ha, hb⟩ := h
    obtain ⟨hc, hd⟩ := ih (hb o s1 h1) h2
    refine ⟨⟨ha, fun o' s'' h' => ?_⟩, hd⟩
    rw [h1] at h'
    simp only [Except.ok.injEq, Prod.mk.injEq] at h'
    rw [← h'.2]
    exact hc

/-- A history of a well-formed reactor in an honest market returns normally and keeps the
invariant. -/
theorem run_ok {c : Cfg} (hw : WellFormed c) (is : List In) : ∀ {s : State}, Good c s →
    HonestRun c s is → ∃ os s', run c s is = .ok (os, s') ∧ Good c s' := by
  induction is with
  | nil => intro s h _; exact ⟨[], s, rfl, h⟩
  | cons i is ih =>
    intro s h hh
    obtain ⟨o, s', s1, s2, s3, h1, sp⟩ := step_ok hw h hh.1
    obtain ⟨os, s'', h2, g⟩ := ih sp.good (hh.2 o s' h1)
    exact ⟨o :: os, s'', run_cons.2 ⟨o, s', os, h1, h2, rfl⟩, g⟩

theorem run_good {c : Cfg} (hw : WellFormed c) {is : List In} {s s' : State} {os : List Out}
    (h : Good c s) (hh : HonestRun c s is) (hr : run c s is = .ok (os, s')) : Good c s' := by
  obtain ⟨os', s'', h2, g⟩ := run_ok hw is h hh
  rw [hr] at h2
  simp only [Except.ok.injEq, Prod.mk.injEq] at h2
  rw [h2.2]; exact g

/-- The state before each step of a history, with the step. -/
theorem run_split {c : Cfg} {is : List In} {s s' : State} {os : List Out}
    (hr : run c s is = .ok (os, s')) {t : Nat} {o : Out} (ho : os[t]? = some o) :
    ∃ i os1 sa sb os2, is[t]? = some i ∧ run c s (is.take t) = .ok (os1, sa) ∧
      os1 = os.take t ∧ step c sa i = .ok (o, sb) ∧ run c sb (is.drop (t + 1)) = .ok (os2, s') ∧
      os2 = os.drop (t + 1) := by
  have hlen := run_length is hr
  have ht : t < is.length := by
    rw [← hlen]
    exact (List.getElem?_eq_some_iff.1 ho).1
  have e : is = is.take t ++ is[t] :: is.drop (t + 1) := by simp
  rw [e] at hr
  obtain ⟨os1, sa, os2, h1, h2, he⟩ := (run_append _ _).1 hr
  obtain ⟨o', sb, os', h3, h4, rfl⟩ := run_cons.1 h2
  have hl1 : os1.length = t := by
    rw [run_length _ h1]; simp; omega
  have ho' : o' = o := by
    rw [he, List.getElem?_append_right (by omega), hl1] at ho
    simpa using ho
  subst ho'
  refine ⟨is[t], os1, sa, sb, os', by simp, h1, ?_, h3, h4, ?_⟩
  · rw [he, ← hl1]; simp
  · rw [he, ← hl1, List.drop_append]; simp

theorem honest_split {c : Cfg} {is : List In} {s : State} (hh : HonestRun c s is) {t : Nat}
    {i : In} (hi : is[t]? = some i) {os1 : List Out} {sa : State}
    (h1 : run c s (is.take t) = .ok (os1, sa)) :
    HonestRun c s (is.take t) ∧
      (∀ o s1, offerPhase c i.reqs sa = .ok (o, s1) → Honest c sa o i) ∧
      (∀ o sb, step c sa i = .ok (o, sb) → HonestRun c sb (is.drop (t + 1))) := by
  have ht : t < is.length := (List.getElem?_eq_some_iff.1 hi).1
  have hit : is[t] = i := (List.getElem?_eq_some_iff.1 hi).2
  have e : is = is.take t ++ is[t] :: is.drop (t + 1) := by simp
  rw [e] at hh
  have hh' : HonestRun c s (is.take t ++ i :: is.drop (t + 1)) := by rw [← hit]; exact hh
  obtain ⟨a, b⟩ := honestRun_append _ _ hh' h1
  exact ⟨a, b.1, b.2⟩

/-- Induction along a history, with the invariant available. -/
theorem run_induct {c : Cfg} (hw : WellFormed c) {P : State → Prop}
    (hstep : ∀ {s s' s1 s2 s3 : State} {i : In} {o : Out}, Good c s → P s →
      StepSpec c s i o s' s1 s2 s3 → P s') (is : List In) :
    ∀ {s s' : State} {os : List Out}, Good c s → P s → HonestRun c s is →
      run c s is = .ok (os, s') → P s' := by
  induction is with
  | nil =>
    intro s s' os _ hp _ hr
    simp only [run, Except.ok.injEq, Prod.mk.injEq] at hr
    exact hr.2 ▸ hp
  | cons i is ih =>
    intro s s' os h hp hh hr
    obtain ⟨o, s1, os', h1, h2, rfl⟩ := run_cons.1 hr
    obtain ⟨t1, t2, t3, sp⟩ := step_spec hw h hh.1 h1
    exact ih sp.good (hstep h hp sp) (hh.2 o s1 h1) h2

end Cyc.Reactor
