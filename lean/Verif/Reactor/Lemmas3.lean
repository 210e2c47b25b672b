import Verif.Reactor.Lemmas2

/-!
# Exact effect of the reactor's operations, continued: `Tick`, requests, bids, `Tock`
-/

namespace Cyc.Reactor

/-! ## `Tick` -/

/-- The state after the transmutation of the oldest `n` core assemblies. -/
def burntState (c : Cfg) (n : Nat) (s : State) : State :=
  { s.record (.transmute (min n s.core.items.length)) with
    core := { s.core with
      items := (s.core.items.take n).map (burn c s) ++ s.core.items.drop n } }

theorem transmute_burnt {c : Cfg} (hw : WellFormed c) {s : State} (h : Good c s) (n : Nat) :
    transmute c n s = .ok (burntState c n s) := transmute_ok hw h n

theorem Good.burntState {c : Cfg} {s : State} (h : Good c s) (n : Nat) :
    Good c (burntState c n s) := h.transmute n _

/-- First stage of an operating `Tick`: the end of a cycle. -/
def endCycle (c : Cfg) (s : State) : State :=
  if s.cycleStep = c.cycleTime then (burntState c c.nBatch s).record .cycleEnd else s

/-- Second stage: the discharge, if due. -/
def tryDischarge (c : Cfg) (s : State) : State :=
  if s.cycleStep ≥ c.cycleTime ∧ s.discharged = false then
    if roomFor c s
    then { dischargedState c (min c.nBatch s.core.items.length) s with discharged := true }
    else { s.record .dischargeFailed with discharged := false }
  else s

/-- Third stage: the loading, if due. -/
def tryLoad (c : Cfg) (s : State) : State :=
  if s.cycleStep ≥ c.cycleTime then loadedState c s else s

theorem Good.endCycle {c : Cfg} {s : State} (h : Good c s) : Good c (endCycle c s) := by
  unfold Reactor.endCycle; split
  · exact (h.burntState _).record _
  · exact h

theorem Good.withDischarged {c : Cfg} {s : State} (h : Good c s) (b : Bool) :
    Good c { s with discharged := b } :=
  ⟨h.fresh, h.core, h.spent, h.nodup, h.idx, h.prefs, h.inRecipes, h.outRecipes, h.knownIn,
    h.knownOut, h.named⟩

theorem Good.tryDischarge {c : Cfg} {s : State} (h : Good c s) : Good c (tryDischarge c s) := by
  unfold Reactor.tryDischarge; split
  · split
    · rename_i hr; exact (h.dischargedState hr).withDischarged _
    · exact (h.record _).withDischarged _
  · exact h

theorem Good.tryLoad {c : Cfg} {s : State} (h : Good c s) : Good c (tryLoad c s) := by
  unfold Reactor.tryLoad; split
  · exact h.loadedState
  · exact h

theorem tickFuel_ok {c : Cfg} (hw : WellFormed c) {s : State} (h : Good c s) :
    tickFuel c s = .ok (tryLoad c (tryDischarge c (endCycle c s))) := by
  have h1 : tickCycleEnd c s = .ok (endCycle c s) := by
    unfold endCycle tickCycleEnd; split
    · rw [transmute_burnt hw h]; rfl
    · rfl
  have h2 : tickDischarge c (endCycle c s) = .ok (tryDischarge c (endCycle c s)) := by
    unfold tryDischarge tickDischarge
    split
    · rw [discharge_ok hw h.endCycle]
      split <;> rfl
    · rfl
  have h3 : tickLoad c (tryDischarge c (endCycle c s)) =
      .ok (tryLoad c (tryDischarge c (endCycle c s))) := by
    unfold tryLoad tickLoad
    split
    · exact load_ok hw h.endCycle.tryDischarge
    · rfl
  simp only [tickFuel, h1, h2, h3, ok_bind]

/-- The state after `Tick` of an operating reactor. -/
def tickedState (c : Cfg) (s : State) : State :=
  changedState c (tryLoad c (tryDischarge c (endCycle c s)))

theorem tick_ok {c : Cfg} (hw : WellFormed c) {s : State} (h : Good c s)
    (hr : retired c s = false) : tick c s = .ok (tickedState c s) := by
  unfold tick
  simp only [hr, Bool.false_eq_true, if_false, tickFuel_ok hw h, ok_bind]
  exact applyChanges_ok hw h.endCycle.tryDischarge.tryLoad

theorem Good.tickedState {c : Cfg} (hw : WellFormed c) {s : State} (h : Good c s) :
    Good c (tickedState c s) := h.endCycle.tryDischarge.tryLoad.changedState hw

/-- What `Tick` does to a retired reactor: rows, a possible transmutation in the first retired
step, then discharges and moves of fresh fuel. -/
theorem tickRetired_ok {c : Cfg} (hw : WellFormed c) {s : State} (h : Good c s) :
    ∃ s1 s2 s3, tickRetired c s = .ok (if checkDecommission s3 then s3.record .schedDecom else s3) ∧
      s1 = (if some s.time = c.exitTime.map (· + 1) then
        burntState c (if c.decomTransmuteAll then c.nCore else (c.nCore + 1) / 2)
          (s.record .retired) else s.record .retired) ∧
      Good c s1 ∧ Drained c s1 s2 ∧ Good c s2 ∧ (s2.core.items = [] ∨ ¬ roomFor c s2) ∧
      Dumped s2 s3 ∧ Good c s3 ∧ (s3.fresh.items = [] ∨ s3.spent.items.length = c.nSpent) := by
  have g0 := h.record .retired
  set s1 := (if some s.time = c.exitTime.map (· + 1) then
        burntState c (if c.decomTransmuteAll then c.nCore else (c.nCore + 1) / 2)
          (s.record .retired) else s.record .retired) with hs1
  have g1 : Good c s1 := by
    rw [hs1]; split
    · exact g0.burntState _
    · exact g0
  obtain ⟨s2, e2, g2, d2, f2⟩ := dischargeAll_ok hw s1.core.items.length g1 le_rfl
  obtain ⟨s3, e3, g3, d3, f3⟩ := dumpFresh_ok hw s2.fresh.items.length g2 le_rfl
  refine ⟨s1, s2, s3, ?_, rfl, g1, d2, g2, f2, d3, g3, f3⟩
  have h1 : retireTransmute c (s.record .retired) = .ok s1 := by
    rw [hs1]
    unfold retireTransmute
    show (if some s.time = c.exitTime.map (· + 1) then _ else _) = _
    split
    · exact transmute_burnt hw g0 _
    · rfl
  unfold tickRetired
  simp only [h1, ok_bind]
  rw [show s1.core.count = s1.core.items.length from rfl, e2]
  simp only [ok_bind]
  rw [show s2.fresh.count = s2.fresh.items.length from rfl, e3]
  simp only [ok_bind, pure_eq_ok]

/-! ## Requests -/

/-- The request for the `j`-th input commodity. -/
def reqAt (c : Cfg) (s : State) (j : Nat) : Request :=
  { commod := c.inCommods.getD j "", pref := s.prefs.getD j 0,
    comp := (c.recipe (s.inRecipes.getD j "")).getD 0, qty := c.assemSize }

theorem portfolio_aux {c : Cfg} {s : State} (h : Good c s) :
    ∀ (ks : List String) (j : Nat), c.inCommods.drop j = ks →
      portfolio c s ks j = .ok ((List.range ks.length).map fun i => reqAt c s (j + i)) := by
  intro ks
  induction ks with
  | nil => intro j _; rfl
  | cons k ks ih =>
    intro j hj
    have hlt : j < c.inCommods.length := by
      by_contra hn
      rw [List.drop_eq_nil_of_le (by omega)] at hj
      exact absurd hj (by simp)
    have hk : c.inCommods.getD j "" = k := by
      have := List.drop_eq_getElem_cons hlt
      rw [hj] at this
      simp only [List.cons.injEq] at this
      simp [hlt, this.1]
    have hks : c.inCommods.drop (j + 1) = ks := by
      have := List.drop_eq_getElem_cons hlt
      rw [hj] at this
      simp only [List.cons.injEq] at this
      exact this.2.symm
    have hr : (c.recipe (s.inRecipes.getD j "")).isSome := by
      apply h.knownIn
      have : j < s.inRecipes.length := by rw [h.inRecipes]; exact hlt
      simp [this]
    obtain ⟨v, hv⟩ := Option.isSome_iff_exists.1 hr
    have hg : getRecipe c (s.inRecipes.getD j "") = .ok v := by unfold getRecipe; rw [hv]
    simp only [portfolio, at!_getD 0 (show j < s.prefs.length by rw [h.prefs]; exact hlt),
      at!_getD "" (show j < s.inRecipes.length by rw [h.inRecipes]; exact hlt), ok_bind, hg,
      ih (j + 1) hks, pure_eq_ok, List.length_cons, List.range_succ_eq_map, List.map_cons,
      List.map_map, Nat.add_zero]
    congr 2
    · unfold reqAt; rw [hk, hv]; rfl
    · apply List.map_congr_left
      intro i _
      simp only [Function.comp]
      congr 1
      omega

/-- The requests of one portfolio: one per input commodity, with the preference and recipe in
force. -/
def onePortfolio (c : Cfg) (s : State) : List Request :=
  (List.range c.inCommods.length).map (reqAt c s)

theorem portfolio_ok {c : Cfg} {s : State} (h : Good c s) :
    portfolio c s c.inCommods 0 = .ok (onePortfolio c s) := by
  have := portfolio_aux h c.inCommods 0 (by simp)
  simpa [onePortfolio] using this

/-- The demand row written for one ordered assembly. -/
def demandRec (c : Cfg) (s : State) : Rec :=
  .demand (c.inCommods.getD (maxIndex s.prefs) "") c.assemSize

theorem requestLoop_ok {c : Cfg} (hw : WellFormed c) (n : Nat) :
    ∀ {s : State}, Good c s → requestLoop c n s =
      .ok (List.replicate n (onePortfolio c s),
        { s with log := s.log ++ List.replicate n (demandRec c s) }) := by
  induction n with
  | zero => intro s _; simp [requestLoop]
  | succ n ih =>
    intro s h
    have hne : s.prefs ≠ [] := by
      intro e
      have := h.prefs
      rw [e] at this
      exact hw.someFuel (List.eq_nil_of_length_eq_zero this.symm)
    have hlt : maxIndex s.prefs < c.inCommods.length := by
      rw [← h.prefs]; exact maxIndex_lt hne
    simp only [requestLoop, portfolio_ok h, at!_getD "" hlt, ok_bind]
    have := ih (h.record (demandRec c s))
    rw [demandRec] at this
    rw [this]
    simp only [ok_bind, pure_eq_ok, List.replicate_succ, State.record, List.append_assoc,
      List.singleton_append]
    rfl

/-- The number of vacant positions. -/
def vacancy (c : Cfg) (s : State) : Nat :=
  (c.nCore - s.core.items.length) + (c.nFresh - s.fresh.items.length)

/-- The order size, when the code defines it. -/
def orderSize (c : Cfg) (s : State) : Nat :=
  match c.exitTime with
  | none => vacancy c s
  | some e =>
    let cycles : ℤ := ceilDiv
      ((e : ℤ) - s.time + 1 - ((c.cycleTime : ℤ) + c.refuelTime - s.cycleStep))
      ((c.cycleTime : ℤ) + c.refuelTime)
    min (vacancy c s) (cycles * c.nBatch - c.nFresh + c.nCore - s.core.items.length).toNat

theorem nOrder_ok {c : Cfg} (hw : WellFormed c) {s : State} (h : Good c s) :
    nOrder c s = .ok (orderSize c s : ℤ) := by
  have h1 := h.core.count
  have h2 := h.fresh.count
  have h3 := hw.cycleTime
  unfold nOrder orderSize
  cases c.exitTime with
  | none =>
    simp only [Buf.count, vacancy]
    congr 1
    omega
  | some e =>
    simp only [Buf.count, vacancy]
    rw [if_neg (by omega)]
    congr 1
    omega

/-- The exact effect of `GetMatlRequests`. -/
theorem getMatlRequests_ok {c : Cfg} (hw : WellFormed c) {s : State} (h : Good c s) :
    getMatlRequests c s =
      .ok (List.replicate (if retired c s then 0 else orderSize c s) (onePortfolio c s),
        { s with log := s.log ++
            List.replicate (if retired c s then 0 else orderSize c s) (demandRec c s) }) := by
  unfold getMatlRequests
  rw [nOrder_ok hw h]
  simp only [ok_bind]
  by_cases h0 : orderSize c s = 0
  · simp [h0]
  · have h0' : ¬ ((orderSize c s : ℤ) = 0) := by exact_mod_cast h0
    rw [if_neg h0']
    cases hr : retired c s with
    | true => simp
    | false =>
      simp only [Bool.false_eq_true, if_false, Int.toNat_natCast]
      exact requestLoop_ok hw _ h

/-! ## Bids -/

/-- The bid portfolio for one commodity, if there is one. -/
def bidPort (c : Cfg) (reqs : String → List ℚ) (s : State) (k : String) : Option BidPort :=
  if reqs k = [] ∨ spentOf c s k = [] then none
  else some { commod := k, bids := bidsForAll (spentOf c s k) (reqs k) 0,
              cap := totalQty (spentOf c s k) }

theorem spentOf_sub {c : Cfg} {s : State} {k : String} {a : Assem} (h : a ∈ spentOf c s k) :
    a ∈ s.spent.items ∧ outCommodOf c s a = k := by
  simpa [spentOf] using h

theorem totalQty_spentOf {c : Cfg} {s : State} (h : Good c s) (k : String) :
    totalQty (spentOf c s k) = (spentOf c s k).length * c.assemSize :=
  totalQty_const fun a ha => h.spent.size a (spentOf_sub ha).1

theorem bidLoop_ok {c : Cfg} (hw : WellFormed c) (reqs : String → List ℚ) (ks : List String)
    {s : State} (h : Good c s) :
    bidLoop c reqs ks s = .ok (ks.filterMap (bidPort c reqs s), s) := by
  induction ks with
  | nil => rfl
  | cons k ks ih =>
    unfold bidLoop
    by_cases hr : reqs k = []
    · simp [hr, ih, bidPort]
    · rw [if_neg hr]
      obtain ⟨m, h1, h2⟩ := peekSpent_ok hw h
      simp only [h1, ok_bind, h2]
      by_cases hs : spentOf c s k = []
      · simp [hs, ih, bidPort]
      · rw [if_neg hs]
        have hpos : ¬ totalQty (spentOf c s k) ≤ 0 := by
          rw [totalQty_spentOf h, not_le]
          have : 0 < (spentOf c s k).length := List.length_pos_of_ne_nil hs
          have : (0 : ℚ) < (spentOf c s k).length := by exact_mod_cast this
          exact mul_pos this hw.assemSize
        rw [if_neg hpos, ih]
        simp [bidPort, hr, hs]

theorem getMatlBids_ok {c : Cfg} (hw : WellFormed c) (reqs : String → List ℚ) {s : State}
    (h : Good c s) :
    getMatlBids c reqs s = .ok ((uniqOutCommods c).filterMap (bidPort c reqs s), s) :=
  bidLoop_ok hw reqs _ h

theorem mem_uniq (l : List String) (m : SMap Unit) (k : String) :
    k ∈ SMap.keys (l.foldl (fun m k => SMap.modify () k id m) m) ↔ k ∈ SMap.keys m ∨ k ∈ l := by
  induction l generalizing m with
  | nil => simp
  | cons x l ih =>
    rw [List.foldl_cons, ih, SMap.mem_keys_modify]
    simp only [List.mem_cons]
    tauto

theorem mem_uniqOutCommods {c : Cfg} {k : String} : k ∈ uniqOutCommods c ↔ k ∈ c.outCommods := by
  unfold uniqOutCommods
  rw [mem_uniq]
  simp [SMap.keys]

theorem sorted_uniq (l : List String) (m : SMap Unit) (h : SMap.Sorted m) :
    SMap.Sorted (l.foldl (fun m k => SMap.modify () k id m) m) := by
  induction l generalizing m with
  | nil => exact h
  | cons x l ih => exact ih _ (SMap.sorted_modify h)

theorem uniqOutCommods_nodup (c : Cfg) : (uniqOutCommods c).Nodup := by
  have := sorted_uniq c.outCommods [] (by simp [SMap.Sorted, SMap.keys])
  unfold SMap.Sorted at this
  exact this.imp fun h => ne_of_lt h

/-! ## `Tock` -/

theorem sideLoop_ok {c : Cfg} (produce : Bool) (ps : List String) :
    ∀ (i : Nat) (s : State), i + ps.length ≤ c.sideQty.length →
      sideLoop c produce ps i s = .ok { s with log := s.log ++
        ((ps.zipIdx i).map fun p => .side p.1 (if produce then c.sideQty.getD p.2 0 else 0)) } := by
  induction ps with
  | nil => intro i s _; simp [sideLoop]
  | cons p ps ih =>
    intro i s hi
    simp only [List.length_cons] at hi
    cases produce with
    | true =>
      have hv := at!_getD (l := c.sideQty) (0 : ℚ) (show i < c.sideQty.length by omega)
      simp only [sideLoop, hv, ok_bind, if_true]
      rw [ih (i + 1) _ (by omega)]
      simp [State.record, List.zipIdx_cons]
    | false =>
      simp only [sideLoop, Bool.false_eq_true, if_false, pure_eq_ok, ok_bind]
      rw [ih (i + 1) _ (by omega)]
      simp [State.record, List.zipIdx_cons]

/-- The side product rows of one step. -/
def sideRecs (c : Cfg) (s : State) (on : Bool) : List Rec :=
  if s.hybrid then
    (c.sideProducts.zipIdx).map fun p => .side p.1 (if on then c.sideQty.getD p.2 0 else 0)
  else []

theorem recordSideProduct_ok {c : Cfg} (hw : WellFormed c) (on : Bool) (s : State) :
    recordSideProduct c on s = .ok { s with log := s.log ++ sideRecs c s on } := by
  unfold recordSideProduct sideRecs
  split
  · exact sideLoop_ok on _ 0 s (by simpa using hw.sideQty)
  · simp

/-- Whether `Tock` starts a new cycle. -/
def restarts (c : Cfg) (s : State) : Bool :=
  decide (s.cycleStep ≥ c.cycleTime + c.refuelTime ∧ s.core.items.length = c.nCore ∧
    s.discharged = true)

/-- The cycle counter used by `Tock` for its decisions. -/
def tockStep (c : Cfg) (s : State) : Nat := if restarts c s then 0 else s.cycleStep

/-- Whether the reactor produces power in this `Tock`. -/
def tockOn (c : Cfg) (s : State) : Bool :=
  decide (tockStep c s < c.cycleTime ∧ s.core.items.length = c.nCore)

/-- The rows `Tock` writes. -/
def tockRecs (c : Cfg) (s : State) : List Rec :=
  (if tockStep c s = 0 ∧ s.core.items.length = c.nCore then [.cycleStart] else []) ++
    .power (if tockOn c s then c.powerCap else 0) :: sideRecs c s (tockOn c s)

/-- The state after `Tock` of an operating reactor. -/
def tockedState (c : Cfg) (s : State) : State :=
  { s with
    discharged := if restarts c s then false else s.discharged
    cycleStep := if tockStep c s > 0 ∨ s.core.items.length = c.nCore then tockStep c s + 1
      else tockStep c s
    log := s.log ++ tockRecs c s }

theorem tockReset_eq (c : Cfg) (s : State) : tockReset c s =
    { s with discharged := if restarts c s then false else s.discharged
             cycleStep := tockStep c s } := by
  unfold tockReset
  show (if s.cycleStep ≥ c.cycleTime + c.refuelTime ∧ s.core.items.length = c.nCore ∧
    s.discharged = true then _ else _) = _
  unfold tockStep
  by_cases h : s.cycleStep ≥ c.cycleTime + c.refuelTime ∧ s.core.items.length = c.nCore ∧
    s.discharged = true
  · have hb : restarts c s = true := by simp only [restarts, decide_eq_true_eq]; exact h
    rw [if_pos h]; simp only [hb, if_true]
  · have hb : restarts c s = false := by simp only [restarts, decide_eq_false_iff_not]; exact h
    rw [if_neg h]; simp only [hb, Bool.false_eq_true, if_false]

/-- The state of `Tock` just before it decides about power. -/
def begunState (c : Cfg) (s : State) : State :=
  { s with discharged := if restarts c s then false else s.discharged
           cycleStep := tockStep c s
           log := s.log ++
             if tockStep c s = 0 ∧ s.core.items.length = c.nCore then [.cycleStart] else [] }

theorem tockBegin_eq (c : Cfg) (s : State) : tockBegin c (tockReset c s) = begunState c s := by
  rw [tockReset_eq]
  unfold tockBegin begunState
  show (if tockStep c s = 0 ∧ s.core.items.length = c.nCore then _ else _) = _
  by_cases h : tockStep c s = 0 ∧ s.core.items.length = c.nCore
  · rw [if_pos h, if_pos h]; rfl
  · rw [if_neg h, if_neg h, List.append_nil]

theorem tock_ok {c : Cfg} (hw : WellFormed c) {s : State} (hr : retired c s = false) :
    tock c s = .ok (tockedState c s) := by
  have hp : producing c (begunState c s) = tockOn c s := rfl
  unfold tock
  rw [if_neg (by simp [hr]), tockBegin_eq]
  simp only [hp, recordSideProduct_ok hw, ok_bind, pure_eq_ok]
  congr 1
  have hlog : ((begunState c s).record (.power (if tockOn c s then c.powerCap else 0))).log ++
      sideRecs c ((begunState c s).record (.power (if tockOn c s then c.powerCap else 0)))
        (tockOn c s) = s.log ++ tockRecs c s := by
    have e : sideRecs c ((begunState c s).record (.power (if tockOn c s then c.powerCap else 0)))
        (tockOn c s) = sideRecs c s (tockOn c s) := rfl
    rw [e]
    simp only [begunState, State.record, tockRecs, List.append_assoc, List.singleton_append]
  rw [hlog]
  unfold tockCount
  show (if tockStep c s > 0 ∨ s.core.items.length = c.nCore then _ else _) = _
  unfold tockedState
  by_cases h : tockStep c s > 0 ∨ s.core.items.length = c.nCore
  · rw [if_pos h, if_pos h]; rfl
  · rw [if_neg h, if_neg h]; rfl

theorem tock_retired {c : Cfg} {s : State} (hr : retired c s = true) : tock c s = .ok s := by
  unfold tock; simp [hr]

theorem Good.tockedState {c : Cfg} {s : State} (h : Good c s) : Good c (tockedState c s) :=
  ⟨h.fresh, h.core, h.spent, h.nodup, h.idx, h.prefs, h.inRecipes, h.outRecipes, h.knownIn,
    h.knownOut, h.named⟩

end Cyc.Reactor
