import Verif.Age.Basic
import Verif.Reactor.Props1

/-!
# Deployment at another time: C121 for `Reactor`
-/

namespace Cyc

namespace Reactor

/-- The same input for a reactor that is deployed `d` steps later: its schedule of changes and its end
are `d` steps later, too. -/
def Cfg.later (d : Nat) (c : Cfg) : Cfg :=
  { c with
    enterTime := c.enterTime + d
    exitTime := c.exitTime.map (· + d)
    recipeChangeTimes := c.recipeChangeTimes.map (· + d)
    prefChangeTimes := c.prefChangeTimes.map (· + d) }

/-- The same state at a later time. -/
def State.later (d : Nat) (s : State) : State := { s with time := s.time + d }

/-- The same observation at a later time. -/
def Out.later (d : Nat) (o : Out) : Out := { o with time := o.time + d }

variable {c : Cfg} {d : Nat} {s : State}

theorem retired_later : retired (c.later d) (s.later d) = retired c s := by
  unfold retired Cfg.later State.later
  cases h : c.exitTime <;> simp

@[simp] theorem later_fresh : (s.later d).fresh = s.fresh := rfl
@[simp] theorem later_core : (s.later d).core = s.core := rfl
@[simp] theorem later_spent : (s.later d).spent = s.spent := rfl
@[simp] theorem later_cycleStep : (s.later d).cycleStep = s.cycleStep := rfl
@[simp] theorem later_discharged : (s.later d).discharged = s.discharged := rfl
@[simp] theorem later_inRecipes : (s.later d).inRecipes = s.inRecipes := rfl
@[simp] theorem later_outRecipes : (s.later d).outRecipes = s.outRecipes := rfl
@[simp] theorem later_prefs : (s.later d).prefs = s.prefs := rfl
@[simp] theorem later_resIdx : (s.later d).resIdx = s.resIdx := rfl
@[simp] theorem later_hybrid : (s.later d).hybrid = s.hybrid := rfl
@[simp] theorem later_log : (s.later d).log = s.log := rfl
@[simp] theorem later_cfg_inCommods : (c.later d).inCommods = c.inCommods := rfl
@[simp] theorem later_cfg_inRecipes : (c.later d).inRecipes = c.inRecipes := rfl
@[simp] theorem later_cfg_prefs : (c.later d).prefs = c.prefs := rfl
@[simp] theorem later_cfg_outCommods : (c.later d).outCommods = c.outCommods := rfl
@[simp] theorem later_cfg_outRecipes : (c.later d).outRecipes = c.outRecipes := rfl
@[simp] theorem later_cfg_recipeChangeCommods : (c.later d).recipeChangeCommods = c.recipeChangeCommods := rfl
@[simp] theorem later_cfg_recipeChangeIn : (c.later d).recipeChangeIn = c.recipeChangeIn := rfl
@[simp] theorem later_cfg_recipeChangeOut : (c.later d).recipeChangeOut = c.recipeChangeOut := rfl
@[simp] theorem later_cfg_prefChangeCommods : (c.later d).prefChangeCommods = c.prefChangeCommods := rfl
@[simp] theorem later_cfg_prefChangeValues : (c.later d).prefChangeValues = c.prefChangeValues := rfl
@[simp] theorem later_cfg_assemSize : (c.later d).assemSize = c.assemSize := rfl
@[simp] theorem later_cfg_nBatch : (c.later d).nBatch = c.nBatch := rfl
@[simp] theorem later_cfg_nCore : (c.later d).nCore = c.nCore := rfl
@[simp] theorem later_cfg_nFresh : (c.later d).nFresh = c.nFresh := rfl
@[simp] theorem later_cfg_nSpent : (c.later d).nSpent = c.nSpent := rfl
@[simp] theorem later_cfg_cycleTime : (c.later d).cycleTime = c.cycleTime := rfl
@[simp] theorem later_cfg_refuelTime : (c.later d).refuelTime = c.refuelTime := rfl
@[simp] theorem later_cfg_cycleStep : (c.later d).cycleStep = c.cycleStep := rfl
@[simp] theorem later_cfg_powerCap : (c.later d).powerCap = c.powerCap := rfl
@[simp] theorem later_cfg_sideProducts : (c.later d).sideProducts = c.sideProducts := rfl
@[simp] theorem later_cfg_sideQty : (c.later d).sideQty = c.sideQty := rfl
@[simp] theorem later_cfg_decomTransmuteAll : (c.later d).decomTransmuteAll = c.decomTransmuteAll := rfl
@[simp] theorem later_cfg_recipe : (c.later d).recipe = c.recipe := rfl
@[simp] theorem later_cfg_eps : (c.later d).eps = c.eps := rfl
@[simp] theorem later_time : (s.later d).time = s.time + d := rfl

theorem record_later (r : Rec) : (s.later d).record r = (s.record r).later d := rfl

theorem fuelOutCommod_later (m : Assem) :
    fuelOutCommod (c.later d) (s.later d) m = fuelOutCommod c s m := rfl

theorem transmuteLoop_later (l items : List Assem) :
    transmuteLoop (c.later d) (s.later d) l items = transmuteLoop c s l items := by
  induction l generalizing items with
  | nil => rfl
  | cons m l ih => simp only [transmuteLoop, ih]; rfl

theorem transmute_later (n : Nat) :
    transmute (c.later d) n (s.later d) = R.then (State.later d) (transmute c n s) := by
  unfold transmute
  simp only [record_later, transmuteLoop_later, later_core, later_cfg_eps, then_bind, then_ite, pure_eq_ok, then_ok]
  rfl

theorem groupByCommod_later (l : List Assem) (m : SMap (List Assem)) :
    groupByCommod (c.later d) (s.later d) l m = groupByCommod c s l m := by
  induction l generalizing m with
  | nil => rfl
  | cons a l ih => simp only [groupByCommod, ih, fuelOutCommod_later]

/-- A pair whose state is later. -/
def onState {α : Type} (d : Nat) (p : α × State) : α × State := (p.1, p.2.later d)

theorem peekSpent_later :
    peekSpent (c.later d) (s.later d) = R.then (onState d) (peekSpent c s) := by
  unfold peekSpent
  simp only [later_spent, later_cfg_eps, then_bind]
  congr 1; funext x
  congr 1; funext b
  exact congrArg (· >>= _) (groupByCommod_later (s := { s with spent := b }) _ _)

theorem recordSupply_later (ks : List String) :
    recordSupply (c.later d) ks (s.later d) = R.then (State.later d) (recordSupply c ks s) := by
  induction ks generalizing s with
  | nil => rfl
  | cons k ks ih =>
    simp only [recordSupply, peekSpent_later, bind_then, then_bind, onState, record_later, ih]

theorem discharge_later :
    discharge (c.later d) (s.later d) = R.then (onState d) (discharge c s) := by
  unfold discharge
  simp only [later_core, later_spent, later_cfg_eps, later_cfg_nBatch, later_cfg_nSpent,
    record_later, then_ite, then_bind, later_cfg_outCommods]
  congr 1
  congr 1; funext x
  congr 1; funext b
  have := recordSupply_later (c := c) (d := d)
    (s := { s.record (.discharge (min c.nBatch s.core.count)) with core := x.2, spent := b }) c.outCommods
  refine (congrArg (· >>= _) this).trans ?_
  simp only [bind_then, then_bind]
  rfl

theorem load_later : load (c.later d) (s.later d) = R.then (State.later d) (load c s) := by
  unfold load
  simp only [later_core, later_fresh, later_cfg_eps, later_cfg_nCore, record_later, then_ite, then_bind,
    then_ok, then_error]
  rfl

theorem dischargeAll_later (n : Nat) :
    dischargeAll (c.later d) n (s.later d) = R.then (State.later d) (dischargeAll c n s) := by
  induction n generalizing s with
  | zero => simp only [dischargeAll, later_core, then_ite]; rfl
  | succ n ih =>
    simp only [dischargeAll, later_core, then_ite, discharge_later, bind_then, then_bind, onState, ih]
    rfl

theorem dumpFresh_later (n : Nat) :
    dumpFresh (c.later d) n (s.later d) = R.then (State.later d) (dumpFresh c n s) := by
  induction n generalizing s with
  | zero => rfl
  | succ n ih =>
    simp only [dumpFresh, later_fresh, later_spent, then_ite, then_bind, later_cfg_eps]
    refine if_congr Iff.rfl ?_ rfl
    congr 1; funext x
    congr 1; funext b
    exact ih (s := { s with fresh := x.2, spent := b })

theorem prefChange_later (i : Nat) :
    prefChange (c.later d) (s.later d) i = R.then (State.later d) (prefChange c s i) := by
  unfold prefChange
  have h : at! (c.later d).prefChangeTimes i = R.then (· + d) (at! c.prefChangeTimes i) := by
    unfold at! Cfg.later
    simp only [List.getElem?_map]
    cases c.prefChangeTimes[i]? <;> rfl
  simp only [h, bind_then, then_bind, later_time, ne_eq, Nat.add_right_cancel_iff, then_ite]
  congr 1; funext t
  refine if_congr Iff.rfl rfl ?_
  congr 1; funext k
  simp only [later_cfg_inCommods]
  cases c.inCommods.findIdx? (· == k) with
  | none => rfl
  | some j => simp only [then_bind]; rfl

theorem recipeChange_later (i : Nat) :
    recipeChange (c.later d) (s.later d) i = R.then (State.later d) (recipeChange c s i) := by
  unfold recipeChange
  have h : at! (c.later d).recipeChangeTimes i = R.then (· + d) (at! c.recipeChangeTimes i) := by
    unfold at! Cfg.later
    simp only [List.getElem?_map]
    cases c.recipeChangeTimes[i]? <;> rfl
  simp only [h, bind_then, then_bind, later_time, ne_eq, Nat.add_right_cancel_iff, then_ite]
  congr 1; funext t
  refine if_congr Iff.rfl rfl ?_
  congr 1; funext k
  simp only [later_cfg_inCommods]
  cases c.inCommods.findIdx? (· == k) with
  | none => rfl
  | some j => simp only [then_bind]; rfl

theorem foldlM_later {α : Type} {f g : State → α → R State}
    (h : ∀ s a, f (State.later d s) a = R.then (State.later d) (g s a)) (l : List α) (s : State) :
    l.foldlM f (s.later d) = R.then (State.later d) (l.foldlM g s) := by
  induction l generalizing s with
  | nil => rfl
  | cons a l ih => simp only [List.foldlM_cons, h, bind_then, then_bind, ih]

theorem applyChanges_later :
    applyChanges (c.later d) (s.later d) = R.then (State.later d) (applyChanges c s) := by
  have h1 : (c.later d).prefChangeTimes.length = c.prefChangeTimes.length := by simp [Cfg.later]
  have h2 : (c.later d).recipeChangeTimes.length = c.recipeChangeTimes.length := by simp [Cfg.later]
  unfold applyChanges
  simp only [h1, h2, foldlM_later (fun s a => prefChange_later (c := c) (s := s) a),
    foldlM_later (fun s a => recipeChange_later (c := c) (s := s) a), bind_then, then_bind]

theorem retireTransmute_later :
    retireTransmute (c.later d) (s.later d) = R.then (State.later d) (retireTransmute c s) := by
  unfold retireTransmute
  have h : (some (s.later d).time = (c.later d).exitTime.map (· + 1)) ↔
      some s.time = c.exitTime.map (· + 1) := by
    unfold Cfg.later
    cases c.exitTime with
    | none => simp
    | some e => simp only [later_time, Option.map_some, Option.some.injEq]; omega
  simp only [h, then_ite, transmute_later, later_cfg_decomTransmuteAll, later_cfg_nCore]
  rfl

theorem tickRetired_later :
    tickRetired (c.later d) (s.later d) = R.then (State.later d) (tickRetired c s) := by
  unfold tickRetired
  simp only [record_later, retireTransmute_later, bind_then, then_bind, dischargeAll_later, later_core,
    dumpFresh_later, later_fresh]
  congr 1; funext x
  congr 1; funext y
  congr 1; funext z
  show Except.ok (if checkDecommission z then _ else _) = Except.ok (State.later d (if _ then _ else _))
  split <;> rfl

theorem tickFuel_later :
    tickFuel (c.later d) (s.later d) = R.then (State.later d) (tickFuel c s) := by
  have h1 : ∀ s, tickCycleEnd (c.later d) (State.later d s) = R.then (State.later d) (tickCycleEnd c s) := by
    intro s
    unfold tickCycleEnd
    simp only [transmute_later, bind_then, then_bind, then_ite, later_cycleStep, later_cfg_cycleTime]
    rfl
  have h2 : ∀ s, tickDischarge (c.later d) (State.later d s) = R.then (State.later d) (tickDischarge c s) := by
    intro s
    unfold tickDischarge
    simp only [discharge_later, bind_then, then_bind, then_ite, later_cycleStep, later_cfg_cycleTime,
      later_discharged]
    rfl
  have h3 : ∀ s, tickLoad (c.later d) (State.later d s) = R.then (State.later d) (tickLoad c s) := by
    intro s
    unfold tickLoad
    simp only [load_later, then_ite, later_cycleStep, later_cfg_cycleTime]
    rfl
  unfold tickFuel
  simp only [h1, h2, h3, bind_then, then_bind]

theorem tick_later : tick (c.later d) (s.later d) = R.then (State.later d) (tick c s) := by
  unfold tick
  simp only [retired_later, tickRetired_later, tickFuel_later, applyChanges_later, then_ite, bind_then,
    then_bind]

theorem nOrder_later : nOrder (c.later d) (s.later d) = nOrder c s := by
  unfold nOrder
  show (match c.exitTime.map (· + d) with | none => _ | some e => _) = _
  cases c.exitTime with
  | none => rfl
  | some e =>
    simp only [Option.map_some, later_time, Nat.cast_add]
    have : ((e : ℤ) + d - (s.time + d) + 1) = e - s.time + 1 := by ring
    rw [this]
    rfl

theorem portfolio_later (ks : List String) (j : Nat) :
    portfolio (c.later d) (s.later d) ks j = portfolio c s ks j := by
  induction ks generalizing j with
  | nil => rfl
  | cons k ks ih => simp only [portfolio, ih]; rfl

theorem requestLoop_later (n : Nat) :
    requestLoop (c.later d) n (s.later d) = R.then (onState d) (requestLoop c n s) := by
  induction n generalizing s with
  | zero => rfl
  | succ n ih =>
    simp only [requestLoop, portfolio_later, record_later, ih, bind_then, then_bind]
    rfl

theorem getMatlRequests_later :
    getMatlRequests (c.later d) (s.later d) = R.then (onState d) (getMatlRequests c s) := by
  unfold getMatlRequests
  simp only [nOrder_later, retired_later, requestLoop_later, then_bind, then_ite]
  rfl

theorem bidLoop_later (reqs : String → List ℚ) (ks : List String) :
    bidLoop (c.later d) reqs ks (s.later d) = R.then (onState d) (bidLoop c reqs ks s) := by
  induction ks generalizing s with
  | nil => rfl
  | cons k ks ih =>
    simp only [bidLoop, peekSpent_later, ih, bind_then, then_bind, then_ite, onState, then_error]
    rfl

theorem getMatlBids_later (reqs : String → List ℚ) :
    getMatlBids (c.later d) reqs (s.later d) = R.then (onState d) (getMatlBids c reqs s) :=
  bidLoop_later reqs _

theorem popSpent_later :
    popSpent (c.later d) (s.later d) = R.then (onState d) (popSpent c s) := by
  unfold popSpent
  simp only [later_spent, then_bind]
  congr 1; funext x
  exact congrArg (· >>= _) (groupByCommod_later (s := { s with spent := x.2 }) _ _)

theorem pushSpent_later (m : SMap (List Assem)) :
    pushSpent (c.later d) m (s.later d) = R.then (State.later d) (pushSpent c m s) := by
  induction m generalizing s with
  | nil => rfl
  | cons p m ih =>
    simp only [pushSpent, later_spent, later_cfg_eps, then_bind]
    congr 1; funext b
    exact ih (s := { s with spent := b })

theorem tradeLoop_later (ks : List String) (m : SMap (List Assem)) :
    tradeLoop ks m (s.later d) = R.then (fun p => (p.1, p.2.1, p.2.2.later d)) (tradeLoop ks m s) := by
  induction ks generalizing s m with
  | nil => rfl
  | cons k ks ih =>
    simp only [tradeLoop]
    cases (m.get [] k).getLast? with
    | none => rfl
    | some a =>
      simp only [then_bind]
      refine (congrArg (· >>= _) (ih (s := { s with resIdx := fun x => if x = a.id then 0 else s.resIdx x }) _)).trans ?_
      simp only [bind_then]
      rfl

theorem getMatlTrades_later (trades : List String) :
    getMatlTrades (c.later d) trades (s.later d) = R.then (onState d) (getMatlTrades c trades s) := by
  unfold getMatlTrades
  simp only [popSpent_later, bind_then, then_bind, onState, tradeLoop_later, pushSpent_later]
  rfl

theorem acceptLoop_later (l : List (String × Assem)) :
    acceptLoop (c.later d) l (s.later d) = R.then (State.later d) (acceptLoop c l s) := by
  induction l generalizing s with
  | nil => rfl
  | cons p l ih =>
    have h : indexRes (c.later d) (s.later d) p.2 p.1 = R.then (State.later d) (indexRes c s p.2 p.1) := by
      unfold indexRes
      simp only [later_cfg_inCommods]
      cases c.inCommods.findIdx? (· == p.1) <;> rfl
    obtain ⟨k, m⟩ := p
    simp only [acceptLoop, h, bind_then, then_bind, later_core, later_fresh, later_cfg_eps, later_cfg_nCore,
      then_ite]
    congr 1; funext t
    refine if_congr Iff.rfl ?_ ?_ <;> congr 1 <;> funext b
    · exact ih (s := { t with core := b })
    · exact ih (s := { t with fresh := b })

theorem acceptMatlTrades_later (l : List (String × Assem)) :
    acceptMatlTrades (c.later d) l (s.later d) = R.then (State.later d) (acceptMatlTrades c l s) := by
  unfold acceptMatlTrades
  simp only [later_core, later_cfg_nCore]
  rw [← acceptLoop_later, record_later, apply_ite (State.later d)]
  rfl

theorem sideLoop_later (b : Bool) (ps : List String) (i : Nat) :
    sideLoop (c.later d) b ps i (s.later d) = R.then (State.later d) (sideLoop c b ps i s) := by
  induction ps generalizing s i with
  | nil => rfl
  | cons p ps ih =>
    simp only [sideLoop, record_later, ih, then_bind, then_ite]
    rfl

theorem tock_later : tock (c.later d) (s.later d) = R.then (State.later d) (tock c s) := by
  have h1 : tockReset (c.later d) (s.later d) = (tockReset c s).later d := by
    unfold tockReset
    rw [apply_ite (State.later d)]
    rfl
  have h2 : ∀ s, tockBegin (c.later d) (State.later d s) = (tockBegin c s).later d := by
    intro s
    unfold tockBegin
    rw [apply_ite (State.later d)]
    rfl
  have h3 : ∀ s, tockCount (c.later d) (State.later d s) = (tockCount c s).later d := by
    intro s
    unfold tockCount
    rw [apply_ite (State.later d)]
    rfl
  have h4 : ∀ b s, recordSideProduct (c.later d) b (State.later d s) =
      R.then (State.later d) (recordSideProduct c b s) := by
    intro b s
    unfold recordSideProduct
    simp only [later_hybrid, later_cfg_sideProducts, sideLoop_later, then_ite]
    rfl
  have h5 : ∀ s, producing (c.later d) (State.later d s) = producing c s := fun _ => rfl
  unfold tock
  simp only [retired_later, h1, h2, h5, record_later, later_cfg_powerCap, h4, bind_then, then_bind, then_ite,
    h3]
  rfl

theorem offerPhase_later (reqs : String → List ℚ) :
    offerPhase (c.later d) reqs (s.later d) = R.then (onState d) (offerPhase c reqs s) := by
  unfold offerPhase
  simp only [tick_later, bind_then, then_bind, getMatlRequests_later, onState, getMatlBids_later]
  rfl

theorem settlePhase_later (sells : List String) (buys : List (String × Assem)) :
    settlePhase (c.later d) sells buys (s.later d) =
      R.then (onState d) (settlePhase c sells buys s) := by
  have h : ∀ t : State, { t.later d with time := (t.later d).time + 1 } =
      State.later d { t with time := t.time + 1 } := by
    intro t
    unfold State.later
    simp only [State.mk.injEq, and_true]
    omega
  unfold settlePhase
  by_cases he : sells = []
  · simp only [he, if_true, pure_eq_ok, ok_bind, acceptMatlTrades_later, tock_later, bind_then, then_bind, h]
    rfl
  · simp only [he, if_false, getMatlTrades_later, acceptMatlTrades_later, tock_later, bind_then, then_bind,
      onState, h, pure_eq_ok]
    rfl

theorem step_later (i : In) : step (c.later d) (s.later d) i =
    R.then (fun p => (Out.later d p.1, State.later d p.2)) (step c s i) := by
  unfold step
  simp only [offerPhase_later, settlePhase_later, bind_then, then_bind, onState]
  rfl

theorem run_later (is : List In) : run (c.later d) (s.later d) is =
    R.then (fun p => (p.1.map (Out.later d), State.later d p.2)) (run c s is) := by
  induction is generalizing s with
  | nil => rfl
  | cons i is ih =>
    simp only [run, step_later, bind_then, then_bind, ih]
    rfl

theorem enter_later : enter (c.later d) = R.then (State.later d) (enter c) := by
  have h1 : (c.later d).prefChangeTimes.length = c.prefChangeTimes.length := by simp [Cfg.later]
  have h2 : (c.later d).recipeChangeTimes.length = c.recipeChangeTimes.length := by simp [Cfg.later]
  unfold enter
  simp only [h1, h2, then_ite]
  rfl

/-- C121: a reactor that is deployed `d` steps later, with its end and its schedule of changes `d` steps
later, goes through the same history `d` steps later, and fails where it fails. -/
theorem C121_reactor (c : Cfg) (d : Nat) (is : List In) :
    (do let s ← enter (c.later d); run (c.later d) s is) =
      R.then (fun r => (r.1.map (Out.later d), State.later d r.2)) (do let s ← enter c; run c s is) := by
  simp only [enter_later, bind_then, then_bind, run_later]

/-- The example history, with its change of preferences and its end, 100 steps later. -/
example : ((play (exCfg.later 100) exHist).toOption.map fun r => r.1.map fun o => (o.time, o.recs)) =
    ((play exCfg exHist).toOption.map fun r => r.1.map fun o => (o.time + 100, o.recs)) ∧
    ((play exCfg exHist).toOption.map fun r => r.1.length) ≠ none := by
  decide +kernel

end Reactor

end Cyc
