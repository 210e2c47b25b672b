import Verif.Toolkit.Buf
import Verif.Toolkit.SMap

/-!
# Model of `cycamore::Reactor` (`src/reactor.cc`, `src/reactor.h`)

One definition per member function. Simplifications common to the file:

* a fuel assembly (`Material`) is its object id, its quantity and an opaque composition id; it is
  never split, so no nuclide vector is needed;
* `int` parameters are natural numbers; differences are taken in `ℤ`;
* the text of recorded events is reduced to constructors of `Rec`;
* `keep_packaging`, `InitializePosition` and the `CommodityProducer` registration have no effect
  on the modelled behaviour and are left out.
-/

namespace Cyc.Reactor

/-- A fuel assembly: `Material` object id, quantity, composition (`Composition::Ptr`). -/
structure Assem where
  id : Nat
  qty : ℚ
  comp : Nat
  deriving DecidableEq, Repr

instance : HasQty Assem := ⟨Assem.qty⟩

/-- The user input of a reactor prototype and its environment (`reactor.h:187-436`).
`exitTime` is `Agent::exit_time()`, `none` for `-1`; `enterTime` the step it is deployed;
`recipe` is `Context::GetRecipe` (`none`: no such recipe); `eps` is `eps_rsrc()`. -/
structure Cfg where
  inCommods : List String
  inRecipes : List String
  prefs : List ℚ
  outCommods : List String
  outRecipes : List String
  recipeChangeTimes : List Nat
  recipeChangeCommods : List String
  recipeChangeIn : List String
  recipeChangeOut : List String
  prefChangeTimes : List Nat
  prefChangeCommods : List String
  prefChangeValues : List ℚ
  assemSize : ℚ
  nBatch : Nat
  nCore : Nat
  nFresh : Nat
  nSpent : Nat
  cycleTime : Nat
  refuelTime : Nat
  cycleStep : Nat
  powerCap : ℚ
  sideProducts : List String
  sideQty : List ℚ
  decomTransmuteAll : Bool
  enterTime : Nat
  exitTime : Option Nat
  recipe : String → Option Nat
  eps : ℚ

/-- A row written to the output database: `ReactorEvents`, the power time series, the side
product table, the demand and supply time series, and the request to be decommissioned. -/
inductive Rec
  | retired
  | cycleEnd
  | transmute (n : Nat)
  | dischargeFailed
  | discharge (n : Nat)
  | load (n : Nat)
  | cycleStart
  | power (p : ℚ)
  | side (product : String) (q : ℚ)
  | demand (commod : String) (q : ℚ)
  | supply (commod : String) (q : ℚ)
  | schedDecom
  deriving DecidableEq, Repr

/-- The mutable members of a reactor, the simulation time, and the rows written so far in the
current step. `resIdx` is `res_indexes`: `operator[]` of a `std::map<int,int>` yields 0 for a
missing key, so the map is a total function. -/
structure State where
  time : Nat
  fresh : Buf Assem
  core : Buf Assem
  spent : Buf Assem
  cycleStep : Nat
  discharged : Bool
  inRecipes : List String
  outRecipes : List String
  prefs : List ℚ
  resIdx : Nat → Nat
  hybrid : Bool
  log : List Rec

/-- `Record` (`reactor.cc:560-568`) and the time series calls: append a row. -/
def State.record (s : State) (r : Rec) : State := { s with log := s.log ++ [r] }

/-- Construction followed by `EnterNotify` (`reactor.cc:60-113`). Buffer capacities are those of
`reactor.h:440-445`; `kDefaultPref` is 1. -/
def enter (c : Cfg) : R State :=
  let prefs := if c.prefs.length = 0 then c.outCommods.map (fun _ => (1 : ℚ)) else c.prefs
  let n := c.recipeChangeTimes.length
  let m := c.prefChangeTimes.length
  if c.recipeChangeCommods.length ≠ n ∨ c.recipeChangeIn.length ≠ n ∨
      c.recipeChangeOut.length ≠ n ∨ c.prefChangeCommods.length ≠ m ∨
      c.prefChangeValues.length ≠ m then .error .value
  else .ok {
    time := c.enterTime
    fresh := ⟨some (c.nFresh * c.assemSize), []⟩
    core := ⟨some (c.nCore * c.assemSize), []⟩
    spent := ⟨some (c.nSpent * c.assemSize), []⟩
    cycleStep := c.cycleStep
    discharged := false
    inRecipes := c.inRecipes
    outRecipes := c.outRecipes
    prefs := prefs
    resIdx := fun _ => 0
    hybrid := !c.sideProducts.isEmpty
    log := [] }

/-- `CheckDecommissionCondition` (`reactor.cc:115-117`). -/
def checkDecommission (s : State) : Bool := s.core.count == 0 && s.spent.count == 0

/-- `retired` (`reactor.h:146-148`). -/
def retired (c : Cfg) (s : State) : Bool :=
  match c.exitTime with
  | none => false
  | some e => decide (e < s.time)

/-- `Context::GetRecipe`: throws `KeyError` for an unknown name. -/
def getRecipe (c : Cfg) (name : String) : R Nat :=
  match c.recipe name with
  | some k => .ok k
  | none => .error .key

/-- `fuel_outcommod` (`reactor.cc:469-475`). -/
def fuelOutCommod (c : Cfg) (s : State) (m : Assem) : R String :=
  match c.outCommods[s.resIdx m.id]? with
  | some k => .ok k
  | none => .error .key

/-- `fuel_outrecipe` (`reactor.cc:485-491`). -/
def fuelOutRecipe (s : State) (m : Assem) : R String :=
  match s.outRecipes[s.resIdx m.id]? with
  | some k => .ok k
  | none => .error .key

/-- `index_res` (`reactor.cc:501-510`): the first input commodity of that name. -/
def indexRes (c : Cfg) (s : State) (m : Assem) (incommod : String) : R State :=
  match c.inCommods.findIdx? (· == incommod) with
  | some i => .ok { s with resIdx := fun x => if x = m.id then i else s.resIdx x }
  | none => .error .value

/-- Assignment of a composition to one object, `Material::Transmute`. The object is shared with
the core buffer, so every entry that is this object changes. -/
def transmuteObj (items : List Assem) (m : Assem) (k : Nat) : List Assem :=
  items.map fun a => if a.id = m.id then { a with comp := k } else a

/-- The loop of `Transmute(int)` over the popped assemblies (`reactor.cc:406-408`). -/
def transmuteLoop (c : Cfg) (s : State) : List Assem → List Assem → R (List Assem)
  | [], items => .ok items
  | m :: ms, items => do
    let name ← fuelOutRecipe s m
    let k ← getRecipe c name
    transmuteLoop c s ms (transmuteObj items m k)

/-- `Transmute(int n_assem)` (`reactor.cc:394-409`). -/
def transmute (c : Cfg) (n : Nat) (s : State) : R State := do
  let (old, core1) ← s.core.popN (min n s.core.count)
  let core2 ← core1.pushAll c.eps old
  let core3 ←
    if core2.count > old.length then do
      let (rest, b) ← core2.popN (core2.count - old.length)
      b.pushAll c.eps rest
    else pure core2
  let s1 := s.record (.transmute old.length)
  let items ← transmuteLoop c s1 old core3.items
  pure { s1 with core := { core3 with items := items } }

/-- Grouping by output commodity, the loop of `PeekSpent` and `PopSpent`
(`reactor.cc:415-418`, `reactor.cc:515-518`). -/
def groupByCommod (c : Cfg) (s : State) : List Assem → SMap (List Assem) → R (SMap (List Assem))
  | [], m => .ok m
  | a :: as, m => do
    let k ← fuelOutCommod c s a
    groupByCommod c s as (SMap.modify [] k (· ++ [a]) m)

/-- `PeekSpent` (`reactor.cc:411-420`). -/
def peekSpent (c : Cfg) (s : State) : R (SMap (List Assem) × State) := do
  let (mats, b) ← s.spent.popN s.spent.count
  let b' ← b.pushAll c.eps mats
  let s' := { s with spent := b' }
  let m ← groupByCommod c s' mats []
  pure (m, s')

/-- The recording loop of `Discharge` (`reactor.cc:434-444`). -/
def recordSupply (c : Cfg) : List String → State → R State
  | [], s => .ok s
  | k :: ks, s => do
    let (m, s') ← peekSpent c s
    recordSupply c ks (s'.record (.supply k (totalQty (m.get [] k))))

/-- `Discharge` (`reactor.cc:422-447`). -/
def discharge (c : Cfg) (s : State) : R (Bool × State) :=
  let npop := min c.nBatch s.core.count
  if (c.nSpent : ℤ) - s.spent.count < npop then .ok (false, s.record .dischargeFailed)
  else do
    let s1 := s.record (.discharge npop)
    let (mats, core) ← s1.core.popN npop
    let spent ← s1.spent.pushAll c.eps mats
    let s2 ← recordSupply c c.outCommods { s1 with core := core, spent := spent }
    pure (true, s2)

/-- `Load` (`reactor.cc:449-459`). `n_assem_core - core.count()` is never negative, since both
counts are bounded by the capacity; a negative value would make `PopN` throw. -/
def load (c : Cfg) (s : State) : R State :=
  let n : ℤ := min ((c.nCore : ℤ) - s.core.count) s.fresh.count
  if n = 0 then .ok s
  else if n < 0 then .error .value
  else do
    let s1 := s.record (.load n.toNat)
    let (mats, fresh) ← s1.fresh.popN n.toNat
    let core ← s1.core.pushAll c.eps mats
    pure { s1 with fresh := fresh, core := core }

/-- `while (core.count() > 0) if (!Discharge()) break;` (`reactor.cc:138-142`). The first argument
bounds the iterations; each successful one with a positive batch size removes an assembly, so
running out of it means the loop does not end. -/
def dischargeAll (c : Cfg) : Nat → State → R State
  | 0, s => if s.core.count = 0 then .ok s else .error .diverge
  | fuel + 1, s =>
    if s.core.count = 0 then .ok s
    else do
      let (b, s') ← discharge c s
      if b then dischargeAll c fuel s' else pure s'

/-- The test `spent.space() >= assem_size` (`reactor.cc:146`); `none` is infinite space. -/
def spaceForOne (c : Cfg) (b : Buf Assem) : Bool :=
  match b.space with
  | none => true
  | some x => decide (c.assemSize ≤ x)

/-- `while (fresh.count() > 0 && spent.space() >= assem_size) spent.Push(fresh.Pop());`
(`reactor.cc:146-148`). The first argument is the number of fresh assemblies. -/
def dumpFresh (c : Cfg) : Nat → State → R State
  | 0, s => .ok s
  | n + 1, s =>
    if s.fresh.count > 0 ∧ spaceForOne c s.spent = true then do
      let (m, fresh) ← s.fresh.pop
      let spent ← s.spent.push c.eps m
      dumpFresh c n { s with fresh := fresh, spent := spent }
    else .ok s

/-- One iteration of the preference update loop (`reactor.cc:170-183`). -/
def prefChange (c : Cfg) (s : State) (i : Nat) : R State := do
  let t ← at! c.prefChangeTimes i
  if s.time ≠ t then pure s
  else do
    let incommod ← at! c.prefChangeCommods i
    match c.inCommods.findIdx? (· == incommod) with
    | none => pure s
    | some j => do
      let v ← at! c.prefChangeValues i
      let prefs ← put! s.prefs j v
      pure { s with prefs := prefs }

/-- One iteration of the recipe update loop (`reactor.cc:186-200`). -/
def recipeChange (c : Cfg) (s : State) (i : Nat) : R State := do
  let t ← at! c.recipeChangeTimes i
  if s.time ≠ t then pure s
  else do
    let incommod ← at! c.recipeChangeCommods i
    match c.inCommods.findIdx? (· == incommod) with
    | none => pure s
    | some j => do
      let vi ← at! c.recipeChangeIn i
      let inr ← put! s.inRecipes j vi
      let vo ← at! c.recipeChangeOut i
      let outr ← put! s.outRecipes j vo
      pure { s with inRecipes := inr, outRecipes := outr }

/-- The two update loops of `Tick` (`reactor.cc:169-200`). -/
def applyChanges (c : Cfg) (s : State) : R State := do
  let s1 ← (List.range c.prefChangeTimes.length).foldlM (prefChange c) s
  (List.range c.recipeChangeTimes.length).foldlM (recipeChange c) s1

/-- The transmutation on retirement (`reactor.cc:130-137`). `ceil(n/2.0)` is `(n+1)/2`. -/
def retireTransmute (c : Cfg) (s : State) : R State :=
  if some s.time = c.exitTime.map (· + 1) then
    transmute c (if c.decomTransmuteAll then c.nCore else (c.nCore + 1) / 2) s
  else .ok s

/-- The retired branch of `Tick` (`reactor.cc:127-153`). -/
def tickRetired (c : Cfg) (s : State) : R State := do
  let s1 ← retireTransmute c (s.record .retired)
  let s2 ← dischargeAll c s1.core.count s1
  let s3 ← dumpFresh c s2.fresh.count s2
  pure (if checkDecommission s3 then s3.record .schedDecom else s3)

/-- `Tick`, end of a cycle (`reactor.cc:155-158`). -/
def tickCycleEnd (c : Cfg) (s : State) : R State :=
  if s.cycleStep = c.cycleTime then do
    let s' ← transmute c c.nBatch s
    pure (s'.record .cycleEnd)
  else .ok s

/-- `Tick`, discharge (`reactor.cc:160-162`). -/
def tickDischarge (c : Cfg) (s : State) : R State :=
  if s.cycleStep ≥ c.cycleTime ∧ s.discharged = false then do
    let (b, s') ← discharge c s
    pure { s' with discharged := b }
  else .ok s

/-- `Tick`, loading (`reactor.cc:163-165`). -/
def tickLoad (c : Cfg) (s : State) : R State :=
  if s.cycleStep ≥ c.cycleTime then load c s else .ok s

/-- The part of `Tick` that moves fuel in an operating reactor (`reactor.cc:155-165`). -/
def tickFuel (c : Cfg) (s : State) : R State := do
  let s1 ← tickCycleEnd c s
  let s2 ← tickDischarge c s1
  tickLoad c s2

/-- `Tick` (`reactor.cc:119-201`). -/
def tick (c : Cfg) (s : State) : R State :=
  if retired c s then tickRetired c s
  else do
    let s' ← tickFuel c s
    applyChanges c s'

/-- One request of a portfolio; all reactor requests are exclusive. -/
structure Request where
  commod : String
  pref : ℚ
  comp : Nat
  qty : ℚ
  deriving DecidableEq, Repr

/-- Ceiling of `a / b` for positive `b`, the `ceil` of `reactor.cc:220`. -/
def ceilDiv (a b : ℤ) : ℤ := -((-a) / b)

/-- The number of assemblies to order (`reactor.cc:211-223`). A zero cycle length makes the double
division non-finite and its conversion to `int` undefined. -/
def nOrder (c : Cfg) (s : State) : R ℤ :=
  let n : ℤ := (c.nCore : ℤ) - s.core.count + c.nFresh - s.fresh.count
  match c.exitTime with
  | none => .ok n
  | some e =>
    if c.cycleTime + c.refuelTime = 0 then .error .ub
    else
      let tLeft : ℤ := (e : ℤ) - s.time + 1
      let tLeftCycle : ℤ := (c.cycleTime : ℤ) + c.refuelTime - s.cycleStep
      let cycles : ℤ := ceilDiv (tLeft - tLeftCycle) ((c.cycleTime : ℤ) + c.refuelTime)
      let need : ℤ := max 0 (cycles * c.nBatch - c.nFresh + c.nCore - s.core.count)
      .ok (min n need)

/-- The inner loop of `GetMatlRequests` (`reactor.cc:234-242`): one request per commodity. -/
def portfolio (c : Cfg) (s : State) : List String → Nat → R (List Request)
  | [], _ => .ok []
  | k :: ks, j => do
    let p ← at! s.prefs j
    let name ← at! s.inRecipes j
    let comp ← getRecipe c name
    let rest ← portfolio c s ks (j + 1)
    pure ({ commod := k, pref := p, comp := comp, qty := c.assemSize } :: rest)

/-- The outer loop of `GetMatlRequests` (`reactor.cc:231-253`): `n` identical mutually exclusive
portfolios and one demand row each. -/
def requestLoop (c : Cfg) : Nat → State → R (List (List Request) × State)
  | 0, s => .ok ([], s)
  | n + 1, s => do
    let p ← portfolio c s c.inCommods 0
    let k ← at! c.inCommods (maxIndex s.prefs)
    let (ps, s') ← requestLoop c n (s.record (.demand k c.assemSize))
    pure (p :: ps, s')

/-- `GetMatlRequests` (`reactor.cc:203-256`). -/
def getMatlRequests (c : Cfg) (s : State) : R (List (List Request) × State) := do
  let n ← nOrder c s
  if n = 0 then pure ([], s)
  else if retired c s then pure ([], s)
  else requestLoop c n.toNat s

/-- A bid portfolio: commodity, bids (index of the request, assembly offered), capacity. -/
structure BidPort where
  commod : String
  bids : List (Nat × Assem)
  cap : ℚ
  deriving DecidableEq, Repr

/-- The bids for one request (`reactor.cc:333-341`): assemblies until the total reaches the
requested quantity. -/
def bidsFor (j : Nat) (target : ℚ) : List Assem → ℚ → List (Nat × Assem)
  | [], _ => []
  | m :: ms, tot =>
    let tot' := tot + m.qty
    (j, m) :: (if target ≤ tot' then [] else bidsFor j target ms tot')

/-- The loop over the requests for one commodity (`reactor.cc:331-342`). -/
def bidsForAll (mats : List Assem) : List ℚ → Nat → List (Nat × Assem)
  | [], _ => []
  | q :: qs, j => bidsFor j q mats 0 ++ bidsForAll mats qs (j + 1)

/-- The loop over the output commodities in `GetMatlBids` (`reactor.cc:315-352`). `reqs` gives the
quantities requested of each commodity. `gotmats` is never set in the code, so the spent fuel is
peeked for every commodity. A `CapacityConstraint` must have positive capacity. -/
def bidLoop (c : Cfg) (reqs : String → List ℚ) : List String → State → R (List BidPort × State)
  | [], s => .ok ([], s)
  | k :: ks, s =>
    if reqs k = [] then bidLoop c reqs ks s
    else do
      let (m, s') ← peekSpent c s
      let mats := m.get [] k
      if mats = [] then bidLoop c reqs ks s'
      else if totalQty mats ≤ 0 then .error .value
      else do
        let (ps, s'') ← bidLoop c reqs ks s'
        pure ({ commod := k, bids := bidsForAll mats (reqs k) 0, cap := totalQty mats } :: ps, s'')

/-- `uniq_outcommods_`, a `std::set` (`reactor.cc:308-312`). -/
def uniqOutCommods (c : Cfg) : List String :=
  SMap.keys (c.outCommods.foldl (fun m k => SMap.modify () k id m) [])

/-- `GetMatlBids` (`reactor.cc:300-355`). -/
def getMatlBids (c : Cfg) (reqs : String → List ℚ) (s : State) : R (List BidPort × State) :=
  bidLoop c reqs (uniqOutCommods c) s

/-- `PopSpent` (`reactor.cc:512-527`): group, then reverse each group. -/
def popSpent (c : Cfg) (s : State) : R (SMap (List Assem) × State) := do
  let (mats, b) ← s.spent.popN s.spent.count
  let s' := { s with spent := b }
  let m ← groupByCommod c s' mats []
  pure (m.map fun p => (p.1, p.2.reverse), s')

/-- `PushSpent` (`reactor.cc:529-536`). -/
def pushSpent (c : Cfg) : SMap (List Assem) → State → R State
  | [], s => .ok s
  | (_, l) :: m, s => do
    let b ← s.spent.pushAll c.eps l.reverse
    pushSpent c m { s with spent := b }

/-- The loop of `GetMatlTrades` (`reactor.cc:265-271`): `back()` and `pop_back()` of the group of
the traded commodity, undefined when it is empty. -/
def tradeLoop : List String → SMap (List Assem) → State →
    R (List (String × Assem) × SMap (List Assem) × State)
  | [], m, s => .ok ([], m, s)
  | k :: ks, m, s =>
    match (m.get [] k).getLast? with
    | none => .error .ub
    | some a => do
      let m' := SMap.modify [] k List.dropLast m
      let s' := { s with resIdx := fun x => if x = a.id then 0 else s.resIdx x }
      let (resp, m'', s'') ← tradeLoop ks m' s'
      pure ((k, a) :: resp, m'', s'')

/-- `GetMatlTrades` (`reactor.cc:258-273`). A trade is represented by the commodity requested. -/
def getMatlTrades (c : Cfg) (trades : List String) (s : State) :
    R (List (String × Assem) × State) := do
  let (m, s1) ← popSpent c s
  let (resp, m', s2) ← tradeLoop trades m s1
  let s3 ← pushSpent c m' s2
  pure (resp, s3)

/-- The loop of `AcceptMatlTrades` (`reactor.cc:287-297`). -/
def acceptLoop (c : Cfg) : List (String × Assem) → State → R State
  | [], s => .ok s
  | (k, m) :: rs, s => do
    let s1 ← indexRes c s m k
    if s1.core.count < c.nCore then do
      let b ← s1.core.push c.eps m
      acceptLoop c rs { s1 with core := b }
    else do
      let b ← s1.fresh.push c.eps m
      acceptLoop c rs { s1 with fresh := b }

/-- `AcceptMatlTrades` (`reactor.cc:275-298`). -/
def acceptMatlTrades (c : Cfg) (resp : List (String × Assem)) (s : State) : R State :=
  let nload : ℤ := min (resp.length : ℤ) ((c.nCore : ℤ) - s.core.count)
  acceptLoop c resp (if nload > 0 then s.record (.load nload.toNat) else s)

/-- The loop of `RecordSideProduct` (`reactor.cc:541-556`), from product index `i` on. -/
def sideLoop (c : Cfg) (produce : Bool) : List String → Nat → State → R State
  | [], _, s => .ok s
  | p :: ps, i, s => do
    let v ← if produce then at! c.sideQty i else pure 0
    sideLoop c produce ps (i + 1) (s.record (.side p v))

/-- `RecordSideProduct` (`reactor.cc:538-558`). -/
def recordSideProduct (c : Cfg) (produce : Bool) (s : State) : R State :=
  if s.hybrid then sideLoop c produce c.sideProducts 0 s else .ok s

/-- Start of `Tock` (`reactor.cc:362-368`): a new cycle begins when irradiation and refuelling are
over, the core is full and fuel was discharged. -/
def tockReset (c : Cfg) (s : State) : State :=
  if s.cycleStep ≥ c.cycleTime + c.refuelTime ∧ s.core.count = c.nCore ∧ s.discharged = true
  then { s with discharged := false, cycleStep := 0 } else s

/-- The cycle start row (`reactor.cc:370-372`). -/
def tockBegin (c : Cfg) (s : State) : State :=
  if s.cycleStep = 0 ∧ s.core.count = c.nCore then s.record .cycleStart else s

/-- The condition for producing power (`reactor.cc:374-375`). -/
def producing (c : Cfg) (s : State) : Bool :=
  decide (s.cycleStep < c.cycleTime ∧ s.core.count = c.nCore)

/-- End of `Tock` (`reactor.cc:387-389`): the cycle counter advances once the core has been full. -/
def tockCount (c : Cfg) (s : State) : State :=
  if s.cycleStep > 0 ∨ s.core.count = c.nCore then { s with cycleStep := s.cycleStep + 1 } else s

/-- `Tock` (`reactor.cc:357-390`). The `supplyPOWER` series repeats the power value and is left
out. -/
def tock (c : Cfg) (s : State) : R State :=
  if retired c s then .ok s
  else do
    let s2 := tockBegin c (tockReset c s)
    let on := producing c s2
    let s3 ← recordSideProduct c on (s2.record (.power (if on then c.powerCap else 0)))
    pure (tockCount c s3)

/-! ## One time step, as the cyclus kernel drives it

The kernel calls `Tick`; the exchange collects requests, then bids; it then has sellers hand over
goods (`GetMatlTrades`, only when there is a trade), after that buyers accept them, and the kernel
calls `Tock`. Not in `/repo`; see DESIGN.md, section 3. -/

/-- What the rest of the simulation does in one step: the quantities others request of each
commodity, the trades in which the reactor sells, and the deliveries it receives. -/
structure In where
  reqs : String → List ℚ
  sells : List String
  buys : List (String × Assem)

/-- The requests and bids a reactor makes in one step. -/
structure Offer where
  requests : List (List Request)
  bids : List BidPort

/-- What an observer sees of one step. -/
structure Out where
  time : Nat
  offer : Offer
  shipped : List (String × Assem)
  recs : List Rec

/-- First half of a step: `Tick`, `GetMatlRequests`, `GetMatlBids`. -/
def offerPhase (c : Cfg) (reqs : String → List ℚ) (s : State) : R (Offer × State) := do
  let s1 ← tick c s
  let (rq, s2) ← getMatlRequests c s1
  let (bd, s3) ← getMatlBids c reqs s2
  pure (⟨rq, bd⟩, s3)

/-- Second half of a step: `GetMatlTrades`, `AcceptMatlTrades`, `Tock`; time advances. -/
def settlePhase (c : Cfg) (sells : List String) (buys : List (String × Assem)) (s : State) :
    R (List (String × Assem) × State) := do
  let (resp, s1) ← if sells = [] then pure ([], s) else getMatlTrades c sells s
  let s2 ← acceptMatlTrades c buys s1
  let s3 ← tock c s2
  pure (resp, { s3 with time := s3.time + 1 })

/-- One time step. -/
def step (c : Cfg) (s : State) (i : In) : R (Out × State) := do
  let (o, s1) ← offerPhase c i.reqs s
  let (resp, s2) ← settlePhase c i.sells i.buys s1
  pure ({ time := s.time, offer := o, shipped := resp, recs := s2.log }, { s2 with log := [] })

/-- A history of time steps. -/
def run (c : Cfg) : State → List In → R (List Out × State)
  | s, [] => .ok ([], s)
  | s, i :: is => do
    let (o, s') ← step c s i
    let (os, s'') ← run c s' is
    pure (o :: os, s'')

end Cyc.Reactor
