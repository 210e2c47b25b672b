import Verif.Toolkit.Material

/-!
# Model of `cycamore::Storage` (`src/storage.cc`, `src/storage.h`)

One definition per member function. Simplifications common to the file:

* the buy and sell policies are cyclus toolkit classes: what they receive and hand over appears as
  adversarial deliveries and sales (`In`); the policy `EnterNotify` chooses is modelled;
* the four buffers have the default capacity `CY_LARGE_DOUBLE`, modelled as unlimited; the limit
  `max_inv_size` is that of the tracker;
* `Tick` only writes to the log and is left out; packages, transport units, the position and the
  `CommodityProducer` registration have no effect on the modelled behaviour.
-/

namespace Cyc.Storage

/-- The user input of a storage prototype and its environment (`storage.h:132-209`, and the policy
parameters of `matl_buy_policy.cycpp.h`). `hasRecipe` tells which recipes exist; `eps` is
`eps_rsrc()`; `lo` is the smallest quantity a buffer can remove. -/
structure Cfg where
  inCommods : List String
  prefs : List ℚ
  outCommods : List String
  inRecipe : String
  hasRecipe : String → Bool
  residence : Nat
  throughput : ℚ
  maxInv : ℚ
  discrete : Bool
  reorderPoint : ℚ
  reorderQty : ℚ
  cumulativeCap : ℚ
  enterTime : Nat
  eps : ℚ
  lo : ℚ

variable {ν : Type}

/-- The mutable members of a storage facility and the simulation time. -/
structure State (ν : Type) where
  time : Nat
  inventory : Buf (Mat ν)
  processing : Buf (Mat ν)
  ready : Buf (Mat ν)
  stocks : Buf (Mat ν)
  entryTimes : List Nat
  prefs : List ℚ

/-- The buy policy chosen at deployment (`storage.cc:51-76`). All of them buy at most `throughput`
per step. -/
inductive Policy
  /-- active and dormant periods -/
  | periodic
  /-- buy up to a cumulative amount, then pause -/
  | cumulative (cap : ℚ)
  /-- buy a fixed quantity when the inventory is at or below the reorder point -/
  | rq (quantity point : ℚ)
  /-- buy up to a level when the inventory is at or below the reorder point -/
  | ss (upTo point : ℚ)
  deriving DecidableEq, Repr

/-- The choice of the buy policy (`storage.cc:51-76`). -/
def choosePolicy (c : Cfg) : R Policy :=
  if c.reorderPoint < 0 ∧ c.cumulativeCap ≤ 0 then .ok .periodic
  else if c.cumulativeCap > 0 then .ok (.cumulative c.cumulativeCap)
  else if c.reorderQty > 0 then
    if c.reorderPoint + c.reorderQty > c.maxInv then .error .value
    else .ok (.rq c.reorderQty c.reorderPoint)
  else .ok (.ss c.maxInv c.reorderPoint)

/-- The lookup of the input recipe (`storage.cc:79-83`). -/
def checkRecipe (c : Cfg) : R Unit :=
  if c.inRecipe ≠ "" ∧ c.hasRecipe c.inRecipe = false then .error .key else .ok ()

/-- The preferences (`storage.cc:85-94`); `kDefaultPref` is 1. -/
def initPrefs (c : Cfg) : R (List ℚ) :=
  if c.prefs.length = 0 then .ok (c.inCommods.map fun _ => (1 : ℚ))
  else if c.prefs.length ≠ c.inCommods.length then .error .value
  else .ok c.prefs

/-- Construction followed by `EnterNotify` (`storage.cc:47-116`). -/
def enter (c : Cfg) : R (Policy × State ν) := do
  let p ← choosePolicy c
  checkRecipe c
  let prefs ← initPrefs c
  if c.outCommods.length ≠ 1 then .error .value
  else pure (p, {
    time := c.enterTime
    inventory := ⟨none, []⟩
    processing := ⟨none, []⟩
    ready := ⟨none, []⟩
    stocks := ⟨none, []⟩
    entryTimes := []
    prefs := prefs })

/-- Total content of the four buffers, `inventory_tracker.quantity()`. -/
def held (s : State ν) : ℚ :=
  s.inventory.quantity + s.stocks.quantity + s.ready.quantity + s.processing.quantity

/-- `current_capacity`, the space of the tracker (`storage.h:121-122`). -/
def capacity (c : Cfg) (s : State ν) : ℚ := max 0 (c.maxInv - held s)

/-- `AddMat_` (`storage.cc:200-216`), also what the buy policy does with each delivery. -/
def addMat (c : Cfg) (s : State ν) (m : Mat ν) : R (State ν) := do
  let b ← s.inventory.push c.eps m
  pure { s with inventory := b }

/-- `BeginProcessing_` (`storage.cc:219-233`). The first argument is the number of items. -/
def beginProcessing (c : Cfg) : Nat → State ν → R (State ν)
  | 0, s => .ok s
  | n + 1, s =>
    if s.inventory.count > 0 then do
      let (m, inv) ← s.inventory.pop
      let pr ← s.processing.push c.eps m
      beginProcessing c n
        { s with inventory := inv, processing := pr, entryTimes := s.entryTimes ++ [s.time] }
    else .ok s

/-- The counting loop of `ReadyMatl_` (`storage.cc:271-274`): entries up to `time` are removed. -/
def readyCount (time : ℤ) : List Nat → Nat × List Nat
  | [] => (0, [])
  | e :: es => if (e : ℤ) ≤ time then ((readyCount time es).1 + 1, (readyCount time es).2)
    else (0, e :: es)

/-- `ReadyMatl_` (`storage.cc:266-277`). -/
def readyMatl (c : Cfg) (time : ℤ) (s : State ν) : R (State ν) := do
  let k := readyCount time s.entryTimes
  let (ms, pr) ← s.processing.popN k.1
  let rd ← s.ready.pushAll c.eps ms
  pure { s with processing := pr, ready := rd, entryTimes := k.2 }

/-- `ready.empty() ? 0 : ready.Peek()->quantity()` (`storage.cc:247`). -/
def headQty : List (Mat ν) → ℚ
  | [] => 0
  | m :: _ => qty m

/-- The loop of `ProcessMat_` with discrete handling (`storage.cc:245-248`): `capPop` is the total
up to and including the next item. -/
def discreteLoop (c : Cfg) (maxPop : ℚ) : Nat → ℚ → State ν → R (State ν)
  | 0, _, s => .ok s
  | n + 1, capPop, s =>
    if capPop ≤ maxPop ∧ s.ready.empty = false then do
      let (m, rd) ← s.ready.pop
      let st ← s.stocks.push c.eps m
      discreteLoop c maxPop n (capPop + headQty rd.items) { s with ready := rd, stocks := st }
    else .ok s

/-- `ProcessMat_` (`storage.cc:236-264`). -/
def processMat (c : Cfg) (cap : ℚ) (s : State ν) : R (State ν) :=
  match s.ready.items with
  | [] => .ok s
  | first :: _ =>
    let maxPop := min cap s.ready.quantity
    if c.discrete then
      if maxPop = s.ready.quantity then do
        let (ms, rd) ← s.ready.popN s.ready.count
        let st ← s.stocks.pushAll c.eps ms
        pure { s with ready := rd, stocks := st }
      else discreteLoop c maxPop s.ready.count (qty first) s
    else do
      let (m, rd) ← s.ready.popEps c.lo c.eps maxPop
      let st ← s.stocks.push c.eps m
      pure { s with ready := rd, stocks := st }

/-- `ready_time` (`storage.h:128`). -/
def readyTime (c : Cfg) (s : State ν) : ℤ := (s.time : ℤ) - c.residence

/-- The conditional call of `ReadyMatl_` in `Tock` (`storage.cc:169-171`). -/
def tockReady (c : Cfg) (s : State ν) : R (State ν) :=
  if 0 ≤ readyTime c s ∨ (c.residence = 0 ∧ s.inventory.empty = false)
  then readyMatl c (readyTime c s) s else .ok s

/-- The two time series written by `Tock`. -/
structure Report where
  demandOf : String
  demand : ℚ
  supplyOf : String
  supply : ℚ
  deriving DecidableEq, Repr

/-- `Tock` (`storage.cc:162-197`). -/
def tock (c : Cfg) (s : State ν) : R (Report × State ν) := do
  let s1 ← beginProcessing c s.inventory.count s
  let s2 ← tockReady c s1
  let s3 ← processMat c c.throughput s2
  let d ← at! c.inCommods (maxIndex s3.prefs)
  let o ← at! c.outCommods 0
  pure (⟨d, capacity c s3, o, s3.stocks.quantity⟩, s3)

/-- The sell policy hands over material from `stocks`, one removal per trade
(`MatlSellPolicy::GetMatlTrades`, in cyclus). -/
def sellLoop (c : Cfg) : List ℚ → State ν → R (List (Mat ν) × State ν)
  | [], s => .ok ([], s)
  | q :: qs, s => do
    let (m, st) ← s.stocks.popEps c.lo c.eps q
    let (ms, s') ← sellLoop c qs { s with stocks := st }
    pure (m :: ms, s')

/-! ## One time step, as the cyclus kernel drives it (DESIGN.md, section 3) -/

/-- What the rest of the simulation does in one step: the quantities sold, the deliveries. -/
structure In (ν : Type) where
  sells : List ℚ
  buys : List (Mat ν)

/-- What an observer sees of one step: the material offered for sale in the exchange, what was
sold, what was then left for sale, what is for sale at the end of the step, and the report. -/
structure Out (ν : Type) where
  time : Nat
  offered : List (Mat ν)
  sold : List (Mat ν)
  left : List (Mat ν)
  stock : List (Mat ν)
  report : Report

/-- One time step: sales, deliveries, `Tock`; then time advances. -/
def step (c : Cfg) (s : State ν) (i : In ν) : R (Out ν × State ν) := do
  let (sold, s1) ← sellLoop c i.sells s
  let s2 ← i.buys.foldlM (addMat c) s1
  let (rep, s3) ← tock c s2
  pure (⟨s.time, s.stocks.items, sold, s1.stocks.items, s3.stocks.items, rep⟩,
    { s3 with time := s3.time + 1 })

/-- A history of time steps. -/
def run (c : Cfg) : State ν → List (In ν) → R (List (Out ν) × State ν)
  | s, [] => .ok ([], s)
  | s, i :: is => do
    let (o, s') ← step c s i
    let (os, s'') ← run c s' is
    pure (o :: os, s'')

end Cyc.Storage
