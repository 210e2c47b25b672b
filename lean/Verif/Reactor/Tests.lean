import Verif.Reactor.Model

/-!
# The unit tests of `Reactor`, replayed on the model

`src/reactor_tests.cc` runs a reactor with the `MockSim` of cyclus: sources that sell a commodity, sinks
that buy one. The same input, sources and sinks are given to the model here, and what the test expects of
the output database is computed from the model. These are tests of the model, not proofs: they show that
the expectations of the authors of the code hold of it. Not replayed are the tests of positions
(`PositionInitialize`, `PositionInitialize2`), which are in `Verif/Position`.
-/

namespace Cyc.Reactor.Tests

/-- A source of `MockSim`: its commodity, first step, lifetime (`none`: unlimited) and what it can give in a
step (`none`: unlimited). It delivers the requested composition. -/
structure MockSource where
  commod : String
  start : Nat := 0
  life : Option Nat := none
  cap : Option ℚ := none

/-- What the sources of a commodity can give in step `t`: `none` for nothing, `some none` if unlimited. -/
def supply (srcs : List MockSource) (t : Nat) (k : String) : Option (Option ℚ) :=
  (srcs.filter fun s => s.commod = k ∧ s.start ≤ t ∧ (∀ l, s.life = some l → t < s.start + l)).foldl
    (fun a s => match a, s.cap with
      | none, c => some c
      | some (some x), some y => some (some (x + y))
      | _, _ => some none) none

/-- The supply is enough for another `q`. -/
def enough (sup : Option (Option ℚ)) (used q : ℚ) : Bool :=
  match sup with
  | none => false
  | some none => true
  | some (some x) => decide (used + q ≤ x)

/-- The deliveries for the request portfolios, in turn: the first alternative of positive preference that a
source can still fill. Assemblies are numbered from `id` on. -/
def deliver (srcs : List MockSource) (t : Nat) : List (List Request) → List (String × Assem) → Nat →
    List (String × Assem)
  | [], done, _ => done
  | p :: ps, done, id =>
    match p.find? fun r => 0 < r.pref ∧ enough (supply srcs t r.commod)
        (((done.filter fun x => x.1 = r.commod).map fun x => x.2.qty).sum) r.qty with
    | none => deliver srcs t ps done id
    | some r => deliver srcs t ps (done ++ [(r.commod, ⟨id, r.qty, r.comp⟩)]) (id + 1)

/-- A transaction as in the table `Transactions`: what was received or sent, by commodity, with the
composition. -/
structure Row where
  time : Nat
  received : List (String × Nat)
  sent : List (String × Nat)
  recs : List Rec

/-- `n` steps of a reactor with sources and sinks that take whatever is for sale. -/
def mock (c : Cfg) (srcs : List MockSource) (sinks : List String) : Nat → Nat → State → R (List Row × State)
  | 0, _, s => .ok ([], s)
  | n + 1, id, s => do
    let (o, s1) ← offerPhase c (fun k => if k ∈ sinks then [10 ^ 6] else []) s
    let buys := deliver srcs s.time o.requests [] id
    let sells := o.bids.flatMap fun b => b.bids.map fun _ => b.commod
    let (resp, s2) ← settlePhase c sells buys s1
    let (rows, s3) ← mock c srcs sinks n (id + buys.length) { s2 with log := [] }
    pure (⟨s.time, buys.map fun x => (x.1, x.2.comp), resp.map fun x => (x.1, x.2.comp), s2.log⟩ :: rows, s3)

/-- A simulation of `n` steps. -/
def sim (c : Cfg) (srcs : List MockSource) (sinks : List String) (n : Nat) : R (List Row) := do
  let s ← enter c
  let (rows, _) ← mock c srcs sinks n 1 s
  pure rows

/-- A number computed from the rows; nothing if the simulation fails. -/
def count (r : R (List Row)) (f : Row → Nat) : Option Nat :=
  match r with
  | .error _ => none
  | .ok rows => some ((rows.map f).sum)

/-- The number of transactions. -/
def Row.trades (r : Row) : Nat := r.received.length + r.sent.length

/-- The number of rows in the power time series that satisfy `p`. -/
def Row.power (p : ℚ → Bool) (r : Row) : Nat :=
  (r.recs.filter fun | .power x => p x | _ => false).length

/-- The number of rows of side products that satisfy `p`. -/
def Row.side (p : String → ℚ → Bool) (r : Row) : Nat :=
  (r.recs.filter fun | .side k x => p k x | _ => false).length

/-- The input that the tests have in common: what is not given there has the default of `reactor.h`. The
compositions are numbered by recipe. -/
def base : Cfg where
  inCommods := ["uox"]
  inRecipes := ["uox"]
  prefs := []
  outCommods := ["waste"]
  outRecipes := ["spentuox"]
  recipeChangeTimes := []
  recipeChangeCommods := []
  recipeChangeIn := []
  recipeChangeOut := []
  prefChangeTimes := []
  prefChangeCommods := []
  prefChangeValues := []
  assemSize := 1
  nBatch := 1
  nCore := 1
  nFresh := 0
  nSpent := 1000000000
  cycleTime := 1
  refuelTime := 0
  cycleStep := 0
  powerCap := 0
  sideProducts := []
  sideQty := []
  decomTransmuteAll := false
  enterTime := 0
  exitTime := none
  recipe := fun r => ["uox", "spentuox", "mox", "spentmox", "water"].idxOf? r
  eps := 1/1000000

/-- `JustInTimeOrdering` (`reactor_tests.cc:58-81`): an assembly in every step. -/
example : count (sim { base with prefs := [1], assemSize := 300 } [{ commod := "uox" }] [] 50) Row.trades =
    some 50 := by decide +kernel

/-- `BatchSizes` (`reactor_tests.cc:85-108`). -/
example : count (sim { base with nCore := 7, nBatch := 3 } [{ commod := "uox" }] [] 50) Row.trades =
    some (7 + 3 * (50 - 1)) := by decide +kernel

/-- `RefuelTimes` (`reactor_tests.cc:112-138`). -/
example : count (sim { base with cycleTime := 4, refuelTime := 3 } [{ commod := "uox" }] [] 49) Row.trades =
    some (49 / (4 + 3) + 1) := by decide +kernel

/-- The reactor of `DecomTimes` (`reactor_tests.cc:142-177`): a lifetime of 7 steps, of 12. -/
def decomTimes : R (List Row) :=
  sim { base with cycleTime := 2, refuelTime := 2, nCore := 3, powerCap := 1000, exitTime := some 6 }
    [{ commod := "uox" }] [] 12

example : count decomTimes (Row.power (· = 1000)) = some 4 := by decide +kernel
example : count decomTimes (Row.power (· = 0)) = some 3 := by decide +kernel

/-- `DecomZeroRefuel` (`reactor_tests.cc:181-208`). -/
example : count (sim { base with cycleTime := 2, nCore := 3, powerCap := 1000, exitTime := some 5 }
    [{ commod := "uox" }] [] 8) (Row.power (· = 1000)) = some 6 := by decide +kernel

/-- `OrderAtRefuelStart` (`reactor_tests.cc:214-239`). -/
example : count (sim { base with cycleTime := 4, refuelTime := 3 } [{ commod := "uox" }] [] 7) Row.trades =
    some (7 / (4 + 3) + 1) := by decide +kernel

/-- `MultiFuelMix` (`reactor_tests.cc:243-275`). -/
example : count (sim { base with
      inCommods := ["uox", "mox"], inRecipes := ["uox", "mox"]
      outCommods := ["waste", "waste"], outRecipes := ["spentuox", "spentmox"]
      nFresh := 3, nCore := 3, nBatch := 3 }
    [{ commod := "uox", cap := some 2 }, { commod := "mox", cap := some 2 }] [] 50) Row.trades =
    some (3 * 50 + 3) := by decide +kernel

/-- `FullSpentInventory` (`reactor_tests.cc:279-305`). -/
example : count (sim { base with nSpent := 3 } [{ commod := "uox" }] [] 10) Row.trades = some (3 + 1) := by
  decide +kernel

/-- `FullSpentInventoryShutdown` (`reactor_tests.cc:309-333`): no power in the last of three steps. -/
example : ((sim { base with nSpent := 1, powerCap := 100 } [{ commod := "uox" }] [] 3).toOption.map fun rows =>
    rows[2]?.map fun r => r.recs.filterMap fun | .power x => some x | _ => none) = some (some [0]) := by
  decide +kernel

/-- `FuelShortage` (`reactor_tests.cc:341-386`). -/
def fuelShortage : R (List Row) :=
  sim { base with cycleTime := 7, nCore := 3, nBatch := 3 }
    [{ commod := "uox", life := some 1 }, { commod := "uox", start := 9, life := some 1, cap := some 2 },
      { commod := "uox", start := 15 }] [] 50

example : count fuelShortage (fun r => if r.time < 15 then r.trades else 0) = some 5 := by decide +kernel
example : count fuelShortage (fun r => if r.time = 15 then r.trades else 0) = some 1 := by decide +kernel
example : count fuelShortage (fun r => if r.time < 21 then r.trades else 0) = some 6 := by decide +kernel
example : count fuelShortage (fun r => if r.time = 22 then r.trades else 0) = some 3 := by decide +kernel

/-- `DischargedFuelTransmute` (`reactor_tests.cc:390-418`): what is sent first has the output recipe. -/
example : ((sim { base with cycleTime := 4, refuelTime := 3 } [{ commod := "uox" }] ["waste"] 7).toOption.map
    fun rows => (rows.flatMap Row.sent).head?.map Prod.snd) = some (base.recipe "spentuox") := by
  decide +kernel

/-- `SpentFuelProperCommodTracking` (`reactor_tests.cc:424-458`). -/
def tracking : R (List Row) :=
  sim { base with
      inCommods := ["uox", "mox"], inRecipes := ["uox", "mox"]
      outCommods := ["waste1", "waste2"], outRecipes := ["spentuox", "spentmox"]
      nCore := 3, nBatch := 3 }
    [{ commod := "uox", cap := some 1 }, { commod := "mox", cap := some 2 }] ["waste1", "waste2"] 7

example : count tracking (fun r => (r.sent.filter fun x => x.1 = "waste1").length) = some (7 - 1) := by
  decide +kernel
example : count tracking (fun r => (r.sent.filter fun x => x.1 = "waste2").length) = some (2 * (7 - 1)) := by
  decide +kernel

/-- `PrefChange` (`reactor_tests.cc:464-491`): a negative preference from step 25 on. -/
example : count (sim { base with
      prefChangeTimes := [25], prefChangeCommods := ["uox"], prefChangeValues := [-1] }
    [{ commod := "uox" }] [] 50) Row.trades = some 25 := by decide +kernel

/-- `RecipeChange` (`reactor_tests.cc:493-563`). -/
def recipeChange : R (List Row) :=
  sim { base with
      recipeChangeTimes := [25, 35], recipeChangeCommods := ["uox", "uox"]
      recipeChangeIn := ["water", "water"], recipeChangeOut := ["spentuox", "water"] }
    [{ commod := "uox" }] ["waste"] 50

/-- What was received or sent in step `t` is water. -/
def water (f : Row → List (String × Nat)) (t : Nat) : Option (List Bool) :=
  match recipeChange with
  | .error _ => none
  | .ok rows => rows[t]?.map fun r => (f r).map fun x => some x.2 = base.recipe "water"

example : water Row.received 24 = some [false] := by decide +kernel
example : water Row.received 26 = some [true] := by decide +kernel
example : water Row.sent 34 = some [false] := by decide +kernel
example : water Row.sent 36 = some [true] := by decide +kernel

/-- `Retire` (`reactor_tests.cc:565-621`): a lifetime of 36 steps, of 50. -/
def retire : R (List Row) :=
  sim { base with cycleTime := 7, assemSize := 300, nFresh := 1, nCore := 3, powerCap := 1, exitTime := some 35 }
    [{ commod := "uox" }] ["waste"] 50

example : count retire (fun r => r.received.length) = some (6 * 1 + (3 - 1)) := by decide +kernel
example : count retire (fun r => r.sent.length) = some (6 * 1 + (3 - 1)) := by decide +kernel
example : count retire (Row.power (0 < ·)) = some (36 / 7 * 7 + min (36 % 7) 7) := by decide +kernel

/-- `ByProduct` (`reactor_tests.cc:677-712`). -/
def byProduct : R (List Row) :=
  sim { base with
      refuelTime := 1, nCore := 7, nBatch := 3, sideProducts := ["process_heat"], sideQty := [10] }
    [{ commod := "uox" }] [] 10

example : count byProduct (Row.side fun _ x => x = 10) = some 5 := by decide +kernel
example : count byProduct (Row.side fun _ x => x = 0) = some 5 := by decide +kernel

/-- `MultipleByProduct` (`reactor_tests.cc:714-763`). -/
def byProducts : R (List Row) :=
  sim { base with
      refuelTime := 1, nCore := 7, nBatch := 3, sideProducts := ["process_heat", "water"], sideQty := [10, 100] }
    [{ commod := "uox" }] [] 10

example : count byProducts (Row.side fun k x => k = "process_heat" ∧ x = 10) = some 5 := by decide +kernel
example : count byProducts (Row.side fun k x => k = "water" ∧ x = 100) = some 5 := by decide +kernel
example : count byProducts (Row.side fun _ x => x = 0) = some 10 := by decide +kernel

end Cyc.Reactor.Tests
