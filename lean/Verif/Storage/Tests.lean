import Verif.Storage.Model

/-!
# The unit tests of `Storage`, replayed on the model

`src/storage_tests.cc`. These are tests of the model, not proofs. Left out are the tests of what is in
cyclus: the buy policies that draw random numbers or pause (`ActiveDormant` to `IncorrectBuyPolSetupMinMax`,
`CCap_Inventory`) and packaging (`PackageExactly` to `TransportUnit`).
-/

namespace Cyc.Storage.Tests

/-- The facility of the tests (`storage_tests.cc:18-48`). -/
def base : Cfg where
  inCommods := ["in_c1"]
  prefs := [1]
  outCommods := ["out_c1"]
  inRecipe := "in_r1"
  hasRecipe := fun r => r = "in_r1"
  residence := 10
  throughput := 20
  maxInv := 200
  discrete := false
  reorderPoint := -1
  reorderQty := -1
  cumulativeCap := -1
  enterTime := 0
  eps := 1/1000000
  lo := 1/1000000

/-- `q` kg of the recipe. -/
def mat (q : ℚ) : Mat Nat := ⟨[(922350000, q * (235/711)), (922380000, q * (476/711))]⟩

/-- `TestBuffers` (`storage_tests.cc:68-76`): inventory, processing, ready, stocks. -/
def buffers (s : State Nat) : ℚ × ℚ × ℚ × ℚ :=
  (s.inventory.quantity, s.processing.quantity, s.ready.quantity, s.stocks.quantity)

/-- What the tests do: material is added; the time is set and `Tock` called; parameters are changed. -/
inductive Op
  | add (q : ℚ)
  | tock (t : Nat)
  | change (c : Cfg)

/-- The buffers after each operation. -/
def trace : Cfg → List Op → State Nat → R (List (ℚ × ℚ × ℚ × ℚ))
  | _, [], _ => .ok []
  | c, .add q :: l, s => do
    let s ← addMat c s (mat q)
    pure (buffers s :: (← trace c l s))
  | c, .tock t :: l, s => do
    let (_, s) ← tock c { s with time := t }
    pure (buffers s :: (← trace c l s))
  | _, .change c :: l, s => do
    pure (buffers s :: (← trace c l s))

/-- The buffers after each operation on a new facility. -/
def play (c : Cfg) (l : List Op) : Option (List (ℚ × ℚ × ℚ × ℚ)) :=
  (enter c >>= fun x => trace c l x.2).toOption

/-- `CurrentCapacity` (`storage_tests.cc:109-114`). -/
example : ((enter base : R (Policy × State Nat)).toOption.map fun x => capacity base x.2) = some 200 := by
  decide +kernel

/-- `AddMats` (`storage_tests.cc:123-131`). -/
example : play base [.add 100, .add 100] = some [(100, 0, 0, 0), (200, 0, 0, 0)] := by decide +kernel

/-- `Tock` (`storage_tests.cc:140-176`). -/
example : play base ([.add 20] ++ (List.range 9).map .tock ++ [.tock 10, .tock 11]) =
    some ([(20, 0, 0, 0)] ++ (List.range 9).map (fun _ => (0, 20, 0, 0)) ++ [(0, 0, 0, 20), (0, 0, 0, 20)]) := by
  decide +kernel

/-- `NoProcessTime` (`storage_tests.cc:179-197`). -/
example : play { base with residence := 0 } [.add 20, .tock 0] = some [(20, 0, 0, 0), (0, 0, 0, 20)] := by
  decide +kernel

/-- `NoConvert` (`storage_tests.cc:199-216`). -/
example : (do
    let (_, s) ← (enter base : R (Policy × State Nat))
    let s ← addMat base s (mat 20)
    let (_, s) ← tock base s
    let (_, s) ← tock base { s with time := 10 }
    pure (buffers s, s.stocks.items.map fun m : Mat Nat => m.mass 922350000 / 235 / (m.mass 922380000 / 238))).toOption =
    some ((0, 0, 0, 20), [1/2]) := by decide +kernel

/-- `MultipleSmallBatches` (`storage_tests.cc:218-252`). -/
example : play base [.add 4, .tock 0, .tock 2, .add 6, .tock 2, .tock 10, .tock 12] =
    some [(4, 0, 0, 0), (0, 4, 0, 0), (0, 4, 0, 0), (6, 4, 0, 0), (0, 10, 0, 0), (0, 6, 0, 4), (0, 0, 0, 10)] := by
  decide +kernel

/-- The facility with another throughput. -/
def thr (q : ℚ) : Cfg := { base with maxInv := 10000, throughput := q }

/-- `ChangeCapacity` (`storage_tests.cc:255-306`). -/
example : play (thr 300) [.add 300, .tock 0, .change (thr 500), .add 500, .tock 2, .add 500, .tock 3, .tock 10,
    .change (thr 400), .tock 12, .tock 13, .tock 14] =
    some [(300, 0, 0, 0), (0, 300, 0, 0), (0, 300, 0, 0), (500, 300, 0, 0), (0, 800, 0, 0), (500, 800, 0, 0),
      (0, 1300, 0, 0), (0, 1000, 0, 300), (0, 1000, 0, 300), (0, 500, 100, 700), (0, 0, 200, 1100),
      (0, 0, 0, 1300)] := by decide +kernel

/-- `TwoBatchSameTime` (`storage_tests.cc:308-328`). -/
example : play base [.add 4, .add 4, .tock 0, .tock 10] =
    some [(4, 0, 0, 0), (8, 0, 0, 0), (0, 8, 0, 0), (0, 0, 0, 8)] := by decide +kernel

/-- `ChangeProcessTime`. -/
example : play base [.add 20, .tock 0, .add 20, .tock 8, .change { base with residence := 15 }, .tock 10, .tock 11,
    .tock 12, .tock 13, .tock 15, .change { base with residence := 12 }, .tock 20] =
    some [(20, 0, 0, 0), (0, 20, 0, 0), (20, 20, 0, 0), (0, 40, 0, 0), (0, 40, 0, 0), (0, 40, 0, 0), (0, 40, 0, 0),
      (0, 40, 0, 0), (0, 40, 0, 0), (0, 20, 0, 20), (0, 20, 0, 20), (0, 0, 0, 40)] := by decide +kernel

/-- `DifferentRecipe`: nothing in the model depends on the recipe. -/
example : (do
    let (_, s) ← (enter base : R (Policy × State Nat))
    let s ← addMat base s ⟨[(922350000, 705/943 * 20), (922380000, 238/943 * 20)]⟩
    let (_, s) ← tock base s
    let (_, s') ← tock base { s with time := 10 }
    pure (buffers s, buffers s')).toOption = some ((0, 20, 0, 0), (0, 0, 0, 20)) := by decide +kernel

/-! ## Simulations -/

/-- The facility of the simulations. -/
def fac : Cfg where
  __ := base
  inCommods := ["spent_fuel"]
  prefs := []
  outCommods := ["dry_spent"]
  inRecipe := ""
  residence := 0
  throughput := 10 ^ 299
  maxInv := 10 ^ 299

/-- What the buy policy asks for (`MatlBuyPolicy`, in cyclus). -/
def wants (c : Cfg) (p : Policy) (s : State Nat) : ℚ :=
  match p with
  | .periodic => min (capacity c s) c.throughput
  | .cumulative _ => 0
  | .rq q r => if held s ≤ r then min q c.throughput else 0
  | .ss u r => if held s ≤ r then min (u - held s) c.throughput else 0

/-- Purchases from sources with the given capacities: source and quantity. -/
def purchases : Nat → ℚ → List ℚ → List (Nat × ℚ)
  | _, _, [] => []
  | k, left, x :: xs => if 1/1000000 < min left x then (k, min left x) :: purchases (k + 1) (left - min left x) xs
    else purchases (k + 1) left xs

/-- Some steps in which everything is sold and as much as possible is bought: times and quantities of
sales, and times, sources and quantities of purchases. -/
def mockRun (c : Cfg) (p : Policy) (srcs : List ℚ) : Nat → State Nat → R (List (Nat × ℚ) × List (Nat × Nat × ℚ))
  | 0, _ => .ok ([], [])
  | n + 1, s => do
    let sells := if s.stocks.quantity > 0 then [s.stocks.quantity] else []
    let buys := purchases 0 (wants c p s) srcs
    let (o, s') ← step c s ⟨sells, buys.map fun b => mat b.2⟩
    let (l, l') ← mockRun c p srcs n s'
    pure (o.sold.map (fun m => (s.time, qty m)) ++ l, buys.map (fun b => (s.time, b)) ++ l')

/-- A simulation of the given length. -/
def mock (c : Cfg) (srcs : List ℚ) (n : Nat) : Option (List (Nat × ℚ) × List (Nat × Nat × ℚ)) :=
  (enter c >>= fun x => mockRun c x.1 srcs n x.2).toOption

/-- `BehaviorTest` (`storage_tests.cc:402-427`). -/
example : (mock { fac with residence := 1, maxInv := 10 } [10 ^ 299] 3).map (fun x => x.1.length) = some 1 := by
  decide +kernel

/-- `MultipleCommods` (`storage_tests.cc:429-462`). -/
example : (mock { fac with maxInv := 10 } [5, 5] 2).map (fun x =>
    ((x.2.filter fun b => b.2.1 = 0).length, (x.2.filter fun b => b.2.1 = 1).length)) = some (1, 1) := by decide +kernel

/-- `RQ_Inventory_Invalid` (`storage_tests.cc:826-839`). -/
example : mock { fac with maxInv := 5, reorderPoint := 2, reorderQty := 10 } [] 2 = none := by decide +kernel

/-- `RQ_Inventory` (`storage_tests.cc:841-872`). -/
example : (mock { fac with maxInv := 5, reorderPoint := 2, reorderQty := 3 } [5] 5).map Prod.snd =
    some [(0, 0, 3), (2, 0, 3), (4, 0, 3)] := by decide +kernel

/-- `sS_Inventory` (`storage_tests.cc:874-903`). -/
example : (mock { fac with maxInv := 5, reorderPoint := 2 } [5] 5).map Prod.snd =
    some [(0, 0, 5), (2, 0, 5), (4, 0, 5)] := by decide +kernel

end Cyc.Storage.Tests
