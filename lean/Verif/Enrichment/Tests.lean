import Verif.Enrichment.Model

/-!
# The unit tests of `Enrichment`, replayed on the model

`src/enrichment_tests.cc`. These are tests of the model, not proofs. The rest of the simulation is
`mock`: sources and sinks with capacities. The value function of separative work is a logarithm; here it
has its values, to six digits, at the assays of `CheckSWUConstraint`, and no other test depends on it.
-/

namespace Cyc.Enrichment.Tests

/-- The compositions of the tests (`enrichment_tests.cc:22-51`). -/
def uranium (x : ℚ) : NMat := ⟨[(u235, x), (u238, 1 - x)]⟩
def natu1 : NMat := uranium (7/1000)
def natu2 : NMat := uranium (1/100)
def leu : NMat := uranium (4/100)
def heu : NMat := uranium (20/100)

/-- The facility of the simulations. -/
def base : Cfg where
  feedCommod := "natu"
  productCommod := "enr_u"
  tailsCommod := "tails"
  feedRecipe := natu1
  tailsAssay := 3/1000
  swuCapacity := 10 ^ 299
  maxEnrich := 1
  initialFeed := 0
  maxFeed := 10 ^ 299
  orderPrefs := true
  value x := if x = 1/5 then 831777/1000000 else if x = 3/1000 then 5771301/1000000
    else if x = 7/1000 then 4885453/1000000 else (1 - 2 * x) ^ 2 * 10
  atomMass := fun n => (n / 10000 % 1000 : Nat)
  eps := 1/1000000
  lo := 1/1000000

/-- `q` kg of a composition. -/
def kg (q : ℚ) (m : NMat) : NMat := m.scale (q / qty m)

/-! ## The rest of the simulation -/

/-- A sink: commodity, composition and capacity. -/
structure Snk where
  commod : String
  recipe : NMat
  cap : ℚ := 10 ^ 299
  deriving DecidableEq

/-- How often a constraint allows a unit that weighs `u`. -/
def allows (cap u q : ℚ) : ℚ := if u ≤ 0 then q else min q (cap / u)

/-- The deals on the product. -/
def productDeals (c : Cfg) (x : ℚ) : List (Nat × NMat) → ℚ → ℚ → List Trade
  | [], _, _ => []
  | b :: bs, swu, natu =>
    let q := qty b.2
    let u := (swuConvert c.value x c.tailsAssay b.2).getD 0
    let v := (natuConvert x c.tailsAssay b.2).getD 0
    let amt := allows natu (v / q) (allows swu (u / q) q)
    ⟨c.productCommod, b.2, amt⟩ :: productDeals c x bs (swu - amt / q * u) (natu - amt / q * v)

/-- The deals on tails: a bid for every item; `left` is what the buyer lacks. -/
def tailsDeals (c : Cfg) : List (Nat × NMat) → ℚ → List Trade
  | [], _ => []
  | b :: bs, left => ⟨c.tailsCommod, b.2, min (qty b.2) left⟩ :: tailsDeals c bs (left - min (qty b.2) left)

/-- The sources with their preferences, best first; those with a preference that is not positive are left
out. -/
def ranked (c : Cfg) (q : ℚ) (srcs : List (NMat × ℚ)) : R (List (NMat × ℚ)) := do
  let p ← adjustPrefs c (srcs.zipIdx.map fun x => (x.2, kg (min q x.1.2) x.1.1))
  match p with
  | none => pure srcs
  | some l => pure ((l.reverse.filter fun x => 0 < x.2).filterMap fun x => srcs[x.1]?)

/-- What is bought from the sources. -/
def purchases : ℚ → List (NMat × ℚ) → List NMat
  | _, [] => []
  | left, x :: xs => if 1/1000000 < min left x.2 then kg (min left x.2) x.1 :: purchases (left - min left x.2) xs else []

/-- One step: commodity and material of the transactions. -/
def mockStep (c : Cfg) (srcs : List (NMat × ℚ)) (snks : List Snk) (s : State) :
    R (List (String × NMat) × State) := do
  let s := tick c s
  let rq := requests c s
  let reqs := fun k => if (snks.filter fun x => x.commod = k) = [] then none
    else some ((snks.filter fun x => x.commod = k).map fun x => kg x.cap x.recipe)
  let (p, s) ← bids c reqs s
  let ts := (match p.product with
    | none => []
    | some p => productDeals c p.feedAssay p.bids p.swuCap p.natuCap) ++
    match p.tails with
    | none => []
    | some t => tailsDeals c t.bids t.cap
  let srcs ← ranked c (rq.getD 0) srcs
  let buys := purchases (rq.getD 0) srcs
  let (l, s) ← sellAll c ts s
  let s ← accept c buys s
  pure ((ts.zip l).map (fun x => (x.1.commod, x.2.1)) ++ buys.map (fun m => (c.feedCommod, m)), s)

/-- Some steps. -/
def mockRun (c : Cfg) (srcs : List (NMat × ℚ)) (snks : List Snk) : Nat → State → R (List (String × NMat) × State)
  | 0, s => .ok ([], s)
  | n + 1, s => do
    let (l, s) ← mockStep c srcs snks s
    let (l', s) ← mockRun c srcs snks n s
    pure (l ++ l', s)

/-- The transactions of a commodity in a simulation of the given length. -/
def mock (c : Cfg) (srcs : List (NMat × ℚ)) (snks : List Snk) (n : Nat) (k : String) : Option (List NMat) :=
  (build c >>= mockRun c srcs snks n).toOption.map fun x => (x.1.filter fun y => y.1 = k).map Prod.snd

/-- Mass fractions. -/
def fracs (m : NMat) : List ℚ := [m.mass u235 / qty m, m.mass u238 / qty m]

/-! ## Simulations -/

/-- `RequestQty` (`enrichment_tests.cc:53-86`). -/
example : (mock { base with maxFeed := 1 } [(natu1, 10 ^ 299)] [] 1 "natu").map (List.map qty) = some [1] := by
  decide +kernel

/-- `CheckSWUConstraint` (`enrichment_tests.cc:89-127`). -/
example : (mock { base with initialFeed := 1000, swuCapacity := 195 } [] [⟨"enr_u", heu, 10⟩] 1 "enr_u").map
    (List.map fun m => decide (|5 - qty m| < 1/10)) = some [true] := by decide +kernel

/-- `CheckCapConstraint` (`enrichment_tests.cc:130-166`). -/
example : (mock { base with initialFeed := 243 } [] [⟨"enr_u", heu, 10⟩] 1 "enr_u").map
    (List.map fun m => decide (qty m ≤ 5)) = some [true] := by decide +kernel

/-- `RequestEnrich` (`enrichment_tests.cc:169-222`). -/
example : (mock { base with maxEnrich := 19/100 } [(natu1, 10 ^ 299)] [⟨"enr_u", leu, 1⟩, { commod := "enr_u", recipe := heu }] 2
    "enr_u").map (List.map fun m => (qty m, fracs m)) = some [(1, fracs leu)] := by decide +kernel

/-- `TradeTails` (`enrichment_tests.cc:225-260`). -/
example : (mock base [(natu1, 10 ^ 299)] [{ commod := "enr_u", recipe := leu }, { commod := "tails", recipe := leu }] 3
    "tails").map List.length = some 1 := by decide +kernel

/-- `TailsQty` (`enrichment_tests.cc:262-315`). -/
example : (mock base [(natu1, 10 ^ 299)] [⟨"enr_u", leu, 1/2⟩, ⟨"enr_u", leu, 1/2⟩, { commod := "tails", recipe := leu }] 3
    "tails").map (List.map qty) = some [33/8, 33/8] := by decide +kernel

/-- `BidPrefs` (`enrichment_tests.cc:318-367`). -/
example : (mock { base with maxFeed := 1 } [(natu1, 1), (natu2, 1)] [] 1 "natu").map (List.map fracs) =
    some [fracs natu2] := by decide +kernel

/-- `NoBidPrefs` (`enrichment_tests.cc:369-406`). -/
example : (mock { base with maxFeed := 2, orderPrefs := false } [(natu1, 1), (natu2, 1)] [] 1 "natu").map
    List.length = some 2 := by decide +kernel

/-- `ZeroU235` (`enrichment_tests.cc:409-438`). -/
example : mock { base with maxFeed := 1 } [(⟨[(u238, 1)]⟩, 1)] [] 1 "natu" = some [] := by decide +kernel

/-! ## Functions -/

/-- The facility of the other tests (`InitParameters`, `SetUpSource`). -/
def fac : Cfg where
  __ := base
  feedCommod := "incommod"
  productCommod := "outcommod"
  tailsCommod := "tailscommod"
  feedRecipe := uranium (72/10000)
  tailsAssay := 2/1000
  swuCapacity := 100
  maxFeed := 5
  initialFeed := 0

/-- `Request` (`enrichment_tests.cc:521-542`). -/
example : (do
    let s ← build fac
    let s₁ ← addMat fac (kg (10/3) fac.feedRecipe) s
    let s₂ ← addMat fac (kg (5/3) fac.feedRecipe) s₁
    pure [requests fac s, requests fac s₁, requests fac s₂]).toOption = some [some 5, some (5/3), none] := by
  decide +kernel

/-- `ValidReq` (`enrichment_tests.cc:545-569`); the compositions are by atoms. -/
example : validReq fac ⟨[(u235, 235)]⟩ = false := by decide +kernel
example : validReq fac ⟨[(u235, 235 * (2/1000)), (u238, 238 * (998/1000))]⟩ = false := by decide +kernel
example : validReq fac ⟨[(u235, 235), (u238, 238)]⟩ = true := by decide +kernel

/-- Uranium of 5 % and something else. -/
def impure : NMat := kg 5 ⟨[(u235, 5/100), (u238, 95/100), (94239, 1/2)]⟩

/-- `ConstraintConverters` (`enrichment_tests.cc:572-603`). -/
example : swuConvert fac.value (72/10000) (2/1000) impure = swuConvert fac.value (72/10000) (2/1000) (offer impure) := by
  decide +kernel
example : (natuConvert (72/10000) (2/1000) impure).map (· * uFrac impure) =
    natuConvert (72/10000) (2/1000) (offer impure) := by decide +kernel

/-- The assays of the next two tests. -/
def assays : Assays := ⟨72/10000, 5/100, 2/1000⟩

/-- Separative work and feed for 5 kg. -/
def swuReq : ℚ := (swuRequired fac.value 5 assays).getD 0
def natuReq : ℚ := (feedQty 5 assays).getD 0

/-- The target need not have the quantity that is traded. -/
def target : NMat := kg 15 (uranium (5/100))

/-- A facility with some separative work and feed. -/
def ready (swu size : ℚ) (feed : List ℚ) : R State := do
  let s ← build { fac with maxFeed := size }
  accept fac (feed.map fun q => kg q fac.feedRecipe) { s with swu := swu }

/-- `Enrich` (`enrichment_tests.cc:606-650`). -/
example : (do
    let s ← ready (5 * swuReq) natuReq [natuReq / 2, natuReq / 2]
    let (m, _, s') ← enrich fac target 5 s
    pure (s'.tails.quantity, qty m, fracs m)).toOption = some (natuReq - 5, 5, [5/100, 95/100]) := by decide +kernel
example : (do
    let s ← ready (5 * swuReq) natuReq [natuReq / 2, natuReq / 2]
    let (_, _, s') ← enrich fac target 5 s
    let s'' ← addMat fac (kg (natuReq - 1) fac.feedRecipe) s'
    pure (enrich fac target 5 s'').toOption.isSome).toOption = some false := by decide +kernel

/-- `Response` (`enrichment_tests.cc:653-712`). -/
example : (do
    let s ← ready swuReq (4 * natuReq) []
    let (l₀, s) ← sell fac [] s
    let s ← accept fac [kg (2 * natuReq) fac.feedRecipe] s
    let (l₁, s) ← sell fac [] s
    let (l, _) ← sell fac [⟨"outcommod", target, 5/3⟩, ⟨"outcommod", target, 5/3⟩] s
    pure (l₀.length, l₁.length, l.length)).toOption = some (0, 0, 2) := by decide +kernel

end Cyc.Enrichment.Tests
