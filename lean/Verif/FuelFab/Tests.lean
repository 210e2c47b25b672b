import Verif.FuelFab.Model
import Mathlib.Data.List.Sort

/-!
# The unit tests of `FuelFab`, replayed on the model

`src/fuel_fab_tests.cc`. These are tests of the model, not proofs. The cross sections of the tests are
in a data file that does not come with the code; here they are rounded values, and atomic masses are
mass numbers. What the tests expect is relative to the weights that follow from the data, except the two
regression values in `CorrectMixing` and the comparison of spectra in `CosiWeight`, which are left out.
The rest of the simulation is `mock`: sources and sinks with capacities.
-/

namespace Cyc.FuelFab.Tests

/-- The compositions of the tests (`fuel_fab_tests.cc:17-71`). -/
def uox : NMat := ⟨[(922350000, 4/100), (922380000, 96/100)]⟩
def natu : NMat := ⟨[(922350000, 7/1000), (922380000, 993/1000)]⟩
def pu : NMat := ⟨[(942390000, 100), (942400000, 10), (942410000, 1), (942420000, 1)]⟩
def puBad : NMat := ⟨[(942390000, 1), (942400000, 10), (942410000, 1), (942420000, 1)]⟩
def special : NMat := ⟨[(922350000, 7), (922380000, 86), (400900000, 7)]⟩

/-- Fission and absorption cross sections for thermal neutrons, in barn. -/
def xs (nuc : Nat) : Option (ℚ × ℚ) :=
  if nuc = 922350000 then some (584, 683)
  else if nuc = 922380000 then some (0, 27/10)
  else if nuc = 942390000 then some (748, 1018)
  else if nuc = 942400000 then some (3/50, 290)
  else if nuc = 942410000 then some (1013, 1376)
  else if nuc = 942420000 then some (0, 19)
  else if nuc = 400900000 then some (0, 1/100)
  else none

/-- The facility of most tests. -/
def base : Cfg where
  fillCommods := ["natu"]
  fillPrefs := []
  fillRecipe := some natu
  fillSize := 100
  fissCommods := ["pustream"]
  fissPrefs := []
  fissRecipe := some pu
  fissSize := 100
  topupCommod := ""
  topupPref := 1
  topupRecipe := none
  topupSize := 0
  outCommod := "recyclefuel"
  throughput := 100
  spectrum := "thermal"
  xs := fun _ => xs
  atomMass := fun n => (n / 10000 % 1000 : Nat)
  eps := 1/1000000
  near := 1/100000000
  large := 10 ^ 299
  lo := 1/1000000

/-! ## Weights and fractions -/

/-- `CosiWeight` (`fuel_fab_tests.cc:73-121`). -/
example : (cosi base ⟨[(942390000, 1)]⟩).toOption = some 1 := by decide +kernel
example : (cosi base ⟨[(922380000, 1)]⟩).toOption = some 0 := by decide +kernel
example : (cosi { base with spectrum := "fission_spectrum_ave" } ⟨[(942390000, 1)]⟩).toOption = some 1 := by
  decide +kernel
example : (cosi { base with spectrum := "fission_spectrum_ave" } ⟨[(922380000, 1)]⟩).toOption = some 0 := by
  decide +kernel
example : (cosi base ⟨[(922380000, 238), (942390000, 239)]⟩).toOption = some (1/2) := by decide +kernel
example : (cosi { base with spectrum := "fission_spectrum_ave" }
    ⟨[(922380000, 238), (942390000, 239)]⟩).toOption = some (1/2) := by decide +kernel

/-- The weights of filler, target and fissile material. -/
def weights : R (ℚ × ℚ × ℚ) := do pure (← cosi base natu, ← cosi base uox, ← cosi base pu)

/-- `CosiWeight_Mixed` (`fuel_fab_tests.cc:123-141`). -/
example : (do
    let (wFill, wTarget, wFiss) ← weights
    let f ← highFrac base.near wFill wTarget wFiss
    let g ← lowFrac base.near wFill wTarget wFiss
    let got ← cosi base ((ofComp (atomToMass base.atomMass f pu natu) pu).absorb
      (ofComp (atomToMass base.atomMass g natu pu) natu))
    pure (decide (got = wTarget))).toOption = some true := by decide +kernel

/-- A `ValueError`. -/
def throws (x : R ℚ) : Bool := match x with
  | .error .value => true
  | _ => false

/-- `HighFrac` (`fuel_fab_tests.cc:143-155`). -/
example : (do
    let (wFill, wTarget, wFiss) ← weights
    let f ← highFrac base.near wFill wTarget wFiss
    pure (throws (highFrac base.near wFiss wTarget wFill) && throws (highFrac base.near wTarget wFill wFiss) &&
      throws (highFrac base.near wTarget wFiss wFill) &&
      decide (f = (wTarget - wFill) / (wFiss - wFill)))).toOption = some true := by decide +kernel

/-- `LowFrac` (`fuel_fab_tests.cc:157-169`). -/
example : (do
    let (wFill, wTarget, wFiss) ← weights
    let f ← lowFrac base.near wFill wTarget wFiss
    pure (throws (lowFrac base.near wFiss wTarget wFill) && throws (lowFrac base.near wTarget wFill wFiss) &&
      throws (lowFrac base.near wTarget wFiss wFill) &&
      decide (f = (wFiss - wTarget) / (wFiss - wFill)))).toOption = some true := by decide +kernel

/-- `ValidWeights` (`fuel_fab_tests.cc:171-183`). -/
example : (do
    let (wFill, wTarget, wFiss) ← weights
    pure [validWeights wFill wTarget wFiss, validWeights wFiss wTarget wFill, validWeights wTarget wFill wFiss,
      validWeights wFiss wFill wTarget, validWeights wTarget wFiss wFill,
      validWeights wFill wFiss wTarget]).toOption = some [true, false, false, false, false, false] := by
  decide +kernel

/-! ## The rest of the simulation -/

/-- A source: what, of which recipe (else as requested), how much, and in which steps. -/
structure Src where
  commod : String
  recipe : Option NMat := none
  cap : ℚ := 10 ^ 299
  start : Nat := 0
  stop : Nat := 1000

/-- A sink for fuel. -/
structure Snk where
  recipe : NMat
  cap : ℚ
  start : Nat := 0
  stop : Nat := 1000

/-- The requests in the order of preference. -/
def byPref (l : List Req) : List Req := l.insertionSort fun a b => b.pref ≤ a.pref

/-- One request is met by the sources in their order; `left` is what the portfolio lacks. -/
def meet (recipe : Option NMat) (r : Req) : List Src → ℚ → List (Req × NMat) × List Src × ℚ
  | [], left => ([], [], left)
  | x :: xs, left =>
    let q := min left x.cap
    if x.commod = r.commod ∧ 1/1000000 < q then
      let m := match x.recipe, recipe with
        | some c, _ => ofComp q c
        | none, some c => ofComp q c
        | none, none => ⟨[(0, q)]⟩
      let y := meet recipe r xs (left - q)
      ((r, m) :: y.1, { x with cap := x.cap - q } :: y.2.1, y.2.2)
    else
      let y := meet recipe r xs left
      (y.1, x :: y.2.1, y.2.2)

/-- A portfolio is met. -/
def fillPort (p : Option ReqPort) (srcs : List Src) : List (Req × NMat) × List Src :=
  match p with
  | none => ([], srcs)
  | some p =>
    let y := (byPref p.reqs).foldl (fun (y : List (Req × NMat) × List Src × ℚ) r =>
      let z := meet p.recipe r y.2.1 y.2.2
      (y.1 ++ z.1, z.2)) ([], srcs, p.amount)
    (y.1, y.2.1)

/-- How often a constraint allows a unit that weighs `u`. -/
def allows (cap u q : ℚ) : ℚ := if u ≤ 0 then q else min q (cap / u)

/-- The deals on the bids, each as large as the constraints allow (`ExchangeSolver`: a capacity for each
constraint, and nothing below `eps()`). -/
def deals (c : Cfg) (targets : List NMat) (p : Port) : List (Nat × NMat) → ℚ → ℚ → ℚ → ℚ → R (List Trade)
  | [], _, _, _, _ => .ok []
  | b :: bs, thr, fiss, fill, topup => do
    let q := qty b.2
    let uFiss ← fissConvert c p b.2
    let uFill ← fillConvert c p b.2
    let uTopup ← topupConvert c p b.2
    let amt := allows topup (uTopup / q) (allows fill (uFill / q) (allows fiss (uFiss / q) (min q thr)))
    let x := amt / q
    if 1/1000000 < amt then do
      let l ← deals c targets p bs (thr - amt) (fiss - x * uFiss) (fill - x * uFill) (topup - x * uTopup)
      pure (⟨targets.getD b.1 b.2, b.2, amt⟩ :: l)
    else deals c targets p bs thr fiss fill topup

/-- One step: the transactions. -/
def mockStep (c : Cfg) (srcs : List Src) (snks : List Snk) (t : Nat) (s : State) :
    R (List (Nat × String × NMat) × State) := do
  let (a, s) ← requests c id s
  let targets := (snks.filter fun k => k.start ≤ t ∧ t < k.stop).map fun k => ofComp k.cap k.recipe
  let p ← bids c (fun k => if k = c.outCommod then targets else []) s
  let ts ← match p with
    | none => pure []
    | some p => deals c targets p p.bids p.cap p.fissCap p.fillCap p.topupCap
  let x := fillPort a.fiss (srcs.filter fun k => k.start ≤ t ∧ t < k.stop)
  let y := fillPort a.fill x.2
  let z := fillPort a.topup y.2
  let buys := x.1 ++ y.1 ++ z.1
  let (l, s) ← if ts = [] then pure ([], s) else sell c ts s
  let s ← acceptAll c (buys.map fun b => (b.1.id, b.2)) s
  pure (l.map (fun m => (t, c.outCommod, m)) ++ buys.map (fun b => (t, b.1.commod, b.2)), s)

/-- Some steps. -/
def mockRun (c : Cfg) (srcs : List Src) (snks : List Snk) : Nat → Nat → State →
    R (List (Nat × String × NMat) × State)
  | 0, _, s => .ok ([], s)
  | n + 1, t, s => do
    let (l, s) ← mockStep c srcs snks t s
    let (l', s) ← mockRun c srcs snks n (t + 1) s
    pure (l ++ l', s)

/-- A simulation of the given length. -/
def mock (c : Cfg) (srcs : List Src) (snks : List Snk) (n : Nat) : Option (List (Nat × String × NMat)) :=
  (do mockRun c srcs snks n 0 (← enter c)).toOption.map Prod.fst

/-- Number and sum of the transactions of a commodity. -/
def count (k : String) (l : List (Nat × String × NMat)) : Nat := (l.filter fun x => x.2.1 = k).length
def total (k : String) (l : List (Nat × String × NMat)) : ℚ :=
  ((l.filter fun x => x.2.1 = k).map fun x => qty x.2.2).sum

instance : DecidableEq Trade := fun a b => by
  rcases a with ⟨a1, a2, a3⟩; rcases b with ⟨b1, b2, b3⟩
  rw [Trade.mk.injEq]; infer_instance

/-! ## Streams -/

/-- Three commodities for the fissile stream. -/
def streams : Cfg where
  __ := base
  fillCommods := ["dummy"]
  fillSize := 1
  fissCommods := ["stream1", "stream2", "stream3"]
  fissSize := 5/2
  throughput := 0

/-- `FissRecipe` (`fuel_fab_tests.cc:186-217`). -/
example : (mock streams [{ commod := "stream1" }] [] 1).map (fun l => l.map fun x =>
    (x.2.1, x.2.2.entries.map fun e => (e.1, e.2 / qty x.2.2))) =
    some [("stream1", pu.entries.map fun e => (e.1, e.2 / qty pu))] := by decide +kernel

/-- Sources of one kilogram of each. -/
def three : List Src := ["stream1", "stream2", "stream3"].map fun k => { commod := k, recipe := some pu, cap := 1 }

/-- `MultipleFissStreams` (`fuel_fab_tests.cc:221-259`). -/
example : (mock { streams with fissRecipe := none } three [] 1).map (fun l =>
    (l.length, count "stream1" l, count "stream2" l, count "stream3" l)) = some (3, 1, 1, 1) := by decide +kernel

/-- `FissStreamPrefs` (`fuel_fab_tests.cc:262-300`). -/
example : (mock { streams with fissRecipe := none, fissSize := 3/2, fissPrefs := [1, 1/10, 2] } three [] 1).map
    (fun l => (total "stream1" l, count "stream2" l, total "stream3" l)) = some (1/2, 0, 1) := by decide +kernel

/-- All three inventories. -/
def full (thr : ℚ) : Cfg where
  __ := base
  fillSize := 39/10
  fissCommods := ["spentuox"]
  fissSize := 7/2
  topupCommod := "uox"
  topupRecipe := some uox
  topupSize := 33/10
  throughput := thr

/-- Sources of one kilogram of each. -/
def sources : List Src := [{ commod := "uox", cap := 1 }, { commod := "spentuox", cap := 1 },
  { commod := "natu", cap := 1 }]

/-- `ZeroThroughput` (`fuel_fab_tests.cc:303-331`). -/
example : (mock (full 0) sources [] 10).isSome = true := by decide +kernel

/-- `FillAllInventories` (`fuel_fab_tests.cc:336-382`). -/
example : (mock (full 1) sources [] 10).map (fun l => (total "natu" l, total "spentuox" l, total "uox" l)) =
    some (39/10, 7/2, 33/10) := by decide +kernel

/-! ## Sales -/

/-- `ProvideStraightFiss_WithZeroFill` (`fuel_fab_tests.cc:386-414`). -/
example : (mock { base with fillCommods := ["nothing"], fissCommods := ["anything"] } [{ commod := "anything" }]
    [⟨pu, 100, 0, 1000⟩] 6).map List.length = some 6 := by decide +kernel

/-- `ProvideStraightFill_ZeroFiss` (`fuel_fab_tests.cc:416-444`). -/
example : (mock { base with fillCommods := ["anything"], fissCommods := ["nothing"] } [{ commod := "anything" }]
    [⟨natu, 100, 0, 1000⟩] 6).map List.length = some 6 := by decide +kernel

/-- `ThroughputLimit` (`fuel_fab_tests.cc:448-491`). -/
example : (mock { base with fillCommods := ["anything"], fissCommods := ["anything"], throughput := 3 }
    [{ commod := "anything", stop := 1 }] [⟨uox, 6, 0, 1000⟩] 5).map (fun l =>
      (decide (2 < l.length), total "recyclefuel" l, count "recyclefuel" l)) = some (true, 3 * 4, 4) := by
  decide +kernel

/-- `CorrectMixing` (`fuel_fab_tests.cc:494-540`). -/
example : (mock base [{ commod := "pustream" }, { commod := "natu" }] [⟨uox, 10, 0, 2⟩] 3).map (fun l =>
    (count "recyclefuel" l,
      (l.filter fun x => x.2.1 = "recyclefuel").map fun x => decide ((cosi base x.2.2).toOption = (cosi base uox).toOption),
      total "natu" (l.filter fun x => x.1 = 2) + total "pustream" (l.filter fun x => x.1 = 2))) =
    some (1, [true], 10) := by decide +kernel

/-- What a kilogram of the richer and of the poorer material allows at most. -/
def maxProvide (low high : NMat) : R (ℚ × ℚ) := do
  let wl ← cosi base low
  let wh ← cosi base high
  let w ← cosi base uox
  let f ← highFrac base.near wl w wh
  let g ← lowFrac base.near wl w wh
  pure (1 / atomToMass base.atomMass f high low, 1 / atomToMass base.atomMass g low high)

/-- A sink that asks for twice as much as `q`. -/
def twice (q : R ℚ) : List Snk := [⟨uox, 2 * q.toOption.getD 0, 0, 1000⟩]

/-- `FillConstrained` (`fuel_fab_tests.cc:544-586`). -/
example : (mock { base with fillSize := 1, fissSize := 10000, throughput := 10000 }
    [{ commod := "pustream", stop := 1 }, { commod := "natu", stop := 1 }]
    (twice ((maxProvide natu pu).map Prod.snd)) 2).map (total "recyclefuel") =
    (maxProvide natu pu).toOption.map Prod.snd := by decide +kernel

/-- `FissConstrained` (`fuel_fab_tests.cc:590-632`). -/
example : (mock { base with fillSize := 10000, fissSize := 1, throughput := 10000 }
    [{ commod := "pustream", stop := 1 }, { commod := "natu", stop := 1 }]
    (twice ((maxProvide natu pu).map Prod.fst)) 2).map (total "recyclefuel") =
    (maxProvide natu pu).toOption.map Prod.fst := by decide +kernel

/-! ## Top-up material -/

/-- Fissile material that is too poor, and top-up material. -/
def poor (fill fiss topup : ℚ) : Cfg where
  __ := base
  fillSize := fill
  fissCommods := ["pustreambad"]
  fissRecipe := some puBad
  fissSize := fiss
  topupCommod := "pustream"
  topupRecipe := some pu
  topupSize := topup
  throughput := 10000

/-- Sources without limit. -/
def ample : List Src := [{ commod := "pustream" }, { commod := "pustreambad" }, { commod := "natu" }]

/-- The weight of the target is between that of the poor fissile material and that of the top-up
material, as the tests need it. -/
example : (do pure (decide ((← cosi base puBad) < (← cosi base uox)))).toOption = some true := by decide +kernel

/-- `SwapTopup` (`fuel_fab_tests.cc:635-683`). -/
example : (mock (poor 10000 10000 10000) ample [⟨uox, 10, 0, 2⟩] 3).map (fun l =>
    (count "recyclefuel" l, total "recyclefuel" l, count "natu" (l.filter fun x => x.1 = 2),
      count "pustream" (l.filter fun x => x.1 = 2))) = some (1, 10, 0, 1) := by decide +kernel

/-- `SwapTopup_ZeroFill` (`fuel_fab_tests.cc:685-733`). -/
example : (mock (poor 0 10000 10000) ample [⟨uox, 10, 0, 2⟩] 3).map (fun l =>
    (count "recyclefuel" l, total "recyclefuel" l, count "pustream" (l.filter fun x => x.1 = 2),
      count "pustreambad" (l.filter fun x => x.1 = 2))) = some (1, 10, 1, 1) := by decide +kernel

/-- `SwapTopup_TopupConstrained` (`fuel_fab_tests.cc:740-790`). -/
example : (mock (poor 10000 10000 1) ample (twice ((maxProvide puBad pu).map Prod.fst)) 2).map (fun l =>
    (count "recyclefuel" l, total "recyclefuel" l)) =
    (maxProvide puBad pu).toOption.map fun x => (1, x.1) := by decide +kernel

/-- `SwapTopup_FissConstrained` (`fuel_fab_tests.cc:795-845`). -/
example : (mock (poor 0 1 10000) ample (twice ((maxProvide puBad pu).map Prod.snd)) 2).map (fun l =>
    (count "recyclefuel" l, total "recyclefuel" l)) =
    (maxProvide puBad pu).toOption.map fun x => (1, x.2) := by decide +kernel

/-- `HomogenousBuffers` (`fuel_fab_tests.cc:855-890`). -/
example : (mock { base with fillSize := 40, fissCommods := ["stream1"], fissSize := 4, throughput := 10 ^ 10 }
    [{ commod := "stream1", recipe := some special, cap := 1/100, stop := 1 },
      { commod := "stream1", recipe := some natu, cap := 398/100, start := 1, stop := 2 },
      { commod := "natu", stop := 1 }] [⟨uox, 4, 2, 3⟩, ⟨uox, 4, 2, 3⟩] 5).isSome = true := by decide +kernel

end Cyc.FuelFab.Tests
