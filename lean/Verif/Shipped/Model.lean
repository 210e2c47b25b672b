import Verif.Input.Model
import Verif.Sim.Plan

/-!
# The input files that come with the code

`/repo/input` and `/repo/tests/input`, as far as the facilities are concerned: the prototypes with their input
and their lifetime, and the facilities that are built without a growth region. What a file leaves out is left
out here (`Verif/Input/Model.lean`). Recipes are given by mass in all files, or are of one nuclide.

One thing differs: the files leave out `order_prefs`, which is on by default; here it is off. All it does is sort
the bids for feed, and there is something to sort only where there are two or more of them (see
`Shipped.C157_one_seller`).

Not here: the name of power, solvers, durations and dates, growth regions.
-/

namespace Cyc.Shipped

open Cyc.Input (Input)

abbrev NMat := Sim.NMat

/-- What cyclus and its libraries provide: tolerances, atomic masses, cross sections, the value function of
enrichment, and numbers for compositions. -/
structure World where
  eps : ℚ
  lo : ℚ
  epsRsrc : ℚ
  near : ℚ
  defaultPref : ℚ
  atomMass : Nat → ℚ
  xs : String → Nat → Option (ℚ × ℚ)
  value : ℚ → ℚ
  code : NMat → Nat

/-! ## Prototypes

The required input of each archetype. Members that are optional are ignored by `Input.kind`. -/

/-- A `Source` with the `outrecipe` and perhaps a `throughput`. -/
def World.source (W : World) (out : String) (recipe : NMat) (throughput : Option ℚ := none) : Input :=
  .source { outcommod := out, recipe := none, size := 0, throughput := 0, fill := fun q => [q], ship := id,
            eps := W.eps, epsRsrc := W.epsRsrc, lo := W.lo }
    { recipe := some recipe, throughput := throughput }

/-- A `Sink`, perhaps with a `capacity`. -/
def World.sink (W : World) (commods : List String) (capacity : Option ℚ := none) : Input :=
  .sink { commods := commods, prefs := [], recipe := none, maxInv := 0, capacity := 0, sizeType := "",
          sizeMean := 0, sizeStd := 0, freqType := "", freqMean := 0, freqStd := 0, freqMin := 0, freqMax := 0,
          defaultPref := W.defaultPref, eps := W.eps, epsRsrc := W.epsRsrc }
    { capacity := capacity }

/-- An `Enrichment` facility. -/
def World.enrichment (W : World) (feed product tails : String) (recipe : NMat)
    (o : Input.EnrichmentOpts) : Input :=
  .enrichment { feedCommod := feed, productCommod := product, tailsCommod := tails, feedRecipe := recipe,
                tailsAssay := 0, swuCapacity := 0, maxEnrich := 0, initialFeed := 0, maxFeed := 0,
                orderPrefs := false, value := W.value, atomMass := W.atomMass, eps := W.eps, lo := W.lo }
    { o with orderPrefs := some false }

/-- The number of a recipe of the file. -/
def number (rs : List (String × NMat)) (name : String) : Option Nat := rs.findIdx? fun r => r.1 = name

/-- A recipe of the file by its number, as a material of 1 kg. -/
def unit (rs : List (String × NMat)) (n : Nat) : NMat :=
  match rs[n]? with
  | some r => r.2.scale (1 / qty r.2)
  | none => ⟨[(10010000, 1)]⟩

/-- A `Reactor` in a file with recipes `rs`; `fuels` has the incommod, the inrecipe, the outcommod, and the
outrecipe of each fuel. -/
def World.reactor (W : World) (rs : List (String × NMat)) (fuels : List (String × String × String × String))
    (assemSize : ℚ) (nBatch : Nat) (o : Input.ReactorOpts) : Input :=
  .reactor { inCommods := fuels.map fun f => f.1, inRecipes := fuels.map fun f => f.2.1, prefs := [],
             outCommods := fuels.map fun f => f.2.2.1, outRecipes := fuels.map fun f => f.2.2.2,
             recipeChangeTimes := [], recipeChangeCommods := [], recipeChangeIn := [], recipeChangeOut := [],
             prefChangeTimes := [], prefChangeCommods := [], prefChangeValues := [], assemSize := assemSize,
             nBatch := nBatch, nCore := 0, nFresh := 0, nSpent := 0, cycleTime := 0, refuelTime := 0,
             cycleStep := 0, powerCap := 0, sideProducts := [], sideQty := [], decomTransmuteAll := false,
             enterTime := 0, exitTime := none, recipe := number rs, eps := W.eps }
    o W.code (unit rs)

/-- A `Separations` facility. -/
def World.separations (W : World) (feeds : List String) (feedbuf : ℚ)
    (streams : List (String × Separations.Stream)) (o : Input.SeparationsOpts) : Input :=
  .separations { feedCommods := feeds, feedPrefs := [], feedbufSize := feedbuf, throughput := 0,
                 leftoverCommod := "", leftoverCap := none, streams := streams, enterTime := 0,
                 exitTime := none, eps := W.eps, lo := W.lo } o

/-- A `FuelFab`. -/
def World.fuelFab (W : World) (fills : List String) (fillRecipe : NMat) (fillSize : ℚ) (fisses : List String)
    (fissSize : ℚ) (spectrum out : String) (o : Input.FuelFabOpts) : Input :=
  .fuelFab { fillCommods := fills, fillPrefs := [], fillRecipe := some fillRecipe, fillSize := fillSize,
             fissCommods := fisses, fissPrefs := [], fissRecipe := none, fissSize := fissSize,
             topupCommod := "", topupPref := 0, topupRecipe := none, topupSize := 0, outCommod := out,
             throughput := 0, spectrum := spectrum, xs := W.xs, atomMass := W.atomMass, eps := W.eps,
             near := W.near, large := Input.large, lo := W.lo } o

/-! ## Files -/

/-- A prototype: its name, its lifetime (-1 if it is not given), and the input of the archetype. -/
structure Proto where
  name : String
  life : ℤ := -1
  input : Input

/-- A file: its prototypes, and the facilities of the initial facility lists and of `DeployInst`s, by time,
prototype, and number. -/
structure File where
  path : String
  protos : List Proto
  builds : List (Nat × String × Nat)

/-- Uranium-235 and uranium-238. -/
def uranium (a b : ℚ) : NMat := ⟨[(922350000, a), (922380000, b)]⟩

/-- `natl_u` of most files, also under other names. -/
def natural : NMat := uranium (711/1000) (99289/1000)

/-- The spent fuel that several files have. -/
def spent : NMat :=
  ⟨[(922350000, 156729/1000), (922360000, 102103/1000), (922380000, 18280324/1000), (932370000, 13656/1000),
    (942380000, 5043/1000), (942390000, 106343/1000), (942400000, 41357/1000), (942410000, 36477/1000),
    (942420000, 15387/1000), (952410000, 1234/1000), (952430000, 3607/1000), (962440000, 431/1000),
    (962450000, 1263/1000)]⟩

def hydrogen : NMat := ⟨[(10010000, 1)]⟩

/-- The recipes of `input/recycle.xml:158-227`. -/
def recycleRecipes : List (String × NMat) :=
  [("natl_u", natural), ("fresh_uox", uranium (4/100) (96/100)), ("depleted_u", uranium (3/1000) (997/1000)),
    ("fresh_mox", ⟨[(922350000, 27381/10000000), (922380000, 9099619/10000000), (942380000, 1746/1000000),
      (942390000, 45396/1000000), (942400000, 20952/1000000), (942410000, 13095/1000000),
      (942420000, 5238/1000000)]⟩),
    ("spent_mox", ⟨[(922350000, 17381/10000000), (922380000, 90/100), (942380000, 1746/1000000),
      (942390000, 134/10000), (942400000, 20952/1000000), (942410000, 13095/1000000),
      (942420000, 5238/1000000)]⟩),
    ("spent_uox", spent)]

/-- `input/recycle.xml`, and `input/greedy_recycle.xml`, which has another solver. -/
def recycle (W : World) : File where
  path := "input/recycle.xml"
  protos :=
    [{ name := "enrichment", input := W.enrichment "natl_u" "uox" "waste" natural
        { tailsAssay := some (3/1000), swuCapacity := some (10 ^ 100), initialFeed := some (10 ^ 100) } },
     { name := "separations", input := W.separations ["spent_uox"] 30001
        [("sep_stream", ⟨10 ^ 100, [(940000000, 99/100)]⟩)]
        { leftoverCommod := some "waste", throughput := some 30001, feedPrefs := some [2] } },
     { name := "fuelfab", input := W.fuelFab ["depleted_u"] (uranium (3/1000) (997/1000)) 30001
        ["sep_stream"] 15000 "thermal" "mox" { throughput := some 30001 } },
     { name := "reactor", input := W.reactor recycleRecipes
        [("uox", "fresh_uox", "spent_uox", "spent_uox"), ("mox", "fresh_mox", "waste", "spent_mox")] 30000 1
        { prefs := some [1, 2], cycleTime := some 17, refuelTime := some 2, nCore := some 3 } },
     { name := "repo", input := W.sink ["waste"] (some (10 ^ 100)) },
     { name := "depleted_src", input := W.source "depleted_u" (uranium (3/1000) (997/1000)) }]
  builds := [(0, "repo", 1), (0, "reactor", 1), (0, "depleted_src", 1), (0, "fuelfab", 1),
    (0, "separations", 1), (0, "enrichment", 1)]

/-- The recipes of `input/physor/1_Enrichment_2_Reactor.xml:91-134`. -/
def physorRecipes : List (String × NMat) :=
  [("natl_u", natural), ("lwr_fuel_recipe", uranium 3 97), ("lwr_fuel_recipe2", uranium 5 95),
    ("lwr_used_fuel_recipe", spent)]

/-- `input/physor/1_Enrichment_2_Reactor.xml`, and `greedy_1_Enrichment_2_Reactor.xml`. -/
def physorEnrichment (W : World) : File where
  path := "input/physor/1_Enrichment_2_Reactor.xml"
  protos :=
    [{ name := "Enrichment", input := W.enrichment "natl_u" "enriched_u" "ef_tails" natural
        { swuCapacity := some (1001/100), initialFeed := some 100000 } },
     { name := "Reactor1", input := W.reactor physorRecipes
        [("enriched_u", "lwr_fuel_recipe", "waste", "lwr_used_fuel_recipe")] (1/10) 10
        { prefs := some [1], cycleTime := some 1, refuelTime := some 0, nCore := some 10,
          recipeChangeTimes := some [1, 2], recipeChangeCommods := some ["enriched_u", "enriched_u"],
          recipeChangeIn := some ["lwr_fuel_recipe2", "lwr_fuel_recipe"],
          recipeChangeOut := some ["lwr_used_fuel_recipe", "lwr_used_fuel_recipe"] } },
     { name := "Reactor2", input := W.reactor physorRecipes
        [("enriched_u", "lwr_fuel_recipe", "waste", "lwr_used_fuel_recipe")] (1/10) 10
        { prefs := some [1/2], cycleTime := some 1, refuelTime := some 0, nCore := some 10 } }]
  builds := [(0, "Enrichment", 1), (0, "Reactor1", 1), (0, "Reactor2", 1)]

/-- `input/physor/2_Sources_3_Reactors.xml:170-189`. -/
def mox : NMat :=
  ⟨[(922340000, 2/10000), (922350000, 18/10000), (922360000, 1/100), (922380000, 8973/10000),
    (942380000, 32/10000), (942390000, 507/10000), (942400000, 247/10000), (942410000, 134/10000),
    (942420000, 85/10000), (80160000, 13/100)]⟩

/-- The recipes of `input/physor/2_Sources_3_Reactors.xml:134-200`. -/
def sourcesRecipes : List (String × NMat) :=
  [("natl_u", natural), ("uox_fuel_recipe", uranium 4 96), ("uox_used_fuel_recipe", spent),
    ("mox_fuel_recipe", mox),
    ("mox_used_fuel_recipe", ⟨[(922350000, 1/100), (922380000, 94/100), (922360000, 3/100),
      (80160000, 13/100), (942390000, 2/100)]⟩)]

/-- A reactor of `input/physor/2_Sources_3_Reactors.xml`. -/
def sourcesReactor (W : World) (p : ℚ) (o : Input.ReactorOpts) : Input :=
  W.reactor sourcesRecipes [("uox", "uox_fuel_recipe", "waste", "uox_used_fuel_recipe"),
      ("mox", "mox_fuel_recipe", "waste", "mox_used_fuel_recipe")] (1/10) 10
    { o with prefs := some [1/10, p], cycleTime := some 1, refuelTime := some 0, nCore := some 10 }

/-- `input/physor/2_Sources_3_Reactors.xml`, and `greedy_2_Sources_3_Reactors.xml`. -/
def physorSources (W : World) : File where
  path := "input/physor/2_Sources_3_Reactors.xml"
  protos :=
    [{ name := "UOX_Source", input := W.source "uox" (uranium 4 96) (some (2500000001/1000000000)) },
     { name := "MOX_Source", input := W.source "mox" mox (some (2500000001/1000000000)) },
     { name := "Reactor1", input := sourcesReactor W 1
        { prefChangeTimes := some [4], prefChangeCommods := some ["uox"], prefChangeValues := some [2] } },
     { name := "Reactor2", input := sourcesReactor W 1 {} },
     { name := "Reactor3", input := sourcesReactor W (1/2) {} }]
  builds := [(1, "UOX_Source", 1), (1, "MOX_Source", 1), (1, "Reactor1", 1), (2, "Reactor2", 1),
    (3, "Reactor3", 1)]

/-- The recipes of the files in `input/enrichment`. -/
def enrichmentRecipes : List (String × NMat) :=
  [("natl_u", uranium (7/10) (993/10)), ("fuel_recipe", uranium (45/10) (955/10)),
    ("used_fuel_recipe", hydrogen)]

/-- The prototypes of the files in `input/enrichment`, which differ in the limits of the enrichment facility and
of the sink, and in the power of the reactor. -/
def enrichmentProtos (W : World) (o : Input.EnrichmentOpts) (power : Option ℚ) (capacity : ℚ) : List Proto :=
  [{ name := "Source", input := W.source "natl_u" (uranium (7/10) (993/10)) (some 1000) },
   { name := "Enrichment", input := W.enrichment "natl_u" "enriched_u" "ef_tails" (uranium (7/10) (993/10))
      { o with tailsAssay := some (3/1000) } },
   { name := "Reactor", input := W.reactor enrichmentRecipes
      [("enriched_u", "fuel_recipe", "waste", "used_fuel_recipe")] 2 1
      { cycleTime := some 1, refuelTime := some 0, nCore := some 1, powerCap := power } },
   { name := "Sink", input := W.sink ["waste"] (some capacity) }]

/-- `input/enrichment/1_src_enr_rxtr_sink.xml`. -/
def enrichmentOne (W : World) : File where
  path := "input/enrichment/1_src_enr_rxtr_sink.xml"
  protos := enrichmentProtos W { maxFeed := some 500 } none 1
  builds := [(0, "Source", 1), (0, "Enrichment", 1), (0, "Reactor", 1), (0, "Sink", 1)]

/-- `input/enrichment/linear_src_enr_rxtr_sink.xml`. -/
def enrichmentLinear (W : World) : File where
  path := "input/enrichment/linear_src_enr_rxtr_sink.xml"
  protos := enrichmentProtos W { maxFeed := some 1000 } (some 10) 1000
  builds := [(0, "Source", 1), (0, "Enrichment", 1), (0, "Sink", 1)]

/-- `input/enrichment/natu_capacitated.xml`. -/
def enrichmentNatu (W : World) : File where
  path := "input/enrichment/natu_capacitated.xml"
  protos := enrichmentProtos W { maxFeed := some 100 } (some 10) 1000
  builds := [(0, "Source", 1), (0, "Enrichment", 1), (0, "Sink", 1)]

/-- `input/enrichment/swu_capacitated.xml`. -/
def enrichmentSwu (W : World) : File where
  path := "input/enrichment/swu_capacitated.xml"
  protos := enrichmentProtos W { maxFeed := some 100, swuCapacity := some 30 } (some 10) 1000
  builds := [(0, "Source", 1), (0, "Enrichment", 1), (0, "Sink", 1)]

/-- `input/minimal-input/source_1_sink_1.xml`. -/
def minimal (W : World) : File where
  path := "input/minimal-input/source_1_sink_1.xml"
  protos :=
    [{ name := "SomeSource", input := W.source "commodity" hydrogen (some 1) },
     { name := "SomeSink", input := W.sink ["commodity"] (some 1) }]
  builds := [(0, "SomeSource", 1), (0, "SomeSink", 1)]

/-- `input/minimal-input/source_1_lifetime_sink_1.xml`. -/
def minimalLife (W : World) : File where
  path := "input/minimal-input/source_1_lifetime_sink_1.xml"
  protos :=
    [{ name := "Source", life := 5, input := W.source "commodity" hydrogen (some 1) },
     { name := "Sink", input := W.sink ["commodity"] (some 1) }]
  builds := [(0, "Source", 1), (0, "Sink", 1)]

/-- `input/minimal-input/source_3_sink_1.xml`. -/
def minimalThree (W : World) : File where
  path := "input/minimal-input/source_3_sink_1.xml"
  protos :=
    [{ name := "Source", input := W.source "commodity" hydrogen (some 1) },
     { name := "Sink", input := W.sink ["commodity"] (some 3) }]
  builds := [(0, "Source", 3), (0, "Sink", 1)]

/-- `input/minimal-input/source_3_lifetime_sink_1.xml`. -/
def minimalThreeLife (W : World) : File where
  path := "input/minimal-input/source_3_lifetime_sink_1.xml"
  protos :=
    [{ name := "Source", life := 5, input := W.source "commodity" hydrogen (some 1) },
     { name := "Sink", input := W.sink ["commodity"] (some 3) }]
  builds := [(0, "Source", 3), (0, "Sink", 1)]

/-- `input/deploy_inst.xml`. -/
def deployed (W : World) : File where
  path := "input/deploy_inst.xml"
  protos :=
    [{ name := "Source", input := W.source "commodity1" natural (some 1) },
     { name := "Sink", input := W.sink ["commodity1"] }]
  builds := [(0, "Sink", 1), (1, "Source", 1)]

/-- `input/growth/source_sink_linear.xml`. -/
def growthLinear (W : World) : File where
  path := "input/growth/source_sink_linear.xml"
  protos :=
    [{ name := "Source1", input := W.source "commodity" natural (some (11/10)) },
     { name := "Source2", input := W.source "commodity" natural (some 2) },
     { name := "Sink", input := W.sink ["commodity"] }]
  builds := [(0, "Sink", 1)]

/-- `input/growth/deploy_and_manager_insts.xml`. -/
def growthDeploy (W : World) : File where
  path := "input/growth/deploy_and_manager_insts.xml"
  protos :=
    [{ name := "Source1", input := W.source "commodity1" natural (some 1) },
     { name := "Source2", input := W.source "commodity1" natural (some 1) },
     { name := "Sink", input := W.sink ["commodity1"] }]
  builds := [(0, "Sink", 1), (1, "Source1", 1)]

/-- `tests/input/dynamic_capacitated.xml`. -/
def capacitated (W : World) : File where
  path := "tests/input/dynamic_capacitated.xml"
  protos :=
    [{ name := "Source", input := W.source "commodity" hydrogen (some 1) },
     { name := "Sink", life := 2, input := W.sink ["commodity"] (some 1) }]
  builds := [(1, "Source", 3), (1, "Sink", 2), (2, "Sink", 2)]

/-- `tests/input/growth.xml`. -/
def growth (W : World) : File where
  path := "tests/input/growth.xml"
  protos :=
    [{ name := "Source1", input := W.source "commodity1" natural (some (11/10)) },
     { name := "Source2", input := W.source "commodity1" natural (some 2) },
     { name := "Source3", input := W.source "commodity2" natural (some 1) },
     { name := "Sink", input := W.sink ["commodity1", "commodity2"] }]
  builds := [(0, "Sink", 1)]

/-- All files, those that differ in the solver only once. -/
def files (W : World) : List File :=
  [recycle W, physorEnrichment W, physorSources W, enrichmentOne W, enrichmentLinear W, enrichmentNatu W,
    enrichmentSwu W, minimal W, minimalLife W, minimalThree W, minimalThreeLife W, deployed W, growthLinear W,
    growthDeploy W, capacitated W, growth W]

end Cyc.Shipped
