import Verif.Sim.Actors

/-!
# What may be left out of the input

The directives `#pragma cyclus var` in the headers make `cycpp` generate `InitFrom` and the schema. A variable
with a `"default"` may be left out of the input file and has that value then; one without must be there.

Here, the values that may be left out are `Option`s; required input, and what does not come from the input of
the prototype (recipes, tolerances, dates), is taken from a configuration whose optional members are ignored.
Not here: variables that the models of the archetypes do not have (names for the database, packages of a
storage facility), and those that come from snippets of cyclus (buy policies, positions), which are not
optional here.
-/

namespace Cyc.Input

/-- `CY_LARGE_DOUBLE` of cyclus. -/
def large : ℚ := 10 ^ 299

/-- `conversion.h:100-120`. -/
structure ConversionOpts where
  throughput : Option ℚ := none
  capacity : Option ℚ := none

def ConversionOpts.fill (o : ConversionOpts) (c : Conversion.Cfg) : Conversion.Cfg :=
  { c with
    throughput := o.throughput.getD large
    capacity := o.capacity.getD large }

/-- `enrichment.h:313-377`. -/
structure EnrichmentOpts where
  tailsAssay : Option ℚ := none
  initialFeed : Option ℚ := none
  maxFeed : Option ℚ := none
  maxEnrich : Option ℚ := none
  orderPrefs : Option Bool := none
  swuCapacity : Option ℚ := none

def EnrichmentOpts.fill (o : EnrichmentOpts) (c : Enrichment.Cfg) : Enrichment.Cfg :=
  { c with
    tailsAssay := o.tailsAssay.getD (3 / 1000)
    initialFeed := o.initialFeed.getD 0
    maxFeed := o.maxFeed.getD large
    maxEnrich := o.maxEnrich.getD 1
    orderPrefs := o.orderPrefs.getD true
    swuCapacity := o.swuCapacity.getD large }

/-- `fuel_fab.h:147-153, 179-194, 206-237, 249-257`. A recipe is given by what its name stands for; the
default, an empty name, stands for none. -/
structure FuelFabOpts where
  fillPrefs : Option (List ℚ) := none
  fissPrefs : Option (List ℚ) := none
  fissRecipe : Option FuelFab.NMat := none
  topupCommod : Option String := none
  topupPref : Option ℚ := none
  topupRecipe : Option FuelFab.NMat := none
  topupSize : Option ℚ := none
  throughput : Option ℚ := none

def FuelFabOpts.fill (o : FuelFabOpts) (c : FuelFab.Cfg) : FuelFab.Cfg :=
  { c with
    fillPrefs := o.fillPrefs.getD []
    fissPrefs := o.fissPrefs.getD []
    fissRecipe := o.fissRecipe
    topupCommod := o.topupCommod.getD ""
    topupPref := o.topupPref.getD 1
    topupRecipe := o.topupRecipe
    topupSize := o.topupSize.getD 0
    throughput := o.throughput.getD large }

/-- `mixer.h:85-108`. -/
structure MixerOpts where
  outSize : Option ℚ := none
  throughput : Option ℚ := none

def MixerOpts.fill (o : MixerOpts) (c : Mixer.Cfg) : Mixer.Cfg :=
  { c with
    outSize := o.outSize.getD large
    throughput := o.throughput.getD large }

/-- `reactor.h:202-210, 231-267, 288-356, 368-380, 390-395, 399-424`. -/
structure ReactorOpts where
  prefs : Option (List ℚ) := none
  recipeChangeTimes : Option (List Nat) := none
  recipeChangeCommods : Option (List String) := none
  recipeChangeIn : Option (List String) := none
  recipeChangeOut : Option (List String) := none
  nCore : Option Nat := none
  nFresh : Option Nat := none
  nSpent : Option Nat := none
  cycleTime : Option Nat := none
  refuelTime : Option Nat := none
  cycleStep : Option Nat := none
  powerCap : Option ℚ := none
  sideProducts : Option (List String) := none
  sideQty : Option (List ℚ) := none
  decomTransmuteAll : Option Bool := none
  prefChangeTimes : Option (List Nat) := none
  prefChangeCommods : Option (List String) := none
  prefChangeValues : Option (List ℚ) := none

def ReactorOpts.fill (o : ReactorOpts) (c : Reactor.Cfg) : Reactor.Cfg :=
  { c with
    prefs := o.prefs.getD []
    recipeChangeTimes := o.recipeChangeTimes.getD []
    recipeChangeCommods := o.recipeChangeCommods.getD []
    recipeChangeIn := o.recipeChangeIn.getD []
    recipeChangeOut := o.recipeChangeOut.getD []
    nCore := o.nCore.getD 3
    nFresh := o.nFresh.getD 0
    nSpent := o.nSpent.getD 1000000000
    cycleTime := o.cycleTime.getD 18
    refuelTime := o.refuelTime.getD 1
    cycleStep := o.cycleStep.getD 0
    powerCap := o.powerCap.getD 0
    sideProducts := o.sideProducts.getD []
    sideQty := o.sideQty.getD []
    decomTransmuteAll := o.decomTransmuteAll.getD false
    prefChangeTimes := o.prefChangeTimes.getD []
    prefChangeCommods := o.prefChangeCommods.getD []
    prefChangeValues := o.prefChangeValues.getD [] }

/-- `separations.h:120-128, 151-183`. An unlimited leftover buffer is `none` in the model of the facility, which
is what the default stands for. -/
structure SeparationsOpts where
  feedPrefs : Option (List ℚ) := none
  throughput : Option ℚ := none
  leftoverCommod : Option String := none
  leftoverCap : Option ℚ := none

def SeparationsOpts.fill (o : SeparationsOpts) (c : Separations.Cfg) : Separations.Cfg :=
  { c with
    feedPrefs := o.feedPrefs.getD []
    throughput := o.throughput.getD large
    leftoverCommod := o.leftoverCommod.getD "default-waste-stream"
    leftoverCap := o.leftoverCap }

/-- `sink.h:130-164, 171-261`. -/
structure SinkOpts where
  prefs : Option (List ℚ) := none
  recipe : Option Sink.NMat := none
  maxInv : Option ℚ := none
  capacity : Option ℚ := none
  sizeType : Option String := none
  sizeMean : Option ℚ := none
  sizeStd : Option ℚ := none
  freqType : Option String := none
  freqMean : Option ℚ := none
  freqStd : Option ℚ := none
  freqMin : Option ℤ := none
  freqMax : Option ℤ := none

def SinkOpts.fill (o : SinkOpts) (c : Sink.Cfg) : Sink.Cfg :=
  { c with
    prefs := o.prefs.getD []
    recipe := o.recipe
    maxInv := o.maxInv.getD large
    capacity := o.capacity.getD large
    sizeType := o.sizeType.getD "None"
    sizeMean := o.sizeMean.getD 1
    sizeStd := o.sizeStd.getD (1 / 10)
    freqType := o.freqType.getD "None"
    freqMean := o.freqMean.getD 1
    freqStd := o.freqStd.getD 1
    freqMin := o.freqMin.getD 1
    freqMax := o.freqMax.getD Sink.intMax }

/-- `source.h:95-150`. A package and a transport unit are given by what they do; the defaults, `"unpackaged"`
and `"unrestricted"`, do nothing. -/
structure SourceOpts where
  recipe : Option Source.NMat := none
  size : Option ℚ := none
  throughput : Option ℚ := none
  package : Option (ℚ → List ℚ) := none
  unit : Option (Nat → Nat) := none

def SourceOpts.fill (o : SourceOpts) (c : Source.Cfg) : Source.Cfg :=
  { c with
    recipe := o.recipe
    size := o.size.getD large
    throughput := o.throughput.getD large
    fill := o.package.getD fun q => [q]
    ship := o.unit.getD id }

/-- `storage.h:138-194`. -/
structure StorageOpts where
  prefs : Option (List ℚ) := none
  inRecipe : Option String := none
  residence : Option Nat := none
  throughput : Option ℚ := none
  maxInv : Option ℚ := none
  discrete : Option Bool := none

def StorageOpts.fill (o : StorageOpts) (c : Storage.Cfg) : Storage.Cfg :=
  { c with
    prefs := o.prefs.getD []
    inRecipe := o.inRecipe.getD ""
    residence := o.residence.getD 0
    throughput := o.throughput.getD large
    maxInv := o.maxInv.getD large
    discrete := o.discrete.getD false }

/-- The input of a prototype: what is required, and what is given of the rest. -/
inductive Input
  | conversion (c : Conversion.Cfg) (o : ConversionOpts)
  | enrichment (c : Enrichment.Cfg) (o : EnrichmentOpts)
  | fuelFab (c : FuelFab.Cfg) (o : FuelFabOpts)
  | mixer (c : Mixer.Cfg) (o : MixerOpts)
  | reactor (c : Reactor.Cfg) (o : ReactorOpts) (enc : Sim.NMat → Nat) (dec : Nat → Sim.NMat)
  | separations (c : Separations.Cfg) (o : SeparationsOpts)
  | sink (c : Sink.Cfg) (o : SinkOpts)
  | source (c : Source.Cfg) (o : SourceOpts)
  | storage (c : Storage.Cfg) (o : StorageOpts) (want : Storage.State Nat → ℚ)

/-- The prototype that the input is read as. -/
def Input.kind : Input → Sim.Kind
  | .conversion c o => .conversion (o.fill c)
  | .enrichment c o => .enrichment (o.fill c)
  | .fuelFab c o => .fuelFab (o.fill c)
  | .mixer c o => .mixer (o.fill c)
  | .reactor c o enc dec => .reactor (o.fill c) enc dec
  | .separations c o => .separations (o.fill c)
  | .sink c o => .sink (o.fill c)
  | .source c o => .source (o.fill c)
  | .storage c o want => .storage (o.fill c) want

end Cyc.Input
