import Verif.Toolkit.Map

/-!
# Model of `cycamore::GrowthRegion` (`src/growth_region.cc`, `src/growth_region.h`),
`cycamore::ManagerInst` (`src/manager_inst.cc`, `src/manager_inst.h`) and the registration of
producers by `cycamore::DeployInst` (`src/deploy_inst.cc`)

One definition per function, and a world of one region with its institutions and their facilities,
driven by the cyclus kernel. The schedule of `DeployInst` is in `Verif/Deploy/Model.lean`.
`WriteProducerInformation`, the log and positions have no effect on the modelled behaviour. COIN
support is assumed.
-/

namespace Cyc.Region

/-! ## Facilities and institutions -/

/-- A facility. `caps` is the production capacity of each commodity if the archetype is a
`CommodityProducer`, and `none` otherwise. -/
structure Fac where
  id : Nat
  caps : Option (List (String × ℚ))
  deriving DecidableEq

/-- `CommodityProducer::Capacity`; zero for a commodity that is not produced. -/
def Fac.capacity (a : Fac) (k : String) : ℚ :=
  match a.caps with
  | none => 0
  | some l => Map.getD l k 0

/-- The two institutions: a `ManagerInst` is a `CommodityProducerManager` and a `Builder`
(`manager_inst.h:13-17`), a `DeployInst` is only the former (`deploy_inst.h:22-25`). -/
inductive Kind
  | manager | deploy
  deriving DecidableEq

/-- An institution: the prototypes it can build (`manager_inst.h:57-65`, user input), the registered
producers (`CommodityProducerManager`), and the prototypes registered with `Builder`. -/
structure Inst where
  id : Nat
  kind : Kind
  prototypes : List String
  producers : List Fac
  builds : List String
  deriving DecidableEq

/-- Insertion in a `std::set`. -/
def insert {α : Type} [DecidableEq α] (l : List α) (a : α) : List α := if a ∈ l then l else l ++ [a]

/-- Removal from a `std::set`. -/
def remove {α : Type} [DecidableEq α] (l : List α) (a : α) : List α := l.filter fun b => decide (b ≠ a)

/-- `Register_` (`manager_inst.cc:47-58`, `deploy_inst.cc:77-88`). -/
def register (i : Inst) (a : Fac) : Inst :=
  if a.caps.isSome then { i with producers := insert i.producers a } else i

/-- `Unregister_` (`manager_inst.cc:60-67`, `deploy_inst.cc:90-97`). -/
def unregister (i : Inst) (a : Fac) : Inst :=
  if a.caps.isSome then { i with producers := remove i.producers a } else i

/-- `BuildNotify` (`manager_inst.cc:13-15`, `deploy_inst.cc:69-71`). -/
def buildNotify (i : Inst) (a : Fac) : Inst := register i a

/-- `DecomNotify` (`manager_inst.cc:17-19`, `deploy_inst.cc:73-75`). -/
def decomNotify (i : Inst) (a : Fac) : Inst := unregister i a

/-- A table of prototypes: what a facility of that name produces. -/
abbrev Protos := List (String × Option (List (String × ℚ)))

/-- The loop over the prototypes of `ManagerInst::EnterNotify` (`manager_inst.cc:32-42`): each is
created, and registered with `Builder` if it is a producer. `Builder` keeps a set of pointers, so that a
prototype that is listed twice is registered as two objects; here the names are kept, and it is there
once. Only the decision of the building manager sees that set, and it is arbitrary here. -/
def registerPrototypes (T : Protos) : List String → Inst → R Inst
  | [], i => .ok i
  | p :: ps, i =>
    match Map.get? T p with
    | none => .error .key
    | some c => registerPrototypes T ps
        (if c.isSome then { i with builds := insert i.builds p } else i)

/-- `EnterNotify` (`manager_inst.cc:21-45`; `deploy_inst.cc:46-67`, which registers nothing). The
lengths that `DeployInst` checks are in `Verif/Deploy/Model.lean`. -/
def enterInst (T : Protos) (children : List Fac) (i : Inst) : R Inst :=
  match i.kind with
  | .manager => registerPrototypes T i.prototypes (children.foldl register i)
  | .deploy => .ok i

/-- `CommodityProducerManager::TotalProductionCapacity`. -/
def totalCapacity (i : Inst) (k : String) : ℚ := (i.producers.map fun a => a.capacity k).sum

/-! ## Demand -/

/-- One piece of a `PiecewiseFunction`. -/
structure Piece where
  start : ℚ
  offset : ℚ
  f : ℚ → ℚ

/-- `PiecewiseFunction::value`: the newest piece that has started; the pieces are listed from the
newest to the oldest. -/
def value : List Piece → ℚ → ℚ
  | [], _ => 0
  | p :: ps, x => if x < p.start then value ps x else p.f (x - p.start) + p.offset

/-- A piece that starts at `start` would not start after the last one. -/
def tooEarly (ps : List Piece) (start : ℚ) : Bool :=
  match ps with
  | [] => false
  | p :: _ => decide (start ≤ p.start)

/-- `PiecewiseFunctionFactory::AddFunction`: a piece that does not start after the last one throws; a
continuous piece starts at the value that the function has there. -/
def addFunction (ps : List Piece) (f : ℚ → ℚ) (start : ℚ) (continuous : Bool) : R (List Piece) :=
  if tooEarly ps start then .error .value
  else .ok (⟨start, if continuous then value ps start - f 0 else 0, f⟩ :: ps)

/-- One piece of the user input: start, type of function, parameters. -/
structure PieceCfg where
  start : ℤ
  type : String
  params : String

/-- The loop of `AddCommodityDemand_` (`growth_region.cc:26-32`); `fn` is
`BasicFunctionFactory::GetFunctionPtr`. -/
def addPieces (fn : String → String → R (ℚ → ℚ)) : List PieceCfg → Bool → List Piece → R (List Piece)
  | [], _, ps => .ok ps
  | p :: rest, continuous, ps => do
    let f ← fn p.type p.params
    let ps ← addFunction ps f p.start continuous
    addPieces fn rest true ps

/-! ## The region -/

/-- The user input (`growth_region.h:73-105`), in the order of the map. -/
structure Cfg where
  demand : List (String × List PieceCfg)
  fn : String → String → R (ℚ → ℚ)

/-- The mutable members: the producer managers and the demand of each commodity in `sdmanager_`, and
the builders in `buildmanager_` (`growth_region.h:107-113`). Agents are given by their identifiers. -/
structure Reg where
  managers : List Nat
  builders : List Nat
  demands : List (String × List Piece)

/-- `Register_` (`growth_region.cc:63-87`). -/
def registerInst (r : Reg) (i : Inst) : Reg :=
  { r with
    managers := insert r.managers i.id
    builders := if i.kind = .manager then insert r.builders i.id else r.builders }

/-- `Unregister_` (`growth_region.cc:89-105`), which is all of `DecomNotify` (`growth_region.cc:59-61`). -/
def unregisterInst (r : Reg) (i : Inst) : Reg :=
  { r with
    managers := remove r.managers i.id
    builders := if i.kind = .manager then remove r.builders i.id else r.builders }

/-- The loop over the commodities of `EnterNotify` (`growth_region.cc:49-54`), with
`AddCommodityDemand_` (`growth_region.cc:16-37`). -/
def addDemands (fn : String → String → R (ℚ → ℚ)) : List (String × List PieceCfg) → Reg → R Reg
  | [], r => .ok r
  | (k, ps) :: rest, r => do
    let f ← addPieces fn ps false []
    addDemands fn rest { r with demands := Map.set r.demands k f }

/-- `EnterNotify` (`growth_region.cc:39-57`), with the children that are there. -/
def enterRegion (c : Cfg) (is : List Inst) : R Reg :=
  addDemands c.fn c.demand (is.foldl registerInst ⟨[], [], []⟩)

/-- `SupplyDemandManager::Supply`: the sum over the registered managers. -/
def supply (r : Reg) (is : List Inst) (k : String) : ℚ :=
  ((is.filter fun i => decide (i.id ∈ r.managers)).map fun i => totalCapacity i k).sum

/-- `SupplyDemandManager::Demand`; a commodity that is not registered throws. -/
def demandOf (r : Reg) (k : String) (t : ℤ) : R ℚ :=
  match Map.get? r.demands k with
  | some ps => .ok (value ps t)
  | none => .error .key

/-- A build order: the builder, if it is an institution; the prototype, if it is an agent; the
number. -/
structure Order where
  builder : Option Nat
  producer : Option String
  number : ℤ
  deriving DecidableEq

/-- `OrderBuilds` (`growth_region.cc:133-173`) after the decision: the builds that are scheduled for
the next step. -/
def orderBuilds : List Order → R (List (Nat × String))
  | [] => .ok []
  | o :: os =>
    match o.builder, o.producer with
    | some b, some p => do
      let l ← orderBuilds os
      pure (List.replicate o.number.toNat (b, p) ++ l)
    | _, _ => .error .cast

/-- The body of the loop of `Tick` (`growth_region.cc:112-129`); `decide` is
`BuildingManager::MakeBuildDecision`. -/
def tickOne (r : Reg) (is : List Inst) (t : ℤ) (decision : String → ℚ → List Order) (k : String) :
    R (List (Nat × String)) := do
  let d ← demandOf r k t
  if d - supply r is k > 0 then orderBuilds (decision k (d - supply r is k)) else pure []

/-- `Tick` (`growth_region.cc:107-131`). -/
def tick (r : Reg) (is : List Inst) (t : ℤ) (decision : String → ℚ → List Order) :
    List String → R (List (Nat × String))
  | [] => .ok []
  | k :: ks => do
    let l ← tickOne r is t decision k
    let m ← tick r is t decision ks
    pure (l ++ m)

/-! ## The world, as the cyclus kernel drives it (DESIGN.md, section 3) -/

/-- A region with institutions. `living` are the facilities that exist, with the institution they
belong to; `queue` are the builds of the next step; `next` is the next free identifier of an agent. -/
structure World where
  region : Reg
  insts : List Inst
  living : List (Nat × Fac)
  queue : List (Nat × String)
  next : Nat

/-- The institutions enter, with the facilities that exist. -/
def enterInsts (T : Protos) (living : List (Nat × Fac)) : List Inst → R (List Inst)
  | [] => .ok []
  | i :: is => do
    let j ← enterInst T ((living.filter fun x => decide (x.1 = i.id)).map Prod.snd) i
    let js ← enterInsts T living is
    pure (j :: js)

/-- The simulation starts, or is restarted, with institutions `is` and facilities `living`; `queue`
are the scheduled builds. -/
def enter (c : Cfg) (T : Protos) (is : List Inst) (living : List (Nat × Fac))
    (queue : List (Nat × String)) (next : Nat) : R World := do
  let js ← enterInsts T living (is.map fun i => { i with producers := [], builds := [] })
  let r ← enterRegion c js
  pure ⟨r, js, living, queue, next⟩

/-- `f` is applied to the institution with identifier `b`. -/
def notify (is : List Inst) (b : Nat) (f : Inst → Inst) : List Inst :=
  is.map fun i => if i.id = b then f i else i

/-- `Timer::DoBuild`, for institutions: one that enters is told, with no facilities yet. The region is
told as well, but `GrowthRegion` has no `BuildNotify`, and that of `Region` does nothing. -/
def arrive (T : Protos) : List (Kind × List String) → World → R World
  | [], w => .ok w
  | (k, ps) :: l, w => do
    let j ← enterInst T [] ⟨w.next, k, ps, [], []⟩
    arrive T l { w with insts := w.insts ++ [j], next := w.next + 1 }

/-- `Timer::DoBuild`, for facilities: each scheduled build creates one, and the institution is told.
The queue holds a pointer to the institution, which dangles if it was decommissioned. -/
def doBuild (T : Protos) : List (Nat × String) → World → R World
  | [], w => .ok w
  | (b, p) :: q, w =>
    match Map.get? T p with
    | none => .error .key
    | some c =>
      if b ∈ w.insts.map Inst.id then
        doBuild T q
          { w with
            insts := notify w.insts b (buildNotify · ⟨w.next, c⟩)
            living := w.living ++ [(b, ⟨w.next, c⟩)]
            next := w.next + 1 }
      else .error .ub

/-- `Timer::DoDecom`, for facilities: each one leaves, and its institution is told. -/
def doDecom : List (Nat × Fac) → World → World
  | [], w => w
  | (b, a) :: l, w => doDecom l
      { w with
        insts := notify w.insts b (decomNotify · a)
        living := w.living.filter fun x => decide (x ≠ (b, a)) }

/-- `Timer::DoDecom`, for institutions: the region is told, and the facilities leave with their
institution (`Agent::Decommission`). -/
def leave : List Nat → World → World
  | [], w => w
  | b :: l, w => leave l
      { w with
        region := (w.insts.filter fun i => decide (i.id = b)).foldl unregisterInst w.region
        insts := w.insts.filter fun i => decide (i.id ≠ b)
        living := w.living.filter fun x => decide (x.1 ≠ b) }

/-- What the rest of the simulation does in one step: the institutions that enter (kind and
prototypes), the builds that
others have scheduled (a `DeployInst`, for example), the decisions of the building manager, the
facilities and the institutions that are decommissioned at the end of the step. -/
structure In where
  arrive : List (Kind × List String)
  builds : List (Nat × String)
  decision : String → ℚ → List Order
  decom : List (Nat × Fac)
  leave : List Nat

/-- What an observer sees of one step: the facilities that exist at the tick, the supply of each
commodity as the region sees it, and the builds that it schedules. -/
structure Out where
  living : List (Nat × Fac)
  supply : String → ℚ
  ordered : List (Nat × String)

/-- One time step. -/
def step (c : Cfg) (T : Protos) (t : ℤ) (w : World) (i : In) : R (Out × World) := do
  let w₁ ← arrive T i.arrive { w with queue := [] }
  let w₂ ← doBuild T (w.queue ++ i.builds) w₁
  let l ← tick w₂.region w₂.insts t i.decision (c.demand.map Prod.fst)
  pure (⟨w₂.living, supply w₂.region w₂.insts, l⟩, leave i.leave (doDecom i.decom { w₂ with queue := l }))

/-- Any number of time steps. -/
def run (c : Cfg) (T : Protos) : ℤ → World → List In → R (List Out × World)
  | _, w, [] => .ok ([], w)
  | t, w, i :: is => do
    let (o, w) ← step c T t w i
    let (os, w) ← run c T (t + 1) w is
    pure (o :: os, w)

end Cyc.Region
