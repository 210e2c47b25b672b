import Verif.Source.Model
import Verif.Reactor.Model
import Verif.Storage.Model
import Verif.Toolkit.Map

/-!
# Model of the production capacities that facilities announce

`Source`, `Reactor` and `Storage` are `cyclus::toolkit::CommodityProducer`s. A prototype fills in the
table when it is loaded (`InitFrom(QueryableBackend*)`), a facility copies it from its prototype
(`InitFrom(X*)`), and institutions and regions read it. `CommodityProducer` itself is a cyclus class
(DESIGN.md, section 3): a `std::map` from commodities to `CommodInfo`.
-/

namespace Cyc.Producer

/-- `cyclus::toolkit::CommodInfo`. -/
structure Info where
  capacity : ℚ
  cost : ℚ
  deriving DecidableEq

/-- The commodities a producer makes. -/
abbrev Table := List (String × Info)

/-- `CommodInfo()`: no capacity, and the cost `kModifierLimit`, a parameter here. -/
def blank (limit : ℚ) : Info := ⟨0, limit⟩

/-- `CommodityProducer::Add`, `std::map::insert`: a commodity that is there already stays as it is. -/
def add (t : Table) (k : String) (i : Info) : Table :=
  if (Map.get? t k).isSome then t else t ++ [(k, i)]

/-- `CommodityProducer::SetCapacity`. -/
def setCapacity (limit : ℚ) (t : Table) (k : String) (q : ℚ) : Table :=
  Map.set t k { Map.getD t k (blank limit) with capacity := q }

/-- `CommodityProducer::SetCost`. -/
def setCost (limit : ℚ) (t : Table) (k : String) (q : ℚ) : Table :=
  Map.set t k { Map.getD t k (blank limit) with cost := q }

/-- `CommodityProducer::Copy`, called by `InitFrom(X*)` (`source.cc:19-22`, `reactor.cc:41-44`,
`storage.cc:32-35`). -/
def copy (limit : ℚ) (src : Table) : Table :=
  src.foldl (fun t x =>
    setCost limit
      (setCapacity limit (add t x.1 (blank limit)) x.1 (Map.getD src x.1 (blank limit)).capacity)
      x.1 (Map.getD src x.1 (blank limit)).cost) []

/-- `Source::InitFrom(QueryableBackend*)` (`source.cc:24-29`). -/
def loadSource (c : Source.Cfg) : Table := add [] c.outcommod ⟨c.throughput, c.throughput⟩

/-- The loop over the side products (`reactor.cc:53-57`), from index `i` on. -/
def addSides (qs : List ℚ) : Nat → List String → Table → R Table
  | _, [], t => .ok t
  | i, p :: ps, t => do
    let q ← at! qs i
    addSides qs (i + 1) ps (add t p ⟨q, q⟩)

/-- `Reactor::InitFrom(QueryableBackend*)` (`reactor.cc:46-58`). `power` is `power_name`. -/
def loadReactor (power : String) (c : Reactor.Cfg) : R Table :=
  addSides c.sideQty 0 c.sideProducts (add [] power ⟨c.powerCap, c.powerCap⟩)

/-- `Storage::InitFrom(QueryableBackend*)` (`storage.cc:38-44`). `front()` of an empty vector is
undefined behaviour. -/
def loadStorage (limit : ℚ) (c : Storage.Cfg) : R Table := do
  let k ← at! c.outCommods 0
  pure (setCapacity limit (add [] k (blank limit)) k c.throughput)

end Cyc.Producer
