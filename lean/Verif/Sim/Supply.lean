import Verif.Sim.Lives

/-!
# Commodities, suppliers and customers

What the input of a prototype says about what it buys and sells, and when a source and a sink are large
enough for the reactors of a simulation.
-/

namespace Cyc.Sim

/-- The commodities that a prototype buys. -/
def buysOf : Kind → List String
  | .conversion c => c.incommods
  | .enrichment c => [c.feedCommod]
  | .fuelFab c => c.fissCommods ++ c.fillCommods ++ [c.topupCommod]
  | .mixer c => c.streams.flatMap fun x => x.commods.map Prod.fst
  | .reactor c _ _ => c.inCommods
  | .separations c => c.feedCommods
  | .sink c => c.commods
  | .source _ => []
  | .storage c _ => c.inCommods

/-- The commodities that a prototype sells. -/
def sellsOf : Kind → List String
  | .conversion c => [c.outcommod]
  | .enrichment c => [c.tailsCommod, c.productCommod]
  | .fuelFab c => [c.outCommod]
  | .mixer c => [c.outCommod]
  | .reactor c _ _ => c.outCommods
  | .separations c => c.leftoverCommod :: c.streams.map Prod.fst
  | .sink _ => []
  | .source c => [c.outcommod]
  | .storage c _ => c.outCommods

/-- The prototype is a reactor. -/
def Kind.isReactor : Kind → Bool
  | .reactor _ _ _ => true
  | _ => false

/-- What fits into the core and the fresh fuel storage of a reactor. -/
def freshRoom : Kind → ℚ
  | .reactor c _ _ => (c.nCore + c.nFresh : ℕ) * c.assemSize
  | _ => 0

/-- What fits into the spent fuel storage of a reactor. -/
def spentRoom : Kind → ℚ
  | .reactor c _ _ => c.nSpent * c.assemSize
  | _ => 0

/-- The source can supply all the reactors among the prototypes `ks` for `n` time steps: only reactors
buy what it sells, in a time step it can fill all of them, and it does not run out. -/
structure Supplies (ks : List Kind) (f : Source.Cfg) (n : Nat) : Prop where
  only : ∀ k ∈ ks, f.outcommod ∈ buysOf k → k.isReactor = true
  enough : (ks.map freshRoom).sum ≤ f.throughput
  lasts : n * f.throughput ≤ f.size
  offers : f.eps ≤ f.throughput

/-- The feed of assay `x` for a kilogram of product of assay `p`, with tails of assay `w`. -/
def feedPerKg (p x w : ℚ) : ℚ := (p - w) / (x - w)

/-- The separative work for it; `V` is the value function. -/
def workPerKg (V : ℚ → ℚ) (p x w : ℚ) : ℚ :=
  V p + (feedPerKg p x w - 1) * V w - feedPerKg p x w * V x

/-- The enrichment facility can supply all the reactors among the prototypes `ks` as long as it has feed:
only reactors buy what it makes; its feed has between `lo` and `hi` of uranium-235, and for a kilogram of
any product it is asked for it takes no more than `φ` of feed and `σ` of separative work; in a time step
it has the capacity to fill all the reactors. -/
structure Enriches (A : Agreement) (ks : List Kind) (c : Enrichment.Cfg) (lo hi φ σ : ℚ) : Prop where
  only : ∀ k ∈ ks, c.productCommod ∈ buysOf k → k.isReactor = true
  tails : c.tailsAssay < lo
  recipe : Assayed lo hi c.feedRecipe
  feed : ∀ m, Solid m → A.mat c.feedCommod m → Assayed lo hi m
  rich : ∀ m, Solid m → A.target c.productCommod m → Enrichment.CodeFeasible c m →
    hi * (m.mass Enrichment.u235 + m.mass Enrichment.u238) ≤ m.mass Enrichment.u235
  uses : ∀ m, Solid m → A.target c.productCommod m → Enrichment.CodeFeasible c m →
    ∀ x, lo ≤ x → x ≤ hi → feedPerKg (Enrichment.assay m) x c.tailsAssay ≤ φ ∧
      workPerKg c.value (Enrichment.assay m) x c.tailsAssay ≤ σ
  enough : σ * (ks.map freshRoom).sum ≤ c.swuCapacity

/-- The first feed of the enrichment facility lasts for `n` time steps, at `φ` of feed for a kilogram of
product. -/
def Lasts (ks : List Kind) (c : Enrichment.Cfg) (φ : ℚ) (n : Nat) : Prop :=
  n * (φ * (ks.map freshRoom).sum) + c.eps ≤ c.initialFeed

/-- The source keeps the enrichment facility, which is number `i` among the prototypes `ks`, in feed for `n`
time steps: nobody else buys what it sells; in a time step it gives as much as the enrichment facility
uses, and it does not run out; the enrichment facility starts with enough feed for a step and has room for
another. -/
structure Replenishes (ks : List Kind) (i : Nat) (c : Enrichment.Cfg) (f : Source.Cfg) (φ : ℚ) (n : Nat) :
    Prop where
  sells : f.outcommod = c.feedCommod
  only : ∀ (j : Nat) k, ks[j]? = some k → c.feedCommod ∈ buysOf k → j = i
  rate : φ * (ks.map freshRoom).sum ≤ f.throughput
  lasts : n * f.throughput ≤ f.size
  offers : f.eps ≤ f.throughput
  amounts : f.lo ≤ 0
  first : φ * (ks.map freshRoom).sum + c.eps ≤ c.initialFeed
  room : 2 * (φ * (ks.map freshRoom).sum + c.eps) ≤ c.maxFeed

/-- The sink can take the spent fuel of all the reactors among the prototypes `ks` for `n` time steps:
only reactors sell what it buys, in a time step it can take what all of them have, and it does not get
full. -/
structure Drains (ks : List Kind) (w : Sink.Cfg) (n : Nat) : Prop where
  only : ∀ k ∈ ks, (∃ x ∈ w.commods, x ∈ sellsOf k) → k.isReactor = true
  enough : (ks.map spentRoom).sum ≤ w.capacity
  lasts : n * w.capacity ≤ w.maxInv
  asks : w.eps < w.capacity

/-- A reactor that gets at most the energy `B` out of a kilogram of the fuel it discharges: it runs at
the power `powerCap` for `cycleTime` steps before it discharges a batch. It is deployed at the beginning
of a cycle. -/
structure Burns (B : ℚ) (c : Reactor.Cfg) : Prop where
  batch : 0 < min c.nBatch c.nCore
  starts : c.cycleStep = 0
  power : 0 ≤ c.powerCap
  burnup : c.powerCap * c.cycleTime ≤ B * ((min c.nBatch c.nCore : ℕ) * c.assemSize)

/-- The prototype at the position `j` is a reactor. -/
def reactorAt (ks : List Kind) (j : Nat) : Bool := (ks[j]?.map Kind.isReactor).getD false

/-- The fuel cycle is open: what reactors sell ends up with the facilities at the positions of `D`,
none of which is a reactor, and what those sell stays among them. -/
structure Open (ks : List Kind) (D : Nat → Bool) : Prop where
  spent : ∀ (i j : Nat) k k', ks[i]? = some k → ks[j]? = some k' → k.isReactor = true ∨ D i = true →
    (∃ x ∈ sellsOf k, x ∈ buysOf k') → D j = true
  apart : ∀ (j : Nat) k, ks[j]? = some k → D j = true → k.isReactor = false

end Cyc.Sim
