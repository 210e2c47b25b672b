import Verif.Sim.Lives

/-!
# The limits of facilities

What the input of a prototype says about how much it works through in a time step, and how much fits
into its stores.
-/

namespace Cyc.Sim

/-- What a facility works through in a time step at most. An enrichment facility is limited by separative
work, a reactor by its cycle; a sink gives nothing. -/
def pace : Kind → Option ℚ
  | .conversion c => some c.throughput
  | .enrichment _ => none
  | .fuelFab c => some c.throughput
  | .mixer c => some c.throughput
  | .reactor _ _ _ => none
  | .separations c => some c.throughput
  | .sink _ => some 0
  | .source c => some c.throughput
  | .storage c _ => if 0 ≤ c.throughput then some c.throughput else none

/-- The stores of a facility are within the sizes of its input. A store without a size is not limited:
the product of a conversion, the tails of an enrichment facility, the leftover of a separations
facility, and streams of a negative size. A storage facility keeps its limit if its buy policy asks for
no more than fits into it. -/
def Within : (k : Kind) → (act k).S → Prop
  | .conversion c => fun s : Conversion.State => totalQty s.input.items ≤ c.capacity
  | .enrichment c => fun s : Enrichment.State => totalQty s.inventory.items ≤ c.maxFeed
  | .fuelFab c => fun s : FuelFab.State => totalQty s.fill.items ≤ max 0 c.fillSize ∧
    totalQty s.fiss.items ≤ max 0 c.fissSize ∧ totalQty s.topup.items ≤ max 0 c.topupSize
  | .mixer c => fun s : Mixer.State => totalQty s.output.items ≤ c.outSize ∧
    ∀ (k : Nat) x, c.streams[k]? = some x → totalQty (Mixer.held s k) ≤ x.size
  | .reactor c _ _ => fun s : Reactor.State × Nat => s.1.core.items.length ≤ c.nCore ∧
    s.1.fresh.items.length ≤ c.nFresh ∧ s.1.spent.items.length ≤ c.nSpent
  | .separations c => fun s : Separations.State => totalQty s.feed.items ≤ c.feedbufSize ∧
    ∀ x ∈ c.streams, 0 ≤ x.2.cap → totalQty (Separations.held s x.1) ≤ x.2.cap
  | .sink c => fun s : ℤ × Sink.State => totalQty s.2.inventory.items ≤ c.maxInv
  | .source c => fun s : Source.State => totalQty s.inventory.items ≤ c.size
  | .storage c want => fun s : Storage.State Nat => 0 ≤ c.maxInv →
    (∀ s, want s ≤ c.maxInv - totalQty (Storage.contents s)) →
    totalQty (Storage.contents s) ≤ c.maxInv

/-- What a facility may give in a single time step. -/
def perStep : Kind → Option ℚ
  | .fuelFab c => some c.throughput
  | .source c => some c.throughput
  | .sink _ => some 0
  | _ => none

/-- What a facility may be given in a single time step. -/
def intake : Kind → Option ℚ
  | .conversion c => some c.capacity
  | .enrichment c => some c.maxFeed
  | .separations c => some c.feedbufSize
  | .sink c => some c.capacity
  | .source _ => some 0
  | _ => none

end Cyc.Sim
