import Verif.Enrichment.Restart
import Verif.FuelFab.Restart
import Verif.Reactor.Restart
import Verif.Sim.Plan
import Verif.Storage.Restart

/-!
# Snapshots of a simulation

cyclus stores the state of every facility (`Snapshot`, `SnapshotInv`) and can start a simulation from
what it stored: the facilities are read (`InitFrom`, `InitInv`) and enter the simulation at the time of
the snapshot. The functions are those of the archetypes, see there.
-/

namespace Cyc.Sim

/-- What is stored of a facility. -/
def Stored : Kind → Type
  | .conversion _ => List NMat
  | .enrichment _ => Enrichment.Snap
  | .fuelFab _ => FuelFab.Snap
  | .mixer _ => List (String × List NMat)
  | .reactor _ _ _ => Reactor.Snap × Nat
  | .separations _ => List (String × List NMat)
  | .sink _ => List ℚ × List Sink.Res
  | .source _ => List NMat
  | .storage _ _ => Storage.Snap Nat

/-- A snapshot of a facility: what is stored, and the state of the facility afterwards. The next free
identifier of a reactor (`Sim.reactor`) belongs to cyclus, which keeps it. -/
def store : (k : Kind) → (act k).S → R (Stored k × (act k).S)
  | .conversion c => fun s : Conversion.State => Conversion.snapshot c s
  | .enrichment c => fun s : Enrichment.State => Enrichment.snapshot c s
  | .fuelFab c => fun s : FuelFab.State => FuelFab.snapshot c s
  | .mixer c => fun s : Mixer.State => do
    let x ← Mixer.snapshot c s
    pure (x, s)
  | .reactor c _ _ => fun s : Reactor.State × Nat => do
    let (x, s1) ← Reactor.snapshot c s.1
    pure ((x, s.2), (s1, s.2))
  | .separations _ => fun s : Separations.State => .ok (Separations.snapshot s, s)
  | .sink c => fun s : ℤ × Sink.State => do
    let (x, s2) ← Sink.snapshot c s.2
    pure (x, (s.1, s2))
  | .source c => fun s : Source.State => Source.snapshot c s
  | .storage c _ => fun s : Storage.State Nat => Storage.snapshot c s

/-- A facility is read from what was stored, at time `t`; `junk` is the value of a member that is not
initialised (`Enrichment.restart`). -/
def resume (junk : ℚ) (t : Nat) : (k : Kind) → Stored k → R (act k).S
  | .conversion c => fun x : List NMat => Conversion.restart c x
  | .enrichment c => fun x : Enrichment.Snap => Enrichment.restart c junk x
  | .fuelFab c => fun x : FuelFab.Snap => FuelFab.restart c x
  | .mixer c => fun x : List (String × List NMat) => Mixer.restart c x
  | .reactor c _ _ => fun x : Reactor.Snap × Nat => do
    let s ← Reactor.restart c t x.1
    pure (s, x.2)
  | .separations c => fun x : List (String × List NMat) => do
    let s ← Separations.enter c
    Separations.restore c x { s with time := t }
  | .sink c => fun x : List ℚ × List Sink.Res => do
    let s ← Sink.restart c noRng t x
    pure (t, s)
  | .source c => fun x : List NMat => Source.restart c x
  | .storage c _ => fun x : Storage.Snap Nat => do
    let (_, s) ← Storage.restart c t x
    pure s

/-- The record of a facility in the output of a simulation. -/
structure Record where
  k : Kind
  x : Stored k

/-- A snapshot of all facilities. -/
def storeAll : List (Running act) → R (List Record × List (Running act))
  | [] => .ok ([], [])
  | p :: ps => do
    let (x, s) ← store p.k p.s
    let (xs, ps) ← storeAll ps
    pure (⟨p.k, x⟩ :: xs, ⟨p.k, s⟩ :: ps)

/-- A simulation is read from a snapshot of time `t`. -/
def resumeAll (junk : ℚ) (t : Nat) : List Record → R (List (Running act))
  | [] => .ok []
  | r :: rs => do
    let s ← resume junk t r.k r.x
    let ps ← resumeAll junk t rs
    pure (⟨r.k, s⟩ :: ps)

/-! ## What a user sees of it -/

/-- What can be seen of facilities: what they are and what they have. -/
def seen (ps : List (Running act)) : List (Kind × List NMat) := ps.map fun p => (p.k, holdings p.k p.s)

/-- What a restart keeps entirely: a conversion loses its product, mixers and separations facilities
do not come back as they were. -/
def Kept : (k : Kind) → (act k).S → Prop
  | .conversion _ => fun s : Conversion.State => s.output.items = []
  | .mixer _ => fun _ => False
  | .separations _ => fun _ => False
  | _ => fun _ => True

end Cyc.Sim
