import Verif.Conversion.Model
import Verif.Deploy.Model
import Verif.Enrichment.Model
import Verif.FuelFab.Model
import Verif.Mixer.Model
import Verif.Reactor.Model
import Verif.Region.Model
import Verif.Separations.Model
import Verif.Sink.Model
import Verif.Source.Model
import Verif.Storage.Model

/-!
# The calls of `InitializePosition` in the twelve `EnterNotify`

`InitializePosition` is a snippet of cyclus (`toolkit/position.cycpp.h`) that all archetypes include: it sets the
position of the agent to `latitude` and `longitude` of the input and adds a row with it to the table `AgentPosition`.
What else `EnterNotify` does is in the models of the archetypes.
-/

namespace Cyc.Position

/-- Latitude and longitude. -/
abbrev Place := ℚ × ℚ

/-- The table `AgentPosition`: the agent and its position. -/
abbrev Table := List (Nat × Place)

/-- An agent that enters, by its archetype; with what `EnterNotify` depends on. -/
inductive Agent
  | conversion (c : Conversion.Cfg)
  | enrichment (c : Enrichment.Cfg)
  | fuelFab (c : FuelFab.Cfg)
  | mixer (c : Mixer.Cfg)
  | reactor (c : Reactor.Cfg)
  | separations (c : Separations.Cfg)
  | sink (c : Sink.Cfg) (g : Sink.Rng) (t : ℤ)
  | source (c : Source.Cfg)
  | storage (c : Storage.Cfg)
  | deployInst (d : Deploy.Inst)
  | managerInst (T : Region.Protos) (children : List Region.Fac) (i : Region.Inst)
  | growthRegion (c : Region.Cfg) (children : List Region.Inst)

/-- `InitializePosition` of the agent `n`. -/
def place (n : Nat) (p : Place) (l : Table) : Table := l ++ [(n, p)]

/-- The loop over the streams of `Mixer::EnterNotify` (`mixer.cc:50-62`), and that over the streams of
`Separations::EnterNotify` (`separations.cc:54-67`): each has the call in its body. -/
def loop {α : Type} (n : Nat) (p : Place) : List α → Table → Table
  | [], l => l
  | _ :: xs, l => loop n p xs (place n p l)

/-- `EnterNotify` of the agent `n` at the place `p`: what it does to the table. `conversion.cc:44-47`,
`enrichment.cc:57-60`, `fuel_fab.cc:136-165`, `mixer.cc:42-94`, `reactor.cc:60-113`,
`separations.cc:47-98`, `sink.cc:41-75`, `source.cc:53-56`, `storage.cc:47-116`,
`deploy_inst.cc:46-67`, `manager_inst.cc:21-45`, `growth_region.cc:39-57`. -/
def enterNotify (n : Nat) (p : Place) (l : Table) : Agent → R Table
  | .conversion _ => pure (place n p l)
  | .enrichment _ => pure (place n p l)
  | .fuelFab c => do
    let _ ← FuelFab.enter c
    pure (place n p l)
  | .mixer c => pure (loop n p c.streams l)
  | .reactor c => do
    let _ ← Reactor.enter c
    pure (place n p l)
  | .separations c => do
    let l := loop n p c.streams l
    let _ ← Separations.enter c
    pure l
  | .sink c g t => do
    let _ ← Sink.enter c g t
    pure (place n p l)
  | .source _ => pure (place n p l)
  | .storage c => do
    let _ ← Storage.enter (ν := Nat) c
    pure (place n p l)
  | .deployInst d => do
    Deploy.enter d
    pure (place n p l)
  | .managerInst T as i => do
    let _ ← Region.enterInst T as i
    pure (place n p l)
  | .growthRegion c is => do
    let _ ← Region.enterRegion c is
    pure (place n p l)

/-- Agents enter, one after another. -/
def enterAll : List (Nat × Place × Agent) → Table → R Table
  | [], l => .ok l
  | (n, p, a) :: as, l => do
    let l ← enterNotify n p l a
    enterAll as l

/-! ## Vocabulary -/

/-- The number of streams of a mixer or of a separations facility; other agents have none. -/
def streams : Agent → Option Nat
  | .mixer c => some c.streams.length
  | .separations c => some c.streams.length
  | _ => none

end Cyc.Position
