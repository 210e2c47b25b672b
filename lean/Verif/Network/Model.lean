import Verif.Conversion.Spec
import Verif.Enrichment.Spec
import Verif.FuelFab.Spec
import Verif.Mixer.Spec
import Verif.Reactor.Spec
import Verif.Separations.Spec
import Verif.Sink.Spec
import Verif.Source.Spec
import Verif.Storage.Spec

/-!
# Networks of facilities

The facilities of `/repo/src` do not call one another: in each step every one of them makes requests
and bids, and the exchange of cyclus takes material from those that supply it (`GetMatlTrades`) and
hands it to those that asked for it (`AcceptMatlTrades`). Here any number of facilities, of any of
the archetypes, live side by side, each from the step in which it is deployed, and what the exchange
hands out in a step is what it took in that step.

The exchange itself is in cyclus, not in `/repo`; `Exchange` is all that is assumed of it
(DESIGN.md, section 3).
-/

namespace Cyc.Network

abbrev NMat := Mat Nat

/-- The life of one facility: its input, what happened to it in each step, what was observed in each
step, and the state it is in at the end. A model of a reactor knows assemblies by identity and
quantity only; `fuel` and `used` are the materials of the assemblies that it takes and gives away, by
step.

Models the deployment of a prototype and the calls of `Tick`, the exchange and `Tock` on it: see the
`run` of each archetype. -/
inductive Life where
  | conversion (c : Conversion.Cfg) (is : List Conversion.In) (os : List Conversion.Out)
      (s : Conversion.State)
  | enrichment (c : Enrichment.Cfg) (is : List Enrichment.In) (os : List Enrichment.Out)
      (s : Enrichment.State)
  | fuelFab (c : FuelFab.Cfg) (is : List FuelFab.In) (os : List FuelFab.Out) (s : FuelFab.State)
  | mixer (c : Mixer.Cfg) (is : List Mixer.In) (os : List Mixer.Out) (s : Mixer.State)
  | reactor (c : Reactor.Cfg) (is : List Reactor.In) (os : List Reactor.Out) (s : Reactor.State)
      (fuel used : List (List NMat))
  | separations (c : Separations.Cfg) (is : List Separations.In) (os : List Separations.Out)
      (s : Separations.State)
  | sink (c : Sink.Cfg) (g : Sink.Rng) (t : ℤ) (is : List Sink.In) (os : List Sink.Out)
      (s : Sink.State)
  | source (c : Source.Cfg) (is : List Source.In) (os : List Source.Out) (s : Source.State)
  | storage (c : Storage.Cfg) (is : List (Storage.In Nat)) (os : List (Storage.Out Nat))
      (s : Storage.State Nat)

/-- The material that a sink holds; it may hold products as well. -/
def sinkMats (s : Sink.State) : List NMat :=
  s.inventory.items.filterMap fun
    | .mat m => some m
    | .prod _ _ => none

namespace Life

/-- What the facility is given, by step (`AcceptMatlTrades` of the archetypes). -/
def takes : Life → List (List NMat)
  | conversion _ is _ _ => is.map Conversion.In.buys
  | enrichment _ is _ _ => is.map Enrichment.In.buys
  | fuelFab _ is _ _ => is.map fun i => i.buys.map Prod.snd
  | mixer _ is _ _ => is.map fun i => i.buys.map Prod.snd
  | reactor _ _ _ _ fuel _ => fuel
  | separations _ is _ _ => is.map Separations.In.buys
  | sink _ _ _ is _ _ => is.map Sink.In.mats
  | source _ _ _ _ => []
  | storage _ is _ _ => is.map Storage.In.buys

/-- What the facility gives away, by step (`GetMatlTrades` of the archetypes). -/
def gives : Life → List (List NMat)
  | conversion _ _ os _ => os.map Conversion.Out.sold
  | enrichment _ _ os _ => os.map Enrichment.Out.sold
  | fuelFab _ _ os _ => os.map FuelFab.Out.sold
  | mixer _ _ os _ => os.map Mixer.Out.sold
  | reactor _ _ _ _ _ used => used
  | separations _ _ os _ => os.map Separations.Out.sold
  | sink _ _ _ _ _ _ => []
  | source _ _ os _ => os.map Source.sentIn
  | storage _ _ os _ => os.map Storage.Out.sold

/-- What the facility holds at the end; nothing for a source or a reactor, which are accounted for
separately. -/
def holds : Life → List NMat
  | conversion _ _ _ s => s.input.items ++ s.output.items
  | enrichment _ _ _ s => Enrichment.contents s
  | fuelFab _ _ _ s => FuelFab.contents s
  | mixer _ _ _ s => Mixer.contents s
  | reactor _ _ _ _ _ _ => []
  | separations _ _ _ s => Separations.contents s
  | sink _ _ _ _ _ s => sinkMats s
  | source _ _ _ _ => []
  | storage _ _ _ s => Storage.contents s

/-- What the facility is deployed with: only an enrichment facility has anything (a source is
accounted for separately). -/
def brings : Life → List NMat
  | enrichment c _ _ _ => Enrichment.initial c
  | _ => []

/-- What a source has sent in its life. -/
def mined : Life → List NMat
  | source _ _ os _ => Source.shipped os
  | _ => []

/-- What has been loaded into a reactor in its life. -/
def loaded : Life → List NMat
  | reactor _ _ _ _ fuel _ => fuel.flatten
  | _ => []

/-- What a reactor has given away in its life. -/
def unloaded : Life → List NMat
  | reactor _ _ _ _ _ used => used.flatten
  | _ => []

/-- The kg that are in a reactor at the end. -/
def burning : Life → ℚ
  | reactor _ _ _ s _ _ => totalQty (Reactor.held s)
  | _ => 0

/-- The facility has sensible input, and can live like this. The materials of a reactor are of the
quantities of its assemblies. -/
def Lived : Life → Prop
  | conversion c is os s => Conversion.History c is os s
  | enrichment c is os s => Enrichment.Valid c ∧ Enrichment.History c is os s
  | fuelFab c is os s => FuelFab.Valid c ∧ FuelFab.History c is os s
  | mixer c is os s => Mixer.Valid c ∧ Mixer.History c is os s
  | reactor c is os s fuel used =>
    (∃ s₀, Reactor.enter c = .ok s₀ ∧ Reactor.run c s₀ is = .ok (os, s)) ∧
    fuel.map (List.map qty) = is.map (fun i => i.buys.map fun d => d.2.qty) ∧
    used.map (List.map qty) = os.map (fun o => o.shipped.map fun d => d.2.qty)
  | separations c is os s => 0 ≤ c.eps ∧ Separations.History c is os s
  | sink c g t is os s => Sink.Valid c ∧ Sink.AllSound g is ∧ Sink.History c g t is os s
  | source c is os s => Source.History c is os s
  | storage c is os s => 0 ≤ c.eps ∧ Storage.History c is os s

end Life

/-- A facility of a network: the step in which it is deployed, and its life from then on. A facility
that is decommissioned has a life that ends before those of others. -/
structure Agent where
  born : Nat
  life : Life

namespace Agent

/-- Entry `t` of a list that begins at `born`. -/
def at_ (born : Nat) (l : List (List NMat)) (t : Nat) : List NMat :=
  if born ≤ t then (l[t - born]?).getD [] else []

/-- What the facility is given in step `t` of the simulation. -/
def takesAt (a : Agent) (t : Nat) : List NMat := at_ a.born a.life.takes t

/-- What the facility gives away in step `t` of the simulation. -/
def givesAt (a : Agent) (t : Nat) : List NMat := at_ a.born a.life.gives t

end Agent

/-- What the exchange does with the facilities `sys`: in each step, what it hands out is what it
takes, and all of it is material of positive quantity, without negative masses. -/
structure Exchange (sys : List Agent) : Prop where
  passes : ∀ t, (sys.flatMap (·.takesAt t)).Perm (sys.flatMap (·.givesAt t))
  solid : ∀ t, ∀ a ∈ sys, ∀ m ∈ a.takesAt t, 0 < qty m ∧ Mat.Nonneg m

end Cyc.Network
