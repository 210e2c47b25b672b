import Verif.Sim.Supply

/-!
# Facilities that have nothing to do with each other

When two groups of facilities are apart, and two simulations side by side.
-/

namespace Cyc.Sim

/-- A deal answers a request and is covered by an offer in its commodity. -/
structure Covers (asks : List (List Ask)) (offers : List (List Offer)) (d : Deal) : Prop where
  offered : ∃ os, offers[d.src]? = some os ∧ ∃ o ∈ os, o.commod = d.commod
  asked : ∃ as, asks[d.dst]? = some as ∧ ∃ a, as[d.port]? = some a ∧ (d.commod, d.target) ∈ a.alts

/-- All an exchange has to keep to here: who offers a commodity hands it over to who asks for it. It may
exceed whatever amounts. -/
def Exchange.Matching (ex : Exchange) : Prop :=
  ∀ asks offers, ∀ d ∈ ex asks offers, Covers asks offers d

/-- No prototype of one group sells what a prototype of the other buys. -/
structure Apart (ks₁ ks₂ : List Kind) : Prop where
  there : ∀ k ∈ ks₁, ∀ k' ∈ ks₂, ∀ x ∈ sellsOf k, x ∉ buysOf k'
  back : ∀ k ∈ ks₁, ∀ k' ∈ ks₂, ∀ x ∈ buysOf k, x ∉ sellsOf k'

/-- The deal between the facilities `m` places further on. -/
def Deal.shift (m : Nat) (d : Deal) : Deal := { d with src := m + d.src, dst := m + d.dst }

/-- What is handed over in two simulations side by side, when there are `m` facilities in the first. -/
def sideBySide (m : Nat) (gs₁ gs₂ : List (Deal × NMat)) : List (Deal × NMat) :=
  gs₁ ++ gs₂.map fun g => (g.1.shift m, g.2)

/-- The exchange that deals with the first `m` facilities as `ex₁` does, and with the others as `ex₂`. -/
def beside (m : Nat) (ex₁ ex₂ : Exchange) : Exchange := fun asks offers =>
  ex₁ (asks.take m) (offers.take m) ++ (ex₂ (asks.drop m) (offers.drop m)).map (Deal.shift m)

end Cyc.Sim
