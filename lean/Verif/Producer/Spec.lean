import Verif.Producer.Model
import Verif.Region.Spec
import Verif.Source.Spec
import Verif.Reactor.Spec
import Verif.Storage.Spec

/-!
# Vocabulary for the properties of announced capacities
-/

namespace Cyc.Producer

/-- A table as institutions and regions see it: the capacity of each commodity. -/
def capsOf (t : Table) : List (String × ℚ) := t.map fun x => (x.1, x.2.capacity)

/-- The facility with identifier `i` and table `t`. -/
def facility (i : Nat) (t : Table) : Region.Fac := ⟨i, some (capsOf t)⟩

/-- The facility `a` is a source or a reactor of some prototype, deployed as a copy of it, and `q` is
what it makes of commodity `k` in some step of its life: a source sends material; a reactor records
power and side products. -/
inductive Makes (limit : ℚ) (k : String) (a : Region.Fac) : ℚ → Prop
  /-- a source of `k`, in a market that respects its bids -/
  | source (c : Source.Cfg) (is : List Source.In) (os : List Source.Out) (s s' : Source.State)
      (i : Source.In) (o : Source.Out) : a = facility a.id (copy limit (loadSource c)) →
      Source.Valid c → c.outcommod = k → Source.History c is os s → Source.Targets is →
      Source.Honest c s i → Source.step c s i = .ok (o, s') →
      Makes limit k a (totalQty (Source.sentIn o))
  /-- a source of something else -/
  | otherSource (c : Source.Cfg) : a = facility a.id (copy limit (loadSource c)) →
      Source.Valid c → c.outcommod ≠ k → Makes limit k a 0
  /-- the power that a reactor records -/
  | power (t : Table) (c : Reactor.Cfg) (is : List Reactor.In) (os : List Reactor.Out)
      (s : Reactor.State) (i : Reactor.In) (o : Reactor.Out) (q : ℚ) :
      loadReactor k c = .ok t → a = facility a.id (copy limit t) → Reactor.WellFormed c →
      0 ≤ c.powerCap → Reactor.History c (is ++ [i]) (os ++ [o]) s → q ∈ Reactor.powers o.recs →
      Makes limit k a q
  /-- a side product that a reactor records -/
  | side (t : Table) (name : String) (c : Reactor.Cfg) (is : List Reactor.In)
      (os : List Reactor.Out) (s : Reactor.State) (i : Reactor.In) (o : Reactor.Out) (q : ℚ) :
      loadReactor name c = .ok t → a = facility a.id (copy limit t) → Reactor.WellFormed c →
      c.sideProducts.Nodup → name ∉ c.sideProducts → 0 ≤ c.powerCap → (∀ q ∈ c.sideQty, 0 ≤ q) →
      Reactor.History c (is ++ [i]) (os ++ [o]) s → (k, q) ∈ Reactor.sides o.recs →
      Makes limit k a q
  /-- a reactor that makes something else, or nothing in this step -/
  | idle (t : Table) (name : String) (c : Reactor.Cfg) :
      loadReactor name c = .ok t → a = facility a.id (copy limit t) → 0 ≤ c.powerCap →
      (∀ q ∈ c.sideQty, 0 ≤ q) → Makes limit k a 0

end Cyc.Producer
