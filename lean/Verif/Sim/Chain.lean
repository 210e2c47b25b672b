import Verif.Sim.Supply

/-!
# Vocabulary for C146: a chain of conversions between a mine and an enrichment facility
-/

namespace Cyc.Sim

/-- What is sold as `x` gets through the conversions at the positions `js` among the prototypes `ks`, one
after the other, and to the facility number `i`, which asks for it as `y`. Nobody else buys anything on the
way, and each of the conversions can store and process `r` in a time step. -/
def Flows (ks : List Kind) (r : ℚ) (i : Nat) (y : String) : String → List Nat → Prop
  | x, [] => x = y ∧ ∀ (j : Nat) k, ks[j]? = some k → x ∈ buysOf k → j = i
  | x, a :: js => (∀ (j : Nat) k, ks[j]? = some k → x ∈ buysOf k → j = a) ∧ ∃ c : Conversion.Cfg,
      ks[a]? = some (.conversion c) ∧ x ∈ c.incommods ∧ r ≤ c.throughput ∧ r ≤ c.capacity ∧
      Flows ks r i y c.outcommod js

/-- The source keeps the enrichment facility, which is number `i` among the prototypes `ks`, in feed for `n`
time steps, through the conversions at the positions `js`: in a time step the source gives `r`, which is
what the enrichment facility uses or more, and it does not run out; the enrichment facility starts with
enough feed for a step, and one more for each conversion, and has room for two steps. -/
structure Feeds (ks : List Kind) (i : Nat) (c : Enrichment.Cfg) (f : Source.Cfg) (js : List Nat) (φ r : ℚ)
    (n : Nat) : Prop where
  flows : Flows ks r i c.feedCommod f.outcommod js
  pos : 0 < r
  rate : φ * (ks.map freshRoom).sum ≤ r
  gives : r ≤ f.throughput
  lasts : n * f.throughput ≤ f.size
  offers : f.eps ≤ f.throughput
  amounts : f.lo ≤ 0
  first : (js.length + 1) * (φ * (ks.map freshRoom).sum) + c.eps ≤ c.initialFeed
  room : 2 * (φ * (ks.map freshRoom).sum + c.eps) ≤ c.maxFeed

end Cyc.Sim
