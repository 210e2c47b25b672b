import Verif.Source.Model

/-!
# Vocabulary for the properties of `Source`

Independent of how the model computes: what is in stock, histories, what a package is, honest
markets.
-/

namespace Cyc.Source

/-- The inventory in kg. -/
def stock (s : State) : ℚ := totalQty s.inventory.items

/-- The facility is built and then lives through the steps `is`, with observations `os`. -/
def History (c : Cfg) (is : List In) (os : List Out) (s : State) : Prop :=
  ∃ s₀, build c = .ok s₀ ∧ run c s₀ is = .ok (os, s)

/-- What is sent in a step. -/
def sentIn (o : Out) : List NMat := o.sent.filterMap id

/-- Everything sent. -/
def shipped (os : List Out) : List NMat := os.flatMap sentIn

/-- `m` has the composition of `r`: its share of each nuclide is that of `r`. -/
def SameComposition (m r : NMat) : Prop := ∀ n, m.mass n * qty r = qty m * r.mass n

/-- All trades are for requests that ask for something. -/
def Targets (is : List In) : Prop := ∀ i ∈ is, ∀ t ∈ i.trades, 0 < qty t.target

/-- What a package has to satisfy (DESIGN.md, section 3): a quantity is divided into positive
quantities that are no more than it; each of these is filled into one package as it is, and a part
of one is filled into one package or, if it is too small, not at all. -/
structure Packing (fill : ℚ → List ℚ) : Prop where
  pos : ∀ q, 0 < q → ∀ p ∈ fill q, 0 < p
  sum : ∀ q, 0 < q → (fill q).sum ≤ q
  whole : ∀ q, 0 < q → ∀ p ∈ fill q, fill p = [p]
  part : ∀ q, 0 < q → ∀ p ∈ fill q, ∀ a, 0 < a → a ≤ p → fill a = [a] ∨ fill a = []

/-- Sensible input: nothing negative, a recipe has positive quantity, a proper package, a transport
unit that ships no more than there is. -/
structure Valid (c : Cfg) : Prop where
  size : 0 ≤ c.size
  throughput : 0 ≤ c.throughput
  eps : 0 < c.eps
  recipe : ∀ r, c.recipe = some r → 0 < qty r
  packing : Packing c.fill
  ship : ∀ n, c.ship n ≤ n

/-- The trades of one step are what an exchange can make of the bids of a facility in the state `s`:
each answers a bid, for no more than it offers, and together they are within the constraint; they
can be removed from a buffer. -/
structure Honest (c : Cfg) (s : State) (i : In) : Prop where
  target : ∀ r ∈ i.reqs, 0 < qty r.target
  sizes : ∀ t ∈ i.trades, 0 < t.amt ∧ c.lo ≤ t.amt
  bid : ∀ t ∈ i.trades, ∃ p, bids c i.reqs s = some p ∧ ∃ b ∈ p.bids, t.amt ≤ qty b.offer ∧
    ∃ r ∈ i.reqs, r.id = b.id ∧ r.commod = c.outcommod ∧ r.target = t.target
  total : ∀ p, bids c i.reqs s = some p → (i.trades.map Trade.amt).sum ≤ p.cap

/-- Every step of a history is honest. -/
def HonestRun (c : Cfg) : State → List In → Prop
  | _, [] => True
  | s, i :: is => Honest c s i ∧ ∀ o s', step c s i = .ok (o, s') → HonestRun c s' is

end Cyc.Source
