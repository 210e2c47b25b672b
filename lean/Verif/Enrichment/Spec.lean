import Verif.Enrichment.Model

/-!
# Vocabulary for the properties of `Enrichment`

Independent of how the model computes: uranium content, the balance of enrichment, histories,
honest markets.
-/

namespace Cyc.Enrichment

open Mat (massOf)

/-- The mass of uranium-235 and uranium-238 in some materials. -/
def uranium (l : List NMat) : ℚ := massOf l u235 + massOf l u238

/-- The materials hold nothing but uranium-235 and uranium-238. -/
def Pure (l : List NMat) : Prop := ∀ m ∈ l, ∀ e ∈ m.entries, e.1 = u235 ∨ e.1 = u238

/-- The fraction of uranium-235 in the uranium of some materials is `x`. -/
def HasAssay (x : ℚ) (l : List NMat) : Prop := massOf l u235 = x * uranium l

/-- The facility is deployed and then lives through the steps `is`, with observations `os`. -/
def History (c : Cfg) (is : List In) (os : List Out) (s : State) : Prop :=
  ∃ s₀, build c = .ok s₀ ∧ run c s₀ is = .ok (os, s)

/-- Everything the facility holds. -/
def contents (s : State) : List NMat := s.inventory.items ++ s.tails.items

/-- What the facility starts with: `initial_feed` kg of the feed recipe. -/
def initial (c : Cfg) : List NMat :=
  if c.initialFeed > 0 then [c.feedRecipe.scale (c.initialFeed / qty c.feedRecipe)] else []

/-- Everything received. -/
def received (is : List In) : List NMat := is.flatMap In.buys

/-- Everything sold. -/
def sold (os : List Out) : List NMat := os.flatMap Out.sold

/-- Every delivery has positive quantity and no negative mass. -/
def Substantial (is : List In) : Prop := ∀ i ∈ is, ∀ m ∈ i.buys, 0 < qty m ∧ Mat.Nonneg m

/-- Sensible input: a feed recipe that has mass and no negative entries, positive capacities, a
tails assay between 0 and 1; an atom of uranium-238 is not lighter than one of uranium-235. -/
structure Valid (c : Cfg) : Prop where
  recipe : Mat.Nonneg c.feedRecipe
  recipePos : 0 < qty c.feedRecipe
  eps : 0 < c.eps
  maxFeed : 0 ≤ c.maxFeed
  tails : 0 ≤ c.tailsAssay
  tailsLe : c.tailsAssay ≤ 1
  swu : 0 < c.swuCapacity
  atom235 : 0 < c.atomMass u235
  atom238 : c.atomMass u235 ≤ c.atomMass u238

/-- The facility, at any point of its life, is about to carry out a sale: it lived through some
steps and, in the next one, made its bids and carried out some sales. -/
def BeforeSale (c : Cfg) (s : State) : Prop :=
  ∃ is os s₀ reqs p s₁ ts l x, History c is os s₀ ∧ Substantial is ∧
    bids c reqs (tick c s₀) = .ok (p, s₁) ∧ sellLoop c ts { s₁ with intra := x } = .ok (l, s)

/-- What a bid offers, cut to the amount that is traded. -/
def cut (t : Trade) : NMat := t.offer.scale (t.amt / qty t.offer)

/-- The sum of the converted amounts of some trades is within a capacity constraint. A conversion
without finite value is not within any. -/
def Within (conv : NMat → Option ℚ) (ts : List Trade) (cap : ℚ) : Prop :=
  ∃ vs : List ℚ, (ts.map fun t => conv (cut t)) = vs.map some ∧ vs.sum ≤ cap

/-- The sales of tails. -/
def tailsTrades (c : Cfg) (ts : List Trade) : List Trade := ts.filter (·.commod = c.tailsCommod)

/-- The sales of product. -/
def productTrades (c : Cfg) (ts : List Trade) : List Trade := ts.filter (·.commod ≠ c.tailsCommod)

/-- The sales are what an exchange can make of the bids: each sale of product answers a bid, in part or
in full, tails are sold only when they are offered, and the constraints of the portfolios are respected.
Which of the tails a bid named is left open: they are handed over from the front (C75). -/
structure HonestSales (c : Cfg) (p : Ports) (ts : List Trade) : Prop where
  amt : ∀ t ∈ ts, 0 < t.amt ∧ t.amt ≤ qty t.offer
  tails : ∀ t ∈ tailsTrades c ts, ∃ tp, p.tails = some tp
  tailsCap : ∀ tp, p.tails = some tp → ((tailsTrades c ts).map Trade.amt).sum ≤ tp.cap
  product : ∀ t ∈ productTrades c ts, t.commod = c.productCommod ∧
    ∃ pp, p.product = some pp ∧ ∃ j, (j, t.offer) ∈ pp.bids
  swu : ∀ pp, p.product = some pp →
    Within (swuConvert c.value pp.feedAssay c.tailsAssay) (productTrades c ts) pp.swuCap
  natu : ∀ pp, p.product = some pp →
    Within (natuConvert pp.feedAssay c.tailsAssay) (productTrades c ts) pp.natuCap

/-- The deliveries are what an exchange can make of the request. -/
structure HonestBuys (c : Cfg) (s : State) (ms : List NMat) : Prop where
  mass : ∀ m ∈ ms, 0 < qty m ∧ Mat.Nonneg m
  total : totalQty ms ≤ (requests c s).getD 0

/-- The market of one step is honest to a facility in the state `s`. -/
structure Honest (c : Cfg) (s : State) (i : In) : Prop where
  buys : HonestBuys c (tick c s) i.buys
  reqs : ∀ k rs, i.reqs k = some rs → ∀ m ∈ rs, Mat.Nonneg m
  sells : ∀ p s₁, bids c i.reqs (tick c s) = .ok (p, s₁) → HonestSales c p i.sells

/-- Every step of a history is honest. -/
def HonestRun (c : Cfg) : State → List In → Prop
  | _, [] => True
  | s, i :: is => Honest c s i ∧ ∀ o s', step c s i = .ok (o, s') → HonestRun c s' is

/-- A history in an honest market. -/
def HonestHistory (c : Cfg) (is : List In) (os : List Out) (s : State) : Prop :=
  ∃ s₀, build c = .ok s₀ ∧ run c s₀ is = .ok (os, s) ∧ HonestRun c s₀ is

/-- No sale is so small that its tails, or the feed it needs, are negligible. -/
def Sizeable (c : Cfg) (p : Ports) (ts : List Trade) : Prop :=
  (∀ t ∈ ts, c.lo ≤ t.amt) ∧
  ∀ pp, p.product = some pp → ∀ t ∈ productTrades c ts, ∀ q,
    natuConvert pp.feedAssay c.tailsAssay (cut t) = some q → c.lo ≤ q ∧ c.eps ≤ q

/-- A request for a product that lies, by mass, strictly above the tails assay and not above the
maximal enrichment, and holds some uranium-238. -/
structure Feasible (c : Cfg) (m : NMat) : Prop where
  has238 : 0 < m.mass u238
  above : c.tailsAssay * (m.mass u235 + m.mass u238) < m.mass u235
  below : m.mass u235 ≤ c.maxEnrich * (m.mass u235 + m.mass u238)

/-- The same with the uranium-235 counted in atoms for the lower bound, and a tolerance for the
upper bound. -/
structure CodeFeasible (c : Cfg) (m : NMat) : Prop where
  has238 : 0 < m.mass u238
  above : c.tailsAssay * (m.mass u235 / c.atomMass u235 + m.mass u238 / c.atomMass u238) <
    m.mass u235 / c.atomMass u235
  below : m.mass u235 < (c.maxEnrich + c.eps) * (m.mass u235 + m.mass u238)

/-- `m` has the quantity of `target` and holds uranium-235 and uranium-238 only, in the proportion
of `target`. -/
structure UraniumOf (target m : NMat) : Prop where
  pure : Pure [m]
  amount : qty m = qty target
  ratio : m.mass u235 * target.mass u238 = target.mass u235 * m.mass u238

/-- The preferences `prefs` rank the bids `bids` (both by identifier) as they should: each bid has
one, a bid without uranium-235 is refused (-1), a bid with uranium-235 is not, and of two bids the
one with the larger fraction of uranium-235 has the higher preference. -/
structure Ranked (bids : List (Nat × NMat)) (prefs : List (Nat × ℤ)) : Prop where
  same : (prefs.map Prod.fst).Perm (bids.map Prod.fst)
  refused : ∀ j m p, (j, m) ∈ bids → (j, p) ∈ prefs → m.mass u235 = 0 → p = -1
  accepted : ∀ j m p, (j, m) ∈ bids → (j, p) ∈ prefs → m.mass u235 ≠ 0 → 0 < p
  richer : ∀ i a p j b q, (i, a) ∈ bids → (i, p) ∈ prefs → (j, b) ∈ bids → (j, q) ∈ prefs →
    a.mass u235 / qty a < b.mass u235 / qty b → p < q

/-- What the time series showed in the latest step, if anything. -/
def lastSeries (os : List Out) : Option (ℚ × ℚ) := os.getLast?.bind Out.series

end Cyc.Enrichment
