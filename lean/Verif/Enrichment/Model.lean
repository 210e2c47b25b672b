import Mathlib.Data.List.Sort
import Verif.Toolkit.Extract

/-!
# Model of `cycamore::Enrichment` (`src/enrichment.cc`, `src/enrichment.h`)

One definition per member function. Simplifications common to the file:

* `toolkit::Assays`, `UraniumAssayMass`, `FeedQty` and `SwuRequired` live in cyclus; their formulas
  are assumed (DESIGN.md, section 3). The value function of separative work is a parameter;
* an infinite quotient or a quotient of zeros is `none`; a removal of such a quantity throws;
* `cyclus::eps()` and `eps_rsrc()` have the same value, `eps`;
* the position, the warnings and the log have no effect on the modelled behaviour.
-/

namespace Cyc.Enrichment

/-- Material with nuclide labels. -/
abbrev NMat := Mat Nat

/-- Uranium-235. -/
abbrev u235 : Nat := 922350000

/-- Uranium-238. -/
abbrev u238 : Nat := 922380000

/-- The user input of an enrichment prototype and its environment (`enrichment.h:281-378`).
`feedRecipe` is the composition of the feed recipe; `value` is the value function of separative
work; `atomMass` is the atomic mass of a nuclide; `lo` is the smallest quantity a buffer can
remove. -/
structure Cfg where
  feedCommod : String
  productCommod : String
  tailsCommod : String
  feedRecipe : NMat
  tailsAssay : ℚ
  swuCapacity : ℚ
  maxEnrich : ℚ
  initialFeed : ℚ
  maxFeed : ℚ
  orderPrefs : Bool
  value : ℚ → ℚ
  atomMass : Nat → ℚ
  eps : ℚ
  lo : ℚ

/-- The mutable members. `swu` is `current_swu_capacity`; `intra` is `intra_timestep_swu_` and
`intra_timestep_feed_`, `none` while they are not initialised (`enrichment.h:379-389`). -/
structure State where
  inventory : Buf NMat
  tails : Buf NMat
  swu : ℚ
  intra : Option (ℚ × ℚ)
  deriving DecidableEq

/-! ## Assumed formulas of cyclus -/

/-- `toolkit::UraniumAssayMass`; 0 without uranium. -/
def assay (m : NMat) : ℚ :=
  if m.mass u235 + m.mass u238 = 0 then 0 else m.mass u235 / (m.mass u235 + m.mass u238)

/-- `toolkit::Assays`. -/
structure Assays where
  feed : ℚ
  product : ℚ
  tails : ℚ

/-- `toolkit::FeedQty`; `none` when the quotient is not finite. -/
def feedQty (q : ℚ) (a : Assays) : Option ℚ :=
  if a.feed = a.tails then none else some (q * ((a.product - a.tails) / (a.feed - a.tails)))

/-- `toolkit::SwuRequired`. -/
def swuRequired (value : ℚ → ℚ) (q : ℚ) (a : Assays) : Option ℚ :=
  (feedQty q a).map fun f => q * value a.product + (f - q) * value a.tails - f * value a.feed

/-- `MatQuery::mass_frac` of uranium-235 and uranium-238. -/
def uFrac (m : NMat) : ℚ :=
  if qty m = 0 then 0 else (m.mass u235 + m.mass u238) / qty m

/-- `natu_req / natu_frac`; `none` when the quotient is not finite. -/
def overFrac (f : ℚ) (x : Option ℚ) : Option ℚ :=
  if f = 0 then none else x.map (· / f)

/-- `cyclus::AlmostEq`. -/
def almostEq (eps a b : ℚ) : Bool := decide (a = b ∨ |a - b| < eps)

/-- `SWUConverter::convert` (`enrichment.h:24-32`). -/
def swuConvert (value : ℚ → ℚ) (feed tails : ℚ) (m : NMat) : Option ℚ :=
  swuRequired value (qty m) ⟨feed, assay m, tails⟩

/-- `NatUConverter::convert` (`enrichment.h:62-76`). -/
def natuConvert (feed tails : ℚ) (m : NMat) : Option ℚ :=
  overFrac (uFrac m) (feedQty (qty m) ⟨feed, assay m, tails⟩)

/-! ## Deployment and the step -/

/-- `AddMat_` (`enrichment.cc:296-336`), without the warnings. -/
def addMat (c : Cfg) (m : NMat) (s : State) : R State := do
  let b ← s.inventory.push c.eps m
  pure { s with inventory := b }

/-- `Build` (`enrichment.cc:45-55`) of a default constructed facility. The string built for the log
(`str`, line 33) calls `FeedAssay`, which merges the inventory of at most one item. -/
def build (c : Cfg) : R State := do
  let s : State := ⟨⟨some c.maxFeed, []⟩, ⟨none, []⟩, 0, none⟩
  if c.initialFeed > 0 then
    addMat c (c.feedRecipe.scale (c.initialFeed / qty c.feedRecipe)) s
  else pure s

/-- `Tick` (`enrichment.cc:63-66`). -/
def tick (c : Cfg) (s : State) : State := { s with swu := c.swuCapacity }

/-- `GetMatlRequests` with `Request_` (`enrichment.cc:81-96`, `339-343`): the requested amount. -/
def requests (c : Cfg) (s : State) : Option ℚ :=
  if max 0 (c.maxFeed - s.inventory.quantity) > c.eps then
    some (max 0 (c.maxFeed - s.inventory.quantity)) else none

/-- Removing all of the inventory at once and putting it back as one item
(`enrichment.cc:370-372`, `454-457`). -/
def merge (c : Cfg) (s : State) : R (NMat × State) := do
  let (m, b) ← s.inventory.popEps c.lo c.eps s.inventory.quantity
  let b ← b.push c.eps m
  pure (m, { s with inventory := b })

/-- `FeedAssay` (`enrichment.cc:450-459`). -/
def feedAssay (c : Cfg) (s : State) : R (ℚ × State) :=
  if s.inventory.empty then .ok (0, s)
  else do
    let (m, s) ← merge c s
    pure (assay m, s)

/-! ## Preferences -/

/-- The quantity that `SortBids` compares (`enrichment.cc:99-109`). -/
def content (m : NMat) : ℚ := m.mass u235 / qty m

/-- `SortBids` (`enrichment.cc:99-109`). -/
def sortBids (i j : NMat) : Bool := decide (content i ≤ content j)

/-- `std::sort(bids_vector.begin(), bids_vector.end(), SortBids)` (`enrichment.cc:131`). The
comparison holds in both directions for bids of equal content, which `std::sort` does not allow:
its behaviour is then undefined. Otherwise the result is the sorted vector. -/
def sortVector (l : List (Nat × NMat)) : R (List (Nat × NMat)) :=
  if (l.map fun b => content b.2).Nodup then
    .ok (l.insertionSort fun a b => sortBids a.2 b.2 = true)
  else .error .ub

/-- The loop over the sorted bids (`enrichment.cc:135-149`); `seen` is `u235_mass`, `k` is
`bidit`. -/
def assign : Nat → Bool → List (Nat × NMat) → List (Nat × ℤ)
  | _, _, [] => []
  | k, true, b :: l => (b.1, (k : ℤ) + 1) :: assign (k + 1) true l
  | k, false, b :: l =>
    if b.2.mass u235 = 0 then (b.1, -1) :: assign (k + 1) false l
    else (b.1, (k : ℤ) + 1) :: assign (k + 1) true l

/-- `AdjustMatlPrefs` (`enrichment.cc:113-153`) for the bids, by identifier, on one request; `none`
when the preferences are left alone. -/
def adjustPrefs (c : Cfg) (bids : List (Nat × NMat)) : R (Option (List (Nat × ℤ))) :=
  if c.orderPrefs = false then .ok none
  else do
    let l ← sortVector bids
    pure (some (assign 0 false l))

/-! ## Bids -/

/-- The number of atoms of a nuclide, up to a constant factor. -/
def atoms (c : Cfg) (m : NMat) (n : Nat) : ℚ := m.mass n / c.atomMass n

/-- `ValidReq` (`enrichment.cc:244-249`). The atom fractions share a denominator, which cancels. -/
def validReq (c : Cfg) (m : NMat) : Bool :=
  decide (atoms c m u238 > 0 ∧
    atoms c m u235 / (atoms c m u235 + atoms c m u238) > c.tailsAssay)

/-- `Offer_` (`enrichment.cc:346-353`): the quantity of `m`, with the uranium-235 and uranium-238 of
`m` only. The conversion to atom fractions and back is exact. -/
def offer (m : NMat) : NMat :=
  ⟨[(u235, qty m * (m.mass u235 / (m.mass u235 + m.mass u238))),
    (u238, qty m * (m.mass u238 / (m.mass u235 + m.mass u238)))]⟩

/-- The test for a product bid (`enrichment.cc:217-219`). -/
def served (c : Cfg) (m : NMat) : Bool :=
  validReq c m && (decide (assay m < c.maxEnrich) || almostEq c.eps (assay m) c.maxEnrich)

/-- The portfolio of tails bids: request and offered material, and the capacity constraint. -/
structure TailsPort where
  bids : List (Nat × NMat)
  cap : ℚ
  deriving DecidableEq

/-- The portfolio of product bids, with the feed assay of its two converters and the two capacity
constraints. -/
structure ProductPort where
  bids : List (Nat × NMat)
  feedAssay : ℚ
  swuCap : ℚ
  natuCap : ℚ
  deriving DecidableEq

/-- Both portfolios of a step. -/
structure Ports where
  tails : Option TailsPort
  product : Option ProductPort
  deriving DecidableEq

/-- `GetMatlBids`, tails (`enrichment.cc:183-207`). -/
def tailsBids (s : State) (reqs : Option (List NMat)) : Option TailsPort :=
  match reqs with
  | none => none
  | some rs =>
    if s.tails.quantity > 0 then
      some ⟨(List.range rs.length).flatMap fun j => s.tails.items.map fun m => (j, m),
        s.tails.quantity⟩
    else none

/-- `GetMatlBids`, product (`enrichment.cc:209-239`). A `CapacityConstraint` that is not positive
throws. -/
def productBids (c : Cfg) (s : State) (reqs : Option (List NMat)) :
    R (Option ProductPort × State) :=
  match reqs with
  | none => .ok (none, s)
  | some rs =>
    if s.inventory.quantity > 0 then do
      let (x, s) ← feedAssay c s
      if c.swuCapacity ≤ 0 then .error .value
      else pure (some ⟨(List.range rs.length).flatMap fun j =>
          if served c (rs.getD j ⟨[]⟩) then [(j, offer (rs.getD j ⟨[]⟩))] else [],
        x, c.swuCapacity, s.inventory.quantity⟩, s)
    else .ok (none, s)

/-- `GetMatlBids` (`enrichment.cc:169-241`). `reqs` is `none` for a commodity nobody requests. -/
def bids (c : Cfg) (reqs : String → Option (List NMat)) (s : State) : R (Ports × State) := do
  let t := tailsBids s (reqs c.tailsCommod)
  let (p, s) ← productBids c s (reqs c.productCommod)
  pure (⟨t, p⟩, s)

/-! ## Trades -/

/-- The datum of `RecordEnrichment_` (`enrichment.cc:432-448`). -/
structure Enr where
  feed : ℚ
  swu : ℚ
  deriving DecidableEq, Repr

/-- A removal of a quantity that is not finite throws. -/
def finite (x : Option ℚ) : R ℚ :=
  match x with
  | some q => .ok q
  | none => .error .value

/-- The removal of the feed (`enrichment.cc:385-389`). -/
def takeFeed (c : Cfg) (b : Buf NMat) (q : ℚ) : R (NMat × Buf NMat) :=
  if almostEq c.eps q b.quantity then do
    let (l, b) ← b.popN b.count
    pure (Mat.squash l, b)
  else b.popEps c.lo c.eps q

/-- `intra_timestep_swu_ += swu_req; intra_timestep_feed_ += feed_req` (`enrichment.cc:408-409`). -/
def addIntra (swu feed : ℚ) (x : Option (ℚ × ℚ)) : Option (ℚ × ℚ) :=
  x.map fun p => (p.1 + swu, p.2 + feed)

/-- `Enrich_` (`enrichment.cc:355-429`). -/
def enrich (c : Cfg) (mat : NMat) (q : ℚ) (s : State) : R (NMat × Enr × State) := do
  let (x, s) ← feedAssay c s
  let a : Assays := ⟨x, assay mat, c.tailsAssay⟩
  let (all, s) ← merge c s
  let swu ← finite (swuRequired c.value q a)
  let feed ← finite (overFrac (uFrac all) (feedQty q a))
  let (r, b) ← takeFeed c s.inventory feed
  let (resp, rest) ← Mat.extractComp q mat r
  let t ← s.tails.push c.eps rest
  pure (resp, ⟨feed, swu⟩,
    { s with inventory := b, tails := t, swu := s.swu - swu, intra := addIntra swu feed s.intra })

/-- A trade this facility has to carry out: commodity, the offer of the bid, amount. -/
structure Trade where
  commod : String
  offer : NMat
  amt : ℚ

/-- One turn of the loop of `GetMatlTrades` (`enrichment.cc:262-282`). -/
def sellOne (c : Cfg) (t : Trade) (s : State) : R (NMat × Option Enr × State) :=
  if t.commod = c.tailsCommod then do
    let (m, b) ← s.tails.popEps c.lo c.eps (min t.amt s.tails.quantity)
    pure (m, none, { s with tails := b })
  else do
    let (m, e, s) ← enrich c t.offer t.amt s
    pure (m, some e, s)

/-- The loop of `GetMatlTrades`. -/
def sellLoop (c : Cfg) : List Trade → State → R (List (NMat × Option Enr) × State)
  | [], s => .ok ([], s)
  | t :: ts, s => do
    let (m, e, s) ← sellOne c t s
    let (l, s) ← sellLoop c ts s
    pure ((m, e) :: l, s)

/-- `GetMatlTrades` (`enrichment.cc:252-294`). -/
def sell (c : Cfg) (ts : List Trade) (s : State) : R (List (NMat × Option Enr) × State) := do
  let (l, s) ← sellLoop c ts { s with intra := some (0, 0) }
  if s.tails.quantity < -c.eps then .error .value
  else if s.swu < -c.eps then .error .value
  else pure (l, s)

/-- The kernel calls `GetMatlTrades` only of agents that have sales. -/
def sellAll (c : Cfg) (ts : List Trade) (s : State) : R (List (NMat × Option Enr) × State) :=
  match ts with
  | [] => .ok ([], s)
  | t :: ts => sell c (t :: ts) s

/-- `AcceptMatlTrades` (`enrichment.cc:156-166`). -/
def accept (c : Cfg) : List NMat → State → R State
  | [], s => .ok s
  | m :: l, s => do
    let s ← addMat c m s
    accept c l s

/-! ## A time step -/

/-- What the market does in one step: requests of others by commodity, sales, deliveries. -/
structure In where
  reqs : String → Option (List NMat)
  sells : List Trade
  buys : List NMat

/-- What an observer sees in one step. `series` are the values `Tock` records for separative work
and feed (`enrichment.cc:69-78`; the feed is recorded twice), `none` when they are indeterminate;
`supply` are the values `GetMatlBids` records for tails and product (lines 181-182). -/
structure Out where
  request : Option ℚ
  supply : ℚ × ℚ
  ports : Ports
  sold : List NMat
  enrichments : List Enr
  series : Option (ℚ × ℚ)
  deriving DecidableEq

/-- One time step. -/
def step (c : Cfg) (s : State) (i : In) : R (Out × State) := do
  let s := tick c s
  let rq := requests c s
  let sup := (s.tails.quantity, s.inventory.quantity)
  let (p, s) ← bids c i.reqs s
  let (l, s) ← sellAll c i.sells s
  let s ← accept c i.buys s
  pure (⟨rq, sup, p, l.map Prod.fst, l.filterMap Prod.snd, s.intra⟩, s)

/-- Any number of time steps. -/
def run (c : Cfg) : State → List In → R (List Out × State)
  | s, [] => .ok ([], s)
  | s, i :: is => do
    let (o, s) ← step c s i
    let (os, s) ← run c s is
    pure (o :: os, s)

end Cyc.Enrichment
