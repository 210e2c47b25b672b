import Verif.Separations.Model

/-!
# Vocabulary for the properties of `Separations`

Independent of how the model computes: fractions, histories, honest markets, valid input.
-/

namespace Cyc.Separations

/-- The element a nuclide belongs to: its identifier without the last seven digits. -/
def element (n : Nat) : Nat := n - n % 10000000

/-- The entry of a table, if there is one. -/
def entry (effs : List (Nat × ℚ)) (k : Nat) : Option ℚ := (effs.find? (·.1 = k)).map Prod.snd

/-- The fraction of a nuclide that a stream asks for: the nuclide's entry if there is one, else
that of its element, else nothing. -/
def fraction (effs : List (Nat × ℚ)) (n : Nat) : ℚ :=
  ((entry effs n).or (entry effs (element n))).getD 0

/-- The fraction of a nuclide that all streams together ask for. -/
def share (streams : List (String × Stream)) (n : Nat) : ℚ :=
  (streams.map fun s => fraction s.2.effs n).sum

/-- The amount a stream asks for out of some materials. -/
def yield (effs : List (Nat × ℚ)) (l : List NMat) : ℚ :=
  ((l.flatMap Mat.entries).map fun e => fraction effs e.1 * e.2).sum

/-- The amount all streams together ask for out of some materials. -/
def yieldAll (streams : List (String × Stream)) (l : List NMat) : ℚ :=
  (streams.map fun s => yield s.2.effs l).sum

/-- The inventory sold under a commodity. -/
def stock (c : Cfg) (s : State) (k : String) : List NMat :=
  if k = c.leftoverCommod then s.leftover.items else (getBuf s.bufs k).items

/-- What a stream holds. -/
def held (s : State) (name : String) : List NMat := (getBuf s.bufs name).items

/-- Everything the facility holds. -/
def contents (s : State) : List NMat :=
  s.feed.items ++ s.leftover.items ++ s.bufs.flatMap fun b => b.2.items

/-- The facility is deployed and then lives through the steps `is`, with observations `os`. -/
def History (c : Cfg) (is : List In) (os : List Out) (s : State) : Prop :=
  ∃ s₀, enter c = .ok s₀ ∧ run c s₀ is = .ok (os, s)

/-- Everything received. -/
def received (is : List In) : List NMat := is.flatMap In.buys

/-- Everything sold. -/
def sold (os : List Out) : List NMat := os.flatMap Out.sold

/-- Every delivery has positive quantity and no negative mass. -/
def Substantial (is : List In) : Prop := ∀ i ∈ is, ∀ m ∈ i.buys, 0 < qty m ∧ Mat.Nonneg m

/-- Sensible input: distinct stream names, none of them the leftover commodity; no negative
efficiency; no nuclide is asked for more than entirely; positive throughput. -/
structure Valid (c : Cfg) : Prop where
  names : (c.streams.map Prod.fst).Nodup
  leftover : c.leftoverCommod ∉ c.streams.map Prod.fst
  effs : ∀ s ∈ c.streams, ∀ e ∈ s.2.effs, 0 ≤ e.2
  share : ∀ n, share c.streams n ≤ 1
  throughput : 0 < c.throughput
  lo : c.lo ≤ c.throughput
  eps : 0 ≤ c.eps
  feedbuf : 0 ≤ c.feedbufSize

/-- The total of the trades in one commodity. -/
def tradedIn (k : String) (sells : List (String × ℚ)) : ℚ :=
  ((sells.filter (·.1 = k)).map Prod.snd).sum

/-- The trades of one step are what an exchange can make of the requests and bids of a facility in
the state `s`: deliveries do not exceed the request, each sale answers a bid, and the sales of a
commodity do not exceed the constraint on its bids. -/
structure Honest (c : Cfg) (s : State) (i : In) : Prop where
  buys : ∀ m ∈ i.buys, 0 < qty m ∧ Mat.Nonneg m
  room : ∀ d rq, requests c s = .ok (d, rq) →
    totalQty i.buys ≤ (rq.map Request.amount).getD 0
  sells : ∀ t ∈ i.sells, 0 < t.2 ∧ c.lo ≤ t.2 ∧ ∃ p ∈ bids c s i.reqs, p.commod = t.1
  total : ∀ p ∈ bids c s i.reqs, tradedIn p.commod i.sells ≤ p.cap

/-- Every step of a history is honest. -/
def HonestRun (c : Cfg) : State → List In → Prop
  | _, [] => True
  | s, i :: is => (∀ r s₁, tick c s = .ok (r, s₁) → Honest c s₁ i) ∧
    ∀ o s', step c s i = .ok (o, s') → HonestRun c s' is

/-- At the start of every step the leftover inventory has room for all the feed that can be taken in
the step. -/
def RoomyRun (c : Cfg) : State → List In → Prop
  | _, [] => True
  | s, i :: is => (∀ x, c.leftoverCap = some x →
      totalQty s.leftover.items + min c.throughput (totalQty s.feed.items) ≤ x) ∧
    ∀ o s', step c s i = .ok (o, s') → RoomyRun c s' is

end Cyc.Separations
