import Verif.Toolkit.Bulk

/-!
# Model of `cycamore::Conversion` (`src/conversion.cc`, `src/conversion.h`)

One definition per function. The position, `str` and `version` have no effect on the modelled
behaviour; `EnterNotify` does nothing else (`conversion.cc:44-47`).
-/

namespace Cyc.Conversion

/-- Material with nuclide labels. -/
abbrev NMat := Mat Nat

/-- The user input of a conversion prototype (`conversion.h:83-120`). `eps` is `eps_rsrc()`; `lo` is
the smallest quantity a buffer can remove. -/
structure Cfg where
  incommods : List String
  outcommod : String
  throughput : ℚ
  capacity : ℚ
  eps : ℚ
  lo : ℚ

/-- The mutable members: `input` and `output` (`conversion.h:122-127`). -/
structure State where
  input : Buf NMat
  output : Buf NMat
  deriving DecidableEq

/-- The constructor (`conversion.cc:22-28`), followed by the assignment of the capacity that the
directive at `conversion.h:123` generates. -/
def enter (c : Cfg) : State := ⟨⟨some c.capacity, []⟩, ⟨none, []⟩⟩

/-- `Convert` (`conversion.cc:89-93`), which is all of `Tick` (`conversion.cc:76-78`). -/
def tick (c : Cfg) (s : State) : R State :=
  if s.input.quantity > 0 then do
    let (m, b) ← s.input.popQty c.lo (min s.input.quantity c.throughput)
    let o ← s.output.pushBulk c.eps m
    pure ⟨b, o⟩
  else .ok s

/-- `AvailableFeedstockCapacity` (`conversion.cc:84-86`); the capacity of the buffer is the user
input and never changes. -/
def available (c : Cfg) (s : State) : ℚ := c.capacity - s.input.quantity

/-- A request portfolio: commodity and quantity of each request, and the constraint on the sum. -/
structure ReqPort where
  reqs : List (String × ℚ)
  cap : ℚ
  deriving DecidableEq

/-- `GetMatlRequests` (`conversion.cc:96-122`). The requested material has no recipe, the preference
is the default one. -/
def requests (c : Cfg) (s : State) : Option ReqPort :=
  if available c s ≤ 0 then none
  else some ⟨c.incommods.map fun k => (k, available c s), available c s⟩

/-- A request of another facility: identifier, commodity, quantity. -/
structure Req where
  id : Nat
  commod : String
  qty : ℚ
  deriving DecidableEq

/-- One bid: the request it answers and the offered material. -/
structure Bid where
  id : Nat
  offer : NMat
  deriving DecidableEq

/-- A bid portfolio: the bids and the constraint on the sum. -/
structure BidPort where
  bids : List Bid
  cap : ℚ
  deriving DecidableEq

/-- `Material::CreateUntracked(q, m->comp())`. -/
def untracked (q : ℚ) (m : NMat) : NMat := m.scale (q / Cyc.qty m)

/-- `output.Peek()`; throws when the buffer is empty. -/
def peek (b : Buf NMat) : R NMat :=
  match b.items with
  | [] => .error .value
  | m :: _ => .ok m

/-- The loop body of `GetMatlBids` (`conversion.cc:140-147`). -/
def bidOne (s : State) (r : Req) : R (Option Bid) :=
  if min s.output.quantity r.qty > 0 then do
    let m ← peek s.output
    pure (some ⟨r.id, untracked (min s.output.quantity r.qty) m⟩)
  else .ok none

/-- The loop of `GetMatlBids` (`conversion.cc:137-148`). -/
def bidLoop (s : State) : List Req → R (List Bid)
  | [] => .ok []
  | r :: rs => do
    let b ← bidOne s r
    let bs ← bidLoop s rs
    pure (b.toList ++ bs)

/-- `GetMatlBids` (`conversion.cc:125-156`). -/
def bids (c : Cfg) (rs : List Req) (s : State) : R (Option BidPort) :=
  if s.output.quantity ≤ 0 then .ok none
  else do
    let bs ← bidLoop s (rs.filter fun r => decide (r.commod = c.outcommod))
    pure (some ⟨bs, s.output.quantity⟩)

/-- `AcceptMatlTrades` (`conversion.cc:159-170`). -/
def accept (c : Cfg) : List NMat → State → R State
  | [], s => .ok s
  | m :: ms, s => do
    let b ← s.input.pushBulk c.eps m
    accept c ms { s with input := b }

/-- `GetMatlTrades` (`conversion.cc:173-184`). -/
def sell (c : Cfg) : List ℚ → State → R (List NMat × State)
  | [], s => .ok ([], s)
  | q :: qs, s => do
    let (m, b) ← s.output.popQty c.lo q
    let (ms, s) ← sell c qs { s with output := b }
    pure (m :: ms, s)

/-! ## Snapshots -/

/-- `SnapshotInv`, generated (`conversion.cc:37`): the members with a directive, which is `input`
alone (`conversion.h:122-127`). All of the input is removed and pushed back. -/
def snapshot (c : Cfg) (s : State) : R (List NMat × State) := do
  let (l, b) ← s.input.popN s.input.count
  let b ← b.pushAllBulk c.eps l
  pure (l, { s with input := b })

/-- A new facility is given a snapshot by `InitInv`, generated (`conversion.cc:38`). -/
def restart (c : Cfg) (inv : List NMat) : R State := do
  let b ← (enter c).input.pushAllBulk c.eps inv
  pure { enter c with input := b }

/-! ## A time step, as the cyclus kernel drives it (DESIGN.md, section 3) -/

/-- What the rest of the simulation does in one step: the requests of others, the amounts sold, the
deliveries. -/
structure In where
  reqs : List Req
  sells : List ℚ
  buys : List NMat

/-- What an observer sees of one step: the request, the bids, what is sold. -/
structure Out where
  asks : Option ReqPort
  bids : Option BidPort
  sold : List NMat
  deriving DecidableEq

/-- One time step. -/
def step (c : Cfg) (s : State) (i : In) : R (Out × State) := do
  let s₁ ← tick c s
  let b ← bids c i.reqs s₁
  let (l, s₂) ← sell c i.sells s₁
  let s₃ ← accept c i.buys s₂
  pure (⟨requests c s₁, b, l⟩, s₃)

/-- Any number of time steps. -/
def run (c : Cfg) : State → List In → R (List Out × State)
  | s, [] => .ok ([], s)
  | s, i :: is => do
    let (o, s) ← step c s i
    let (os, s) ← run c s is
    pure (o :: os, s)

end Cyc.Conversion
