import Verif.Toolkit.Extract

/-!
# Model of `cycamore::Source` (`src/source.cc`, `src/source.h`)

One definition per function. Simplifications common to the file:

* a package is its function `GetFillMass` (the quantities a quantity is divided into), a transport
  unit its function `MaxShippablePackages`; both are cyclus classes and parameters of the model;
* a recipe is a material of that composition, of any positive quantity; looking one up cannot fail;
* material without composition (`blank_comp`) is material of the label `0`;
* the position, the log and the commodity producer (read by regions, `source.cc:24-29`) have no
  effect on the modelled behaviour.
-/

namespace Cyc.Source

/-- Material with nuclide labels. -/
abbrev NMat := Mat Nat

/-- The user input of a source prototype (`source.h:86-150`). `fill` and `ship` are the package and
the transport unit; `eps` is `cyclus::eps()`; `epsRsrc` is `eps_rsrc()`; `lo` is the smallest
quantity a buffer can remove. -/
structure Cfg where
  outcommod : String
  recipe : Option NMat
  size : ℚ
  throughput : ℚ
  fill : ℚ → List ℚ
  ship : Nat → Nat
  eps : ℚ
  epsRsrc : ℚ
  lo : ℚ

/-- The mutable member: `inventory` (`source.h:152-154`), of infinite capacity. -/
structure State where
  inventory : Buf NMat
  deriving DecidableEq

/-- `Material::CreateUntracked(q, m->comp())`, `Material::Create`. -/
def ofComp (q : ℚ) (m : NMat) : NMat := m.scale (q / Cyc.qty m)

/-- The composition the inventory is made of (`source.cc:67-70`). -/
def stuff (c : Cfg) : NMat := c.recipe.getD ⟨[(0, 1)]⟩

/-- `Build` (`source.cc:58-73`). -/
def build (c : Cfg) : R State := do
  let b ← (⟨none, []⟩ : Buf NMat).push c.epsRsrc (ofComp c.size (stuff c))
  pure ⟨b⟩

/-- `max_qty` (`source.cc:84`), which is also reported as the supply. -/
def maxQty (c : Cfg) (s : State) : ℚ := min c.throughput s.inventory.quantity

/-- A request of another facility: identifier, commodity, target. -/
structure Req where
  id : Nat
  commod : String
  target : NMat
  deriving DecidableEq

/-- One bid: the request it answers and the offered material. -/
structure Bid where
  id : Nat
  offer : NMat
  deriving DecidableEq

/-- A bid portfolio: the bids and the constraint on the sum. -/
structure BidPort where
  bids : List Bid
  cap : ℚ
  deriving DecidableEq

/-- `bids.erase(bids.begin() + n, bids.end())` when there are more than `n` (`source.cc:110-114`). -/
def cut (n : Nat) (l : List ℚ) : List ℚ := if n < l.length then l.take n else l

/-- The quantities offered for a request (`source.cc:103-114`). -/
def lots (c : Cfg) (s : State) (r : Req) : List ℚ :=
  let l := c.fill (min (Cyc.qty r.target) (maxQty c s))
  cut (c.ship l.length) l

/-- The bids for one request (`source.cc:116-123`). -/
def bidsFor (c : Cfg) (s : State) (r : Req) : List Bid :=
  (lots c s r).map fun q => ⟨r.id, ofComp q (c.recipe.getD r.target)⟩

/-- `GetMatlBids` (`source.cc:75-130`). A commodity without requests is taken to be absent from the
table of requests. -/
def bids (c : Cfg) (rs : List Req) (s : State) : Option BidPort :=
  if maxQty c s < c.eps then none
  else if rs.filter (fun r => decide (r.commod = c.outcommod)) = [] then none
  else some ⟨(rs.filter fun r => decide (r.commod = c.outcommod)).flatMap (bidsFor c s), maxQty c s⟩

/-- `Resource::Package` for the given fill quantities: what is extracted, and what remains. -/
def packLoop : List ℚ → NMat → R (List NMat × NMat)
  | [], m => .ok ([], m)
  | p :: ps, m => do
    let (x, m) ← m.extractQty p
    let (xs, m) ← packLoop ps m
    pure (x :: xs, m)

/-- A trade: the target of the request and the traded quantity. -/
structure Trade where
  target : NMat
  amt : ℚ
  deriving DecidableEq

/-- The packaging of what was removed from the inventory (`source.cc:149-155`): the packages, and the
inventory to which the rest is returned if it is more than `eps`. -/
def pack (c : Cfg) (b : Buf NMat) (m : NMat) : R (List NMat × Buf NMat) := do
  let (xs, m) ← packLoop (c.fill (Cyc.qty m)) m
  if Cyc.qty m > c.eps then do
    let b ← b.push c.epsRsrc m
    pure (xs, b)
  else pure (xs, b)

/-- The response, before the composition is adjusted (`source.cc:157-168`): the first package, or
nothing of the composition of `m`. -/
def response (xs : List NMat) (m : NMat) : NMat :=
  match xs with
  | [] => m.scale 0
  | x :: _ => x

/-- The adjustment of the composition (`source.cc:170-172`). -/
def adjust (c : Cfg) (t : Trade) (x : NMat) : NMat :=
  match c.recipe with
  | some _ => x
  | none => ofComp (Cyc.qty x) t.target

/-- The loop of `GetMatlTrades` (`source.cc:142-178`); `n` is `shippable_trades`. The responses are
by trade; a trade that is not shipped has none. -/
def sellLoop (c : Cfg) : Nat → List Trade → State → R (List (Option NMat) × State)
  | _, [], s => .ok ([], s)
  | 0, _ :: ts, s => do
    let (l, s) ← sellLoop c 0 ts s
    pure (none :: l, s)
  | n + 1, t :: ts, s => do
    let (m, b) ← s.inventory.popQty c.lo t.amt
    let (xs, b) ← pack c b m
    let (l, s) ← sellLoop c (if xs = [] then n + 1 else n) ts ⟨b⟩
    pure (some (adjust c t (response xs m)) :: l, s)

/-- `GetMatlTrades` (`source.cc:132-179`). -/
def sell (c : Cfg) (ts : List Trade) (s : State) : R (List (Option NMat) × State) :=
  sellLoop c (c.ship ts.length) ts s

/-! ## Snapshots: generated from the directive at `source.h:152` -/

/-- `SnapshotInv`, generated: everything is removed and pushed back. -/
def snapshot (c : Cfg) (s : State) : R (List NMat × State) := do
  let (l, b) ← s.inventory.popN s.inventory.count
  let b ← b.pushAll c.epsRsrc l
  pure (l, ⟨b⟩)

/-- A restarted facility is constructed and given the snapshot by `InitInv`, generated; `Build` is
not called. -/
def restart (c : Cfg) (inv : List NMat) : R State := do
  let b ← (⟨none, []⟩ : Buf NMat).pushAll c.epsRsrc inv
  pure ⟨b⟩

/-! ## A time step, as the cyclus kernel drives it (DESIGN.md, section 3) -/

/-- What the rest of the simulation does in one step: the requests of others and the trades. -/
structure In where
  reqs : List Req
  trades : List Trade

/-- What an observer sees of one step: the reported supply, the bids, the responses. -/
structure Out where
  supply : ℚ
  bids : Option BidPort
  sent : List (Option NMat)
  deriving DecidableEq

/-- One time step; `Tick` and `Tock` do nothing (`source.h:62-64`), and `GetMatlTrades` is called
only of agents that have trades, which makes no difference. -/
def step (c : Cfg) (s : State) (i : In) : R (Out × State) := do
  let (l, s') ← sell c i.trades s
  pure (⟨maxQty c s, bids c i.reqs s, l⟩, s')

/-- Any number of time steps. -/
def run (c : Cfg) : State → List In → R (List Out × State)
  | s, [] => .ok ([], s)
  | s, i :: is => do
    let (o, s) ← step c s i
    let (os, s) ← run c s is
    pure (o :: os, s)

end Cyc.Source
