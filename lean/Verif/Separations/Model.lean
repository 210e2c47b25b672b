import Verif.Toolkit.Extract
import Verif.Toolkit.Map

/-!
# Model of `cycamore::Separations` (`src/separations.cc`, `src/separations.h`)

One definition per member function. Labels of material are nuclide identifiers (`Nat`), as in the
keys of the efficiency tables. Simplifications common to the file:

* `std::map` is a list of pairs with distinct keys (`Toolkit/Map.lean`);
* the kernel passes the exit time; `none` is an agent that never retires (`exit_time() < 0`);
* the position and the log have no effect on the modelled behaviour.
-/

namespace Cyc.Separations

/-- Material with nuclide labels. -/
abbrev NMat := Mat Nat

/-- One separations stream: buffer size (negative: unlimited) and efficiencies by nuclide or
element (`separations.h:190-208`, `separations.cc:44`). -/
structure Stream where
  cap : ℚ
  effs : List (Nat × ℚ)

/-- The user input of a separations prototype and its environment (`separations.h:111-208`). `eps`
is `eps_rsrc()`; `lo` is the smallest quantity a buffer can remove. -/
structure Cfg where
  feedCommods : List String
  feedPrefs : List ℚ
  feedbufSize : ℚ
  throughput : ℚ
  leftoverCommod : String
  leftoverCap : Option ℚ
  streams : List (String × Stream)
  enterTime : Nat
  exitTime : Option Nat
  eps : ℚ
  lo : ℚ

/-- The mutable members of a separations facility and the simulation time. -/
structure State where
  time : Nat
  feed : Buf NMat
  leftover : Buf NMat
  bufs : List (String × Buf NMat)
  prefs : List ℚ

/-- A default constructed `ResBuf`, what `streambufs[name]` creates for a new name. -/
def emptyBuf : Buf NMat := ⟨none, []⟩

/-- `streambufs[name]`, reading. -/
def getBuf (bufs : List (String × Buf NMat)) (name : String) : Buf NMat :=
  Map.getD bufs name emptyBuf

/-! ## Deployment -/

/-- `efficiency_[key] += eff` (`separations.cc:62-64`). -/
def addEff (tot : List (Nat × ℚ)) (e : Nat × ℚ) : List (Nat × ℚ) :=
  Map.set tot e.1 (Map.getD tot e.1 0 + e.2)

/-- The cumulative efficiencies over all streams (`separations.cc:49-65`). -/
def efficiencies (streams : List (String × Stream)) : List (Nat × ℚ) :=
  streams.foldl (fun tot s => s.2.effs.foldl addEff tot) []

/-- The loop that sets stream capacities (`separations.cc:54-60`). -/
def initBufs : List (String × Stream) → List (String × Buf NMat)
  | [] => []
  | s :: l =>
    if s.2.cap ≥ 0 then
      Map.set (initBufs l) s.1 ⟨some s.2.cap, []⟩
    else initBufs l

/-- Construction followed by `EnterNotify` (`separations.cc:47-98`). `kDefaultPref` is 1. -/
def enter (c : Cfg) : R State :=
  if (efficiencies c.streams).any (fun e => decide (e.2 > 1)) then .error .value
  else .ok {
    time := c.enterTime
    feed := ⟨some c.feedbufSize, []⟩
    leftover := ⟨c.leftoverCap, []⟩
    bufs := initBufs c.streams
    prefs := if c.feedPrefs.length = 0 then c.feedCommods.map fun _ => (1 : ℚ) else c.feedPrefs }

/-! ## Processing -/

/-- The efficiency of a stream for a nuclide: its own entry, else that of its element, else none
(`separations.cc:172-180`). -/
def effOf (effs : List (Nat × ℚ)) (nuc : Nat) : Option ℚ :=
  match Map.get? effs nuc with
  | some e => some e
  | none => Map.get? effs (nuc / 10000000 * 10000000)

/-- `SepMaterial` (`separations.cc:161-190`). -/
def sepMaterial (effs : List (Nat × ℚ)) (m : NMat) : NMat :=
  ⟨m.entries.filterMap fun e => (effOf effs e.1).map fun f => (e.1, e.2 * f)⟩

/-- `frac` and `maxfrac` (`separations.cc:117-120`): a quantity of zero makes the quotient infinite
or not a number, which is never less than `maxfrac`; nor is the quotient of an unlimited space. -/
def limitFrac (space : Option ℚ) (q maxfrac : ℚ) : ℚ :=
  match space with
  | none => maxfrac
  | some sp => if q = 0 then maxfrac else if sp / q < maxfrac then sp / q else maxfrac

/-- The staging loop of `Tick` (`separations.cc:113-121`): the separated materials, the stream
buffers (a missing one is created by `streambufs[name]`), and `maxfrac`. -/
def stage (mat : NMat) : List (String × Stream) → List (String × Buf NMat) → ℚ →
    List (String × NMat) × List (String × Buf NMat) × ℚ
  | [], bufs, f => ([], bufs, f)
  | s :: l, bufs, f =>
    let m := sepMaterial s.2.effs mat
    let b := getBuf bufs s.1
    let r := stage mat l (Map.set bufs s.1 b) (limitFrac b.space (qty m) f)
    ((s.1, m) :: r.1, r.2.1, r.2.2)

/-- `Composition::CreateFromMass` throws for a negative mass (`separations.cc:188`): what a stream
would separate has none. -/
def checkStaged (l : List (String × NMat)) : R Unit :=
  if l.any (fun x => x.2.entries.any fun e => decide (e.2 < 0)) then .error .value else .ok ()

/-- What one pass of the separation loop records: the event `Separated` (if any) and the time
series `supply` of the stream. -/
structure SepRec where
  name : String
  separated : Option ℚ
  supply : ℚ
  deriving DecidableEq, Repr

/-- One pass of the separation loop of `Tick` (`separations.cc:124-138`). -/
def sepOne (eps f : ℚ) (x : String × NMat) (mat : NMat) (bufs : List (String × Buf NMat)) :
    R (SepRec × NMat × List (String × Buf NMat)) :=
  if qty x.2 > 0 then do
    let q := if qty x.2 > qty mat then qty mat else qty x.2
    let (ext, rest) ← Mat.extractComp (q * f) x.2 mat
    let b ← (getBuf bufs x.1).push eps ext
    pure (⟨x.1, some (q * f), b.quantity⟩, rest, Map.set bufs x.1 b)
  else .ok (⟨x.1, none, (getBuf bufs x.1).quantity⟩, mat, bufs)

/-- The separation loop of `Tick` (`separations.cc:123-138`). -/
def sepLoop (eps f : ℚ) : List (String × NMat) → NMat → List (String × Buf NMat) →
    R (List SepRec × NMat × List (String × Buf NMat))
  | [], mat, bufs => .ok ([], mat, bufs)
  | x :: l, mat, bufs => do
    let (r, mat', bufs') ← sepOne eps f x mat bufs
    let (rs, mat'', bufs'') ← sepLoop eps f l mat' bufs'
    pure (r :: rs, mat'', bufs'')

/-- `if (mat->quantity() > 0) leftover.Push(mat)` (`separations.cc:141-144`, `149-152`). -/
def pushLeftover (c : Cfg) (mat : NMat) (s : State) : R State :=
  if qty mat > 0 then do
    let b ← s.leftover.push c.eps mat
    pure { s with leftover := b }
  else .ok s

/-- The end of `Tick` (`separations.cc:140-153`). -/
def finish (c : Cfg) (f orig : ℚ) (mat : NMat) (s : State) : R State :=
  if f = 1 then pushLeftover c mat s
  else do
    let (back, rest) ← mat.extractQty ((1 - f) * orig)
    let b ← s.feed.push c.eps back
    pushLeftover c rest { s with feed := b }

/-- What `Tick` records: the event `Separating`, the records per stream and the time series
`supply` of the leftover commodity. -/
structure TickRec where
  separating : ℚ
  streams : List SepRec
  supplyLeftover : ℚ
  deriving DecidableEq, Repr

/-- `Tick` (`separations.cc:100-157`). -/
def tick (c : Cfg) (s : State) : R (Option TickRec × State) :=
  if s.feed.count = 0 then .ok (none, s)
  else do
    let (mat, feed) ← s.feed.popEps c.lo c.eps (min c.throughput s.feed.quantity)
    let st := stage mat c.streams s.bufs 1
    checkStaged st.1
    let (recs, rest, bufs) ← sepLoop c.eps st.2.2 st.1 mat st.2.1
    let s' ← finish c st.2.2 (qty mat) rest { s with feed := feed, bufs := bufs }
    pure (some ⟨qty mat, recs, s'.leftover.quantity⟩, s')

/-! ## Trading -/

/-- A request portfolio: one amount, mutually exclusive requests for commodities with
preferences. -/
structure Request where
  amount : ℚ
  commods : List (String × ℚ)
  deriving DecidableEq, Repr

/-- `feed.space()`. -/
def feedSpace (s : State) : ℚ := s.feed.space.getD 0

/-- The loop that makes the requests (`separations.cc:223-228`). -/
def mkRequests (commods : List String) (prefs : List ℚ) : R (List (String × ℚ)) :=
  (List.range commods.length).mapM fun i => do
    let k ← at! commods i
    let p ← at! prefs i
    pure (k, p)

/-- The feed in hand covers the remaining lifetime (`separations.cc:207`). -/
def enough (c : Cfg) (s : State) : Bool :=
  match c.exitTime with
  | none => false
  | some te => decide (s.feed.quantity ≥ ((te : ℚ) - s.time) * c.throughput)

/-- `GetMatlRequests` (`separations.cc:192-232`): the demand report and the requests. The recipe of
the request is not modelled. -/
def requests (c : Cfg) (s : State) : R ((String × ℚ) × Option Request) := do
  let d ← at! c.feedCommods (maxIndex s.prefs)
  if enough c s then pure ((d, feedSpace s), none)
  else if feedSpace s < c.eps then pure ((d, feedSpace s), none)
  else do
    let rs ← mkRequests c.feedCommods s.prefs
    pure ((d, feedSpace s), some ⟨feedSpace s, rs⟩)

/-- A bid portfolio: the bids, each the position of the answered request and the offered material,
and the capacity constraint. -/
structure Portfolio where
  commod : String
  bids : List (Nat × NMat)
  cap : ℚ
  deriving DecidableEq

/-- The loop over a buffer's materials for one request (`separations.cc:294-308`). -/
def bidLoop (eps target : ℚ) (j : Nat) : List NMat → ℚ → List (Nat × NMat)
  | [], _ => []
  | m :: l, tot =>
    (if qty m > eps then [(j, m)] else []) ++
      (if tot + qty m ≥ target then [] else bidLoop eps target j l (tot + qty m))

/-- All bids out of one buffer (`separations.cc:291-314`, `322-346`). The arguments are the
commodity and the target quantities of the requests for it. -/
def bidsFor (eps : ℚ) (commod : String) (b : Buf NMat) (reqs : List ℚ) : List Portfolio :=
  if reqs.length = 0 then []
  else if b.quantity < eps then []
  else [⟨commod,
    (List.range reqs.length).flatMap fun j => bidLoop eps (reqs.getD j 0) j b.items 0, b.quantity⟩]

/-- The content of a buffer is removed and pushed back before bids are made (`separations.cc:280-287`,
`318-320`). The push tests the total against the capacity. -/
def reinsertOne (eps : ℚ) (b : Buf NMat) (reqs : List ℚ) : R Unit :=
  if reqs.length = 0 ∨ b.quantity < eps then .ok ()
  else do
    let _ ← ({ b with items := [] } : Buf NMat).pushAll eps b.items
    pure ()

/-- `reinsertOne` for all streams. -/
def reinsertAll (eps : ℚ) (reqs : String → List ℚ) : List (String × Buf NMat) → R Unit
  | [] => .ok ()
  | b :: l => do
    reinsertOne eps b.2 (reqs b.1)
    reinsertAll eps reqs l

/-- The part of `GetMatlBids` that can fail (`separations.cc:269-349`); if it does not, all buffers
are as before. -/
def reinsert (c : Cfg) (s : State) (reqs : String → List ℚ) : R Unit := do
  reinsertAll c.eps reqs s.bufs
  reinsertOne c.eps s.leftover (reqs c.leftoverCommod)

/-- The bids of `GetMatlBids` (`separations.cc:269-349`). -/
def bids (c : Cfg) (s : State) (reqs : String → List ℚ) : List Portfolio :=
  s.bufs.flatMap (fun b => bidsFor c.eps b.1 b.2 (reqs b.1)) ++
    bidsFor c.eps c.leftoverCommod s.leftover (reqs c.leftoverCommod)

/-- One trade of `GetMatlTrades` (`separations.cc:241-254`). -/
def sellOne (c : Cfg) (s : State) (t : String × ℚ) : R (NMat × State) :=
  if t.1 = c.leftoverCommod then do
    let (m, b) ← s.leftover.popEps c.lo c.eps (min s.leftover.quantity t.2)
    pure (m, { s with leftover := b })
  else match Map.get? s.bufs t.1 with
    | some b => do
      let (m, b') ← b.popEps c.lo c.eps (min b.quantity t.2)
      pure (m, { s with bufs := Map.set s.bufs t.1 b' })
    | none => .error .value

/-- `GetMatlTrades` (`separations.cc:234-256`). -/
def sellLoop (c : Cfg) : List (String × ℚ) → State → R (List NMat × State)
  | [], s => .ok ([], s)
  | t :: ts, s => do
    let (m, s') ← sellOne c s t
    let (ms, s'') ← sellLoop c ts s'
    pure (m :: ms, s'')

/-- One delivery of `AcceptMatlTrades` (`separations.cc:258-267`). -/
def accept (c : Cfg) (s : State) (m : NMat) : R State := do
  let b ← s.feed.push c.eps m
  pure { s with feed := b }

/-! ## Decommissioning, snapshots -/

/-- `CheckDecommissionCondition` (`separations.cc:353-366`). -/
def mayRetire (s : State) : Bool :=
  if s.leftover.count > 0 then false else s.bufs.all fun b => decide (¬ b.2.count > 0)

/-- `SnapshotInv` (`separations.cc:14-32`). What it pushes back is what it removed; that the push can
fail is modelled in `Verif/Separations/Snapshot.lean`. -/
def snapshot (s : State) : List (String × List NMat) :=
  s.bufs.foldl (fun inv b => Map.set inv b.1 b.2.items)
    [("leftover-inv-name", s.leftover.items), ("feed-inv-name", s.feed.items)]

/-- The loop of `InitInv` (`separations.cc:38-41`). -/
def restoreBufs (eps : ℚ) : List (String × List NMat) → List (String × Buf NMat) →
    R (List (String × Buf NMat))
  | [], bufs => .ok bufs
  | x :: l, bufs => do
    let b ← (getBuf bufs x.1).pushAll eps x.2
    restoreBufs eps l (Map.set bufs x.1 b)

/-- `InitInv` (`separations.cc:34-42`). -/
def restore (c : Cfg) (inv : List (String × List NMat)) (s : State) : R State := do
  let lo ← s.leftover.pushAll c.eps (Map.getD inv "leftover-inv-name" [])
  let fe ← s.feed.pushAll c.eps (Map.getD inv "feed-inv-name" [])
  let bufs ← restoreBufs c.eps inv s.bufs
  pure { s with leftover := lo, feed := fe, bufs := bufs }

/-! ## One time step, as the cyclus kernel drives it (DESIGN.md, section 3) -/

/-- What the rest of the simulation does in one step: the target quantities of the requests for a
commodity, the trades (commodity and amount), the deliveries. -/
structure In where
  reqs : String → List ℚ
  sells : List (String × ℚ)
  buys : List NMat

/-- What an observer sees of one step: the records of `Tick`, the demand report, the request, the
bids, what was sold, and whether the facility may be decommissioned at its end. -/
structure Out where
  time : Nat
  tick : Option TickRec
  demand : String × ℚ
  request : Option Request
  bids : List Portfolio
  sold : List NMat
  retire : Bool

/-- One time step; then time advances. -/
def step (c : Cfg) (s : State) (i : In) : R (Out × State) := do
  let (tr, s1) ← tick c s
  let (d, rq) ← requests c s1
  reinsert c s1 i.reqs
  let ps := bids c s1 i.reqs
  let (sold, s2) ← sellLoop c i.sells s1
  let s3 ← i.buys.foldlM (accept c) s2
  pure (⟨s.time, tr, d, rq, ps, sold, mayRetire s3⟩, { s3 with time := s3.time + 1 })

/-- A history of time steps. -/
def run (c : Cfg) : State → List In → R (List Out × State)
  | s, [] => .ok ([], s)
  | s, i :: is => do
    let (o, s') ← step c s i
    let (os, s'') ← run c s' is
    pure (o :: os, s'')

end Cyc.Separations
