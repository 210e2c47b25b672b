import Verif.Toolkit.Extract
import Verif.Toolkit.Map

/-!
# Model of `cycamore::Mixer` (`src/mixer.cc`, `src/mixer.h`)

One definition per function. Simplifications common to the file:

* `std::map` is a list of pairs with distinct keys (`Toolkit/Map.lean`); the address of a request is
  a number, chosen by the allocator;
* `in_commods` and `in_buf_sizes` are copies of parts of `streams_` that never change and are read
  there; they have the same length, so the check of lines 65-69 cannot fail;
* the sell policy is a cyclus toolkit class: what it hands over appears as adversarial sales;
* the position and the warnings have no effect on the modelled behaviour.
-/

namespace Cyc.Mixer

/-- Material with nuclide labels. -/
abbrev NMat := Mat Nat

/-- One entry of `streams_` (`mixer.h:63-69`): ratio, buffer size, commodities with preferences. -/
structure Stream where
  ratio : ℚ
  size : ℚ
  commods : List (String × ℚ)

/-- The user input of a mixer prototype (`mixer.h:63-108`). `eps` is `eps_rsrc()`; `lo` is the
smallest quantity a buffer can remove. -/
structure Cfg where
  streams : List Stream
  outCommod : String
  outSize : ℚ
  throughput : ℚ
  eps : ℚ
  lo : ℚ

/-- The mutable members: `mixing_ratios`, `streambufs`, `output`, `req_inventories_`. -/
structure State where
  ratios : List ℚ
  bufs : List (String × Buf NMat)
  output : Buf NMat
  reqInv : List (Nat × String)
  deriving DecidableEq

/-- `"in_stream_" + std::to_string(i)`. -/
def name (i : Nat) : String := "in_stream_" ++ toString i

/-- The buffer at a key of `streambufs`; `operator[]` creates one of infinite capacity. -/
def getBuf (bufs : List (String × Buf NMat)) (k : String) : Buf NMat := Map.getD bufs k ⟨none, []⟩

/-- The effect of reading `streambufs[k]`: the entry exists afterwards. -/
def touch (bufs : List (String × Buf NMat)) (k : String) : List (String × Buf NMat) :=
  Map.set bufs k (getBuf bufs k)

/-! ## Deployment -/

/-- The capacities of the streams (`mixer.cc:54-58`); the facility is new and its buffers empty.
A negative size leaves the default, infinite capacity. -/
def initBufs : Nat → List Stream → List (String × Buf NMat) → List (String × Buf NMat)
  | _, [], bufs => bufs
  | i, x :: l, bufs =>
    initBufs (i + 1) l (if x.size ≥ 0 then Map.set bufs (name i) ⟨some x.size, []⟩ else bufs)

/-- The normalisation of the ratios (`mixer.cc:72-91`). -/
def normalise (rs : List ℚ) : List ℚ :=
  if rs.sum ≠ 0 then rs.map fun r => r * (1 / rs.sum)
  else rs.map fun _ => 1 / rs.length

/-- Construction followed by `EnterNotify` (`mixer.cc:42-94`). -/
def enter (c : Cfg) : State :=
  ⟨normalise (c.streams.map Stream.ratio), initBufs 0 c.streams [], ⟨some c.outSize, []⟩, []⟩

/-! ## Mixing -/

/-- `std::min(tgt, quantity / ratio)` (`mixer.cc:102-103`). For a ratio of zero the quotient is
infinite or not a number, and `std::min` returns its first argument. -/
def limit (tgt q r : ℚ) : ℚ := if r = 0 then tgt else min tgt (q / r)

/-- The loop over the streams (`mixer.cc:100-104`); `i` is the number of the first stream. -/
def limitLoop (bufs : List (String × Buf NMat)) : Nat → List ℚ → ℚ → ℚ
  | _, [], t => t
  | i, r :: rs, t => limitLoop bufs (i + 1) rs (limit t (getBuf bufs (name i)).quantity r)

/-- The entries that the loop creates. -/
def touchLoop : Nat → Nat → List (String × Buf NMat) → List (String × Buf NMat)
  | _, 0, bufs => bufs
  | i, n + 1, bufs => touchLoop (i + 1) n (touch bufs (name i))

/-- The amount to mix (`mixer.cc:98-106`); `room` is `output.space()`. -/
def target (c : Cfg) (s : State) (room : ℚ) : ℚ :=
  min (limitLoop s.bufs 0 s.ratios room) c.throughput

/-- The removals (`mixer.cc:110-120`), as the list of what is removed. -/
def popAll (c : Cfg) (tgt : ℚ) : Nat → List ℚ → List (String × Buf NMat) →
    R (List NMat × List (String × Buf NMat))
  | _, [], bufs => .ok ([], bufs)
  | i, r :: rs, bufs => do
    let (m, b) ← (getBuf bufs (name i)).popEps c.lo c.eps (r * tgt)
    let (ms, bufs) ← popAll c tgt (i + 1) rs (Map.set bufs (name i) b)
    pure (m :: ms, bufs)

/-- `m->Absorb(m_)` for all but the first (`mixer.cc:113-119`); without streams a null pointer is
pushed. -/
def combine (ms : List NMat) : R NMat :=
  match ms with
  | [] => .error .ub
  | m :: ms => .ok (ms.foldl Mat.absorb m)

/-- The body of `Tick` when something can be mixed (`mixer.cc:109-121`). -/
def mix (c : Cfg) (tgt : ℚ) (s : State) : R State := do
  let (ms, bufs) ← popAll c tgt 0 s.ratios s.bufs
  let m ← combine ms
  let out ← s.output.push c.eps m
  pure { s with bufs := bufs, output := out }

/-- `Tick` (`mixer.cc:96-125`); the reported supply is the quantity of the output afterwards. -/
def tick (c : Cfg) (s : State) : R State :=
  if s.output.quantity < c.outSize then
    let room := max 0 (c.outSize - s.output.quantity)
    let s' := { s with bufs := touchLoop 0 s.ratios.length s.bufs }
    if target c s room > 0 then mix c (target c s room) s' else .ok s'
  else .ok s

/-! ## Requests and deliveries -/

/-- One request of a portfolio. -/
structure Req where
  id : Nat
  commod : String
  pref : ℚ
  deriving DecidableEq

/-- A request portfolio: the amount (`none` is infinite) and the requests, which are alternatives to
each other. -/
structure ReqPort where
  amount : Option ℚ
  reqs : List Req
  deriving DecidableEq

/-- `space() > eps_rsrc()`. -/
def hasRoom (eps : ℚ) (b : Buf NMat) : Bool :=
  match b.space with
  | none => true
  | some x => decide (x > eps)

/-- `req_inventories_[req] = name` for each request. -/
def note (name : String) (reqs : List Req) (inv : List (Nat × String)) : List (Nat × String) :=
  reqs.foldl (fun inv r => Map.set inv r.id name) inv

/-- The requests of one stream (`mixer.cc:158-164`); the `j`-th request of the stream `i` is stored
at `addr i j`. -/
def mkReqs (addr : Nat → Nat → Nat) (i : Nat) (commods : List (String × ℚ)) : List Req :=
  commods.zipIdx.map fun x => ⟨addr i x.2, x.1.1, x.1.2⟩

/-- The loop of `GetMatlRequests` (`mixer.cc:146-168`): the portfolios, by stream. -/
def requestLoop (c : Cfg) (addr : Nat → Nat → Nat) : Nat → List Stream → State →
    List (Option ReqPort) × State
  | _, [], s => ([], s)
  | i, x :: l, s =>
    let b := getBuf s.bufs (name i)
    let s := { s with bufs := touch s.bufs (name i) }
    if hasRoom c.eps b then
      let rs := mkReqs addr i x.commods
      let y := requestLoop c addr (i + 1) l { s with reqInv := note (name i) rs s.reqInv }
      (some ⟨b.space, rs⟩ :: y.1, y.2)
    else
      let y := requestLoop c addr (i + 1) l s
      (none :: y.1, y.2)

/-- The reported demand (`mixer.cc:131-142`): commodity and amount. -/
def demand (c : Cfg) (s : State) : List (String × Option ℚ) :=
  c.streams.zipIdx.flatMap fun x => x.1.commods.map fun y =>
    (y.1, (getBuf s.bufs (name x.2)).space)

/-- `GetMatlRequests` (`mixer.cc:127-170`). -/
def requests (c : Cfg) (addr : Nat → Nat → Nat) (s : State) : List (Option ReqPort) × State :=
  requestLoop c addr 0 c.streams s

/-- The loop body of `AcceptMatlTrades` (`mixer.cc:178-197`); `d` is the address of the request and
the material. -/
def acceptOne (c : Cfg) (s : State) (d : Nat × NMat) : R State :=
  match Map.get? s.bufs (Map.getD s.reqInv d.1 "") with
  | some b => do
    let b ← b.push c.eps d.2
    pure { s with bufs := Map.set s.bufs (Map.getD s.reqInv d.1 "") b }
  | none => .error .value

/-- `AcceptMatlTrades` (`mixer.cc:172-200`), called only of agents that have deliveries. -/
def accept (c : Cfg) (ds : List (Nat × NMat)) (s : State) : R State :=
  match ds with
  | [] => .ok s
  | d :: ds => do
    let s ← (d :: ds).foldlM (acceptOne c) s
    pure { s with reqInv := [] }

/-- The sell policy hands over material from `output`, one removal per trade
(`MatlSellPolicy::GetMatlTrades`, in cyclus). -/
def sellLoop (c : Cfg) : List ℚ → State → R (List NMat × State)
  | [], s => .ok ([], s)
  | q :: qs, s => do
    let (m, b) ← s.output.popEps c.lo c.eps q
    let (ms, s) ← sellLoop c qs { s with output := b }
    pure (m :: ms, s)

/-! ## Snapshots -/

/-- Everything is removed from a buffer and put back (`mixer.cc:20-21`, `26-27`, `33-34`). -/
def cycle (c : Cfg) (b : Buf NMat) : R (List NMat × Buf NMat) := do
  let (l, b) ← b.popN b.count
  let b ← b.pushAll c.eps l
  pure (l, b)

/-- The loop of `SnapshotInv` (`mixer.cc:25-28`). -/
def snapshotLoop (c : Cfg) : List (String × Buf NMat) → List (String × List NMat) →
    R (List (String × List NMat))
  | [], inv => .ok inv
  | x :: l, inv => do
    let (ms, _) ← cycle c x.2
    snapshotLoop c l (Map.set inv x.1 ms)

/-- `SnapshotInv` (`mixer.cc:14-30`). The buffers are as before. -/
def snapshot (c : Cfg) (s : State) : R (List (String × List NMat)) := do
  let (l, _) ← cycle c s.output
  snapshotLoop c s.bufs [("output-inv-name", l)]

/-- The loop of `InitInv` (`mixer.cc:37-39`). -/
def restoreLoop (c : Cfg) : List (String × List NMat) → List (String × Buf NMat) →
    R (List (String × Buf NMat))
  | [], bufs => .ok bufs
  | x :: l, bufs => do
    let b ← (getBuf bufs x.1).pushAll c.eps x.2
    restoreLoop c l (Map.set bufs x.1 b)

/-- `InitInv` (`mixer.cc:32-40`). -/
def restore (c : Cfg) (inv : List (String × List NMat)) (s : State) : R State := do
  let (l, b) ← cycle c s.output
  let bufs ← restoreLoop c (Map.set inv "output-inv-name" l) s.bufs
  pure { s with output := b, bufs := bufs }

/-- A new facility is deployed and then given a snapshot. -/
def restart (c : Cfg) (inv : List (String × List NMat)) : R State := restore c inv (enter c)

/-! ## A time step, as the cyclus kernel drives it (DESIGN.md, section 3) -/

/-- What the rest of the simulation does in one step: the addresses of the requests this facility
makes, the amounts sold, the deliveries (with the address of the request they answer). -/
structure In where
  addr : Nat → Nat → Nat
  sells : List ℚ
  buys : List (Nat × NMat)

/-- What an observer sees of one step: the output on offer, which is what `Tick` reports, the
reported demand, the requests by stream, what is sold. -/
structure Out where
  offered : List NMat
  demand : List (String × Option ℚ)
  asks : List (Option ReqPort)
  sold : List NMat
  deriving DecidableEq

/-- One time step. -/
def step (c : Cfg) (s : State) (i : In) : R (Out × State) := do
  let s ← tick c s
  let d := demand c s
  let (a, s1) := requests c i.addr s
  let (l, s2) ← sellLoop c i.sells s1
  let s3 ← accept c i.buys s2
  pure (⟨s.output.items, d, a, l⟩, s3)

/-- Any number of time steps. -/
def run (c : Cfg) : State → List In → R (List Out × State)
  | s, [] => .ok ([], s)
  | s, i :: is => do
    let (o, s) ← step c s i
    let (os, s) ← run c s is
    pure (o :: os, s)

end Cyc.Mixer
