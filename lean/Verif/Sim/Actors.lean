import Verif.Sim.Market
import Verif.Conversion.Spec
import Verif.Enrichment.Spec
import Verif.FuelFab.Spec
import Verif.Mixer.Spec
import Verif.Reactor.Spec
import Verif.Separations.Spec
import Verif.Sink.Spec
import Verif.Source.Spec
import Verif.Storage.Spec
import Mathlib.Data.Nat.Pairing

/-!
# The archetypes in a simulation

How the functions of the models make a facility for the exchange. In a market that respects its offers
`FuelFab` can fail (C46, DESIGN.md, section 6); here the exchange leaves alone what it cannot keep
(`fuelKept`).
-/

namespace Cyc.Sim

/-- A request without a recipe is for a material without a composition; the label stands for it. -/
def blank (q : ℚ) : NMat := ⟨[(0, q)]⟩

/-- The requested quantities by commodity. -/
def quantities (rs : List Req) (k : String) : List ℚ :=
  (rs.filter fun r => r.commod = k).map fun r => qty r.target

/-- The requests with their positions for names, as `Conversion` sees them. -/
def conversionReqs (rs : List Req) : List Conversion.Req :=
  rs.zipIdx.map fun x => ⟨x.2, x.1.commod, qty x.1.target⟩

/-- `Conversion`: the functions of `Verif/Conversion/Model.lean`, in the order of its `step`. -/
def conversion (c : Conversion.Cfg) : Actor where
  S := Conversion.State
  M := Conversion.State
  asks s := do
    let s ← Conversion.tick c s
    pure (match Conversion.requests c s with
      | none => []
      | some p => [⟨p.reqs.map fun r => (r.1, blank r.2), p.cap, false⟩])
  offers rs s := do
    let s ← Conversion.tick c s
    let b ← Conversion.bids c (conversionReqs rs) s
    pure (match b with
      | none => []
      | some p => [⟨c.outcommod, p.cap, c.lo, none, fun _ => true, []⟩])
  sell rs ts s := do
    let s ← Conversion.tick c s
    let _ ← Conversion.bids c (conversionReqs rs) s
    Conversion.sell c (ts.map Sale.amt) s
  settle ds s := Conversion.accept c (ds.map Delivery.mat) s

/-- The requests by commodity, as `Enrichment` sees them. -/
def targets (rs : List Req) (k : String) : Option (List NMat) :=
  if (rs.filter fun r => r.commod = k) = [] then none
  else some ((rs.filter fun r => r.commod = k).map Req.target)

/-- A deal of an enrichment facility: the bid was the uranium of the requested material. Which tails
were in the bid makes no difference. -/
def enrichmentTrade (c : Enrichment.Cfg) (t : Sale) : Enrichment.Trade :=
  ⟨t.commod, if t.commod = c.tailsCommod then t.target else Enrichment.offer t.target, t.amt⟩

/-- The offer of tails. -/
def tailsOffer (c : Enrichment.Cfg) (p : Enrichment.Ports) : List Offer :=
  match p.tails with
  | none => []
  | some t => [⟨c.tailsCommod, t.cap, c.lo, none, fun _ => true, []⟩]

/-- The offer of product: for the requests that have a bid, with the constraints on separative work
and on feed. Since there is no product without as much feed, the feed also limits the product. -/
def productOffer (c : Enrichment.Cfg) (p : Enrichment.Ports) : List Offer :=
  match p.product with
  | none => []
  | some p => [⟨c.productCommod, p.natuCap, max c.lo c.eps, none, Enrichment.served c,
      [⟨fun m q => Enrichment.swuConvert c.value p.feedAssay c.tailsAssay
          (Enrichment.cut ⟨c.productCommod, Enrichment.offer m, q⟩), p.swuCap⟩,
        ⟨fun m q => Enrichment.natuConvert p.feedAssay c.tailsAssay
          (Enrichment.cut ⟨c.productCommod, Enrichment.offer m, q⟩), p.natuCap⟩]⟩]

/-- `Enrichment`: the functions of `Verif/Enrichment/Model.lean`, in the order of its `step`. The
preferences are left alone (`order_prefs` is false). -/
def enrichment (c : Enrichment.Cfg) : Actor where
  S := Enrichment.State
  M := Enrichment.State
  asks s := .ok (match Enrichment.requests c (Enrichment.tick c s) with
    | none => []
    | some q => [⟨[(c.feedCommod, c.feedRecipe.scale (q / qty c.feedRecipe))], q, false⟩])
  offers rs s := do
    let (p, _) ← Enrichment.bids c (targets rs) (Enrichment.tick c s)
    pure (tailsOffer c p ++ productOffer c p)
  sell rs ts s := do
    let (_, s) ← Enrichment.bids c (targets rs) (Enrichment.tick c s)
    let (l, s) ← Enrichment.sellAll c (ts.map (enrichmentTrade c)) s
    pure (l.map Prod.fst, s)
  settle ds s := Enrichment.accept c (ds.map Delivery.mat) s

/-- What `FuelFab` requests: a recipe or blank material. -/
def fuelTarget (r : Option NMat) (q : ℚ) : NMat :=
  match r with
  | none => blank q
  | some m => FuelFab.ofComp q m

/-- The portfolio of one stream of `FuelFab`. -/
def fuelAsk (p : Option FuelFab.ReqPort) : Ask :=
  match p with
  | none => ⟨[], 0, false⟩
  | some p => ⟨p.reqs.map fun r => (r.commod, fuelTarget p.recipe p.amount), p.amount, false⟩

/-- The request that a delivery to `FuelFab` answers: those for fissile material come first, then
those for filler, then that for top-up material. -/
def fuelId (c : FuelFab.Cfg) (d : Delivery) : Nat :=
  if d.port = 0 then c.fissCommods.findIdx (· = d.commod)
  else if d.port = 1 then c.fissCommods.length + c.fillCommods.findIdx (· = d.commod)
  else c.fissCommods.length + c.fillCommods.length

/-- The requested materials by commodity, as `FuelFab` sees them. -/
def fuelTargets (rs : List Req) (k : String) : List NMat :=
  (rs.filter fun r => r.commod = k).map Req.target

/-- What `FuelFab` bids on a request. -/
def fuelBid (c : FuelFab.Cfg) (s : FuelFab.State) (m : NMat) : Option NMat :=
  match FuelFab.comps c s with
  | .error _ => none
  | .ok k => match FuelFab.bidOne c k (decide (s.topup.count > 0)) m with
    | .error _ => none
    | .ok b => b

/-- A deal of `FuelFab`. -/
def fuelTrade (c : FuelFab.Cfg) (s : FuelFab.State) (m : NMat) (q : ℚ) : FuelFab.Trade :=
  ⟨m, (fuelBid c s m).getD m, q⟩

/-- `FuelFab` can keep its word on a deal that takes `f` kg of fissile material, `l` kg of filler and
`u` kg of top-up material (C46): there is fissile material and filler, and the deal takes some fissile
material, and top-up material if it is richer than the fissile material; or there is no fissile
material, and the deal takes only filler; or there is only fissile material, and the deal takes
nothing else. -/
def fuelKept (c : FuelFab.Cfg) (s : FuelFab.State) (p : FuelFab.Port) (t : FuelFab.Trade)
    (f l u : ℚ) : Prop :=
  ((c.near ≤ totalQty s.fiss.items ∧ c.near ≤ totalQty s.fill.items ∧
      (s.topup.items = [] ∨ c.near ≤ totalQty s.topup.items)) ∧ (0 < f ∧ c.lo ≤ f) ∧
    (l = 0 ∨ c.lo ≤ l) ∧ (u = 0 ∨ c.lo ≤ u) ∧
    ((FuelFab.weight c p.fill ≤ FuelFab.weight c t.target ∧
      FuelFab.weight c t.target ≤ FuelFab.weight c p.fiss) ∨ 0 < u)) ∨
  (s.fiss.items = [] ∧ c.near ≤ totalQty s.fill.items ∧ c.lo ≤ t.amt ∧ f = 0 ∧ u = 0) ∨
  (s.fill.items = [] ∧ s.topup.items = [] ∧ c.near ≤ totalQty s.fiss.items ∧
    (c.lo ≤ t.amt ∧ 0 ≤ FuelFab.weight c t.target) ∧ l = 0)

instance (c : FuelFab.Cfg) (s : FuelFab.State) (p : FuelFab.Port) (t : FuelFab.Trade) (f l u : ℚ) :
    Decidable (fuelKept c s p t f l u) := by unfold fuelKept; infer_instance

/-- What a deal takes of the streams, according to the converters of the bid portfolio, if it can be
kept. -/
def fuelTakes (c : FuelFab.Cfg) (s : FuelFab.State) (p : FuelFab.Port) (t : FuelFab.Trade) :
    Option (ℚ × ℚ × ℚ) :=
  match FuelFab.fissConvert c p (FuelFab.cut t), FuelFab.fillConvert c p (FuelFab.cut t),
    FuelFab.topupConvert c p (FuelFab.cut t) with
  | .ok f, .ok l, .ok u => if fuelKept c s p t f l u then some (f, l, u) else none
  | _, _, _ => none

/-- The offer of fuel, with the constraints on the three streams. -/
def fuelOffer (c : FuelFab.Cfg) (s : FuelFab.State) (p : FuelFab.Port) : Offer :=
  ⟨c.outCommod, p.cap, 0, none, fun m => (fuelBid c s m).isSome,
    [⟨fun m q => (fuelTakes c s p (fuelTrade c s m q)).map fun x => x.1, p.fissCap⟩,
      ⟨fun m q => (fuelTakes c s p (fuelTrade c s m q)).map fun x => x.2.1, p.fillCap⟩,
      ⟨fun m q => (fuelTakes c s p (fuelTrade c s m q)).map fun x => x.2.2, p.topupCap⟩]⟩

/-- `FuelFab`: the functions of `Verif/FuelFab/Model.lean`, in the order of its `step`. -/
def fuelFab (c : FuelFab.Cfg) : Actor where
  S := FuelFab.State
  M := FuelFab.State
  asks s := do
    let (a, _) ← FuelFab.requests c id s
    pure [fuelAsk a.fiss, fuelAsk a.fill, fuelAsk a.topup]
  offers rs s := do
    let (_, s) ← FuelFab.requests c id s
    let b ← FuelFab.bids c (fuelTargets rs) s
    pure (match b with
      | none => []
      | some p => [fuelOffer c s p])
  sell rs ts s := do
    let (_, s) ← FuelFab.requests c id s
    let _ ← FuelFab.bids c (fuelTargets rs) s
    FuelFab.sell c (ts.map fun t => fuelTrade c s t.target t.amt) s
  settle ds s := FuelFab.acceptAll c (ds.map fun d => (fuelId c d, d.mat)) s

/-- The request of the stream `i` for its `j`-th commodity. -/
def mixerAddr (i j : Nat) : Nat := Nat.pair i j

/-- The request that a delivery to a mixer answers. -/
def mixerId (c : Mixer.Cfg) (d : Delivery) : Nat :=
  mixerAddr d.port (((c.streams[d.port]?.map Mixer.Stream.commods).getD []).findIdx
    fun x => x.1 = d.commod)

/-- The portfolio of one stream of a mixer. A stream without limit, for which the amount is not
known, asks for nothing here. -/
def mixerAsk (p : Option Mixer.ReqPort) : Ask :=
  match p with
  | none => ⟨[], 0, false⟩
  | some p => ⟨p.reqs.map fun r => (r.commod, blank (p.amount.getD 0)), p.amount.getD 0, false⟩

/-- `Mixer`: the functions of `Verif/Mixer/Model.lean`, in the order of its `step`; portfolio `k` is
that of the stream `k`. The sell policy offers the output. -/
def mixer (c : Mixer.Cfg) : Actor where
  S := Mixer.State
  M := Mixer.State
  asks s := do
    let s ← Mixer.tick c s
    pure ((Mixer.requests c mixerAddr s).1.map mixerAsk)
  offers _ s := do
    let s ← Mixer.tick c s
    pure [⟨c.outCommod, totalQty s.output.items, c.lo, none, fun _ => true, []⟩]
  sell _ ts s := do
    let s ← Mixer.tick c s
    Mixer.sellLoop c (ts.map Sale.amt) (Mixer.requests c mixerAddr s).2
  settle ds s := Mixer.accept c (ds.map fun d => (mixerId c d, d.mat)) s

/-- What a delivery is to a reactor: an assembly with the next free identifier, whose composition
has the number `enc` gives it. -/
def assemblies (enc : NMat → Nat) : Nat → List Delivery → List (String × Reactor.Assem)
  | _, [] => []
  | n, d :: ds => (d.commod, ⟨n, qty d.mat, enc d.mat⟩) :: assemblies enc (n + 1) ds

/-- `Reactor`: the functions of `Verif/Reactor/Model.lean`, in the order of its `step`. The state
has the next free identifier beside it. `dec` gives one kg of the composition with a number. -/
def reactor (c : Reactor.Cfg) (enc : NMat → Nat) (dec : Nat → NMat) : Actor where
  S := Reactor.State × Nat
  M := Reactor.State × Nat
  asks s := do
    let (o, _) ← Reactor.offerPhase c (fun _ => []) s.1
    pure (o.requests.map fun p =>
      ⟨p.map fun r => (r.commod, (dec r.comp).scale r.qty), c.assemSize, true⟩)
  offers rs s := do
    let (o, _) ← Reactor.offerPhase c (quantities rs) s.1
    pure (o.bids.map fun b => ⟨b.commod, b.cap, 0, some c.assemSize, fun _ => true, []⟩)
  sell rs ts s := do
    let (_, s1) ← Reactor.offerPhase c (quantities rs) s.1
    let (l, s2) ← if ts.map Sale.commod = [] then pure ([], s1)
      else Reactor.getMatlTrades c (ts.map Sale.commod) s1
    pure (l.map fun x => (dec x.2.comp).scale x.2.qty, (s2, s.2))
  settle ds m := do
    let s ← Reactor.acceptMatlTrades c (assemblies enc m.2 ds) m.1
    let s ← Reactor.tock c s
    pure ({ s with time := s.time + 1, log := [] }, m.2 + ds.length)

/-- `Separations`: the functions of `Verif/Separations/Model.lean`, in the order of its `step`. An offer
has the capacity of its portfolio; that single bids are not for more than an item and leave out items
of at most `eps` is not part of it (C151). -/
def separations (c : Separations.Cfg) : Actor where
  S := Separations.State
  M := Separations.State
  asks s := do
    let (_, s) ← Separations.tick c s
    let (_, rq) ← Separations.requests c s
    pure (match rq with
      | none => []
      | some r => [⟨r.commods.map fun k => (k.1, blank r.amount), r.amount, false⟩])
  offers rs s := do
    let (_, s) ← Separations.tick c s
    let _ ← Separations.requests c s
    Separations.reinsert c s (quantities rs)
    pure ((Separations.bids c s (quantities rs)).map fun p =>
      ⟨p.commod, p.cap, c.lo, none, fun _ => true, []⟩)
  sell rs ts s := do
    let (_, s) ← Separations.tick c s
    let _ ← Separations.requests c s
    Separations.reinsert c s (quantities rs)
    Separations.sellLoop c (ts.map fun t => (t.commod, t.amt)) s
  settle ds s := do
    let s ← (ds.map Delivery.mat).foldlM (Separations.accept c) s
    pure { s with time := s.time + 1 }

/-- Random numbers for a sink that uses none. -/
def noRng : Sink.Rng where
  uniformReal a b := if a ≤ b then .ok a else .error .value
  normalReal _ _ a b := if a ≤ b then .ok a else .error .value
  uniformInt a b := if a ≤ b then .ok a else .error .value
  normalInt _ _ a b := if a ≤ b then .ok a else .error .value

/-- `Sink`: the functions of `Verif/Sink/Model.lean`, in the order of its `step`. The state has the
time beside it. Nothing supplies the products that a sink asks for. -/
def sink (c : Sink.Cfg) : Actor where
  S := ℤ × Sink.State
  M := ℤ × Sink.State
  asks s := do
    let s1 ← Sink.tickAmt c noRng s.1 s.2
    let (m, _) ← Sink.matlRequests c noRng s1
    pure (match m with
      | none => []
      | some p => [⟨p.reqs.map fun r => (r.1, p.target), qty p.target, false⟩])
  offers _ _ := .ok []
  sell _ _ s := do
    let s1 ← Sink.tickAmt c noRng s.1 s.2
    let (_, s2) ← Sink.matlRequests c noRng s1
    pure ([], (s.1, s2))
  settle ds m := do
    let s ← Sink.accept c ((ds.map Delivery.mat).map .mat) m.2
    pure (m.1 + 1, s)

/-- The requests with their positions for names, as `Source` sees them. -/
def sourceReqs (rs : List Req) : List Source.Req :=
  rs.zipIdx.map fun x => ⟨x.2, x.1.commod, x.1.target⟩

/-- `Source`: the functions of `Verif/Source/Model.lean`. -/
def source (c : Source.Cfg) : Actor where
  S := Source.State
  M := Source.State
  asks _ := .ok []
  offers rs s := .ok (match Source.bids c (sourceReqs rs) s with
    | none => []
    | some p => [⟨c.outcommod, p.cap, c.lo, none, fun _ => true, []⟩])
  sell _ ts s := do
    let (l, s) ← Source.sell c (ts.map fun t => ⟨t.target, t.amt⟩) s
    pure (l.filterMap id, s)
  settle _ s := .ok s

/-- `Storage`: the functions of `Verif/Storage/Model.lean`, in the order of its `step`. How much the
buy policy asks for is up to cyclus: it may be anything (`want`). The sell policy offers what is in
stock. -/
def storage (c : Storage.Cfg) (want : Storage.State Nat → ℚ) : Actor where
  S := Storage.State Nat
  M := Storage.State Nat
  asks s := .ok (if 0 < want s
    then [⟨c.inCommods.map fun k => (k, blank (want s)), want s, false⟩] else [])
  offers _ s := .ok (c.outCommods.take 1 |>.map fun k =>
    ⟨k, totalQty s.stocks.items, c.lo, none, fun _ => true, []⟩)
  sell _ ts s := Storage.sellLoop c (ts.map Sale.amt) s
  settle ds s := do
    let s ← (ds.map Delivery.mat).foldlM (Storage.addMat c) s
    let (_, s) ← Storage.tock c s
    pure { s with time := s.time + 1 }

/-- A prototype: an archetype with its input. -/
inductive Kind
  | conversion (c : Conversion.Cfg)
  | enrichment (c : Enrichment.Cfg)
  | fuelFab (c : FuelFab.Cfg)
  | mixer (c : Mixer.Cfg)
  | reactor (c : Reactor.Cfg) (enc : NMat → Nat) (dec : Nat → NMat)
  | separations (c : Separations.Cfg)
  | sink (c : Sink.Cfg)
  | source (c : Source.Cfg)
  | storage (c : Storage.Cfg) (want : Storage.State Nat → ℚ)

/-- How a prototype behaves. -/
def act : Kind → Actor
  | .conversion c => conversion c
  | .enrichment c => enrichment c
  | .fuelFab c => fuelFab c
  | .mixer c => mixer c
  | .reactor c enc dec => reactor c enc dec
  | .separations c => separations c
  | .sink c => sink c
  | .source c => source c
  | .storage c want => storage c want

/-- A facility is deployed. -/
def deploy : Kind → R (Running act)
  | .conversion c => .ok ⟨.conversion c, Conversion.enter c⟩
  | .enrichment c => do
    let s ← Enrichment.build c
    pure ⟨.enrichment c, s⟩
  | .fuelFab c => do
    let s ← FuelFab.enter c
    pure ⟨.fuelFab c, s⟩
  | .mixer c => .ok ⟨.mixer c, Mixer.enter c⟩
  | .reactor c enc dec => do
    let s ← Reactor.enter c
    pure ⟨.reactor c enc dec, (s, 0)⟩
  | .separations c => do
    let s ← Separations.enter c
    pure ⟨.separations c, s⟩
  | .sink c => do
    let s ← Sink.enter c noRng 0
    pure ⟨.sink c, (0, s)⟩
  | .source c => do
    let s ← Source.build c
    pure ⟨.source c, s⟩
  | .storage c want => do
    let (_, s) ← Storage.enter c
    pure ⟨.storage c want, s⟩

/-- The material in a sink. -/
def sunk (l : List Sink.Res) : List NMat :=
  l.filterMap fun
    | .mat m => some m
    | .prod _ _ => none

/-- The assemblies as materials. -/
def material (dec : Nat → NMat) (l : List Reactor.Assem) : List NMat :=
  l.map fun a => (dec a.comp).scale a.qty

/-- What a facility has. -/
def holdings : (k : Kind) → (act k).S → List NMat
  | .conversion _ => fun s : Conversion.State => s.input.items ++ s.output.items
  | .enrichment _ => fun s : Enrichment.State => Enrichment.contents s
  | .fuelFab _ => fun s : FuelFab.State => FuelFab.contents s
  | .mixer _ => fun s : Mixer.State => Mixer.contents s
  | .reactor _ _ dec => fun s : Reactor.State × Nat => material dec (Reactor.held s.1)
  | .separations _ => fun s : Separations.State => Separations.contents s
  | .sink _ => fun s : ℤ × Sink.State => sunk s.2.inventory.items
  | .source _ => fun s : Source.State => s.inventory.items
  | .storage _ _ => fun s : Storage.State Nat => Storage.contents s

/-- Facilities are deployed. -/
def deployAll : List Kind → R (List (Running act))
  | [] => .ok []
  | k :: ks => do
    let p ← deploy k
    let ps ← deployAll ks
    pure (p :: ps)

/-- Sensible input of a prototype. Beyond what is said of the archetypes one by one: a conversion and
a mixer can take any amount out of a buffer (`lo`), a mixer uses all its streams and limits them, the
leftover of a separations facility is not limited, a sink buys the same in every step as long as it
has room, a source does not package, an enrichment facility leaves preferences alone, and the numbers
of compositions stand for compositions. -/
def Sensible : Kind → Prop
  | .conversion c => 0 ≤ c.capacity ∧ 0 < c.throughput ∧ 0 ≤ c.eps ∧ c.lo ≤ 0
  | .enrichment c => Enrichment.Valid c ∧ c.initialFeed ≤ c.maxFeed ∧ c.productCommod ≠ c.tailsCommod ∧
    c.orderPrefs = false
  | .fuelFab c => FuelFab.Valid c ∧ (c.fissPrefs = [] ∨ c.fissPrefs.length = c.fissCommods.length) ∧
    (c.fillPrefs = [] ∨ c.fillPrefs.length = c.fillCommods.length)
  | .mixer c => Mixer.Valid c ∧ (∀ x ∈ c.streams, 0 < x.ratio ∧ 0 ≤ x.size) ∧ c.lo ≤ 0
  | .reactor c _ dec => Reactor.WellFormed c ∧ ∀ n, qty (dec n) = 1 ∧ Mat.Nonneg (dec n)
  | .separations c => Separations.Valid c ∧ 0 < c.eps ∧ c.leftoverCap = none ∧
    c.feedCommods ≠ [] ∧ (c.feedPrefs.length = 0 ∨ c.feedPrefs.length = c.feedCommods.length) ∧
    ∀ s ∈ c.streams, (s.2.effs.map Prod.fst).Nodup
  | .sink c => Sink.Valid c ∧ (∀ r, c.recipe = some r → Mat.Nonneg r) ∧
    (c.prefs = [] ∨ c.prefs.length = c.commods.length) ∧ c.sizeType = "None" ∧ c.freqType = "None"
  | .source c => 0 ≤ c.size ∧ 0 ≤ c.throughput ∧ 0 < c.eps ∧
    (∀ r, c.recipe = some r → Solid r) ∧ (∀ q, c.fill q = [q]) ∧ ∀ n, c.ship n = n
  | .storage c _ => Storage.WellFormed c ∧ 0 ≤ c.eps ∧
    (c.discrete = true ∨ 0 < c.throughput ∧ c.lo ≤ c.throughput)

/-! ## Agreements -/

/-- A property of materials that parts and mixtures inherit. -/
structure Blendable (P : NMat → Prop) : Prop where
  scale : ∀ m r, 0 ≤ r → P m → P (m.scale r)
  squash : ∀ l, (∀ m ∈ l, P m) → P (Mat.squash l)

/-- Requests without a recipe are allowed in the commodities. -/
def BlankOk (A : Agreement) (ks : List String) : Prop := ∀ k ∈ ks, ∀ q, 0 < q → A.target k (blank q)

/-- Whatever is delivered in the commodity, it is as agreed. -/
def Free (A : Agreement) (k : String) : Prop := ∀ m, Solid m → A.mat k m

/-- What comes in as one of the commodities `ins`, in parts or mixed, may go out as `out`. -/
def Passes (A : Agreement) (ins : List String) (out : String) : Prop :=
  ∃ P, Blendable P ∧ (∀ k ∈ ins, ∀ m, Solid m → A.mat k m → P m) ∧ ∀ m, Solid m → P m → A.mat out m

/-- A material is uranium-235 and uranium-238 with an assay between `lo` and `hi`. -/
structure Assayed (lo hi : ℚ) (m : NMat) : Prop where
  pure : Enrichment.Pure [m]
  lower : lo * (m.mass Enrichment.u235 + m.mass Enrichment.u238) ≤ m.mass Enrichment.u235
  upper : m.mass Enrichment.u235 ≤ hi * (m.mass Enrichment.u235 + m.mass Enrichment.u238)

/-- The input of a prototype suits the agreement: what it requests is allowed, and what it delivers is
as agreed if what it receives is. An enrichment facility receives uranium that is richer than its
tails and not richer than any product it bids for. -/
def Suits (A : Agreement) : Kind → Prop
  | .conversion c => BlankOk A c.incommods ∧ Passes A c.incommods c.outcommod
  | .enrichment c => (∀ q, 0 < q → A.target c.feedCommod (c.feedRecipe.scale q)) ∧
    Free A c.tailsCommod ∧
    (∀ m q, Solid m → A.target c.productCommod m → Enrichment.served c m = true → 0 < q →
      A.mat c.productCommod ((Enrichment.offer m).scale q)) ∧
    ∃ lo hi, c.tailsAssay < lo ∧ Assayed lo hi c.feedRecipe ∧
      (∀ m, Solid m → A.mat c.feedCommod m → Assayed lo hi m) ∧
      ∀ m, Solid m → A.target c.productCommod m → Enrichment.served c m = true →
        hi * (m.mass Enrichment.u235 + m.mass Enrichment.u238) ≤ m.mass Enrichment.u235
  | .fuelFab c => (∀ k ∈ c.fissCommods, ∀ q, 0 < q → A.target k (fuelTarget c.fissRecipe q)) ∧
    (∀ k ∈ c.fillCommods, ∀ q, 0 < q → A.target k (fuelTarget c.fillRecipe q)) ∧
    (∀ q, 0 < q → A.target c.topupCommod (fuelTarget c.topupRecipe q)) ∧ Free A c.outCommod
  | .mixer c => (∀ x ∈ c.streams, BlankOk A (x.commods.map Prod.fst)) ∧ Free A c.outCommod
  | .reactor c _ dec => (∀ k ∈ c.inCommods, ∀ r n q, Reactor.Names c k r → c.recipe r = some n → 0 < q →
      A.target k ((dec n).scale q)) ∧
    ∀ k ∈ c.outCommods, Free A k
  | .separations c => BlankOk A c.feedCommods ∧ Free A c.leftoverCommod ∧
    ∀ x ∈ c.streams, Free A x.1
  | .sink c => ∀ k ∈ c.commods, ∀ q, 0 < q → A.target k (Sink.target c q)
  | .source c => ∃ P, Blendable P ∧ (∀ r, c.recipe = some r → P r) ∧
    (c.recipe = none → ∀ m, Solid m → A.target c.outcommod m → P m) ∧
    ∀ m, Solid m → P m → A.mat c.outcommod m
  | .storage c _ => BlankOk A c.inCommods ∧ ∀ k ∈ c.outCommods, Passes A c.inCommods k

end Cyc.Sim
