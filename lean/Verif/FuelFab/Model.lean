import Verif.Toolkit.Extract
import Verif.Toolkit.Map

/-!
# Model of `cycamore::FuelFab` (`src/fuel_fab.cc`, `src/fuel_fab.h`)

One definition per function. Simplifications common to the file:

* the cross sections (`pyne::simple_xs`) and the atomic masses (`pyne::atomic_mass`) are parameters;
  a nuclide for which `simple_xs` throws `InvalidSimpleXS` has none;
* a composition is a material; only its proportions are used. A nuclide may occur in several entries
  of a material, which none of the sums notices;
* `std::map` is a list of pairs with distinct keys (`Toolkit/Map.lean`); the address of a request is
  a number, chosen by the allocator;
* the position and the warnings have no effect on the modelled behaviour.
-/

namespace Cyc.FuelFab

/-- Material with nuclide labels. -/
abbrev NMat := Mat Nat

/-- The user input of a fuel fabrication prototype and its environment (`fuel_fab.h:97-228`). A
recipe is its composition, `none` for an empty name. `xs` gives the fission and the absorption
cross section of a nuclide in a spectrum; `atomMass` the atomic mass of a nuclide; `eps` is
`eps_rsrc()`, `near` is `CY_NEAR_ZERO`, `large` is `CY_LARGE_DOUBLE`; `lo` is the smallest quantity
a buffer can remove. -/
structure Cfg where
  fillCommods : List String
  fillPrefs : List ℚ
  fillRecipe : Option NMat
  fillSize : ℚ
  fissCommods : List String
  fissPrefs : List ℚ
  fissRecipe : Option NMat
  fissSize : ℚ
  topupCommod : String
  topupPref : ℚ
  topupRecipe : Option NMat
  topupSize : ℚ
  outCommod : String
  throughput : ℚ
  spectrum : String
  xs : String → Nat → Option (ℚ × ℚ)
  atomMass : Nat → ℚ
  eps : ℚ
  near : ℚ
  large : ℚ
  lo : ℚ

/-- The mutable members. `reqInv` is `req_inventories_`, by address of the request. -/
structure State where
  fill : Buf NMat
  fiss : Buf NMat
  topup : Buf NMat
  fillPrefs : List ℚ
  fissPrefs : List ℚ
  reqInv : List (Nat × String)
  deriving DecidableEq

/-! ## Equivalence weights -/

/-- `Composition::atom()`, up to a constant factor: mass over atomic mass. -/
def atomMap (atomMass : Nat → ℚ) (m : NMat) : List (Nat × ℚ) :=
  m.entries.map fun e => (e.1, e.2 / atomMass e.1)

/-- `compmath::Normalize` (cyclus): the entries add up to `val`; nothing is changed if they add up to
zero. -/
def normalize (v : List (Nat × ℚ)) (val : ℚ) : List (Nat × ℚ) :=
  if (v.map Prod.snd).sum = 0 then v
  else v.map fun e => (e.1, e.2 / (v.map Prod.snd).sum * val)

/-- The constants `nu_u235`, `nu_u233`, `nu_pu239`, `nu_pu241`, and 0 for other nuclides, in the loop
of `CosiWeight` (`fuel_fab.cc:518-522`, `542-551`; `575-579`, `603-612`; `636-640`, `654-663`). -/
def nu (spectrum : String) (nuc : Nat) : ℚ :=
  if spectrum = "thermal" then
    if nuc = 922350000 then 243 / 100
    else if nuc = 922330000 then 5 / 2
    else if nuc = 942390000 then 57 / 20
    else if nuc = 942410000 then 57 / 20
    else 0
  else
    if nuc = 922350000 then 129 / 50
    else if nuc = 922330000 then 263 / 100
    else if nuc = 942390000 then 31 / 10
    else if nuc = 942410000 then 31 / 10
    else 0

/-- The cross sections in the loop of `CosiWeight`: zero for a nuclide without data
(`fuel_fab.cc:553-564`, `614-625`, `665-673`). -/
def xsOf (xs : Nat → Option (ℚ × ℚ)) (nuc : Nat) : ℚ × ℚ := (xs nuc).getD (0, 0)

/-- A use of `simple_xs` outside a `try` block. -/
def xs! (xs : Nat → Option (ℚ × ℚ)) (nuc : Nat) : R (ℚ × ℚ) :=
  match xs nuc with
  | some x => .ok x
  | none => .error .value

/-- `p_u238` and `p_pu239` (`fuel_fab.cc:529-535`, `586-596`, `642-648`); `nu_u238` is 0. -/
def refs (xs : Nat → Option (ℚ × ℚ)) (spectrum : String) : R (ℚ × ℚ) := do
  let u ← xs! xs 922380000
  let p ← xs! xs 942390000
  pure (0 * u.1 - u.2, (if spectrum = "thermal" then 57 / 20 else 31 / 10) * p.1 - p.2)

/-- `p` in the loop of `CosiWeight` (`fuel_fab.cc:570`, `631`, `675`). -/
def worth (spectrum : String) (x : ℚ × ℚ) (nuc : Nat) : ℚ := nu spectrum nuc * x.1 - x.2

/-- `CosiWeight` (`fuel_fab.cc:513-680`) without the static variables of its first two branches;
`cosiStatic` has them. Cross sections for which the quotient is not finite are a fault here. -/
def cosi (c : Cfg) (m : NMat) : R ℚ := do
  let r ← refs (c.xs c.spectrum) c.spectrum
  if r.2 - r.1 = 0 then .error .ub
  else
    pure ((normalize (atomMap c.atomMass m) 1).map fun e =>
      e.2 * (worth c.spectrum (xsOf (c.xs c.spectrum) e.1) e.1 - r.1) / (r.2 - r.1)).sum

/-- The static variables of one branch of `CosiWeight` (`fuel_fab.cc:524-527`, `581-584`):
`p_u238`, `p_pu239` and the cross sections met so far. `absorb_xs` and `fiss_xs` are written
together, so one list stands for both. -/
structure Statics where
  refs : ℚ × ℚ
  known : List (Nat × (ℚ × ℚ))

/-- The static variables before the first call. -/
def Statics.init : Statics := ⟨(0, 0), []⟩

/-- The look-up of one nuclide (`fuel_fab.cc:553-568`, `614-629`). -/
def lookup (xs : Nat → Option (ℚ × ℚ)) (known : List (Nat × (ℚ × ℚ))) (nuc : Nat) :
    (ℚ × ℚ) × List (Nat × (ℚ × ℚ)) :=
  match Map.get? known nuc with
  | some x => (x, known)
  | none =>
    match xs nuc with
    | some x => (x, Map.set known nuc x)
    | none => ((0, 0), known)

/-- The loop of `CosiWeight` (`fuel_fab.cc:538-572`, `599-633`). -/
def cosiLoop (xs : Nat → Option (ℚ × ℚ)) (spectrum : String) (r : ℚ × ℚ) :
    List (Nat × ℚ) → List (Nat × (ℚ × ℚ)) → ℚ × List (Nat × (ℚ × ℚ))
  | [], known => (0, known)
  | e :: l, known =>
    let x := lookup xs known e.1
    let y := cosiLoop xs spectrum r l x.2
    (e.2 * (worth spectrum x.1 e.1 - r.1) / (r.2 - r.1) + y.1, y.2)

/-- The initialisation of the references (`fuel_fab.cc:528-536`, `585-597`). -/
def refsStatic (xs : Nat → Option (ℚ × ℚ)) (spectrum : String) (k : Statics) : R (ℚ × ℚ) :=
  if k.refs.1 = 0 then refs xs spectrum else .ok k.refs

/-- `CosiWeight` for the spectra `thermal` and `fission_spectrum_ave`, with the static variables of
the branch (`fuel_fab.cc:517-634`). -/
def cosiStatic (c : Cfg) (m : NMat) (k : Statics) : R (ℚ × Statics) := do
  let r ← refsStatic (c.xs c.spectrum) c.spectrum k
  if r.2 - r.1 = 0 then .error .ub
  else
    let x := cosiLoop (c.xs c.spectrum) c.spectrum r (normalize (atomMap c.atomMass m) 1) k.known
    pure (x.1, ⟨r, x.2⟩)

/-! ## Mixing fractions -/

/-- The sums of `AtomToMassFrac` (`fuel_fab.cc:693-701`). -/
def massSum (atomMass : Nat → ℚ) (v : List (Nat × ℚ)) : ℚ :=
  (v.map fun e => e.2 * atomMass e.1).sum

/-- `AtomToMassFrac` (`fuel_fab.cc:684-704`). -/
def atomToMass (atomMass : Nat → ℚ) (f : ℚ) (a b : NMat) : ℚ :=
  massSum atomMass (normalize (atomMap atomMass a) f) /
    (massSum atomMass (normalize (atomMap atomMass a) f) +
      massSum atomMass (normalize (atomMap atomMass b) (1 - f)))

/-- `ValidWeights` (`fuel_fab.cc:727-731`). -/
def validWeights (low target high : ℚ) : Bool := decide (low ≤ target ∧ target ≤ high)

/-- The rounding in `HighFrac` (`fuel_fab.cc:713-718`). -/
def snap (eps f : ℚ) : ℚ := if 1 - f < eps then 1 else if f < eps then 0 else f

/-- `HighFrac` (`fuel_fab.cc:706-719`). -/
def highFrac (eps low target high : ℚ) : R ℚ :=
  if validWeights low target high = false then .error .value
  else if low = high ∧ target = low then .ok 1
  else .ok (snap eps |(target - low) / (high - low)|)

/-- `LowFrac` (`fuel_fab.cc:721-723`). -/
def lowFrac (eps low target high : ℚ) : R ℚ := do
  let f ← highFrac eps low target high
  pure (1 - f)

/-! ## Deployment and requests -/

/-- The preferences after `EnterNotify` (`fuel_fab.cc:142-162`); `kDefaultPref` is 1. -/
def initPrefs (commods : List String) (prefs : List ℚ) : R (List ℚ) :=
  if prefs = [] then .ok (commods.map fun _ => 1)
  else if prefs.length ≠ commods.length then .error .value
  else .ok prefs

/-- Construction followed by `EnterNotify` (`fuel_fab.cc:133-165`). -/
def enter (c : Cfg) : R State := do
  let fiss ← initPrefs c.fissCommods c.fissPrefs
  let fill ← initPrefs c.fillCommods c.fillPrefs
  pure ⟨⟨some c.fillSize, []⟩, ⟨some c.fissSize, []⟩, ⟨some c.topupSize, []⟩, fill, fiss, []⟩

/-- One request of a portfolio. -/
structure Req where
  id : Nat
  commod : String
  pref : ℚ
  deriving DecidableEq

/-- A request portfolio: the amount, the recipe of the target (`none`: a blank material) and the
requests, which are alternatives to each other. -/
structure ReqPort where
  amount : ℚ
  recipe : Option NMat
  reqs : List Req
  deriving DecidableEq

/-- `space()` of a buffer with a capacity. -/
def space (b : Buf NMat) : ℚ := b.space.getD 0

/-- The loop that makes the requests of a stream (`fuel_fab.cc:184-189`, `204-209`); the `i`-th
request is stored at `addr (k + i)`. -/
def mkReqs (addr : Nat → Nat) (k : Nat) (commods : List String) (prefs : List ℚ) : R (List Req) :=
  (List.range commods.length).mapM fun i => do
    let commod ← at! commods i
    let pref ← at! prefs i
    pure ⟨addr (k + i), commod, pref⟩

/-- `req_inventories_[req] = name` for each request. -/
def note (name : String) (reqs : List Req) (inv : List (Nat × String)) : List (Nat × String) :=
  reqs.foldl (fun inv r => Map.set inv r.id name) inv

/-- One block of `GetMatlRequests` (`fuel_fab.cc:174-192`, `194-212`, `214-226`). -/
def ask (c : Cfg) (addr : Nat → Nat) (k : Nat) (name : String) (b : Buf NMat)
    (recipe : Option NMat) (commods : List String) (prefs : List ℚ) (inv : List (Nat × String)) :
    R (Option ReqPort × List (Nat × String)) :=
  if space b > c.eps then do
    let rs ← mkReqs addr k commods prefs
    pure (some ⟨space b, recipe, rs⟩, note name rs inv)
  else .ok (none, inv)

/-- The portfolios of `GetMatlRequests`. -/
structure Asks where
  fiss : Option ReqPort
  fill : Option ReqPort
  topup : Option ReqPort
  deriving DecidableEq

/-- `GetMatlRequests` (`fuel_fab.cc:167-229`). -/
def requests (c : Cfg) (addr : Nat → Nat) (s : State) : R (Asks × State) := do
  let (p1, inv) ← ask c addr 0 "fiss" s.fiss c.fissRecipe c.fissCommods s.fissPrefs s.reqInv
  let (p2, inv) ← ask c addr c.fissCommods.length "fill" s.fill c.fillRecipe c.fillCommods
    s.fillPrefs inv
  let (p3, inv) ← ask c addr (c.fissCommods.length + c.fillCommods.length) "topup" s.topup
    c.topupRecipe [c.topupCommod] [c.topupPref] inv
  pure (⟨p1, p2, p3⟩, { s with reqInv := inv })

/-! ## Deliveries -/

/-- The loop body of `AcceptMatlTrades` (`fuel_fab.cc:246-260`); `d` is the address of the request
and the material. -/
def acceptOne (c : Cfg) (s : State) (d : Nat × NMat) : R State :=
  if Map.getD s.reqInv d.1 "" = "fill" then do
    let b ← s.fill.push c.eps d.2
    pure { s with fill := b }
  else if Map.getD s.reqInv d.1 "" = "topup" then do
    let b ← s.topup.push c.eps d.2
    pure { s with topup := b }
  else if Map.getD s.reqInv d.1 "" = "fiss" then do
    let b ← s.fiss.push c.eps d.2
    pure { s with fiss := b }
  else .error .value

/-- `if (b.count() > 1) b.Push(Squash(b.PopN(b.count())))` (`fuel_fab.cc:266-274`). -/
def merge (c : Cfg) (b : Buf NMat) : R (Buf NMat) :=
  if b.count > 1 then do
    let (l, b) ← b.popN b.count
    b.push c.eps (Mat.squash l)
  else .ok b

/-- `AcceptMatlTrades` (`fuel_fab.cc:240-275`). -/
def accept (c : Cfg) (ds : List (Nat × NMat)) (s : State) : R State := do
  let s ← ds.foldlM (acceptOne c) s
  let s := { s with reqInv := [] }
  let fill ← merge c s.fill
  let fiss ← merge c s.fiss
  let topup ← merge c s.topup
  pure { s with fill := fill, fiss := fiss, topup := topup }

/-- The kernel calls `AcceptMatlTrades` only of agents that have deliveries. -/
def acceptAll (c : Cfg) (ds : List (Nat × NMat)) (s : State) : R State :=
  match ds with
  | [] => .ok s
  | d :: ds => accept c (d :: ds) s

/-! ## Bids -/

/-- The composition that stands for a stream: its content, else its recipe. -/
def streamComp (b : Buf NMat) (recipe : Option NMat) : Option NMat :=
  match b.items with
  | m :: _ => some m
  | [] => recipe

/-- Compositions of the streams and their weights, as `GetMatlBids` determines them. -/
structure Comps where
  fill : NMat
  fiss : NMat
  topup : NMat
  wFill : ℚ
  wFiss : ℚ
  wTopup : ℚ
  deriving DecidableEq

/-- `Context::GetRecipe`. -/
def recipe! (r : Option NMat) : R NMat :=
  match r with
  | some m => .ok m
  | none => .error .key

/-- The weight of an optional composition. -/
def cosiOr (c : Cfg) (m : Option NMat) (d : ℚ) : R ℚ :=
  match m with
  | some m => cosi c m
  | none => .ok d

/-- The first part of `GetMatlBids` (`fuel_fab.cc:290-320`). -/
def comps (c : Cfg) (s : State) : R Comps := do
  let fill ← recipe! (streamComp s.fill c.fillRecipe)
  let wFill ← cosi c fill
  let wTopup ← cosiOr c (streamComp s.topup c.topupRecipe) 0
  let wFiss ← cosiOr c (streamComp s.fiss c.fissRecipe) wFill
  pure ⟨fill, (streamComp s.fiss c.fissRecipe).getD fill,
    (streamComp s.topup c.topupRecipe).getD fill, wFill, wFiss, wTopup⟩

/-- `Material::CreateUntracked`. -/
def ofComp (q : ℚ) (m : NMat) : NMat := m.scale (q / qty m)

/-- The offer of `q` kg that mixes `a` and `b`, with atom fraction `f` of `a`
(`fuel_fab.cc:331-336`, `345-351`). -/
def mixture (c : Cfg) (q f : ℚ) (a b : NMat) : NMat :=
  (ofComp (atomToMass c.atomMass f a b * q) a).absorb
    (ofComp (atomToMass c.atomMass (1 - f) b a * q) b)

/-- The bid on one request (`fuel_fab.cc:324-365`), without the warning. -/
def bidOne (c : Cfg) (k : Comps) (topup : Bool) (target : NMat) : R (Option NMat) := do
  let w ← cosi c target
  if validWeights k.wFill w k.wFiss then do
    let f ← highFrac c.near k.wFill w k.wFiss
    pure (some (mixture c (qty target) f k.fiss k.fill))
  else if topup && validWeights k.wFiss w k.wTopup then do
    let f ← highFrac c.near k.wFiss w k.wTopup
    pure (some (mixture c (qty target) f k.topup k.fiss))
  else pure none

/-- The loop over the requests (`fuel_fab.cc:323-366`): bids with the position of their request. -/
def bidLoop (c : Cfg) (k : Comps) (topup : Bool) : Nat → List NMat → R (List (Nat × NMat))
  | _, [] => .ok []
  | j, m :: l => do
    let b ← bidOne c k topup m
    let bs ← bidLoop c k topup (j + 1) l
    pure ((b.map fun x => (j, x)).toList ++ bs)

/-- The bid portfolio: bids, the compositions its converters hold, and the capacity constraints. -/
structure Port where
  bids : List (Nat × NMat)
  fill : NMat
  fiss : NMat
  topup : NMat
  fissCap : ℚ
  fillCap : ℚ
  topupCap : ℚ
  cap : ℚ
  deriving DecidableEq

/-- `GetMatlBids` (`fuel_fab.cc:277-390`). A `CapacityConstraint` that is not positive throws. -/
def bids (c : Cfg) (reqs : String → List NMat) (s : State) : R (Option Port) :=
  if c.throughput = 0 then .ok none
  else if (reqs c.outCommod).length = 0 then .ok none
  else do
    let k ← comps c s
    let bs ← bidLoop c k (decide (s.topup.count > 0)) 0 (reqs c.outCommod)
    if c.throughput ≤ 0 then .error .value
    else pure (some ⟨bs, k.fill, k.fiss, k.topup, max s.fiss.quantity c.near,
      max s.fill.quantity c.near, max s.topup.quantity c.near, c.throughput⟩)

/-- `FissConverter` (`fuel_fab.cc:17-43`). -/
def fissConvert (c : Cfg) (p : Port) (m : NMat) : R ℚ := do
  let wFiss ← cosi c p.fiss
  let wFill ← cosi c p.fill
  let wTopup ← cosi c p.topup
  let w ← cosi c m
  if validWeights wFill w wFiss then do
    let f ← highFrac c.near wFill w wFiss
    pure (atomToMass c.atomMass f p.fiss p.fill * qty m)
  else if validWeights wFiss w wTopup then do
    let f ← lowFrac c.near wFiss w wTopup
    pure (atomToMass c.atomMass f p.fiss p.topup * qty m)
  else pure c.large

/-- `FillConverter` (`fuel_fab.cc:57-82`). -/
def fillConvert (c : Cfg) (p : Port) (m : NMat) : R ℚ := do
  let wFiss ← cosi c p.fiss
  let wFill ← cosi c p.fill
  let wTopup ← cosi c p.topup
  let w ← cosi c m
  if validWeights wFill w wFiss then do
    let f ← lowFrac c.near wFill w wFiss
    pure (atomToMass c.atomMass f p.fill p.fiss * qty m)
  else if validWeights wFiss w wTopup then pure 0
  else pure c.large

/-- `TopupConverter` (`fuel_fab.cc:96-121`). -/
def topupConvert (c : Cfg) (p : Port) (m : NMat) : R ℚ := do
  let wFiss ← cosi c p.fiss
  let wFill ← cosi c p.fill
  let wTopup ← cosi c p.topup
  let w ← cosi c m
  if validWeights wFill w wFiss then pure 0
  else if validWeights wFiss w wTopup then do
    let f ← highFrac c.near wFiss w wTopup
    pure (atomToMass c.atomMass f p.topup p.fiss * qty m)
  else pure c.large

/-! ## Trades -/

/-- A trade this facility has to carry out: the target of the request, the offer of the bid, the
amount. -/
structure Trade where
  target : NMat
  offer : NMat
  amt : ℚ

/-- `ResBuf::Peek`; throws when empty. -/
def peek (b : Buf NMat) : R NMat :=
  match b.items with
  | m :: _ => .ok m
  | [] => .error .value

/-- The weight of the content of a stream at the start of `GetMatlTrades`; 0 when it is empty
(`fuel_fab.cc:400-411`). -/
def stockWeight (c : Cfg) (b : Buf NMat) : R ℚ :=
  match b.items with
  | m :: _ => cosi c m
  | [] => .ok 0

/-- The amount taken from a stream: all of it when it is within `eps_rsrc()` of the amount needed and
not more (`fuel_fab.cc:432-435`, `440-443`, `454-461`, `477-484`). -/
def round (c : Cfg) (b : Buf NMat) (q : ℚ) : ℚ :=
  if |q - b.quantity| < c.eps then min b.quantity q else q

/-- Removal of an amount from a stream. -/
def take (c : Cfg) (b : Buf NMat) (q : ℚ) : R (NMat × Buf NMat) :=
  b.popEps c.lo c.eps (round c b q)

/-- Removal from a second stream, absorbed into `m`, unless the fraction `f` is not positive
(`fuel_fab.cc:464-467`, `487-490`). -/
def addFrom (c : Cfg) (m : NMat) (b : Buf NMat) (f q : ℚ) : R (NMat × Buf NMat) :=
  if f > 0 then do
    let (x, b) ← take c b (f * q)
    pure (m.absorb x, b)
  else .ok (m, b)

/-- One trade: `wFill`, `wFiss`, `wTopup` are the weights at the start of `GetMatlTrades`
(`fuel_fab.cc:416-420`, `430-492`). -/
def sellOne (c : Cfg) (wFill wFiss wTopup : ℚ) (t : Trade) (s : State) : R (NMat × State) := do
  let w ← cosi c t.target
  if s.fiss.count = 0 then do
    let (m, b) ← take c s.fill t.amt
    pure (m, { s with fill := b })
  else if s.fill.count = 0 ∧ validWeights wFill w wFiss then do
    let (m, b) ← take c s.fiss t.amt
    pure (m, { s with fiss := b })
  else if validWeights wFill w wFiss then do
    let f ← highFrac c.near wFill w wFiss
    let g ← lowFrac c.near wFill w wFiss
    let x ← peek s.fiss
    let y ← peek s.fill
    let (m, b) ← take c s.fiss (atomToMass c.atomMass f x y * t.amt)
    let (m, b') ← addFrom c m s.fill (atomToMass c.atomMass g y x) t.amt
    pure (m, { s with fiss := b, fill := b' })
  else do
    let f ← highFrac c.near wFiss w wTopup
    let x ← peek s.topup
    let y ← peek s.fiss
    let (m, b) ← take c s.fiss (atomToMass c.atomMass (1 - f) y x * t.amt)
    let (m, b') ← addFrom c m s.topup (atomToMass c.atomMass f x y) t.amt
    pure (m, { s with fiss := b, topup := b' })

/-- The loop of `GetMatlTrades` (`fuel_fab.cc:414-493`); `tot` is the total so far. -/
def sellLoop (c : Cfg) (wFill wFiss wTopup : ℚ) : ℚ → List Trade → State → R (List NMat × State)
  | _, [], s => .ok ([], s)
  | tot, t :: ts, s =>
    if tot + t.amt > c.throughput + c.eps then .error .value
    else do
      let (m, s) ← sellOne c wFill wFiss wTopup t s
      let (l, s) ← sellLoop c wFill wFiss wTopup (tot + t.amt) ts s
      pure (m :: l, s)

/-- `GetMatlTrades` (`fuel_fab.cc:392-494`). -/
def sell (c : Cfg) (ts : List Trade) (s : State) : R (List NMat × State) := do
  let wFill ← stockWeight c s.fill
  let wTopup ← stockWeight c s.topup
  let wFiss ← stockWeight c s.fiss
  sellLoop c wFill wFiss wTopup 0 ts s

/-! ## A time step, as the cyclus kernel drives it (DESIGN.md, section 3) -/

/-- What the rest of the simulation does in one step: the addresses of the requests this facility
makes, the requests of others by commodity, the sales, the deliveries (with the address of the
request they answer). -/
structure In where
  addr : Nat → Nat
  reqs : String → List NMat
  sells : List Trade
  buys : List (Nat × NMat)

/-- What an observer sees of one step: requests, bids, what is sold. -/
structure Out where
  asks : Asks
  port : Option Port
  sold : List NMat
  deriving DecidableEq

/-- One time step. The kernel calls `GetMatlTrades` only of agents that have sales; without sales the
call here only computes weights, which cannot fail for a configuration with reference cross
sections. -/
def step (c : Cfg) (s : State) (i : In) : R (Out × State) := do
  let (a, s) ← requests c i.addr s
  let p ← bids c i.reqs s
  let (l, s) ← sell c i.sells s
  let s ← acceptAll c i.buys s
  pure (⟨a, p, l⟩, s)

/-- Any number of time steps. -/
def run (c : Cfg) : State → List In → R (List Out × State)
  | s, [] => .ok ([], s)
  | s, i :: is => do
    let (o, s) ← step c s i
    let (os, s) ← run c s is
    pure (o :: os, s)

end Cyc.FuelFab
