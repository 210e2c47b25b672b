import Verif.Toolkit.Material

/-!
# Model of `cycamore::Sink` (`src/sink.cc`, `src/sink.h`)

One definition per function. Simplifications common to the file:

* random numbers are arguments: `Rng` is what the four functions of the context return when they are
  called; nothing is assumed of them in the model;
* a recipe is a material of that composition, of any positive quantity; looking one up cannot fail;
* material without composition (`NewBlankMaterial`) is material of the label `0`;
* the position, the packaging flag (`sink.cc:44`) and the log have no effect on the modelled
  behaviour.
-/

namespace Cyc.Sink

/-- Material with nuclide labels. -/
abbrev NMat := Mat Nat

/-- A `cyclus::Resource`: a material, or a product of some quality. -/
inductive Res
  | mat (m : NMat)
  | prod (quality : String) (q : ℚ)
  deriving DecidableEq

/-- `Resource::quantity()`. -/
def Res.quantity : Res → ℚ
  | .mat m => Cyc.qty m
  | .prod _ q => q

instance : HasQty Res := ⟨Res.quantity⟩

/-- The user input of a sink prototype (`sink.h:124-261`). `eps` is `cyclus::eps()`; `epsRsrc` is
`eps_rsrc()`; `defaultPref` is `kDefaultPref`. -/
structure Cfg where
  commods : List String
  prefs : List ℚ
  recipe : Option NMat
  maxInv : ℚ
  capacity : ℚ
  sizeType : String
  sizeMean : ℚ
  sizeStd : ℚ
  freqType : String
  freqMean : ℚ
  freqStd : ℚ
  freqMin : ℤ
  freqMax : ℤ
  defaultPref : ℚ
  eps : ℚ
  epsRsrc : ℚ

/-- The greatest `int`. -/
def intMax : ℤ := 2147483647

/-- What the random functions of the context return, when called now, for given arguments:
`random_uniform_real`, `random_normal_real`, `random_uniform_int`, `random_normal_int`. -/
structure Rng where
  uniformReal : ℚ → ℚ → R ℚ
  normalReal : ℚ → ℚ → ℚ → ℚ → R ℚ
  uniformInt : ℤ → ℤ → R ℤ
  normalInt : ℚ → ℚ → ℤ → ℤ → R ℤ

/-- The mutable members: `inventory`, `requestAmt`, `nextBuyTime`, `in_commod_prefs`
(`sink.h:121-122, 136, 168`). -/
structure State where
  inventory : Buf Res
  requestAmt : ℚ
  nextBuy : ℤ
  prefs : List ℚ
  deriving DecidableEq

/-- `SpaceAvailable` (`sink.h:98-100`); a buffer always has a capacity here. -/
def spaceAvailable (c : Cfg) (s : State) : ℚ :=
  min c.capacity (max 0 (s.inventory.space.getD 0))

/-- `SetRequestAmt` (`sink.cc:234-255`). The assignment at `sink.cc:236-238` is always overwritten. -/
def setRequestAmt (c : Cfg) (g : Rng) (s : State) : R State := do
  let amt := spaceAvailable c s
  if c.sizeType = "None" then pure { s with requestAmt := amt }
  else if c.sizeType = "UniformReal" then do
    let q ← g.uniformReal 0 amt
    pure { s with requestAmt := q }
  else if c.sizeType = "NormalReal" then do
    let q ← g.normalReal (amt * c.sizeMean) (amt * c.sizeStd) 0 amt
    pure { s with requestAmt := q }
  else pure { s with requestAmt := amt }

/-- The sum of two `int`s: overflow is undefined. -/
def addInt (a b : ℤ) : R ℤ := if a + b ≤ intMax then .ok (a + b) else .error .ub

/-- `SetNextBuyTime` (`sink.cc:257-271`) at time `t`. -/
def setNextBuyTime (c : Cfg) (g : Rng) (t : ℤ) (s : State) : R State :=
  if c.freqType = "None" then pure { s with nextBuy := -1 }
  else if c.freqType = "UniformInt" then do
    let d ← g.uniformInt c.freqMin c.freqMax
    let n ← addInt t d
    pure { s with nextBuy := n }
  else if c.freqType = "NormalInt" then do
    let d ← g.normalInt c.freqMean c.freqStd c.freqMin c.freqMax
    let n ← addInt t d
    pure { s with nextBuy := n }
  else pure { s with nextBuy := -1 }

/-- The preferences (`sink.cc:46-55`). -/
def setPrefs (c : Cfg) (prefs : List ℚ) : R (List ℚ) :=
  if prefs.length = 0 then .ok (c.commods.map fun _ => c.defaultPref)
  else if prefs.length ≠ c.commods.length then .error .value
  else .ok prefs

/-- `EnterNotify` (`sink.cc:40-75`) of a facility with the inventory `b` and the preferences `prefs`,
at time `t`. -/
def enterWith (c : Cfg) (g : Rng) (t : ℤ) (b : Buf Res) (prefs : List ℚ) : R State := do
  let ps ← setPrefs c prefs
  let s ← setRequestAmt c g ⟨b, 0, 0, ps⟩
  setNextBuyTime c g t s

/-- A new facility: the capacity of the inventory is set from the input, by generated code
(`sink.h:167`), and it enters the simulation. -/
def enter (c : Cfg) (g : Rng) (t : ℤ) : R State := enterWith c g t ⟨some c.maxInv, []⟩ c.prefs

/-- `Tick` (`sink.cc:183-218`), the part that sets the amount. -/
def tickAmt (c : Cfg) (g : Rng) (t : ℤ) (s : State) : R State :=
  if s.nextBuy = -1 then setRequestAmt c g s
  else if s.nextBuy = t then do
    let s ← setRequestAmt c g s
    setNextBuyTime c g t s
  else pure { s with requestAmt := 0 }

/-- `Tick` (`sink.cc:183-218`), the recorded time series: commodity and amount. Not modelled: the
first commodity is read for the log (`sink.cc:206`), of which there is at least one. -/
def demand (c : Cfg) (s : State) : List (String × ℚ) :=
  if s.requestAmt > c.eps then c.commods.map fun k => (k, s.requestAmt) else []

/-- A request portfolio for material: the target, and commodities with preferences, mutually
exclusive. -/
structure MatlPort where
  target : NMat
  reqs : List (String × ℚ)
  deriving DecidableEq

/-- A request portfolio for products: commodities and quantities, and the constraint on the sum. -/
structure ProdPort where
  reqs : List (String × ℚ)
  cap : ℚ
  deriving DecidableEq

/-- The loop of `GetMatlRequests` (`sink.cc:123-126`); `in_commod_prefs[i]` is undefined beyond the
end. -/
def reqLoop : List String → List ℚ → R (List (String × ℚ))
  | [], _ => .ok []
  | _ :: _, [] => .error .ub
  | k :: ks, p :: ps => do
    let l ← reqLoop ks ps
    pure ((k, p) :: l)

/-- The requested material (`sink.cc:114-119`). -/
def target (c : Cfg) (q : ℚ) : NMat :=
  match c.recipe with
  | none => ⟨[(0, q)]⟩
  | some r => r.scale (q / Cyc.qty r)

/-- The adjustment in `GetMatlRequests` (`sink.cc:109-112`). -/
def readjust (c : Cfg) (g : Rng) (s : State) : R State :=
  if s.requestAmt > spaceAvailable c s then setRequestAmt c g s else pure s

/-- The portfolio of `GetMatlRequests` (`sink.cc:114-130`). -/
def matlPort (c : Cfg) (s : State) : R (Option MatlPort) :=
  if s.requestAmt > c.eps then do
    let l ← reqLoop c.commods s.prefs
    pure (some ⟨target c s.requestAmt, l⟩)
  else pure none

/-- `GetMatlRequests` (`sink.cc:97-131`). -/
def matlRequests (c : Cfg) (g : Rng) (s : State) : R (Option MatlPort × State) := do
  let s ← readjust c g s
  let p ← matlPort c s
  pure (p, s)

/-- `GetGenRsrcRequests` (`sink.cc:134-158`). -/
def prodRequests (c : Cfg) (s : State) : Option ProdPort :=
  if s.requestAmt > c.eps then some ⟨c.commods.map fun k => (k, s.requestAmt), s.requestAmt⟩
  else none

/-- `AcceptMatlTrades`, `AcceptGenRsrcTrades` (`sink.cc:161-180`). -/
def accept (c : Cfg) : List Res → State → R State
  | [], s => .ok s
  | r :: rs, s => do
    let b ← s.inventory.push c.epsRsrc r
    accept c rs { s with inventory := b }

/-! ## Snapshots: generated from the directives at `sink.h:124-273` -/

/-- `Snapshot` and `SnapshotInv`, generated: the preferences and the inventory are written;
`requestAmt` and `nextBuyTime` are not state variables. Everything is removed from the inventory and
pushed back. -/
def snapshot (c : Cfg) (s : State) : R ((List ℚ × List Res) × State) := do
  let (l, b) ← s.inventory.popN s.inventory.count
  let b ← b.pushAll c.epsRsrc l
  pure ((s.prefs, l), { s with inventory := b })

/-- A restarted facility enters the simulation at time `t` with an empty inventory, which is then
filled by `InitInv`, generated. -/
def restart (c : Cfg) (g : Rng) (t : ℤ) (snap : List ℚ × List Res) : R State := do
  let s ← enterWith c g t ⟨some c.maxInv, []⟩ snap.1
  let b ← s.inventory.pushAll c.epsRsrc snap.2
  pure { s with inventory := b }

/-! ## A time step, as the cyclus kernel drives it (DESIGN.md, section 3) -/

/-- What the rest of the simulation does in one step: the random numbers for `Tick` and for
`GetMatlRequests`, the delivered materials and the delivered products. -/
structure In where
  rng : Rng
  rng' : Rng
  mats : List NMat
  prods : List (String × ℚ)

/-- What an observer sees of one step: the recorded demand and the requests. -/
structure Out where
  demand : List (String × ℚ)
  matl : Option MatlPort
  prod : Option ProdPort
  deriving DecidableEq

/-- One time step: `Tick`, the exchange of materials, then that of products; `Tock` does nothing
(`sink.cc:221-232`). -/
def step (c : Cfg) (t : ℤ) (s : State) (i : In) : R (Out × State) := do
  let s ← tickAmt c i.rng t s
  let d := demand c s
  let (m, s) ← matlRequests c i.rng' s
  let s ← accept c (i.mats.map .mat) s
  let p := prodRequests c s
  let s ← accept c (i.prods.map fun x => .prod x.1 x.2) s
  pure (⟨d, m, p⟩, s)

/-- Any number of time steps, the first at time `t`. -/
def run (c : Cfg) : ℤ → State → List In → R (List Out × State)
  | _, s, [] => .ok ([], s)
  | t, s, i :: is => do
    let (o, s) ← step c t s i
    let (os, s) ← run c (t + 1) s is
    pure (o :: os, s)

end Cyc.Sink
