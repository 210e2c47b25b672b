import Verif.FuelFab.Model

/-!
# Vocabulary for the properties of `FuelFab`

Independent of how the model computes: numbers of atoms, equivalence weights, histories, honest
markets.
-/

namespace Cyc.FuelFab

open Mat (massOf)

/-! ## Weights -/

/-- The number of atoms of a material, up to a constant factor. -/
def atoms (c : Cfg) (m : NMat) : ℚ := (m.entries.map fun e => e.2 / c.atomMass e.1).sum

/-- Neutrons per fission: nuclide, thermal, otherwise. -/
def yields : List (Nat × ℚ × ℚ) :=
  [(922330000, 2.5, 2.63), (922350000, 2.43, 2.58), (942390000, 2.85, 3.1), (942410000, 2.85, 3.1)]

/-- Neutrons per fission of a nuclide in the spectrum of the facility; 0 for a nuclide that is not in
the table. -/
def yield (c : Cfg) (nuc : Nat) : ℚ :=
  match yields.find? (·.1 = nuc) with
  | some y => if c.spectrum = "thermal" then y.2.1 else y.2.2
  | none => 0

/-- Neutrons produced less neutrons absorbed: `ν σ_f - σ_a`, 0 for a nuclide without data. -/
def surplus (c : Cfg) (nuc : Nat) : ℚ :=
  match c.xs c.spectrum nuc with
  | some x => yield c nuc * x.1 - x.2
  | none => 0

/-- The equivalence weight of a nuclide: its surplus on the scale on which uranium-238 has weight 0
and plutonium-239 has weight 1. -/
def nuclideWeight (c : Cfg) (nuc : Nat) : ℚ :=
  (surplus c nuc - surplus c 922380000) / (surplus c 942390000 - surplus c 922380000)

/-- The equivalence weight of a material: the average over its atoms. -/
def weight (c : Cfg) (m : NMat) : ℚ :=
  (m.entries.map fun e => e.2 / c.atomMass e.1 * nuclideWeight c e.1).sum / atoms c m

/-- A material with mass and no negative entries. -/
def Solid (m : NMat) : Prop := 0 < qty m ∧ Mat.Nonneg m

/-- Sensible input: positive atomic masses; cross sections of uranium-238 and plutonium-239, which
differ in their surplus; recipes with mass; tolerances as in cyclus. -/
structure Valid (c : Cfg) : Prop where
  atom : ∀ n, 0 < c.atomMass n
  u238 : ∃ x, c.xs c.spectrum 922380000 = some x
  pu239 : ∃ x, c.xs c.spectrum 942390000 = some x
  scale : surplus c 942390000 ≠ surplus c 922380000
  fillRecipe : ∃ m, c.fillRecipe = some m
  recipes : ∀ m, c.fillRecipe = some m ∨ c.fissRecipe = some m ∨ c.topupRecipe = some m → Solid m
  eps : 0 < c.eps
  near : 0 < c.near
  nearHalf : c.near ≤ 1 / 2
  throughput : 0 ≤ c.throughput

/-! ## Histories -/

/-- The facility is deployed and then lives through the steps `is`, with observations `os`. -/
def History (c : Cfg) (is : List In) (os : List Out) (s : State) : Prop :=
  ∃ s₀, enter c = .ok s₀ ∧ run c s₀ is = .ok (os, s)

/-- Everything the facility holds. -/
def contents (s : State) : List NMat := s.fill.items ++ s.fiss.items ++ s.topup.items

/-- Everything received. -/
def received (is : List In) : List NMat := is.flatMap fun i => i.buys.map Prod.snd

/-- Everything sold. -/
def sold (os : List Out) : List NMat := os.flatMap Out.sold

/-- Every delivery is a material with mass. -/
def Substantial (is : List In) : Prop := ∀ i ∈ is, ∀ d ∈ i.buys, Solid d.2

/-- A state the facility can be in at the end of a step. -/
def Reachable (c : Cfg) (s : State) : Prop := ∃ is os, Substantial is ∧ History c is os s

/-! ## Honest markets -/

/-- What a bid offers, cut to the amount that is traded. -/
def cut (t : Trade) : NMat := t.offer.scale (t.amt / qty t.offer)

/-- The sum of the converted amounts of some trades is within a capacity constraint. -/
def Within (conv : NMat → R ℚ) (ts : List Trade) (cap : ℚ) : Prop :=
  ∃ vs : List ℚ, List.Forall₂ (fun t v => conv (cut t) = .ok v) ts vs ∧ vs.sum ≤ cap

/-- The sales are what an exchange can make of the bids on `reqs`: each answers a bid, in part or in
full, and the constraints of the portfolio are respected. -/
structure HonestSales (c : Cfg) (reqs : List NMat) (p : Option Port) (ts : List Trade) : Prop where
  bid : ∀ t ∈ ts, ∃ port, p = some port ∧ ∃ j : Nat, (j, t.offer) ∈ port.bids ∧
    reqs[j]? = some t.target ∧ 0 < t.amt ∧ t.amt ≤ qty t.offer
  fiss : ∀ port, p = some port → Within (fissConvert c port) ts port.fissCap
  fill : ∀ port, p = some port → Within (fillConvert c port) ts port.fillCap
  topup : ∀ port, p = some port → Within (topupConvert c port) ts port.topupCap
  cap : ∀ port, p = some port → (ts.map Trade.amt).sum ≤ port.cap

/-- The deliveries that answer a request of the portfolio. -/
def answers (p : Option ReqPort) (ds : List (Nat × NMat)) : List NMat :=
  (ds.filter fun d => match p with
    | some p => decide (d.1 ∈ p.reqs.map Req.id)
    | none => false).map Prod.snd

/-- All requests of a step. -/
def allReqs (a : Asks) : List Req :=
  [a.fiss, a.fill, a.topup].flatMap fun p => match p with
    | some p => p.reqs
    | none => []

/-- No two requests have the same address. -/
def Distinct (a : Asks) : Prop := ((allReqs a).map Req.id).Nodup

/-- The amount a portfolio asks for. -/
def amount (p : Option ReqPort) : ℚ :=
  match p with
  | some p => p.amount
  | none => 0

/-- The deliveries are what an exchange can make of the requests: each answers one of them, and no
portfolio is answered with more than it asks for. -/
structure HonestBuys (a : Asks) (ds : List (Nat × NMat)) : Prop where
  mass : ∀ d ∈ ds, Solid d.2
  req : ∀ d ∈ ds, d.1 ∈ (allReqs a).map Req.id
  fiss : totalQty (answers a.fiss ds) ≤ amount a.fiss
  fill : totalQty (answers a.fill ds) ≤ amount a.fill
  topup : totalQty (answers a.topup ds) ≤ amount a.topup

/-- Sales out of streams that are in stock: fissile and filler material are at hand, in more than a
negligible quantity; every trade takes some fissile material, and no trade takes a positive amount
that a buffer cannot remove; a trade beyond the weight of the fissile stream takes top-up material. -/
structure Regular (c : Cfg) (s : State) (p : Option Port) (ts : List Trade) : Prop where
  fissStock : c.near ≤ totalQty s.fiss.items
  fillStock : c.near ≤ totalQty s.fill.items
  topupStock : s.topup.items = [] ∨ c.near ≤ totalQty s.topup.items
  fiss : ∀ port, p = some port → ∀ t ∈ ts, ∀ v, fissConvert c port (cut t) = .ok v →
    0 < v ∧ c.lo ≤ v
  fill : ∀ port, p = some port → ∀ t ∈ ts, ∀ v, fillConvert c port (cut t) = .ok v →
    v = 0 ∨ c.lo ≤ v
  topup : ∀ port, p = some port → ∀ t ∈ ts, ∀ v, topupConvert c port (cut t) = .ok v →
    v = 0 ∨ c.lo ≤ v
  beyond : ∀ port, p = some port → ∀ t ∈ ts, ∀ v, topupConvert c port (cut t) = .ok v →
    (weight c port.fill ≤ weight c t.target ∧ weight c t.target ≤ weight c port.fiss) ∨ 0 < v

/-- A material is what a trade was promised: the traded amount of the offered material, which has
the weight of the offer. -/
def Delivered (c : Cfg) (t : Trade) (m : NMat) : Prop :=
  qty m = t.amt ∧ weight c m = weight c t.offer ∧ ∀ n, m.mass n = (cut t).mass n

/-- The values of consecutive calls of the weight function with static variables. -/
def calls (c : Cfg) : List NMat → Statics → R (List ℚ × Statics)
  | [], k => .ok ([], k)
  | m :: l, k => do
    let (w, k) ← cosiStatic c m k
    let (ws, k) ← calls c l k
    pure (w :: ws, k)

end Cyc.FuelFab
