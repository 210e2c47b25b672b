import Verif.Sink.Model

/-!
# Vocabulary for the properties of `Sink`

Independent of how the model computes: what is held, the room for more, random numbers, the steps in
which a purchase is due, honest markets.
-/

namespace Cyc.Sink

/-- What the sink holds, in kg. -/
def held (s : State) : ℚ := totalQty s.inventory.items

/-- The room for another delivery: at most the capacity per step, and at most the free space. -/
def room (c : Cfg) (s : State) : ℚ := min c.capacity (max 0 (c.maxInv - held s))

/-- The facility enters at time `t`, with random numbers `g`, and then lives through the steps `is`,
the first at time `t`, with observations `os`. -/
def History (c : Cfg) (g : Rng) (t : ℤ) (is : List In) (os : List Out) (s : State) : Prop :=
  ∃ s₀, enter c g t = .ok s₀ ∧ run c t s₀ is = .ok (os, s)

/-- Random numbers are in the range that was asked for. -/
structure Sound (g : Rng) : Prop where
  uniformReal : ∀ {a b q}, g.uniformReal a b = .ok q → a ≤ q ∧ q ≤ b
  normalReal : ∀ {m d a b q}, g.normalReal m d a b = .ok q → a ≤ q ∧ q ≤ b
  uniformInt : ∀ {a b n}, g.uniformInt a b = .ok n → a ≤ n ∧ n ≤ b
  normalInt : ∀ {m d a b n}, g.normalInt m d a b = .ok n → a ≤ n ∧ n ≤ b

/-- Random numbers are returned if there are any in the range that was asked for; of the real ones,
if there is more than one. -/
structure Live (g : Rng) : Prop where
  uniformReal : ∀ {a b}, a < b → ∃ q, g.uniformReal a b = .ok q
  normalReal : ∀ {m d a b}, 0 < d → a < b → ∃ q, g.normalReal m d a b = .ok q
  uniformInt : ∀ {a b}, a ≤ b → ∃ n, g.uniformInt a b = .ok n
  normalInt : ∀ {m d a b}, 0 < d → a ≤ b → ∃ n, g.normalInt m d a b = .ok n

/-- All random numbers of a history are in range. -/
def AllSound (g : Rng) (is : List In) : Prop := Sound g ∧ ∀ i ∈ is, Sound i.rng ∧ Sound i.rng'

/-- Sensible input: nothing negative, a recipe has positive quantity. -/
structure Valid (c : Cfg) : Prop where
  maxInv : 0 ≤ c.maxInv
  capacity : 0 ≤ c.capacity
  eps : 0 < c.eps
  epsRsrc : 0 ≤ c.epsRsrc
  recipe : ∀ r, c.recipe = some r → 0 < qty r

/-- The time between purchases is random. -/
def RandomTime (c : Cfg) : Prop := c.freqType = "UniformInt" ∨ c.freqType = "NormalInt"

/-- `d` is the interval to the next purchase, drawn with `g`. -/
def Interval (c : Cfg) (g : Rng) (d : ℤ) : Prop :=
  (c.freqType = "UniformInt" ∧ g.uniformInt c.freqMin c.freqMax = .ok d) ∨
  (c.freqType = "NormalInt" ∧ g.normalInt c.freqMean c.freqStd c.freqMin c.freqMax = .ok d)

/-- `a` is the size of a purchase if there is room for `r`, drawn with `g`. -/
def Size (c : Cfg) (g : Rng) (r a : ℚ) : Prop :=
  if c.sizeType = "UniformReal" then g.uniformReal 0 r = .ok a
  else if c.sizeType = "NormalReal" then
    g.normalReal (r * c.sizeMean) (r * c.sizeStd) 0 r = .ok a
  else a = r

/-- The times at which a purchase is due: the first an interval after the start, the others an
interval, drawn at the time of the purchase, after the one before. -/
inductive Due (c : Cfg) (g : Rng) (t₀ : ℤ) (is : List In) : ℤ → Prop
  | first {d : ℤ} : Interval c g d → Due c g t₀ is (t₀ + d)
  | next {d : ℤ} {k : Nat} {i : In} : Due c g t₀ is (t₀ + k) → is[k]? = some i →
      Interval c i.rng d → Due c g t₀ is (t₀ + k + d)

/-- Nothing is recorded or requested. -/
def Silent (o : Out) : Prop := o.demand = [] ∧ o.matl = none ∧ o.prod = none

/-- The preferences, by commodity: those of the input, or the default. -/
def prefsOf (c : Cfg) : List ℚ :=
  if c.prefs = [] then List.replicate c.commods.length c.defaultPref else c.prefs

/-- `m` has the composition of `r`: its share of each nuclide is that of `r`. -/
def SameComposition (m r : NMat) : Prop := ∀ n, m.mass n * qty r = qty m * r.mass n

/-- The sink asks for `a` kg: it records this as the demand for each of its commodities; requests
material, of each commodity with its preference, any one of which is enough, of the composition of
the recipe if there is one; and requests products of each commodity, of which it takes `a` kg in
total. -/
structure Asks (c : Cfg) (o : Out) (a : ℚ) : Prop where
  demand : o.demand = c.commods.map fun k => (k, a)
  matl : ∃ p, o.matl = some p ∧ qty p.target = a ∧ p.reqs = c.commods.zip (prefsOf c) ∧
    ∀ r, c.recipe = some r → SameComposition p.target r
  prod : o.prod = some ⟨c.commods.map fun k => (k, a), a⟩

/-- The amount of material that was asked for. -/
def askedMatl (o : Out) : ℚ :=
  match o.matl with
  | none => 0
  | some p => qty p.target

/-- The amount of products that was asked for. -/
def askedProd (o : Out) : ℚ :=
  match o.prod with
  | none => 0
  | some p => p.cap

/-- Everything delivered in a step. -/
def delivered (i : In) : List Res :=
  i.mats.map .mat ++ i.prods.map fun x => .prod x.1 x.2

/-- What is delivered in a step is what an exchange can make of the requests: no more than was asked
for, which is what is observed in a step in which nothing is delivered; and the sink gets either
materials or products ("it is assumed the Sink operates on a single resource type", `sink.h:54`). -/
structure Honest (c : Cfg) (t : ℤ) (s : State) (i : In) : Prop where
  matsNonneg : ∀ m ∈ i.mats, 0 ≤ qty m
  prodsNonneg : ∀ x ∈ i.prods, 0 ≤ x.2
  mats : ∀ o s', step c t s { i with mats := [], prods := [] } = .ok (o, s') →
    totalQty i.mats ≤ askedMatl o
  prods : ∀ o s', step c t s { i with mats := [], prods := [] } = .ok (o, s') →
    (i.prods.map Prod.snd).sum ≤ askedProd o
  single : i.mats = [] ∨ i.prods = []

/-- Every step of a history is honest. -/
def HonestRun (c : Cfg) : ℤ → State → List In → Prop
  | _, _, [] => True
  | t, s, i :: is => Honest c t s i ∧ ∀ o s', step c t s i = .ok (o, s') → HonestRun c (t + 1) s' is

end Cyc.Sink
