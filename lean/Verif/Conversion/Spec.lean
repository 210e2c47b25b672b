import Verif.Conversion.Model

/-!
# Vocabulary for the properties of `Conversion`

Independent of how the model computes: what the facility holds, histories, honest markets.
-/

namespace Cyc.Conversion

/-- The feed in kg. -/
def feed (s : State) : ℚ := totalQty s.input.items

/-- The product in kg. -/
def product (s : State) : ℚ := totalQty s.output.items

/-- The facility is deployed and then lives through the steps `is`, with observations `os`. -/
def History (c : Cfg) (is : List In) (os : List Out) (s : State) : Prop :=
  run c (enter c) is = .ok (os, s)

/-- Everything received. -/
def received (is : List In) : List NMat := is.flatMap In.buys

/-- Everything sold. -/
def sold (os : List Out) : List NMat := os.flatMap Out.sold

/-- A material of positive quantity, without negative masses. -/
def Solid (m : NMat) : Prop := 0 < qty m ∧ Mat.Nonneg m

/-- Every delivery is of positive quantity and has no negative mass. -/
def Substantial (is : List In) : Prop := ∀ i ∈ is, ∀ m ∈ i.buys, Solid m

/-- `m` has the composition of the pile `l`: its share of each nuclide is that of the pile. -/
def SameComposition (m : NMat) (l : List NMat) : Prop :=
  ∀ n, m.mass n * totalQty l = qty m * Mat.massOf l n

/-- The trades of one step are what an exchange can make of the request and the offer of a facility
in the state `s`: the deliveries are within the constraint of the request portfolio and there are
none without one; the sales do not exceed the product and can be removed from a buffer. -/
structure Honest (c : Cfg) (s : State) (i : In) : Prop where
  solid : ∀ m ∈ i.buys, Solid m
  unasked : requests c s = none → i.buys = []
  amounts : ∀ p, requests c s = some p → totalQty i.buys ≤ p.cap
  sells : ∀ q ∈ i.sells, 0 < q ∧ c.lo ≤ q
  total : i.sells.sum ≤ product s

/-- Every step of a history is honest, and what is converted is not too small to be removed. -/
def HonestRun (c : Cfg) : State → List In → Prop
  | _, [] => True
  | s, i :: is => (0 < feed s → c.lo ≤ feed s) ∧ (∀ s₁, tick c s = .ok s₁ → Honest c s₁ i) ∧
    ∀ o s', step c s i = .ok (o, s') → HonestRun c s' is

end Cyc.Conversion
