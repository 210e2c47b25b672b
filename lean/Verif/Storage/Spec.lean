import Verif.Storage.Model

/-!
# Vocabulary for the properties of `Storage`

Independent of how the model computes: what was received and when, what was sold, honest markets.
-/

namespace Cyc.Storage

variable {ν : Type}

/-- The facility is deployed and then lives through the steps `is`, with observations `os`. -/
def History (c : Cfg) (is : List (In ν)) (os : List (Out ν)) (s : State ν) : Prop :=
  ∃ p s₀, enter c = .ok (p, s₀) ∧ run c s₀ is = .ok (os, s)

/-- Everything received, in order of arrival. -/
def received (is : List (In ν)) : List (Mat ν) := is.flatMap In.buys

/-- Everything sold, in order. -/
def sold (os : List (Out ν)) : List (Mat ν) := os.flatMap Out.sold

/-- Everything received in the steps `is`, the first of which is at time `t`, with the time of
its arrival. -/
def arrivals : Nat → List (In ν) → List (Nat × Mat ν)
  | _, [] => []
  | t, i :: is => i.buys.map (fun m => (t, m)) ++ arrivals (t + 1) is

/-- What is for sale at the end of the last step. -/
def lastStock (os : List (Out ν)) : List (Mat ν) :=
  match os.getLast? with
  | none => []
  | some o => o.stock

/-- Everything the facility holds, in whatever stage. -/
def contents (s : State ν) : List (Mat ν) :=
  s.inventory.items ++ s.processing.items ++ s.ready.items ++ s.stocks.items

/-- Every delivery has positive quantity. -/
def Substantial (is : List (In ν)) : Prop := ∀ i ∈ is, ∀ m ∈ i.buys, 0 < qty m

/-- The trades of one step are possible: deliveries and sales have positive quantity, sales can be
removed from a buffer, and together they do not exceed what is offered. -/
structure Honest (c : Cfg) (s : State ν) (i : In ν) : Prop where
  buys : ∀ m ∈ i.buys, 0 < qty m
  sells : ∀ q ∈ i.sells, 0 < q ∧ c.lo ≤ q
  total : i.sells.sum ≤ totalQty s.stocks.items

/-- Every step of a history is honest. -/
def HonestRun (c : Cfg) : State ν → List (In ν) → Prop
  | _, [] => True
  | s, i :: is => Honest c s i ∧ ∀ o s', step c s i = .ok (o, s') → HonestRun c s' is

/-- A consistent configuration. -/
structure WellFormed (c : Cfg) : Prop where
  inCommods : c.inCommods ≠ []
  prefs : c.prefs.length = 0 ∨ c.prefs.length = c.inCommods.length
  outCommods : c.outCommods.length = 1
  recipe : c.inRecipe = "" ∨ c.hasRecipe c.inRecipe = true
  reorder : ¬ (0 ≤ c.reorderPoint ∧ c.cumulativeCap ≤ 0 ∧ 0 < c.reorderQty ∧
    c.maxInv < c.reorderPoint + c.reorderQty)

end Cyc.Storage
