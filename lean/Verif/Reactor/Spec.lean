import Verif.Reactor.Model
import Mathlib.Data.List.Perm.Subperm

/-!
# Vocabulary for statements about reactors

What an observer can say about a reactor: the assemblies it was given and gave away, the rows it
wrote, what a consistent configuration is, and what a market that honours the exchange contract
may do.
-/

namespace Cyc.Reactor

/-- The assemblies delivered to the reactor over a history. -/
def received (is : List In) : List Assem := is.flatMap fun i => i.buys.map Prod.snd

/-- The assemblies the reactor handed over in a history. -/
def shipped (os : List Out) : List Assem := os.flatMap fun o => o.shipped.map Prod.snd

/-- All assemblies in the reactor's inventories. -/
def held (s : State) : List Assem := s.fresh.items ++ s.core.items ++ s.spent.items

/-- Identity and quantity of an assembly: what must never change. -/
def tag (a : Assem) : Nat × ℚ := (a.id, a.qty)

/-! ## Reading the rows of a step -/

/-- The power values among the rows. -/
def powers (l : List Rec) : List ℚ :=
  l.filterMap fun r => match r with
    | .power p => some p
    | _ => none

/-- The side product values among the rows. -/
def sides (l : List Rec) : List (String × ℚ) :=
  l.filterMap fun r => match r with
    | .side p q => some (p, q)
    | _ => none

/-- The sizes of the successful discharges among the rows. -/
def discharges (l : List Rec) : List Nat :=
  l.filterMap fun r => match r with
    | .discharge n => some n
    | _ => none

/-- The sizes of the transmutations among the rows. -/
def transmutes (l : List Rec) : List Nat :=
  l.filterMap fun r => match r with
    | .transmute n => some n
    | _ => none

/-- The step recorded the start of a cycle. -/
def Starts (o : Out) : Prop := .cycleStart ∈ o.recs

/-- The step recorded the end of a cycle. -/
def Ends (o : Out) : Prop := .cycleEnd ∈ o.recs

/-- The step recorded a discharge that failed for lack of room. -/
def Fails (o : Out) : Prop := .dischargeFailed ∈ o.recs

/-- The step takes place after the exit time. -/
def Late (c : Cfg) (t : Nat) : Prop := ∃ e, c.exitTime = some e ∧ e < t

/-! ## What an assembly was bought as -/

/-- All deliveries of a history, in order. -/
def deliveries (is : List In) : List (String × Assem) := is.flatMap fun i => i.buys

/-- The commodity of the last delivery of the object `x`. -/
def boughtAs (is : List In) (x : Nat) : Option String :=
  ((deliveries is).reverse.find? fun d => d.2.id = x).map Prod.fst

/-- The position of a commodity among the input commodities. -/
def position (c : Cfg) (k : String) : Nat := c.inCommods.idxOf k

/-- The output commodity that belongs to an input commodity. -/
def outCommodFor (c : Cfg) (k : String) : String := c.outCommods.getD (position c k) ""

/-- The held spent assemblies that are to be sold as `k`, oldest first. -/
def spentAs (c : Cfg) (is : List In) (s : State) (k : String) : List Assem :=
  s.spent.items.filter fun a => (boughtAs is a.id).map (outCommodFor c) = some k

/-! ## Scheduled changes -/

/-- `v` is the value in force for commodity `k` under a schedule of (time, commodity, new value)
entries, counting the entries from time `start` on and before time `stop`: the value of the latest
such entry for `k` (of two entries for the same time, the one later in the list), or the initial
value if there is none. -/
def InForce {α : Type} (entries : List (Nat × String × α)) (start stop : Nat) (k : String)
    (init v : α) : Prop :=
  (∃ (i τ : Nat), entries[i]? = some (τ, k, v) ∧ start ≤ τ ∧ τ < stop ∧
    ∀ (i' τ' : Nat) (v' : α), entries[i']? = some (τ', k, v') → start ≤ τ' → τ' < stop →
      τ' < τ ∨ τ' = τ ∧ i' ≤ i) ∨
  (v = init ∧ ∀ (i τ : Nat) (v' : α), entries[i]? = some (τ, k, v') → ¬ (start ≤ τ ∧ τ < stop))

/-- The same for the input commodity at position `j`. If a commodity is listed twice, only its
first position is subject to the schedule. -/
def InForceAt {α : Type} (c : Cfg) (entries : List (Nat × String × α)) (stop : Nat)
    (init : α) (j : Nat) (v : α) : Prop :=
  if position c (c.inCommods.getD j "") = j
  then InForce entries c.enterTime stop (c.inCommods.getD j "") init v
  else v = init

/-- The schedule of preference changes. -/
def prefSchedule (c : Cfg) : List (Nat × String × ℚ) :=
  c.prefChangeTimes.zip (c.prefChangeCommods.zip c.prefChangeValues)

/-- The schedule of input recipe changes. -/
def inSchedule (c : Cfg) : List (Nat × String × String) :=
  c.recipeChangeTimes.zip (c.recipeChangeCommods.zip c.recipeChangeIn)

/-- The schedule of output recipe changes. -/
def outSchedule (c : Cfg) : List (Nat × String × String) :=
  c.recipeChangeTimes.zip (c.recipeChangeCommods.zip c.recipeChangeOut)

/-- The preference given by the user for position `j`; omitted preferences are 1. -/
def initialPref (c : Cfg) (j : Nat) : ℚ := if c.prefs = [] then 1 else c.prefs.getD j 0

/-- Assembly `b` is assembly `a` with the composition that the output recipe in force before time
`t` gives for the commodity `a` was bought as in history `is`. -/
def Transmuted (c : Cfg) (is : List In) (t : Nat) (a b : Assem) : Prop :=
  tag b = tag a ∧ ∃ k name, boughtAs is a.id = some k ∧
    InForceAt c (outSchedule c) t (c.outRecipes.getD (position c k) "") (position c k) name ∧
    c.recipe name = some b.comp

/-- The assembly has the composition that the output recipe in force at some time up to `T` gives
for the commodity it was bought as. -/
def Burnt (c : Cfg) (is : List In) (T : Nat) (a : Assem) : Prop :=
  ∃ t ≤ T, ∃ k name, boughtAs is a.id = some k ∧
    InForceAt c (outSchedule c) t (c.outRecipes.getD (position c k) "") (position c k) name ∧
    c.recipe name = some a.comp

/-- A consistent configuration: the fuel vectors correspond (preferences may be omitted), the
change schedules correspond, every recipe named exists, and the sizes are sensible. -/
structure WellFormed (c : Cfg) : Prop where
  inRecipes : c.inRecipes.length = c.inCommods.length
  outCommods : c.outCommods.length = c.inCommods.length
  outRecipes : c.outRecipes.length = c.inCommods.length
  prefs : c.prefs.length = 0 ∨ c.prefs.length = c.inCommods.length
  someFuel : c.inCommods ≠ []
  recipeChangeCommods : c.recipeChangeCommods.length = c.recipeChangeTimes.length
  recipeChangeIn : c.recipeChangeIn.length = c.recipeChangeTimes.length
  recipeChangeOut : c.recipeChangeOut.length = c.recipeChangeTimes.length
  prefChangeCommods : c.prefChangeCommods.length = c.prefChangeTimes.length
  prefChangeValues : c.prefChangeValues.length = c.prefChangeTimes.length
  known : ∀ r, r ∈ c.inRecipes ∨ r ∈ c.outRecipes ∨ r ∈ c.recipeChangeIn ∨ r ∈ c.recipeChangeOut →
    (c.recipe r).isSome
  sideQty : c.sideProducts.length ≤ c.sideQty.length
  assemSize : 0 < c.assemSize
  nBatch : 0 < c.nBatch
  cycleTime : 0 < c.cycleTime
  eps : 0 ≤ c.eps

/-- The input names recipe `r` for fresh fuel `k`, from the start or as a scheduled change. -/
def Names (c : Cfg) (k r : String) : Prop :=
  (k, r) ∈ c.inCommods.zip c.inRecipes ∨ (k, r) ∈ c.recipeChangeCommods.zip c.recipeChangeIn

/-- The contract of the resource exchange for one step, in terms of the requests and bids the
reactor made: each delivery answers a request of its own portfolio with the requested commodity
and (requests are exclusive) quantity; delivered objects are not ones already held; sales of a
commodity, each of one assembly, are covered by the capacity of a bid portfolio for it. -/
structure Honest (c : Cfg) (s : State) (o : Offer) (i : In) : Prop where
  asked : ∃ ps, ps.Subperm o.requests ∧
    List.Forall₂ (fun (d : String × Assem) (p : List Request) =>
      ∃ r ∈ p, r.commod = d.1 ∧ r.qty = d.2.qty) i.buys ps
  distinct : (i.buys.map fun d => d.2.id).Nodup
  notHeld : ∀ d ∈ i.buys, ∀ a ∈ held s, a.id ≠ d.2.id
  offered : ∀ k ∈ i.sells, ∃ b ∈ o.bids, b.commod = k ∧ i.sells.count k * c.assemSize ≤ b.cap

/-- A history in which the market honours the contract in every step. -/
def HonestRun (c : Cfg) : State → List In → Prop
  | _, [] => True
  | s, i :: is =>
    (∀ o s1, offerPhase c i.reqs s = .ok (o, s1) → Honest c s o i) ∧
    (∀ o s', step c s i = .ok (o, s') → HonestRun c s' is)

/-- `s` is the state, and `os` what was seen, after a reactor was deployed and went through `is`
in a market that honours the contract. -/
def History (c : Cfg) (is : List In) (os : List Out) (s : State) : Prop :=
  ∃ s0, enter c = .ok s0 ∧ HonestRun c s0 is ∧ run c s0 is = .ok (os, s)

end Cyc.Reactor
