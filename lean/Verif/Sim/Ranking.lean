import Verif.Sim.Plan
import Verif.Sim.Supply

/-!
# Simulations in which enrichment facilities rank the bids for their feed

With `order_prefs`, the default, an enrichment facility sets the preferences of the bids on its request
(`enrichment.cc:113-153`, `Enrichment.adjustPrefs`), after all facilities have made their bids and before
the exchange makes deals of them (`ExchangeManager::Execute` in cyclus). `Verif/Sim/Market.lean` has the
simulation without this step.
-/

namespace Cyc.Sim

/-! ## Bids -/

/-- The result of a phase that has succeeded, as far as bids are concerned: where making bids fails, the
step has failed before. -/
def gather {α : Type} (x : R α) (f : α → List NMat) : List NMat :=
  match x with
  | .ok a => f a
  | .error _ => []

/-- What a sell policy of cyclus bids (`MatlSellPolicy::GetMatlBids`): the requested amount, or what there
is, of the material that is next. -/
def policyBid (out : List String) (l : List NMat) (r : Req) : List NMat :=
  if r.commod ∈ out then
    match l with
    | [] => []
    | m :: _ => [m.scale (min (qty r.target) (totalQty l) / qty m)]
  else []

/-- The bids of a facility on a request: those that its `GetMatlBids` makes when this is the only request
(`conversion.cc:125-156`, `enrichment.cc:169-241`, `fuel_fab.cc:277-390`, `reactor.cc:300-355`,
`separations.cc:269-349`, `source.cc:75-130`, as
modelled for the archetypes; the sell policies of mixers and storages are of cyclus; a sink has none). The bids on a
request do not depend on other requests (`C158_bids_alone`). -/
def bidsOn (r : Req) : (k : Kind) → (act k).S → List NMat
  | .conversion c => fun s : Conversion.State =>
    gather (Conversion.tick c s >>= Conversion.bids c (conversionReqs [r])) fun p =>
      (p.map fun p => p.bids.map Conversion.Bid.offer).getD []
  | .enrichment c => fun s : Enrichment.State =>
    gather (Enrichment.bids c (targets [r]) (Enrichment.tick c s)) fun p =>
      ((p.1.tails.map fun t => t.bids.map Prod.snd).getD []) ++
        ((p.1.product.map fun t => t.bids.map Prod.snd).getD [])
  | .fuelFab c => fun s : FuelFab.State =>
    gather (FuelFab.requests c id s >>= fun x => FuelFab.bids c (fuelTargets [r]) x.2) fun p =>
      (p.map fun p => p.bids.map Prod.snd).getD []
  | .mixer c => fun s : Mixer.State =>
    gather (Mixer.tick c s) fun s => policyBid [c.outCommod] s.output.items r
  | .reactor c _ dec => fun s : Reactor.State × Nat =>
    gather (Reactor.offerPhase c (quantities [r]) s.1) fun x =>
      x.1.bids.flatMap fun p => p.bids.map fun b => (dec b.2.comp).scale b.2.qty
  | .separations c => fun s : Separations.State =>
    gather (Separations.tick c s) fun x =>
      (Separations.bids c x.2 (quantities [r])).flatMap fun p => p.bids.map Prod.snd
  | .sink _ => fun _ => []
  | .source c => fun s : Source.State =>
    ((Source.bids c (sourceReqs [r]) s).map fun p => p.bids.map Source.Bid.offer).getD []
  | .storage c _ => fun s : Storage.State Nat => policyBid (c.outCommods.take 1) s.stocks.items r

/-- All bids on a request, with their numbers. -/
def allBids (ps : List (Running act)) (r : Req) : List (Nat × NMat) :=
  (ps.flatMap fun p => bidsOn r p.k p.s).zipIdx.map fun x => (x.2, x.1)

/-! ## The ranking -/

/-- What a facility makes of the preferences of the bids on one of its requests: their ranks, or `none` if it
leaves them alone. -/
abbrev Ranks := Option (List (Nat × ℤ))

/-- `AdjustMatlPrefs` (`enrichment.cc:113-153`) of a facility whose requests are `rs`. Only enrichment facilities
have one. -/
def rankOf (all : List (Running act)) (k : Kind) (rs : List Req) : R (List Ranks) :=
  match k with
  | .enrichment c => rs.mapM fun r => Enrichment.adjustPrefs c (allBids all r)
  | _ => .ok []

/-- Every facility sets preferences. -/
def rankAll (all : List (Running act)) : List (Running act) → List (List Ask) → R (List (List Ranks))
  | p :: ps, as :: asks => do
    let x ← rankOf all p.k (requestsOf [as])
    let xs ← rankAll all ps asks
    pure (x :: xs)
  | _, _ => .ok []

/-- An exchange that knows the preferences. -/
abbrev Ranked := List (List Ranks) → Exchange

/-- One time step with ranking. -/
def rankedRound (ex : Ranked) (ps : List (Running act)) : R (List (Deal × NMat) × List (Running act)) := do
  let asks ← askAll ps
  let offers ← offerAll (requestsOf asks) ps
  let ranks ← rankAll ps ps asks
  let (gs, hs) ← sellAll (requestsOf asks) (ex ranks asks offers) 0 ps
  let ps ← settleAll gs 0 hs
  pure (gs, ps)

/-- `n` time steps with ranking from time `t` on, as `live`. -/
def rankedLive (ex : Nat → Ranked) (plan : Plan) : Nat → Nat → List (Running act) →
    R (List (List (Deal × NMat)) × List (Running act) × List (Running act))
  | 0, _, ps => .ok ([], [], ps)
  | n + 1, t, ps => do
    let new ← deployAll ((plan.builds t).map (Kind.since t))
    let (gs, ps) ← rankedRound (ex t) (ps ++ new)
    let (l, gone, ps') ← rankedLive ex plan n (t + 1) (depart (plan.leaves t) 0 ps).1
    pure (gs :: l, (depart (plan.leaves t) 0 ps).2 ++ gone, ps')

/-! ## Specification -/

/-- The prototype without `order_prefs`. -/
def Kind.plain : Kind → Kind
  | .enrichment c => .enrichment { c with orderPrefs := false }
  | k => k

/-- The prototype with `order_prefs`. -/
def Kind.ranking : Kind → Kind
  | .enrichment c => .enrichment { c with orderPrefs := true }
  | k => k

/-- A facility as one of the prototype without `order_prefs`. -/
def Running.plain : Running act → Running act
  | ⟨.enrichment c, s⟩ => ⟨.enrichment { c with orderPrefs := false }, s⟩
  | p => p

/-- The plan with all its prototypes changed. -/
def Plan.map (f : Kind → Kind) (plan : Plan) : Plan := ⟨fun t => (plan.builds t).map f, plan.leaves⟩

/-- An enrichment facility that ranks has two bids on a request for feed that have the same fraction of
uranium-235. -/
def Tied (ps : List (Running act)) : Prop :=
  ∃ p ∈ ps, ∃ c, p.k = .enrichment c ∧ c.orderPrefs = true ∧
    ∃ as, (act p.k).asks p.s = .ok as ∧ ∃ a ∈ as, ∃ x ∈ a.alts, ∃ i j : Nat, i ≠ j ∧ ∃ m m',
      (i, m) ∈ allBids ps ⟨x.1, x.2⟩ ∧ (j, m') ∈ allBids ps ⟨x.1, x.2⟩ ∧
        m.mass Enrichment.u235 / qty m = m'.mass Enrichment.u235 / qty m'

/-- Before `n` steps are over, two bids for feed are alike, just when the facilities that are due at that time
have been built. -/
def TiedBefore (ex : Nat → Ranked) (plan : Plan) (n : Nat) : Prop :=
  ∃ m < n, ∃ l gone ps new, rankedLive ex plan m 0 [] = .ok (l, gone, ps) ∧
    deployAll ((plan.builds m).map (Kind.since m)) = .ok new ∧ Tied (ps ++ new)

/-- A facility of this kind makes no more than one bid on a request: not a reactor, a separations facility
or an enrichment facility, which bid for their items one by one. -/
def OneBid : Kind → Prop
  | .conversion _ | .fuelFab _ | .mixer _ | .sink _ | .source _ | .storage _ _ => True
  | _ => False

/-- The facility is a mine: a source with a recipe. -/
def Mine (k : Kind) : Prop := ∃ c r, k = .source c ∧ c.recipe = some r

/-- The fraction of uranium-235 in what a mine sells. -/
def grade : Kind → ℚ
  | .source c => match c.recipe with
    | some r => r.mass Enrichment.u235 / qty r
    | none => 0
  | _ => 0

end Cyc.Sim
