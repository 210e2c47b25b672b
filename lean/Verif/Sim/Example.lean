import Verif.Sim.Actors

/-!
# A simulation in which something happens

A greedy exchange, and a small fuel cycle: a mine, conversion, enrichment, a reactor, a separations
facility for its spent fuel, a mixer, a storage and a sink.
-/

namespace Cyc.Sim

/-- The deals are within a further constraint of an offer, as a check. -/
def limitB (L : Limit) (ds : List Deal) : Bool :=
  (ds.all fun d => (L.weigh d.target d.amt).isSome) &&
    decide ((ds.map fun d => (L.weigh d.target d.amt).getD 0).sum ≤ L.cap)

theorem of_limitB {L : Limit} {ds : List Deal} (h : limitB L ds = true) : ∃ vs : List ℚ,
    ds.map (fun d => L.weigh d.target d.amt) = vs.map some ∧ vs.sum ≤ L.cap := by
  simp only [limitB, Bool.and_eq_true, List.all_eq_true, decide_eq_true_eq] at h
  refine ⟨ds.map fun d => (L.weigh d.target d.amt).getD 0, ?_, h.2⟩
  rw [List.map_map]
  refine List.map_congr_left fun d hd => ?_
  obtain ⟨v, hv⟩ := Option.isSome_iff_exists.1 (h.1 d hd)
  simp [hv]

/-- The exchange respects requests and offers, as a check. -/
def fairB (asks : List (List Ask)) (offers : List (List Offer)) (ds : List Deal) : Bool :=
  (ds.all fun d => decide (0 < d.amt ∧ d.amt ≤ qty d.target)) &&
  (ds.all fun d => (offers[d.src]?.getD []).any fun o => decide (o.commod = d.commod ∧
    o.least ≤ d.amt ∧ (o.piece = none ∨ o.piece = some d.amt) ∧ o.serves d.target = true)) &&
  (ds.all fun d => match (asks[d.dst]?.getD [])[d.port]? with
    | none => false
    | some a => decide ((d.commod, d.target) ∈ a.alts ∧ (a.whole = true → d.amt = a.amount))) &&
  (offers.zipIdx.all fun x => x.1.all fun o =>
    decide (dealt ds (fun d => d.src = x.2 ∧ d.commod = o.commod) ≤ o.cap)) &&
  (offers.zipIdx.all fun x => x.1.all fun o => o.limits.all fun L =>
    limitB L (ds.filter fun d => d.src = x.2 ∧ d.commod = o.commod)) &&
  (asks.zipIdx.all fun x => x.1.zipIdx.all fun y =>
    decide (dealt ds (fun d => d.dst = x.2 ∧ d.port = y.2) ≤ y.1.amount))

theorem fair_of_fairB {asks : List (List Ask)} {offers : List (List Offer)} {ds : List Deal}
    (h : fairB asks offers ds = true) : Fair asks offers ds := by
  simp only [fairB, Bool.and_eq_true, List.all_eq_true, List.any_eq_true, decide_eq_true_eq] at h
  obtain ⟨⟨⟨⟨⟨h1, h2⟩, h3⟩, h4⟩, h6⟩, h5⟩ := h
  refine ⟨h1, ?_, ?_, ?_, ?_, ?_⟩
  · intro d hd
    obtain ⟨o, e1, e2, e3, e4, e5⟩ := h2 d hd
    cases e : offers[d.src]? with
    | none => rw [e] at e1; simp at e1
    | some os =>
      rw [e] at e1
      refine ⟨os, rfl, o, e1, e2, e3, fun u hu => ?_, e5⟩
      rcases e4 with e4 | e4
      · rw [e4] at hu; cases hu
      · rw [e4, Option.some.injEq] at hu; exact hu
  · intro d hd
    have := h3 d hd
    cases e : asks[d.dst]? with
    | none => rw [e] at this; simp at this
    | some as =>
      rw [e] at this
      simp only [Option.getD_some] at this
      cases e' : as[d.port]? with
      | none => rw [e'] at this; simp at this
      | some a =>
        rw [e'] at this
        simp only [decide_eq_true_eq] at this
        exact ⟨as, rfl, a, e', this⟩
  · intro k os hk o ho
    have := h4 (os, k) (List.mem_zipIdx_iff_getElem?.2 hk) o ho
    exact this
  · intro k os hk o ho L hL
    exact of_limitB (h6 (os, k) (List.mem_zipIdx_iff_getElem?.2 hk) o ho L hL)
  · intro j as hj p a hp
    exact h5 (as, j) (List.mem_zipIdx_iff_getElem?.2 hj) (a, p) (List.mem_zipIdx_iff_getElem?.2 hp)

theorem fair_nil {asks : List (List Ask)} {offers : List (List Offer)}
    (h1 : ∀ as ∈ asks, ∀ a ∈ as, 0 ≤ a.amount) (h2 : ∀ os ∈ offers, ∀ o ∈ os, 0 ≤ o.cap ∧ ∀ L ∈ o.limits, 0 ≤ L.cap) :
    Fair asks offers [] :=
  ⟨by simp, by simp, by simp, fun _ _ h o ho => (h2 _ (List.mem_of_getElem? h) o ho).1,
    fun _ _ h o ho L hL => ⟨[], rfl, (h2 _ (List.mem_of_getElem? h) o ho).2 L hL⟩,
    fun _ _ h _ a ha => h1 _ (List.mem_of_getElem? h) a (List.mem_of_getElem? ha)⟩

/-- The amount of the next deal. -/
def amount (ds : List Deal) (k : Nat) (o : Offer) (j p : Nat) (a : Ask) (x : String × NMat) : ℚ :=
  match o.piece with
  | some u => u
  | none => if a.whole then a.amount else
    min (o.cap - dealt ds fun d => d.src = k ∧ d.commod = o.commod)
      (min (a.amount - dealt ds fun d => d.dst = j ∧ d.port = p) (qty x.2))

/-- One more deal, as large as possible, if it is allowed. -/
def addDeal (asks : List (List Ask)) (offers : List (List Offer)) (ds : List Deal) (k : Nat)
    (o : Offer) (j p : Nat) (a : Ask) (x : String × NMat) : List Deal :=
  let ds' := ds ++ [⟨k, j, p, x.1, x.2, amount ds k o j p a x⟩]
  if x.1 = o.commod ∧ fairB asks offers ds' then ds' else ds

/-- An exchange that goes through the offers and serves the requests in their order. -/
def greedy : Exchange := fun asks offers =>
  offers.zipIdx.foldl (fun ds (os, k) => os.foldl (fun ds o =>
    asks.zipIdx.foldl (fun ds (as, j) => as.zipIdx.foldl (fun ds (a, p) =>
      a.alts.foldl (fun ds x => addDeal asks offers ds k o j p a x) ds) ds) ds) ds) []

theorem fold_keeps {α β : Type} {P : β → Prop} {f : β → α → β} (h : ∀ b a, P b → P (f b a))
    (l : List α) {b : β} (hb : P b) : P (l.foldl f b) := by
  induction l generalizing b with
  | nil => exact hb
  | cons a l ih => exact ih (h b a hb)

theorem greedy_fair : greedy.Fair := by
  intro asks offers h1 h2
  refine fold_keeps (P := Fair asks offers) ?_ _ (fair_nil h1 h2)
  rintro ds ⟨os, k⟩ hd
  refine fold_keeps (P := Fair asks offers) ?_ _ hd
  intro ds o hd
  refine fold_keeps (P := Fair asks offers) ?_ _ hd
  rintro ds ⟨as, j⟩ hd
  refine fold_keeps (P := Fair asks offers) ?_ _ hd
  rintro ds ⟨a, p⟩ hd
  refine fold_keeps (P := Fair asks offers) ?_ _ hd
  intro ds x hd
  unfold addDeal
  dsimp only
  split
  · rename_i h; exact fair_of_fairB h.2
  · exact hd

/-! ## A fuel cycle -/

/-- A mine with 500 kg of ore, at most 150 kg per step. -/
def exMine : Source.Cfg where
  outcommod := "ore"
  recipe := some ⟨[(922350000, 1), (922380000, 99)]⟩
  size := 500
  throughput := 150
  fill := fun q => [q]
  ship := id
  eps := 1/1000000
  epsRsrc := 1/1000000
  lo := 0

/-- Ore to feed, 120 kg per step. -/
def exConversion : Conversion.Cfg where
  incommods := ["ore"]
  outcommod := "feed"
  throughput := 120
  capacity := 200
  eps := 1/1000000
  lo := 0

/-- Feed to fuel: 6 kg for 1 kg, and for not more than two assemblies per step. -/
def exEnrichment : Enrichment.Cfg where
  feedCommod := "feed"
  productCommod := "fuel"
  tailsCommod := "tails"
  feedRecipe := ⟨[(922350000, 1), (922380000, 99)]⟩
  tailsAssay := 1/500
  swuCapacity := 1/5
  maxEnrich := 1/10
  initialFeed := 30
  maxFeed := 250
  orderPrefs := false
  value := fun x => (1 - 2 * x) ^ 2
  atomMass := fun n => if n = 922350000 then 235 else 238
  eps := 1/1000000
  lo := 0

/-- Two assemblies of 12 kg in the core, one of them exchanged every three steps. -/
def exReactor : Reactor.Cfg where
  inCommods := ["fuel"]
  inRecipes := ["fresh"]
  prefs := []
  outCommods := ["spent"]
  outRecipes := ["burnt"]
  recipeChangeTimes := []
  recipeChangeCommods := []
  recipeChangeIn := []
  recipeChangeOut := []
  prefChangeTimes := []
  prefChangeCommods := []
  prefChangeValues := []
  assemSize := 12
  nBatch := 1
  nCore := 2
  nFresh := 1
  nSpent := 2
  cycleTime := 2
  refuelTime := 1
  cycleStep := 0
  powerCap := 10
  sideProducts := []
  sideQty := []
  decomTransmuteAll := false
  enterTime := 0
  exitTime := none
  recipe := fun r => if r = "fresh" then some 1 else if r = "burnt" then some 2 else none
  eps := 1/1000000

/-- The compositions by number. -/
def exDec (n : Nat) : NMat :=
  if n = 2 then ⟨[(922350000, 1/12), (922380000, 7/12), (942390000, 2/12), (551370000, 2/12)]⟩
  else ⟨[(922350000, 1/20), (922380000, 19/20)]⟩

/-- Plutonium and uranium from spent fuel, 6 kg per step. -/
def exSeparations : Separations.Cfg where
  feedCommods := ["spent"]
  feedPrefs := []
  feedbufSize := 20
  throughput := 6
  leftoverCommod := "waste"
  leftoverCap := none
  streams := [("pu", ⟨2, [(940000000, 9/10)]⟩), ("u", ⟨-1, [(920000000, 1), (922350000, 1/2)]⟩)]
  enterTime := 0
  exitTime := none
  eps := 1/1000000
  lo := 0

/-- One part of plutonium to three of uranium. -/
def exMixer : Mixer.Cfg where
  streams := [⟨1, 5, [("pu", 1)]⟩, ⟨3, 5, [("u", 1)]⟩]
  outCommod := "mox"
  outSize := 10
  throughput := 10
  eps := 1/1000000
  lo := 0

/-- Interim storage of waste, one step. -/
def exStorage : Storage.Cfg where
  inCommods := ["waste"]
  prefs := []
  outCommods := ["old waste"]
  inRecipe := ""
  hasRecipe := fun _ => false
  residence := 1
  throughput := 100
  maxInv := 100
  discrete := false
  reorderPoint := -1
  reorderQty := -1
  cumulativeCap := 0
  enterTime := 0
  eps := 1/1000000
  lo := 0

/-- The end of everything. -/
def exSink : Sink.Cfg where
  commods := ["mox", "old waste", "tails"]
  prefs := []
  recipe := none
  maxInv := 1000
  capacity := 50
  sizeType := "None"
  sizeMean := 0
  sizeStd := 0
  freqType := "None"
  freqMean := 0
  freqStd := 0
  freqMin := 0
  freqMax := 0
  defaultPref := 1
  eps := 1/1000000
  epsRsrc := 1/1000000

/-- The prototypes of the example. -/
def exKinds : List Kind :=
  [.source exMine, .conversion exConversion, .enrichment exEnrichment,
    .reactor exReactor (fun _ => 1) exDec, .separations exSeparations, .mixer exMixer,
    .storage exStorage fun _ => 4, .sink exSink]

/-- The agreement of the example: fuel is requested richer than ore, ore and feed have 1 % of
uranium-235, and fuel is uranium. -/
def exAgreement : Agreement where
  target k m := k = "fuel" →
    1/100 * (m.mass Enrichment.u235 + m.mass Enrichment.u238) ≤ m.mass Enrichment.u235
  mat k m := (k = "ore" ∨ k = "feed" → Assayed (1/100) (1/100) m) ∧
    (k = "fuel" → Enrichment.Pure [m])

/-- Buys fuel in place of the reactor. -/
def exBuyer : Sink.Cfg :=
  { exSink with
    commods := ["fuel"]
    recipe := some ⟨[(922350000, 5), (922380000, 95)]⟩
    capacity := 20 }

/-- Sells spent fuel in place of the reactor. -/
def exSpent : Source.Cfg :=
  { exMine with
    outcommod := "spent"
    recipe := some ⟨[(922350000, 1), (922380000, 7), (942390000, 2), (551370000, 2)]⟩
    size := 60
    throughput := 12 }

/-- The prototypes of the example without a reactor. -/
def exCold : List Kind :=
  [.source exMine, .conversion exConversion, .enrichment exEnrichment, .sink exBuyer,
    .source exSpent, .separations exSeparations, .mixer exMixer, .storage exStorage fun _ => 4,
    .sink exSink]

/-- Who gives whom how much of what, by step. -/
def exRun (n : Nat) : R (List (List (Nat × Nat × String × ℚ))) := do
  let ps ← deployAll exKinds
  let (l, _) ← simulate (fun _ => greedy) n 0 ps
  pure (l.map fun gs => gs.map fun g => (g.1.src, g.1.dst, g.1.commod, qty g.2))

end Cyc.Sim
