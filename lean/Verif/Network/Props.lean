import Verif.Network.Lemmas
import Verif.Source.Props

/-!
# Properties of networks of facilities: C114-C116
-/

namespace Cyc.Network

open Mat

/-! ## C114 -/

/-- **C114**. In every simulation, with any number of facilities deployed at any times, and for every
nuclide: what the facilities hold in the end and what was loaded into reactors is exactly what the
facilities were deployed with, what sources sent and what reactors gave away. Nothing but a source
and a reactor makes or destroys a nuclide. -/
theorem C114_nuclides {sys : List Agent} (L : ∀ a ∈ sys, a.life.Lived) (E : Exchange sys) (n : Nat) :
    massOf (sys.flatMap (·.life.holds)) n + massOf (sys.flatMap (·.life.loaded)) n =
      massOf (sys.flatMap (·.life.brings)) n + massOf (sys.flatMap (·.life.mined)) n +
        massOf (sys.flatMap (·.life.unloaded)) n := by
  have h := taken_eq_given E n
  have hl : ∀ a ∈ sys, massOf a.life.holds n + massOf a.life.gives.flatten n +
      massOf a.life.loaded n = massOf a.life.brings n + massOf a.life.takes.flatten n +
        massOf a.life.mined n + massOf a.life.unloaded n :=
    fun a ha => ledger (L a ha) (fun _ hms => mem_takes_solid E ha hms) n
  simp only [massOf_flatMap]
  clear E L
  have key : (sys.map fun a => massOf a.life.holds n).sum +
      (sys.map fun a => massOf a.life.gives.flatten n).sum +
      (sys.map fun a => massOf a.life.loaded n).sum =
      (sys.map fun a => massOf a.life.brings n).sum +
      (sys.map fun a => massOf a.life.takes.flatten n).sum +
      (sys.map fun a => massOf a.life.mined n).sum +
      (sys.map fun a => massOf a.life.unloaded n).sum := by
    clear h
    induction sys with
    | nil => simp
    | cons a sys ih =>
      have h1 := hl a (by simp)
      have h2 := ih fun b hb => hl b (by simp [hb])
      simp only [List.map_cons, List.sum_cons]
      linarith
  linarith

/-! ## C115 -/

theorem totalQty_flatMap {α : Type} (f : α → List NMat) (l : List α) :
    totalQty (l.flatMap f) = (l.map fun a => totalQty (f a)).sum := by
  induction l with
  | nil => rfl
  | cons x l ih => simp [ih]

theorem totalQty_of_map {l : List (List NMat)} {α : Type} {f : α → List Reactor.Assem} {k : List α}
    (h : l.map (List.map qty) = k.map fun x => (f x).map (·.qty)) :
    totalQty l.flatten = totalQty (k.flatMap f) := by
  have h1 : totalQty l.flatten = (l.map (List.map qty)).flatten.sum := by
    simp [totalQty, List.map_flatten]
  rw [h1, h]
  induction k generalizing l with
  | nil => simp
  | cons x k ih =>
    cases l with
    | nil => simp at h
    | cons y l =>
      simp only [List.map_cons, List.cons.injEq] at h
      have := ih h.2 (by simp [totalQty, List.map_flatten])
      simp only [List.map_cons, List.flatten_cons, List.sum_append, List.flatMap_cons,
        totalQty_append, this]
      rfl

/-- A reactor holds what it was given and has not given away. -/
theorem reactor_ledger {l : Life} (h : l.Lived) :
    totalQty l.loaded = l.burning + totalQty l.unloaded := by
  cases l with
  | reactor c is os s fuel used =>
    obtain ⟨⟨s0, h0, hr⟩, h1, h2⟩ := h
    have e1 : totalQty fuel.flatten = totalQty (Reactor.received is) :=
      totalQty_of_map (f := fun i : Reactor.In => i.buys.map Prod.snd)
        (by simpa [Function.comp_def] using h1)
    have e2 : totalQty used.flatten = totalQty (Reactor.shipped os) :=
      totalQty_of_map (f := fun o : Reactor.Out => o.shipped.map Prod.snd)
        (by simpa [Function.comp_def] using h2)
    have key := ((Reactor.C01_assemblies_conserved h0 hr).map Prod.snd).sum_eq
    have tags : ∀ l : List Reactor.Assem, ((l.map Reactor.tag).map Prod.snd).sum = totalQty l := by
      intro l; simp [Reactor.tag, totalQty, Function.comp_def, qty]
    rw [tags, tags, totalQty_append] at key
    simp only [Life.loaded, Life.burning, Life.unloaded]
    rw [e1, e2, key]
  | _ => simp [Life.loaded, Life.burning, Life.unloaded]

/-- **C115**. In every simulation, with any facilities: the kg held in the end, in reactors and
elsewhere, are exactly the kg the facilities were deployed with and the kg sources sent. -/
theorem C115_mass {sys : List Agent} (L : ∀ a ∈ sys, a.life.Lived) (E : Exchange sys) :
    totalQty (sys.flatMap (·.life.holds)) + (sys.map (·.life.burning)).sum =
      totalQty (sys.flatMap (·.life.brings)) + totalQty (sys.flatMap (·.life.mined)) := by
  have h1 : totalQty (sys.flatMap (·.life.holds) ++ sys.flatMap (·.life.loaded)) =
      totalQty (sys.flatMap (·.life.brings) ++ sys.flatMap (·.life.mined) ++
        sys.flatMap (·.life.unloaded)) := by
    refine totalQty_eq fun n => ?_
    have := C114_nuclides L E n
    simp only [massOf_append]
    linarith
  simp only [totalQty_append] at h1
  have h2 : totalQty (sys.flatMap (·.life.loaded)) =
      (sys.map (·.life.burning)).sum + totalQty (sys.flatMap (·.life.unloaded)) := by
    rw [totalQty_flatMap, totalQty_flatMap]
    clear h1 E
    induction sys with
    | nil => simp
    | cons a sys ih =>
      have e1 := reactor_ledger (L a (by simp))
      have e2 := ih fun b hb => L b (by simp [hb])
      simp only [List.map_cons, List.sum_cons]
      linarith
  linarith

/-! ## C116 -/

/-- What a source can send: the inventory of its input. -/
def Life.ore : Life → ℚ
  | .source c _ _ _ => c.size
  | _ => 0

/-- The sources have sensible input, and their trades are what an exchange can make of their bids. -/
def Life.FairSource : Life → Prop
  | .source c is _ _ => Source.Valid c ∧ Source.Targets is ∧
      ∀ s₀, Source.build c = .ok s₀ → Source.HonestRun c s₀ is
  | _ => True

/-- A source never sends more than its inventory. -/
theorem mined_le {l : Life} (h : l.Lived) (hf : l.FairSource) : totalQty l.mined ≤ l.ore := by
  cases l with
  | source c is os s =>
    obtain ⟨s0, h0, hr⟩ := h
    obtain ⟨V, ht, H⟩ := hf
    exact Source.C92_most V h0 hr ht (H s0 h0)
  | _ => simp [Life.mined, Life.ore]

/-- **C116**. In every simulation in which the exchange respects the bids of the sources, the kg held
in the end, in reactors and elsewhere, are no more than the kg the facilities were deployed with and
the inventories of the sources. -/
theorem C116_bound {sys : List Agent} (L : ∀ a ∈ sys, a.life.Lived) (E : Exchange sys)
    (F : ∀ a ∈ sys, a.life.FairSource) :
    totalQty (sys.flatMap (·.life.holds)) + (sys.map (·.life.burning)).sum ≤
      totalQty (sys.flatMap (·.life.brings)) + (sys.map (·.life.ore)).sum := by
  rw [C115_mass L E, totalQty_flatMap (fun a : Agent => a.life.mined)]
  have : (sys.map fun a => totalQty a.life.mined).sum ≤ (sys.map (·.life.ore)).sum := by
    clear E
    induction sys with
    | nil => simp
    | cons a sys ih =>
      have e1 := mined_le (L a (by simp)) (F a (by simp))
      have e2 := ih (fun b hb => L b (by simp [hb])) (fun b hb => F b (by simp [hb]))
      simp only [List.map_cons, List.sum_cons]
      linarith
  linarith

/-! ## An example -/

/-- An assembly of fresh and one of spent fuel. -/
def fresh : NMat := ⟨[(235, 1 / 50), (238, 12 / 25)]⟩
def spent : NMat := ⟨[(137, 1 / 50), (238, 12 / 25)]⟩

/-- A source of fuel without a recipe, of 5 kg. -/
def exSource : Source.Cfg where
  outcommod := "uox"
  recipe := none
  size := 5
  throughput := 5
  fill := Source.loose
  ship := id
  eps := 1 / 1000000
  epsRsrc := 1 / 1000000
  lo := 1 / 1000000

/-- A repository. -/
def exSink : Sink.Cfg where
  commods := ["spent_uox"]
  prefs := []
  recipe := none
  maxInv := 100
  capacity := 30
  sizeType := "Always"
  sizeMean := 1
  sizeStd := 1 / 10
  freqType := "Always"
  freqMean := 1
  freqStd := 1
  freqMin := 1
  freqMax := 3
  defaultPref := 1
  eps := 1 / 1000000
  epsRsrc := 1 / 1000000

/-- The numbers of assemblies delivered to the reactor, and bought from it. -/
def exNums : List (Nat × Nat) :=
  [(2, 0), (0, 0), (2, 0), (0, 0), (0, 0), (1, 0), (0, 0), (0, 0), (1, 0), (0, 0), (0, 0), (0, 1),
    (0, 0), (0, 0), (0, 2), (0, 0), (0, 2), (0, 1)]

/-- The life of the source. -/
def exMining : List Source.In :=
  exNums.map fun k => ⟨List.replicate k.1 ⟨0, "uox", fresh⟩, List.replicate k.1 ⟨fresh, 1 / 2⟩⟩

/-- The materials of the assemblies. -/
def exFuel : List (List NMat) := exNums.map fun k => List.replicate k.1 fresh
def exUsed : List (List NMat) := exNums.map fun k => List.replicate k.2 spent

/-- The life of the sink, which is deployed in step 10. -/
def exBurial : List Sink.In :=
  (exNums.drop 10).map fun k => Sink.inOf (1 / 2) 1 (List.replicate k.2 spent) []

/-- Deploy and run. -/
def exMine : R (List Source.Out × Source.State) := do
  let s ← Source.build exSource
  Source.run exSource s exMining

def exBury : R (List Sink.Out × Sink.State) := do
  let s ← Sink.enter exSink (Sink.rngOf (1 / 2) 1) 10
  Sink.run exSink 10 s exBurial

/-- A check that the trades of a source are honest. -/
def honestB (c : Source.Cfg) (s : Source.State) (i : Source.In) : Bool :=
  decide (∀ r ∈ i.reqs, 0 < qty r.target) && decide (∀ t ∈ i.trades, 0 < t.amt ∧ c.lo ≤ t.amt) &&
  match Source.bids c i.reqs s with
  | none => i.trades.isEmpty
  | some p => decide (∀ t ∈ i.trades, ∃ b ∈ p.bids, t.amt ≤ qty b.offer ∧
      ∃ r ∈ i.reqs, r.id = b.id ∧ r.commod = c.outcommod ∧ r.target = t.target) &&
      decide ((i.trades.map Source.Trade.amt).sum ≤ p.cap)

theorem honest_of {c : Source.Cfg} {s : Source.State} {i : Source.In} (h : honestB c s i = true) :
    Source.Honest c s i := by
  unfold honestB at h
  simp only [Bool.and_eq_true, decide_eq_true_eq] at h
  obtain ⟨⟨h1, h2⟩, h3⟩ := h
  cases hb : Source.bids c i.reqs s with
  | none =>
    rw [hb] at h3
    have : i.trades = [] := by simpa using h3
    exact ⟨h1, h2, by simp [this], by intro p hp; cases hb.symm.trans hp⟩
  | some p =>
    rw [hb] at h3
    simp only [Bool.and_eq_true, decide_eq_true_eq] at h3
    refine ⟨h1, h2, fun t ht => ⟨p, hb, h3.1 t ht⟩, ?_⟩
    intro p' hp
    obtain rfl := Option.some.inj (hb.symm.trans hp)
    exact h3.2

def honestRunB (c : Source.Cfg) : Source.State → List Source.In → Bool
  | _, [] => true
  | s, i :: is => honestB c s i &&
    match Source.step c s i with
    | .ok r => honestRunB c r.2 is
    | .error _ => true

theorem honestRun_of {c : Source.Cfg} {s : Source.State} {is : List Source.In}
    (h : honestRunB c s is = true) : Source.HonestRun c s is := by
  induction is generalizing s with
  | nil => trivial
  | cons i is ih =>
    simp only [honestRunB, Bool.and_eq_true] at h
    refine ⟨honest_of h.1, ?_⟩
    intro o s' hs
    have h2 := h.2
    rw [hs] at h2
    exact ih h2

theorem exFair : ∀ s₀, Source.build exSource = .ok s₀ → Source.HonestRun exSource s₀ exMining := by
  intro s₀ h
  have : ((Source.build exSource).toOption.map fun s => honestRunB exSource s exMining) =
      some true := by decide +kernel
  rw [h] at this
  exact honestRun_of (Option.some.inj this)

theorem exSource_valid : Source.Valid exSource where
  size := by decide +kernel
  throughput := by decide +kernel
  eps := by decide +kernel
  recipe := by intro r h; cases h
  packing := Source.loose_packing
  ship n := le_rfl

theorem at_shift (b : Nat) (l : List (List NMat)) (t : Nat) :
    Agent.at_ b l t = Agent.at_ 0 (List.replicate b [] ++ l) t := by
  unfold Agent.at_
  simp only [Nat.zero_le, if_true, Nat.sub_zero]
  split
  · rw [List.getElem?_append_right (by simpa)]
    simp
  · rw [List.getElem?_append_left (by simp; omega)]
    rw [List.getElem?_replicate, if_pos (by omega)]
    rfl

theorem exUsed_eq : exUsed = List.replicate 10 [] ++ exBurial.map Sink.In.mats := by
  decide +kernel

theorem mem_at {b : Nat} {l : List (List NMat)} {t : Nat} {m : NMat} (h : m ∈ Agent.at_ b l t) :
    m ∈ l.flatten := by
  unfold Agent.at_ at h
  split at h
  · cases hx : l[t - b]? with
    | none => rw [hx] at h; cases h
    | some x =>
      rw [hx] at h
      exact List.mem_flatten.mpr ⟨x, List.mem_of_getElem? hx, h⟩
  · cases h

/-- A source, a reactor and a sink, the sink deployed in step 10: six assemblies are made, burnt and
buried. The hypotheses of all theorems are met; 3 kg are sent, and end in the sink. -/
theorem example_network : ∃ sys : List Agent, (∀ a ∈ sys, a.life.Lived) ∧ Exchange sys ∧
    (∀ a ∈ sys, a.life.FairSource) ∧ sys.map Agent.born = [0, 0, 10] ∧
    totalQty (sys.flatMap (·.life.mined)) = 3 ∧ totalQty (sys.flatMap (·.life.holds)) = 3 ∧
    massOf (sys.flatMap (·.life.holds)) 137 = 3 / 25 := by
  obtain ⟨⟨so, ss⟩, hs⟩ := Source.exists_of_isOk (x := exMine) (by decide +kernel)
  obtain ⟨⟨ko, ks⟩, hk⟩ := Source.exists_of_isOk (x := exBury) (by decide +kernel)
  obtain ⟨⟨ro, rs⟩, hr⟩ := Source.exists_of_isOk (x := Reactor.play Reactor.exCfg Reactor.exHist)
    (by decide +kernel)
  have es : so.map Source.sentIn = exFuel := by
    have : (exMine.toOption.map fun p => p.1.map Source.sentIn) = some exFuel := by decide +kernel
    rw [hs] at this
    exact Option.some.inj this
  have er : exUsed.map (List.map qty) = ro.map (fun o => o.shipped.map fun d => d.2.qty) := by
    have : ((Reactor.play Reactor.exCfg Reactor.exHist).toOption.map fun p =>
        p.1.map (fun o => o.shipped.map fun d => d.2.qty)) = some (exUsed.map (List.map qty)) := by
      decide +kernel
    rw [hr] at this
    exact (Option.some.inj this).symm
  have ek : sinkMats ks = exUsed.flatten := by
    have : (exBury.toOption.map fun p => sinkMats p.2) = some exUsed.flatten := by decide +kernel
    rw [hk] at this
    exact Option.some.inj this
  refine ⟨[⟨0, .source exSource exMining so ss⟩,
    ⟨0, .reactor Reactor.exCfg Reactor.exHist ro rs exFuel exUsed⟩,
    ⟨10, .sink exSink (Sink.rngOf (1 / 2) 1) 10 exBurial ko ks⟩], ?_, ?_, ?_, rfl, ?_, ?_, ?_⟩
  · intro a ha
    simp only [List.mem_cons, List.not_mem_nil, or_false] at ha
    rcases ha with rfl | rfl | rfl
    · simp only [exMine, bind_ok] at hs
      exact hs
    · refine ⟨?_, ?_, er⟩
      · simp only [Reactor.play, bind_ok] at hr
        exact hr
      · decide +kernel
    · refine ⟨?_, ?_, ?_⟩
      · exact ⟨by decide +kernel, by decide +kernel, by decide +kernel, by decide +kernel,
          by intro r h; cases h⟩
      · have h : Sink.Sound (Sink.rngOf (1 / 2) 1) :=
          Sink.rngOf_sound (by norm_num) (by norm_num) _
        refine ⟨h, ?_⟩
        intro i hi
        simp only [exBurial, List.mem_map] at hi
        obtain ⟨k, -, rfl⟩ := hi
        exact ⟨h, h⟩
      · simp only [exBury, bind_ok] at hk
        exact hk
  · constructor
    · intro t
      simp only [List.flatMap_cons, List.flatMap_nil, List.append_nil, Agent.takesAt, Agent.givesAt,
        Life.takes, Life.gives, es, at_shift 10, exUsed_eq]
      have h0 : Agent.at_ 0 [] t = [] := by simp [Agent.at_]
      have h1 : Agent.at_ 0 (List.replicate 10 []) t = [] := by
        have := at_shift 10 [] t
        rw [List.append_nil] at this
        rw [← this]; unfold Agent.at_; split <;> simp
      rw [h0, h1]
      simp
    · intro t a ha m hm
      have hall : ∀ m ∈ exFuel.flatten ++ exUsed.flatten, m = fresh ∨ m = spent := by
        decide +kernel
      have hgood : m = fresh ∨ m = spent → 0 < qty m ∧ Mat.Nonneg m := by
        rintro (rfl | rfl)
        · refine ⟨by decide +kernel, ?_⟩
          intro e he
          simp only [fresh, List.mem_cons, List.not_mem_nil, or_false] at he
          rcases he with rfl | rfl <;> norm_num
        · refine ⟨by decide +kernel, ?_⟩
          intro e he
          simp only [spent, List.mem_cons, List.not_mem_nil, or_false] at he
          rcases he with rfl | rfl <;> norm_num
      refine hgood (hall m ?_)
      simp only [List.mem_cons, List.not_mem_nil, or_false] at ha
      rcases ha with rfl | rfl | rfl
      · have := mem_at hm
        cases this
      · exact List.mem_append_left _ (mem_at hm)
      · refine List.mem_append_right _ ?_
        rw [exUsed_eq]
        simp only [Agent.takesAt, at_shift 10] at hm
        exact mem_at hm
  · intro a ha
    simp only [List.mem_cons, List.not_mem_nil, or_false] at ha
    rcases ha with rfl | rfl | rfl
    · refine ⟨exSource_valid, ?_, exFair⟩
      intro i hi t ht
      simp only [exMining, List.mem_map] at hi
      obtain ⟨k, -, rfl⟩ := hi
      rw [(List.mem_replicate.mp ht).2]
      decide +kernel
    · trivial
    · trivial
  · show totalQty (Source.shipped so ++ ([] ++ ([] ++ []))) = 3
    simp only [Source.shipped, List.flatMap_def, es]
    decide +kernel
  · show totalQty ([] ++ ([] ++ (sinkMats ks ++ []))) = 3
    rw [ek]; decide +kernel
  · show massOf ([] ++ ([] ++ (sinkMats ks ++ []))) 137 = 3 / 25
    rw [ek]; decide +kernel

end Cyc.Network
