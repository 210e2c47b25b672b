import Verif.Input.Spec
import Verif.Sim.Props
import Verif.Sim.Example
import Verif.Enrichment.Props3
import Verif.Reactor.Check

/-!
# What may be left out of the input (C156)
-/

namespace Cyc.Input
open Sim

theorem large_pos : 0 < large := by unfold large; positivity

/-- What holds of the given value and of the default holds of what is read. -/
theorem Less.getD {α : Type} {a b : Option α} {x : α} {P : α → Prop} (h : Less a b) (hb : P (b.getD x))
    (hx : P x) : P (a.getD x) := by
  rcases h with rfl | rfl
  · exact hx
  · exact hb

theorem Less.some {α : Type} {a b : Option α} {P : α → Prop} (h : Less a b) (hb : ∀ x, b = some x → P x) :
    ∀ x, a = some x → P x := by
  rcases h with rfl | rfl
  · intro x hx; cases hx
  · exact hb

theorem Less.given {α : Type} {a b : Option α} (h : Less a b) (ha : a ≠ none) : a = b := h.resolve_left ha

/-- A prototype with sensible input can be built. -/
theorem builds {k : Kind} (h : Sensible k) : ∃ p, deploy k = .ok p := by
  cases k with
  | conversion c => exact ⟨_, rfl⟩
  | enrichment c =>
    obtain ⟨V, hcap, -⟩ := h
    suffices hb : ∃ s, Enrichment.build c = .ok s by
      obtain ⟨s, hb⟩ := hb
      exact ⟨_, by simp only [deploy, hb, ok_bind, pure_eq_ok]; rfl⟩
    unfold Enrichment.build
    split
    · simp only [Enrichment.addMat]
      rw [(Buf.push_ok (b := ⟨some c.maxFeed, []⟩)).2 ⟨?_, rfl⟩]
      · exact ⟨_, rfl⟩
      · have hp := V.recipePos
        have he := V.eps
        have hq : qty (c.feedRecipe.scale (c.initialFeed / qty c.feedRecipe)) = c.initialFeed := by
          rw [Mat.qty_scale]; field_simp
        simp only [Buf.fits, Buf.space, Option.map_some, Buf.quantity, totalQty_nil, sub_zero,
          decide_eq_true_eq, max_eq_right V.maxFeed, hq]
        linarith
    · exact ⟨_, rfl⟩
  | fuelFab c =>
    obtain ⟨V, hp1, hp2⟩ := h
    obtain ⟨l1, e1⟩ := OfFuelFab.initPrefs_some hp1
    obtain ⟨l2, e2⟩ := OfFuelFab.initPrefs_some hp2
    exact ⟨_, by simp only [deploy, FuelFab.enter, e1, e2, ok_bind, pure_eq_ok]; rfl⟩
  | mixer c => exact ⟨_, rfl⟩
  | reactor c enc dec =>
    obtain ⟨s, e⟩ := Reactor.enter_ok h.1
    exact ⟨_, by simp only [deploy, e, ok_bind, pure_eq_ok]; rfl⟩
  | separations c =>
    obtain ⟨V, heps, hleft, hf, hp, hn⟩ := h
    obtain ⟨s, e, -⟩ := Separations.C70_progress_partial V hn hf (hp.imp List.length_eq_zero_iff.1 id) hleft
    exact ⟨_, by simp only [deploy, e, ok_bind, pure_eq_ok]; rfl⟩
  | sink c =>
    obtain ⟨V, hr, hp, hz, hf⟩ := h
    obtain ⟨ps, h1⟩ : ∃ ps, Sink.setPrefs c c.prefs = .ok ps := by
      unfold Sink.setPrefs
      rcases hp with h | h
      · rw [h]; exact ⟨_, rfl⟩
      · split
        · exact ⟨_, rfl⟩
        · rw [if_neg (by simpa using h)]; exact ⟨_, rfl⟩
    obtain ⟨s, e⟩ : ∃ s, Sink.enter c noRng 0 = .ok s := by
      simp only [Sink.enter, Sink.enterWith, h1, ok_bind, Sink.setRequestAmt, hz, if_true, pure_eq_ok,
        Sink.setNextBuyTime, hf]
      exact ⟨_, rfl⟩
    exact ⟨_, by simp only [deploy, e, ok_bind, pure_eq_ok]; rfl⟩
  | source c => exact ⟨_, by simp only [deploy, Source.build_eq, ok_bind, pure_eq_ok]; rfl⟩
  | storage c want =>
    obtain ⟨p, s, e, -⟩ := Storage.C26_never_fails_partial (ν := Nat) h.2.1 h.1 h.2.2
    exact ⟨_, by simp only [deploy, e, ok_bind, pure_eq_ok]; rfl⟩

/-- C156, when some care is taken (`Careful`): an input that is in order stays so when optional values are left
out of it, and the prototype can be built. What is missing to C156 is the care, which is needed:
`C156_side_products`, `C156_order_prefs`. -/
theorem C156_left_out_partial {i j : Input} (hi : Sensible i.kind) (h : LeavesOut j i) (hj : Careful j) :
    Sensible j.kind ∧ ∃ p, deploy j.kind = .ok p := by
  suffices hs : Sensible j.kind from ⟨hs, builds hs⟩
  have hL := large_pos
  cases i <;> cases j <;> try exact absurd h id
  case conversion c o c' o' =>
    obtain ⟨rfl, h1, h2⟩ := h
    obtain ⟨k1, k2, k3⟩ := hi
    exact ⟨h2.getD (P := fun x => 0 ≤ x) k1 hL.le, h1.getD (P := fun x => 0 < x) k2 hL, k3⟩
  case enrichment c o c' o' =>
    obtain ⟨rfl, h1, h2, h3, h4, h5, h6⟩ := h
    obtain ⟨V, k1, k2, k3⟩ := hi
    obtain ⟨j1, j2⟩ := hj
    have h5' := h5.given j1
    refine ⟨⟨V.recipe, V.recipePos, V.eps, h3.getD (P := fun x => 0 ≤ x) V.maxFeed hL.le,
      h1.getD (P := fun x => 0 ≤ x) V.tails (by norm_num), h1.getD (P := fun x => x ≤ 1) V.tailsLe (by norm_num),
      h6.getD (P := fun x => 0 < x) V.swu hL, V.atom235, V.atom238⟩, ?_, k2, ?_⟩
    · show o'.initialFeed.getD 0 ≤ o'.maxFeed.getD large
      have k0 : 0 ≤ o.maxFeed.getD large := V.maxFeed
      have k1 : o.initialFeed.getD 0 ≤ o.maxFeed.getD large := k1
      have hle : o'.initialFeed.getD 0 ≤ large := by
        cases e : o'.initialFeed with
        | none => exact hL.le
        | some q => exact j2 q e
      exact h3.getD (P := fun x => o'.initialFeed.getD 0 ≤ x)
        (h2.getD (P := fun x => x ≤ o.maxFeed.getD large) k1 k0) hle
    · show o'.orderPrefs.getD true = false
      rw [h5']
      exact k3
  case fuelFab c o c' o' =>
    obtain ⟨rfl, h1, h2, h3, h4, h5, h6, h7, h8⟩ := h
    obtain ⟨V, k1, k2⟩ := hi
    refine ⟨⟨V.atom, V.u238, V.pu239, V.scale, V.fillRecipe, ?_, V.eps, V.near, V.nearHalf,
      h8.getD (P := fun x => 0 ≤ x) V.throughput hL.le⟩,
      h2.getD (P := fun x => x = [] ∨ x.length = c'.fissCommods.length) k1 (.inl rfl),
      h1.getD (P := fun x => x = [] ∨ x.length = c'.fillCommods.length) k2 (.inl rfl)⟩
    rintro m (hm | hm | hm)
    · exact V.recipes m (.inl hm)
    · exact h3.some (P := FuelFab.Solid) (fun x hx => V.recipes x (.inr (.inl hx))) m hm
    · exact h6.some (P := FuelFab.Solid) (fun x hx => V.recipes x (.inr (.inr hx))) m hm
  case mixer c o c' o' =>
    obtain ⟨rfl, h1, h2⟩ := h
    obtain ⟨V, k1, k2⟩ := hi
    exact ⟨⟨V.streams, V.ratios, h1.getD (P := fun x => 0 ≤ x) V.outSize hL.le,
      h2.getD (P := fun x => 0 ≤ x) V.throughput hL.le, V.eps⟩, k1, k2⟩
  case reactor c o enc dec c' o' enc' dec' =>
    obtain ⟨rfl, rfl, rfl, h1, h2, h3, h4, h5, h6, h7, h8, h9, h10, h11, h12, h13, h14, h15, h16, h17, h18⟩ := h
    obtain ⟨V, k⟩ := hi
    obtain ⟨j1, j2, j3⟩ := hj
    have hr : o'.recipeChangeCommods.getD [] = o.recipeChangeCommods.getD [] ∧
        o'.recipeChangeTimes.getD [] = o.recipeChangeTimes.getD [] ∧
        o'.recipeChangeIn.getD [] = o.recipeChangeIn.getD [] ∧
        o'.recipeChangeOut.getD [] = o.recipeChangeOut.getD [] ∨
        o'.recipeChangeCommods.getD [] = [] ∧ o'.recipeChangeTimes.getD [] = [] ∧
        o'.recipeChangeIn.getD [] = [] ∧ o'.recipeChangeOut.getD [] = [] := by
      rcases j1 with ⟨e1, e2, e3, e4⟩ | ⟨e1, e2, e3, e4⟩
      · right; simp [e1, e2, e3, e4]
      · left; simp [h2.given e1, h3.given e2, h4.given e3, h5.given e4]
    have hp : o'.prefChangeCommods.getD [] = o.prefChangeCommods.getD [] ∧
        o'.prefChangeTimes.getD [] = o.prefChangeTimes.getD [] ∧
        o'.prefChangeValues.getD [] = o.prefChangeValues.getD [] ∨
        o'.prefChangeCommods.getD [] = [] ∧ o'.prefChangeTimes.getD [] = [] ∧
        o'.prefChangeValues.getD [] = [] := by
      rcases j2 with ⟨e1, e2, e3⟩ | ⟨e1, e2, e3⟩
      · right; simp [e1, e2, e3]
      · left; simp [h16.given e1, h17.given e2, h18.given e3]
    refine ⟨⟨V.inRecipes, V.outCommods, V.outRecipes,
      h1.getD (P := fun x => x.length = 0 ∨ x.length = c'.inCommods.length) V.prefs (.inl rfl), V.someFuel,
      ?_, ?_, ?_, ?_, ?_, ?_, ?_, V.assemSize, V.nBatch, h9.getD (P := fun x => 0 < x) V.cycleTime (by norm_num),
      V.eps⟩, k⟩
    · show (o'.recipeChangeCommods.getD []).length = (o'.recipeChangeTimes.getD []).length
      rcases hr with ⟨e1, e2, -⟩ | ⟨e1, e2, -⟩ <;> rw [e1, e2]
      · exact V.recipeChangeCommods
      · rfl
    · show (o'.recipeChangeIn.getD []).length = (o'.recipeChangeTimes.getD []).length
      rcases hr with ⟨-, e1, e2, -⟩ | ⟨-, e1, e2, -⟩ <;> rw [e1, e2]
      · exact V.recipeChangeIn
      · rfl
    · show (o'.recipeChangeOut.getD []).length = (o'.recipeChangeTimes.getD []).length
      rcases hr with ⟨-, e1, -, e2⟩ | ⟨-, e1, -, e2⟩ <;> rw [e1, e2]
      · exact V.recipeChangeOut
      · rfl
    · show (o'.prefChangeCommods.getD []).length = (o'.prefChangeTimes.getD []).length
      rcases hp with ⟨e1, e2, -⟩ | ⟨e1, e2, -⟩ <;> rw [e1, e2]
      · exact V.prefChangeCommods
      · rfl
    · show (o'.prefChangeValues.getD []).length = (o'.prefChangeTimes.getD []).length
      rcases hp with ⟨-, e1, e2⟩ | ⟨-, e1, e2⟩ <;> rw [e1, e2]
      · exact V.prefChangeValues
      · rfl
    · intro r hr'
      have hr' : r ∈ c'.inRecipes ∨ r ∈ c'.outRecipes ∨ r ∈ o'.recipeChangeIn.getD [] ∨
        r ∈ o'.recipeChangeOut.getD [] := hr'
      rcases hr with ⟨-, -, e1, e2⟩ | ⟨-, -, e1, e2⟩ <;> rw [e1, e2] at hr'
      · exact V.known r hr'
      · refine V.known r ?_
        rcases hr' with h | h | h | h
        · exact .inl h
        · exact .inr (.inl h)
        · cases h
        · cases h
    · show (o'.sideProducts.getD []).length ≤ (o'.sideQty.getD []).length
      by_cases e : o'.sideQty = none
      · rw [e, j3 e]; exact le_rfl
      · rw [h14.given e]
        exact h13.getD (P := fun x => x.length ≤ (o.sideQty.getD []).length) V.sideQty (Nat.zero_le _)
  case separations c o c' o' =>
    obtain ⟨rfl, h1, h2, h3, h4⟩ := h
    obtain ⟨V, k1, k2, k3, k4, k5⟩ := hi
    obtain ⟨j1, j2⟩ := hj
    refine ⟨⟨V.names, ?_, V.effs, V.share, h2.getD (P := fun x => 0 < x) V.throughput hL,
      h2.getD (P := fun x => c'.lo ≤ x) V.lo j1, V.eps, V.feedbuf⟩, k1, ?_, k3,
      h1.getD (P := fun x => x.length = 0 ∨ x.length = c'.feedCommods.length) k4 (.inl rfl), k5⟩
    · show o'.leftoverCommod.getD _ ∉ _
      by_cases e : o'.leftoverCommod = none
      · rw [e]; exact j2 e
      · rw [h3.given e]; exact V.leftover
    · exact h4.elim id fun e => e.trans k2
  case sink c o c' o' =>
    obtain ⟨rfl, h1, h2, h3, h4, h5, h6, h7, h8, h9, h10, h11, h12⟩ := h
    obtain ⟨V, k1, k2, k3, k4⟩ := hi
    exact ⟨⟨h3.getD (P := fun x => 0 ≤ x) V.maxInv hL.le, h4.getD (P := fun x => 0 ≤ x) V.capacity hL.le, V.eps,
      V.epsRsrc, h2.some (P := fun r => 0 < qty r) V.recipe⟩, h2.some (P := Mat.Nonneg) k1,
      h1.getD (P := fun x => x = [] ∨ x.length = c'.commods.length) k2 (.inl rfl),
      h5.getD (P := fun x => x = "None") k3 rfl, h8.getD (P := fun x => x = "None") k4 rfl⟩
  case source c o c' o' =>
    obtain ⟨rfl, h1, h2, h3, h4, h5⟩ := h
    obtain ⟨k1, k2, k3, k4, k5, k6⟩ := hi
    exact ⟨h2.getD (P := fun x => 0 ≤ x) k1 hL.le, h3.getD (P := fun x => 0 ≤ x) k2 hL.le, k3,
      h1.some (P := Sim.Solid) k4, h4.getD (P := fun f : ℚ → List ℚ => ∀ q, f q = [q]) k5 (fun _ => rfl),
      h5.getD (P := fun f : Nat → Nat => ∀ n, f n = n) k6 (fun _ => rfl)⟩
  case storage c o want c' o' want' =>
    obtain ⟨rfl, rfl, h1, h2, h3, h4, h5, h6⟩ := h
    obtain ⟨V, k1, k2⟩ := hi
    obtain ⟨j1, j2, j3⟩ := hj
    refine ⟨⟨V.inCommods, h1.getD (P := fun x => x.length = 0 ∨ x.length = c'.inCommods.length) V.prefs (.inl rfl),
      V.outCommods, h2.getD (P := fun x => x = "" ∨ c'.hasRecipe x = true) V.recipe (.inl rfl), ?_⟩, k1, ?_⟩
    · exact h5.getD (P := fun x => ¬ (0 ≤ c'.reorderPoint ∧ c'.cumulativeCap ≤ 0 ∧ 0 < c'.reorderQty ∧
        x < c'.reorderPoint + c'.reorderQty)) V.reorder (fun h => absurd h.2.2.2 (not_lt.2 j2))
    · show o'.discrete.getD false = true ∨ 0 < o'.throughput.getD large ∧ c'.lo ≤ o'.throughput.getD large
      have k2 : o.discrete.getD false = true ∨ 0 < o.throughput.getD large ∧ c'.lo ≤ o.throughput.getD large := k2
      by_cases e : o'.discrete = none
      · right
        cases e' : o'.throughput with
        | none => exact ⟨hL, j1⟩
        | some q => exact j3 e q e'
      · rw [h6.given e]
        rcases k2 with k2 | k2
        · exact .inl k2
        · right
          exact h4.getD (P := fun x => 0 < x ∧ c'.lo ≤ x) k2 ⟨hL, j1⟩

/-! ## Care is needed -/

/-- The example of a reactor, with everything given. -/
def exGiven : ReactorOpts where
  prefs := some [2, 1]
  recipeChangeTimes := some [4]
  recipeChangeCommods := some ["uox"]
  recipeChangeIn := some ["m"]
  recipeChangeOut := some ["sm"]
  nCore := some 3
  nFresh := some 1
  nSpent := some 2
  cycleTime := some 2
  refuelTime := some 1
  cycleStep := some 0
  powerCap := some 100
  sideProducts := some ["heat"]
  sideQty := some [7]
  decomTransmuteAll := some false
  prefChangeTimes := some [2]
  prefChangeCommods := some ["mox"]
  prefChangeValues := some [3]

theorem exGiven_fill : exGiven.fill Reactor.exCfg = Reactor.exCfg := rfl

theorem exGiven_sensible : Sensible (Input.kind (.reactor Reactor.exCfg exGiven (fun _ => 1) exDec)) :=
  ⟨exGiven_fill ▸ Reactor.exCfg_wf, 
    (exKinds_sensible (.reactor exReactor (fun _ => 1) exDec) (by simp [exKinds])).2⟩

/-- The example reactor with nothing given but what is required: it has batches of one assembly, three of which
make a core, and cycles of 18 steps. -/
example : Sensible (Input.kind (.reactor Reactor.exCfg {} (fun _ => 1) exDec)) ∧
    ∃ p, deploy (Input.kind (.reactor Reactor.exCfg {} (fun _ => 1) exDec)) = .ok p :=
  C156_left_out_partial exGiven_sensible
    ⟨rfl, rfl, rfl, .inl rfl, .inl rfl, .inl rfl, .inl rfl, .inl rfl, .inl rfl, .inl rfl, .inl rfl, .inl rfl,
      .inl rfl, .inl rfl, .inl rfl, .inl rfl, .inl rfl, .inl rfl, .inl rfl, .inl rfl, .inl rfl⟩
    ⟨.inl ⟨rfl, rfl, rfl, rfl⟩, .inl ⟨rfl, rfl, rfl⟩, fun _ => rfl⟩

/-- C156 fails for the quantities of side products: a reactor works with them, and without reads outside a vector
in the step in which its core is full. -/
theorem C156_side_products : ∃ (c : Reactor.Cfg) (o o' : ReactorOpts) (enc : NMat → Nat) (dec : Nat → NMat)
    (is : List Reactor.In), Sensible (Input.kind (.reactor c o enc dec)) ∧
      LeavesOut (.reactor c o' enc dec) (.reactor c o enc dec) ∧
      (∃ os s, Reactor.History (o.fill c) is os s) ∧
      ∃ s, Reactor.enter (o'.fill c) = .ok s ∧ Reactor.HonestRun (o'.fill c) s is ∧
        Reactor.run (o'.fill c) s is = .error .ub := by
  refine ⟨Reactor.exCfg, exGiven, { exGiven with sideQty := none }, fun _ => 1, exDec, [Reactor.supply [0, 1, 2]],
    exGiven_sensible, ⟨rfl, rfl, rfl, .inr rfl, .inr rfl, .inr rfl, .inr rfl, .inr rfl, .inr rfl, .inr rfl, .inr rfl,
      .inr rfl, .inr rfl, .inr rfl, .inr rfl, .inr rfl, .inl rfl, .inr rfl, .inr rfl, .inr rfl, .inr rfl⟩, ?_, ?_⟩
  · obtain ⟨os, s, -, h⟩ := Reactor.history_of (c := exGiven.fill Reactor.exCfg)
      (is := [Reactor.supply [0, 1, 2]]) (by decide +kernel) (by decide +kernel)
    exact ⟨os, s, h⟩
  · have h : (match Reactor.enter (ReactorOpts.fill { exGiven with sideQty := none } Reactor.exCfg) with
        | .ok s =>
          (match Reactor.offerPhase (ReactorOpts.fill { exGiven with sideQty := none } Reactor.exCfg)
              (Reactor.supply [0, 1, 2]).reqs s with
            | .ok (x, _) => Reactor.honestB (ReactorOpts.fill { exGiven with sideQty := none } Reactor.exCfg) s x
                (Reactor.supply [0, 1, 2])
            | .error _ => false) &&
          (match Reactor.step (ReactorOpts.fill { exGiven with sideQty := none } Reactor.exCfg) s
              (Reactor.supply [0, 1, 2]) with
            | .error .ub => true
            | _ => false)
        | .error _ => false) = true := by decide +kernel
    cases e : Reactor.enter (ReactorOpts.fill { exGiven with sideQty := none } Reactor.exCfg) with
    | error f => rw [e] at h; cases h
    | ok s =>
      rw [e] at h
      simp only [Bool.and_eq_true] at h
      obtain ⟨h1, h2⟩ := h
      have h3 : Reactor.step (ReactorOpts.fill { exGiven with sideQty := none } Reactor.exCfg) s
          (Reactor.supply [0, 1, 2]) = .error .ub := by
        split at h2
        · assumption
        · cases h2
      refine ⟨s, rfl, ⟨fun x s1 h => ?_, fun x s1 h => ?_⟩, ?_⟩
      · rw [h] at h1
        exact Reactor.honest_of_honestB h1
      · rw [h3] at h; cases h
      · simp only [Reactor.run, h3]
        rfl

/-- C156 fails for `order_prefs` of an enrichment facility: told not to order, it leaves the preferences alone;
told nothing, it orders them, which is undefined behaviour for two bids of the same kind of feed. -/
theorem C156_order_prefs : ∃ (c : Enrichment.Cfg) (o o' : EnrichmentOpts),
    Sensible (Input.kind (.enrichment c o)) ∧ LeavesOut (.enrichment c o') (.enrichment c o) ∧
      ∃ bids, (bids.map Prod.fst).Nodup ∧ (∀ b ∈ bids, 0 < qty b.2 ∧ Mat.Nonneg b.2) ∧
        Enrichment.adjustPrefs (o.fill c) bids = .ok none ∧
        Enrichment.adjustPrefs (o'.fill c) bids = .error .ub := by
  refine ⟨exEnrichment, ⟨some (1 / 400), some 100, some 200, some (1 / 5), some false, some 1⟩,
    ⟨some (1 / 400), some 100, some 200, some (1 / 5), none, some 1⟩, ?_,
    ⟨rfl, .inr rfl, .inr rfl, .inr rfl, .inr rfl, .inl rfl, .inr rfl⟩,
    [(0, Enrichment.natu), (1, Enrichment.natu)], by decide, ?_, Enrichment.C39_off rfl _, ?_⟩
  · obtain ⟨V, k1, k2, -⟩ := exKinds_sensible (.enrichment exEnrichment) (by simp [exKinds])
    exact ⟨⟨V.recipe, V.recipePos, V.eps, by norm_num [EnrichmentOpts.fill], by norm_num [EnrichmentOpts.fill],
      by norm_num [EnrichmentOpts.fill], by norm_num [EnrichmentOpts.fill], V.atom235, V.atom238⟩,
      by norm_num [EnrichmentOpts.fill], k2, rfl⟩
  · intro b hb
    have : b.2 = Enrichment.natu := by
      simp only [List.mem_cons, List.not_mem_nil, or_false] at hb
      rcases hb with rfl | rfl <;> rfl
    rw [this]
    exact ⟨by decide +kernel, Enrichment.nonneg_of_all (by decide +kernel)⟩
  · unfold Enrichment.adjustPrefs Enrichment.sortVector
    rw [if_neg (by decide), if_neg (by simp)]
    rfl

end Cyc.Input
