import Verif.Sim.Enriching

/-!
# Reactors run on schedule on enriched fuel: property C140
-/

namespace Cyc.Sim

variable {A : Agreement}

/-- A recipe for a fuel is one of those that the user gave. -/
theorem Reactor.Names.given {c : Reactor.Cfg} {k name : String} (h : Reactor.Names c k name) :
    name ∈ c.inRecipes ++ c.recipeChangeIn := by
  rcases h with h | h
  · exact List.mem_append_left _ (List.of_mem_zip h).2
  · exact List.mem_append_right _ (List.of_mem_zip h).2

/-- A recipe in force is one that the user gave for that fuel. -/
theorem Reactor.inForceAt_named {c : Reactor.Cfg} {t y : Nat} {k name : String}
    (hk : c.inCommods[y]? = some k) (hy : y < c.inRecipes.length)
    (h : Reactor.InForceAt c (Reactor.inSchedule c) t (c.inRecipes.getD y "") y name) :
    Reactor.Names c k name := by
  have h0 : Reactor.Names c k (c.inRecipes.getD y "") := by
    refine Or.inl (List.mem_of_getElem? (i := y) (List.getElem?_zip_eq_some.2 ⟨hk, ?_⟩))
    simp [hy]
  unfold Reactor.InForceAt at h
  rw [List.getD_eq_getElem?_getD (l := c.inCommods), hk] at h
  split at h
  · rcases h with ⟨i, τ, h1, -⟩ | ⟨rfl, -⟩
    · exact Or.inr (List.of_mem_zip (List.mem_of_getElem? h1)).2
    · exact h0
  · rw [h]
    exact h0

theorem feasible_scale {c : Enrichment.Cfg} {m : NMat} {q : ℚ} (hq : 0 < q) (h : Enrichment.Feasible c m) :
    Enrichment.Feasible c (m.scale q) := by
  refine ⟨?_, ?_, ?_⟩
  · rw [Mat.mass_scale]; exact mul_pos hq h.has238
  · simp only [Mat.mass_scale]; nlinarith [h.above]
  · simp only [Mat.mass_scale]; nlinarith [h.below]

theorem freshRoom_nonneg {ks : List Kind} (hks : ∀ k ∈ ks, Sensible k) : 0 ≤ (ks.map freshRoom).sum := by
  apply List.sum_nonneg
  intro x hx
  obtain ⟨k, hk, rfl⟩ := List.mem_map.1 hx
  have := hks k hk
  cases k <;> try exact le_refl _
  exact mul_nonneg (Nat.cast_nonneg _) this.1.assemSize.le

/-- An enrichment facility starts with its first feed. -/
theorem feed_first {ks : List Kind} (hks : ∀ k ∈ ks, Sensible k ∧ Suits A k)
    {ps : List (Running act)} (h : deployAll ks = .ok ps) {i : Nat} {e : Enrichment.Cfg}
    (hi : ks[i]? = some (.enrichment e)) {lo hi' φ σ : ℚ} (hE : Enriches A ks e lo hi' φ σ)
    (hpos : 0 < e.initialFeed) : ∃ s : Enrichment.State, ps[i]? = some ⟨.enrichment e, s⟩ ∧
      OfEnrichment.Fit e lo hi' s ∧ s.inventory.quantity = e.initialFeed := by
  obtain ⟨-, kinds⟩ := deployAll_k h hks
  have V : Enrichment.Valid e := (hks _ (List.mem_of_getElem? hi)).1.1
  obtain ⟨s, hs⟩ := get_of_map kinds hi
  obtain ⟨k, e1, e2⟩ := deployAll_get h i _ hs
  obtain rfl := Option.some.inj (e1.symm.trans hi)
  simp only [deploy, bind_ok, pure_eq_ok, Except.ok.injEq] at e2
  obtain ⟨s0, e3, e4⟩ := e2
  cases e4
  obtain ⟨I, k1, -, -, k2⟩ := Enrichment.build_inv V e3
  have hrp := V.recipePos
  rw [Enrichment.initial, if_pos hpos] at k1
  refine ⟨s, hs, ⟨I, k2, ?_⟩, ?_⟩
  · show AllOf _ s.inventory.items
    rw [k1]
    intro x hx
    rw [List.mem_singleton] at hx
    subst hx
    exact (OfEnrichment.assayed_blendable lo hi').scale _ _ (by positivity) hE.recipe
  · unfold Buf.quantity
    rw [k1, totalQty_cons, totalQty_nil, Mat.qty_scale]
    have : e.initialFeed / qty e.feedRecipe * qty e.feedRecipe = e.initialFeed := by field_simp
    rw [this, add_zero]

/-- A step takes no more than the feed for all the reactors. -/
theorem feed_step {ks : List Kind} (hks : ∀ k ∈ ks, Sensible k ∧ Suits A k)
    {ps : List (Running act)} (h : deployAll ks = .ok ps) {ex : Nat → Exchange}
    (hex : ∀ t, (ex t).Fair) {i : Nat} {e : Enrichment.Cfg} (hi : ks[i]? = some (.enrichment e))
    {lo hi' φ σ : ℚ} (hE : Enriches A ks e lo hi' φ σ) (hφ : 0 ≤ φ) {m : Nat}
    {l : List (List (Deal × NMat))} {ps₁ ps' : List (Running act)} {gs : List (Deal × NMat)}
    (e1 : simulate ex m 0 ps = .ok (l, ps₁)) (e2 : round (ex m) ps₁ = .ok (gs, ps'))
    {s : Enrichment.State} (k1 : ps₁[i]? = some ⟨.enrichment e, s⟩) (F : OfEnrichment.Fit e lo hi' s)
    (hq : φ * (ks.map freshRoom).sum + e.eps ≤ s.inventory.quantity) :
    ∃ s' : Enrichment.State, ps'[i]? = some ⟨.enrichment e, s'⟩ ∧ OfEnrichment.Fit e lo hi' s' ∧
      0 ≤ totalQty (givenTo gs i) ∧
      s.inventory.quantity - φ * (ks.map freshRoom).sum + totalQty (givenTo gs i) ≤
        s'.inventory.quantity := by
  obtain ⟨g0, kinds⟩ := deployAll_k h hks
  have hc := (hks _ (List.mem_of_getElem? hi)).1
  obtain ⟨l', ps'', r1, -, r2, r3, -⟩ := simulate_ok (A := A) hex m 0 g0
  obtain ⟨rfl, rfl⟩ := Prod.mk.inj (Except.ok.inj (r1.symm.trans e1))
  have kinds' := r3.trans kinds
  have lived : ∀ p ∈ ps'', Sensible p.k ∧ ∃ t got gave, Lived p.k p.s t got gave := by
    intro p hp
    obtain ⟨x, hx⟩ := List.mem_iff_getElem?.1 hp
    obtain ⟨e, L⟩ := C132_lives_partial hks h hex e1 hx
    exact ⟨(hks _ (List.mem_of_getElem? e)).1, _, _, _, L⟩
  obtain ⟨asks, offers, hs', a1, o1, -, -, a3, P⟩ := round_parts' (hex m) r2 e2
  obtain ⟨asks', a1', a2, -, a4⟩ := askAll_ok r2
  obtain rfl := Except.ok.inj (a1.symm.trans a1')
  obtain ⟨offers', o1', o2, o3⟩ := offerAll_ok a3 r2
  obtain rfl := Except.ok.inj (o1.symm.trans o1')
  have G := hex m _ _ a4 o3
  obtain ⟨os, l2, as, mm, s', Pi, q1, -, q2⟩ := P i _ k1
  have hsold : ((((dealsOf (ex m asks offers) i).map Deal.sale).filter fun t =>
      t.commod = e.productCommod).map Sale.amt).sum ≤ (ks.map freshRoom).sum := by
    have h1 : ((((dealsOf (ex m asks offers) i).map Deal.sale).filter fun t =>
        t.commod = e.productCommod).map Sale.amt).sum =
        dealt (ex m asks offers) fun d => d.commod = e.productCommod ∧ d.src = i := by
      unfold dealsOf dealt
      rw [List.filter_map, List.map_map, List.filter_filter]
      congr 2
      apply List.filter_congr
      intro d _
      rw [Bool.eq_iff_iff]
      simp only [Function.comp, Deal.sale, Bool.and_eq_true, decide_eq_true_eq]
      exact ⟨fun x => ⟨of_decide_eq_true x.1, x.2⟩, fun x => ⟨decide_eq_true x.1, x.2⟩⟩
    rw [h1]
    refine le_trans (dealt_mono (fun d hd => (G.pos d hd).1.le) (q := fun d => d.commod = e.productCommod)
      ?_) ?_
    · intro d _ hd
      simpa using (of_decide_eq_true hd).1
    · rw [← kinds']
      refine demand_le (fun d hd => (G.pos d hd).1) ?_ G.amounts (by simp [a2.length_eq])
        (reactors_ask lived a2 (kinds' ▸ hE.only))
      intro d hd
      obtain ⟨as', j1, a', j2, j3, -⟩ := G.asked d hd
      exact ⟨as', j1, a', j2, j3⟩
  obtain ⟨F', j⟩ := OfEnrichment.keeps hc hE F a3 Pi (by
    intro d hd
    obtain ⟨g, hg, rfl⟩ := List.mem_map.1 hd
    exact q2 g (List.mem_filter.1 hg).1) hsold hφ hq
  rw [List.map_map] at j
  refine ⟨s', q1, F', ?_, j⟩
  apply List.sum_nonneg
  intro x hx
  obtain ⟨y, hy, rfl⟩ := List.mem_map.1 hx
  obtain ⟨g, hg, rfl⟩ := List.mem_map.1 hy
  exact (Pi.deliveries.solid (delivery g) (List.mem_map.2 ⟨g, hg, rfl⟩)).1.le

/-- The feed that is left after some time steps. -/
theorem feed_stays {ks : List Kind} (hks : ∀ k ∈ ks, Sensible k ∧ Suits A k)
    {ps : List (Running act)} (h : deployAll ks = .ok ps) {ex : Nat → Exchange}
    (hex : ∀ t, (ex t).Fair) {n i : Nat} {e : Enrichment.Cfg} (hi : ks[i]? = some (.enrichment e))
    {lo hi' φ σ : ℚ} (hE : Enriches A ks e lo hi' φ σ) (hL : Lasts ks e φ n) (hφ : 0 ≤ φ) :
    ∀ {m : Nat}, m ≤ n → ∀ {l : List (List (Deal × NMat))} {ps' : List (Running act)},
    simulate ex m 0 ps = .ok (l, ps') → ∃ s : Enrichment.State, ps'[i]? = some ⟨.enrichment e, s⟩ ∧
      OfEnrichment.Fit e lo hi' s ∧
      e.initialFeed - m * (φ * (ks.map freshRoom).sum) ≤ s.inventory.quantity := by
  have hR := freshRoom_nonneg fun k hk => (hks k hk).1
  have V : Enrichment.Valid e := (hks _ (List.mem_of_getElem? hi)).1.1
  have h3 := mul_nonneg hφ hR
  intro m
  induction m with
  | zero =>
    intro _ l ps' hs
    simp only [simulate, Except.ok.injEq, Prod.mk.injEq] at hs
    obtain ⟨rfl, rfl⟩ := hs
    have hpos : 0 < e.initialFeed := by
      have := hL
      unfold Lasts at this
      have := V.eps
      have : 0 ≤ (n : ℚ) * (φ * (ks.map freshRoom).sum) := mul_nonneg (Nat.cast_nonneg _) h3
      linarith
    obtain ⟨s, k1, k2, k3⟩ := feed_first hks h hi hE hpos
    exact ⟨s, k1, k2, by rw [k3]; simp⟩
  | succ m ih =>
    intro hm l ps' hs
    obtain ⟨l₁, ps₁, gs, e1, e2, rfl⟩ := simulate_snoc hs
    rw [Nat.zero_add] at e2
    obtain ⟨s, k1, F, k2⟩ := ih (by omega) e1
    obtain ⟨s', k3, F', k5, k4⟩ := feed_step hks h hex hi hE hφ e1 e2 k1 F (by
      have h1 := hL
      unfold Lasts at h1
      have h2 : ((m : ℚ) + 1) ≤ n := by exact_mod_cast hm
      nlinarith)
    refine ⟨s', k3, F', ?_⟩
    push_cast
    linarith

/-- An enrichment facility that has feed for all the reactors in each time step fills their orders. -/
theorem enrichment_fills {ks : List Kind} (hks : ∀ k ∈ ks, Sensible k ∧ Suits A k)
    {ps : List (Running act)} (h : deployAll ks = .ok ps) {ex : Nat → Exchange}
    (hex : ∀ t, (ex t).Fair) (hke : ∀ t, (ex t).Keen) {n i : Nat} {e : Enrichment.Cfg}
    (hi : ks[i]? = some (.enrichment e)) {lo hi' φ σ : ℚ} (hE : Enriches A ks e lo hi' φ σ) {j : Nat}
    {c : Reactor.Cfg} {enc : NMat → Nat} {dec : Nat → NMat} (hj : ks[j]? = some (.reactor c enc dec))
    (h1 : e.productCommod ∈ c.inCommods) (h3 : max e.lo e.eps ≤ c.assemSize)
    (hf : ∀ name r, Reactor.Names c e.productCommod name → c.recipe name = some r →
      Enrichment.Feasible e (dec r))
    (hfeed : 0 ≤ φ → ∀ m < n, ∀ l ps', simulate ex m 0 ps = .ok (l, ps') → ∃ s : Enrichment.State,
      ps'[i]? = some ⟨.enrichment e, s⟩ ∧ OfEnrichment.Fit e lo hi' s ∧
      φ * (ks.map freshRoom).sum + e.eps ≤ s.inventory.quantity) :
    ∀ m < n, ∀ l ps', simulate ex m 0 ps = .ok (l, ps') → Filled (ex m) ps' j := by
  intro m hm l' ps'' e1
  obtain ⟨g0, kinds⟩ := deployAll_k h hks
  obtain ⟨l₂, ps₂, r1, -, r2, r3, -⟩ := simulate_ok (A := A) hex m 0 g0
  obtain ⟨rfl, rfl⟩ := Prod.mk.inj (Except.ok.inj (r1.symm.trans e1))
  have kinds' := r3.trans kinds
  have hc := (hks _ (List.mem_of_getElem? hi)).1
  have V : Enrichment.Valid e := hc.1
  have hcj := (hks _ (List.mem_of_getElem? hj)).1
  have hsuit := (hks _ (List.mem_of_getElem? hj)).2
  have hR := freshRoom_nonneg fun k hk => (hks k hk).1
  have lived : ∀ p ∈ ps₂, Sensible p.k ∧ ∃ t got gave, Lived p.k p.s t got gave := by
    intro p hp
    obtain ⟨x, hx⟩ := List.mem_iff_getElem?.1 hp
    obtain ⟨e, L⟩ := C132_lives_partial hks h hex e1 hx
    exact ⟨(hks _ (List.mem_of_getElem? e)).1, _, _, _, L⟩
  obtain ⟨sj, hsj⟩ := get_of_map kinds' hj
  intro asks offers b1 b2 as has p hp
  obtain ⟨asks', a1, a2, a3, a4⟩ := askAll_ok r2
  obtain rfl := Except.ok.inj (b1.symm.trans a1)
  obtain ⟨offers', o1, o2, o3⟩ := offerAll_ok a3 r2
  obtain rfl := Except.ok.inj (b2.symm.trans o1)
  have G := hex m _ _ a4 o3
  -- the order
  obtain ⟨asks', offers', gs, ps', c1, c2, c3, -⟩ := round_ok (hex m) r2
  obtain ⟨asks₃, offers₃, -, d1, d2, -, -, -, P⟩ := round_parts' (hex m) r2 c3
  obtain rfl := Except.ok.inj (a1.symm.trans d1)
  obtain rfl := Except.ok.inj (o1.symm.trans d2)
  clear c1 c2
  obtain ⟨osj, lj, asj, mj, sj', Pj, -⟩ := P j _ hsj
  obtain ⟨as', f1, f2⟩ := forall₂_get a2 hsj
  obtain rfl := Option.some.inj (has.symm.trans f1)
  obtain rfl := Except.ok.inj (f2.symm.trans Pj.asks)
  obtain ⟨-, t, got, gave, Lj⟩ := lived _ (List.mem_of_getElem? hsj)
  obtain ⟨is, outs, k1, -, k2, -, k3⟩ := Lj
  obtain ⟨o, s1, s2, s3, H, sp, hasks, -⟩ := OfReactor.turn hcj k1 k2 k3 Pj
  have hap : as[p]? = some as[p] := List.getElem?_eq_getElem hp
  generalize as[p] = a at hap
  have hmem := List.mem_of_getElem? hap
  obtain ⟨m1, m2, m3⟩ := OfReactor.order_alts (hasks ▸ hmem)
  obtain ⟨y, hy⟩ := List.mem_iff_getElem?.1 h1
  have hk := m3 y _ hy
  have hylt := (List.getElem?_eq_some_iff.1 hy).1
  have hsize := hcj.1.assemSize
  set fuel := (dec (Reactor.reqAt c s1 y).comp).scale c.assemSize with hfuel
  obtain ⟨name, n1, n2⟩ : ∃ name, Reactor.InForceAt c (Reactor.inSchedule c) (o.time + 1)
      (c.inRecipes.getD y "") y name ∧ c.recipe name = some (Reactor.reqAt c s1 y).comp := by
    have hreq : Reactor.onePortfolio c s1 ∈ o.offer.requests := by
      have hreqs : o.offer.requests =
          List.replicate (Reactor.nOrders c sj.1 s1) (Reactor.onePortfolio c s1) := by
        rw [sp.requests]
      rw [hreqs]
      rw [hasks] at hmem
      obtain ⟨q, hq, -⟩ := List.mem_map.1 hmem
      have := List.eq_of_mem_replicate hq
      exact this ▸ hq
    obtain ⟨-, hall⟩ := Reactor.C16_orders_follow_schedule hcj.1 H
      (t := outs.length) (o := o) (by simp) hreq
    obtain ⟨-, -, -, name, n1, n2⟩ := hall y (Reactor.reqAt c s1 y) (by
      unfold Reactor.onePortfolio
      rw [List.getElem?_map, List.getElem?_range hylt]
      rfl)
    exact ⟨name, n1, n2⟩
  have hylt' : y < c.inRecipes.length := by rw [hcj.1.inRecipes]; exact hylt
  have hfeas : Enrichment.Feasible e fuel :=
    feasible_scale hsize (hf name _ (Reactor.inForceAt_named hy hylt' n1) n2)
  have hsolid : Solid fuel := by
    refine ⟨?_, ((hcj.2 _).2).scale hsize.le⟩
    rw [hfuel, Mat.qty_scale, (hcj.2 _).1, mul_one]
    exact hsize
  have htarget : A.target e.productCommod fuel := 
    hsuit.1 _ h1 _ _ _ (Reactor.inForceAt_named hy hylt' n1) n2 hsize
  have hcode := Enrichment.feasible_code V hsolid.2 hfeas
  have hserved := (Enrichment.served_iff V hsolid.2).2 hcode
  -- the feed
  have hφ1 : 1 ≤ φ := by
    have hrq : 0 < e.feedRecipe.mass Enrichment.u235 + e.feedRecipe.mass Enrichment.u238 := by
      rw [← Enrichment.pure_qty hE.recipe.pure]; exact V.recipePos
    have hlh : lo ≤ hi' := by
      have := hE.recipe.lower
      have := hE.recipe.upper
      nlinarith
    have h5 := (hE.uses fuel hsolid htarget hcode lo le_rfl hlh).1
    have h6 := hE.rich fuel hsolid htarget hcode
    have hu : 0 < fuel.mass Enrichment.u235 + fuel.mass Enrichment.u238 := by
      have := hfeas.has238
      have := hsolid.2.mass_nonneg Enrichment.u235
      linarith
    have h7 : hi' ≤ Enrichment.assay fuel := by
      unfold Enrichment.assay
      rw [if_neg hu.ne', le_div_iff₀ hu]
      exact h6
    have h8 := hE.tails
    refine le_trans ?_ h5
    unfold feedPerKg
    rw [le_div_iff₀ (by linarith)]
    linarith
  obtain ⟨s, hs, F, hroom⟩ := hfeed (by linarith) m hm _ _ e1
  have hq0 : 0 < s.inventory.quantity := by
    have := V.eps
    have h6 : 0 ≤ φ * (ks.map freshRoom).sum := mul_nonneg (by linarith) hR
    linarith
  -- the offer
  obtain ⟨osi, go1, go2⟩ := forall₂_get o2 hs
  change (enrichment e).offers (requestsOf asks) s = _ at go2
  simp only [enrichment, bind_ok, pure_eq_ok, Except.ok.injEq] at go2
  obtain ⟨⟨bp, s1'⟩, hbids, rfl⟩ := go2
  have hreqmem : (⟨e.productCommod, fuel⟩ : Req) ∈ requestsOf asks :=
    List.mem_flatMap.2 ⟨_, List.mem_flatten.2 ⟨as, List.mem_of_getElem? has, hmem⟩,
      List.mem_map.2 ⟨_, hk, rfl⟩⟩
  obtain ⟨-, ⟨-, -, hnone | hnone⟩ | ⟨rs', -, -, -, hne, -, hpp⟩⟩ := Enrichment.bids_inv V.eps.le hbids
  · exfalso
    unfold targets at hnone
    split at hnone
    · rename_i hnil
      exact List.filter_eq_nil_iff.1 hnil _ hreqmem (by simp)
    · cases hnone
  · exact absurd hq0 (not_lt.2 hnone)
  · change s.inventory.items ≠ [] at hne
    obtain ⟨b0, b1', b2', b3⟩ := F.assay hne
    set B := Mat.squash s.inventory.items with hB
    set pp : Enrichment.ProductPort := ⟨(List.range rs'.length).flatMap fun j =>
      if Enrichment.served e (rs'.getD j ⟨[]⟩) then [(j, Enrichment.offer (rs'.getD j ⟨[]⟩))] else [],
      Enrichment.assay B, e.swuCapacity, s.inventory.quantity⟩ with hppdef
    change bp.product = some pp at hpp
    have hR' : (ks.map freshRoom).sum ≤ s.inventory.quantity := by
      have := V.eps
      nlinarith
    have hport : productOffer e bp = [⟨e.productCommod, s.inventory.quantity, max e.lo e.eps, none,
        Enrichment.served e, [⟨fun m q => Enrichment.swuConvert e.value (Enrichment.assay B) e.tailsAssay
          (Enrichment.cut ⟨e.productCommod, Enrichment.offer m, q⟩), e.swuCapacity⟩,
        ⟨fun m q => Enrichment.natuConvert (Enrichment.assay B) e.tailsAssay
          (Enrichment.cut ⟨e.productCommod, Enrichment.offer m, q⟩), s.inventory.quantity⟩]⟩] := by
      unfold productOffer
      rw [hpp]
    have honly : ∀ o' ∈ tailsOffer e bp ++ productOffer e bp, o'.commod = e.productCommod →
        o' ∈ productOffer e bp := by
      intro o' ho' e'
      rcases List.mem_append.1 ho' with ho' | ho'
      · unfold tailsOffer at ho'
        split at ho'
        · cases ho'
        · rw [List.mem_singleton.1 ho'] at e'
          exact absurd e'.symm hc.2.2.1
      · exact ho'
    have hdeal : ∀ d ∈ ex m asks offers ++ [⟨i, j, p, e.productCommod, fuel, a.amount⟩], d.src = i →
        d.commod = e.productCommod → Solid d.target ∧ A.target e.productCommod d.target ∧
          Enrichment.served e d.target = true ∧ 0 < d.amt := by
      intro d hd hd1 hd2
      rcases List.mem_append.1 hd with hd | hd
      · obtain ⟨as', j1, a', j2, j3, -⟩ := G.asked d hd
        have hal := a3 ⟨d.commod, d.target⟩ (List.mem_flatMap.2 ⟨_, List.mem_flatten.2
          ⟨as', List.mem_of_getElem? j1, List.mem_of_getElem? j2⟩, List.mem_map.2 ⟨_, j3, rfl⟩⟩)
        obtain ⟨os', i1, o', i2, i3, -, -, i4⟩ := G.offered d hd
        rw [hd1, go1] at i1
        obtain rfl := Option.some.inj i1
        have hin := honly o' i2 (i3.trans hd2)
        rw [hport] at hin
        rw [List.mem_singleton.1 hin] at i4
        exact ⟨hal.1, hd2 ▸ hal.2, i4, (G.pos d hd).1⟩
      · rw [List.mem_singleton.1 hd]
        exact ⟨hsolid, htarget, hserved, by show 0 < a.amount; rw [m1]; exact hsize⟩
    refine filled' G has hap hk ⟨by rw [m1]; exact hsize, by
        rw [m1, hfuel, Mat.qty_scale, (hcj.2 _).1, mul_one]⟩ go1
      (List.mem_append_right _ (by rw [hport]; exact List.mem_singleton.2 rfl))
      (fun o' ho' e' => by
        have := honly o' ho' e'
        rw [hport] at this
        exact List.mem_singleton.1 this) rfl (by rw [m1]; exact h3) rfl hserved
      (B := (ps₂.map Running.k).map freshRoom) (by simp [a2.length_eq])
      (reactors_ask lived a2 (kinds' ▸ hE.only)) (by rw [kinds']; exact hR') ?_
      (hke m _ _ a4 o3 _ (Or.inl ⟨as, has, a, hap, m2, rfl⟩))
    intro L hL
    simp only [List.mem_cons, List.not_mem_nil, or_false] at hL
    rcases hL with rfl | rfl
    · refine ⟨max σ 0, le_max_right _ _, ?_, ?_⟩
      · rw [kinds']
        rcases le_total σ 0 with h0 | h0
        · rw [max_eq_right h0, zero_mul]
          exact V.swu.le
        · rw [max_eq_left h0]
          exact hE.enough
      · intro d hd hd1 hd2
        obtain ⟨t1, t2, t3, t4⟩ := hdeal d hd hd1 hd2
        obtain ⟨⟨t5, t6⟩, -⟩ := OfEnrichment.takes hc hE t1 t2 t3 t4 b0 b1' b2' b3
        refine ⟨_, t5, t6.trans (mul_le_mul_of_nonneg_right (le_max_left _ _) t4.le)⟩
    · refine ⟨φ, by linarith, ?_, ?_⟩
      · rw [kinds']
        have := V.eps
        show _ ≤ s.inventory.quantity
        linarith
      · intro d hd hd1 hd2
        obtain ⟨t1, t2, t3, t4⟩ := hdeal d hd hd1 hd2
        obtain ⟨-, t5, -, t6⟩ := OfEnrichment.takes hc hE t1 t2 t3 t4 b0 b1' b2' b3
        exact ⟨_, t5, t6⟩

/-- The first feed lasts. -/
theorem feed_lasts {ks : List Kind} (hks : ∀ k ∈ ks, Sensible k ∧ Suits A k)
    {ps : List (Running act)} (h : deployAll ks = .ok ps) {ex : Nat → Exchange}
    (hex : ∀ t, (ex t).Fair) {n i : Nat} {e : Enrichment.Cfg} (hi : ks[i]? = some (.enrichment e))
    {lo hi' φ σ : ℚ} (hE : Enriches A ks e lo hi' φ σ) (hL : Lasts ks e φ n) (hφ : 0 ≤ φ) :
    ∀ m < n, ∀ l ps', simulate ex m 0 ps = .ok (l, ps') → ∃ s : Enrichment.State,
      ps'[i]? = some ⟨.enrichment e, s⟩ ∧ OfEnrichment.Fit e lo hi' s ∧
      φ * (ks.map freshRoom).sum + e.eps ≤ s.inventory.quantity := by
  intro m hm l ps' hs
  obtain ⟨s, k1, k2, k3⟩ := feed_stays hks h hex hi hE hL hφ hm.le hs
  refine ⟨s, k1, k2, ?_⟩
  have h4 := hL
  unfold Lasts at h4
  have h5 : ((m : ℚ) + 1) ≤ n := by exact_mod_cast hm
  have h6 := mul_nonneg hφ (freshRoom_nonneg fun k hk => (hks k hk).1)
  nlinarith

/-- C140. In a simulation with an enrichment facility that can supply its reactors, a sink that can take
their spent fuel and an exchange that leaves no exclusive order or bid alone that the constraints of the
suppliers allow, every reactor runs on schedule, in the same sense as with a source of fuel (C136).

Partial: as C125. -/
theorem C140_on_enriched_partial {ks : List Kind} (hks : ∀ k ∈ ks, Sensible k ∧ Suits A k)
    {ps : List (Running act)} (h : deployAll ks = .ok ps) {ex : Nat → Exchange}
    (hex : ∀ t, (ex t).Fair) (hke : ∀ t, (ex t).Keen) {n i : Nat} {e : Enrichment.Cfg}
    (hi : ks[i]? = some (.enrichment e)) {lo hi' φ σ : ℚ} (hE : Enriches A ks e lo hi' φ σ)
    (hL : Lasts ks e φ n) {b : Nat}
    {w : Sink.Cfg} (hb : ks[b]? = some (.sink w)) (hD : Drains ks w n) {j : Nat} {c : Reactor.Cfg}
    {enc : NMat → Nat} {dec : Nat → NMat} (hj : ks[j]? = some (.reactor c enc dec))
    (h1 : e.productCommod ∈ c.inCommods) (h3 : max e.lo e.eps ≤ c.assemSize)
    (hf : ∀ name r, Reactor.Names c e.productCommod name → c.recipe name = some r →
      Enrichment.Feasible e (dec r))
    (h2 : ∀ x ∈ c.outCommods, x ∈ w.commods) (hx : c.exitTime = none) (hz : c.cycleStep = 0)
    (hsp : min c.nBatch c.nCore ≤ c.nSpent) {l : List (List (Deal × NMat))} {ps' : List (Running act)}
    (hs : simulate ex n 0 ps = .ok (l, ps')) : ∃ (is : List Reactor.In) (os : List Reactor.Out)
      (s : Reactor.State × Nat), ps'[j]? = some ⟨.reactor c enc dec, s⟩ ∧
      Reactor.History c is os s.1 ∧ l.length = n ∧ os.length = n ∧
      is.map (fun i => i.buys.map Prod.snd) = numbered enc 0 (l.map fun gs => givenTo gs j) ∧
      os.map (fun o => material dec (o.shipped.map Prod.snd)) = (l.map fun gs => givenBy gs j) ∧
      (∀ (t : Nat) gs o, l[t]? = some gs → os[t]? = some o → OnTime c t gs j o) ∧
      Reactor.energy os = c.powerCap * Reactor.ideal c n := by
  obtain ⟨is, os, s, k1, k2, -, k4, k5, k6, k7, -, -, k10⟩ :=
    on_schedule hks h hex (fun t => (hke t).eager) hb hD hj
      (enrichment_fills hks h hex hke hi hE hj h1 h3 hf (feed_lasts hks h hex hi hE hL)) h2 hx hz hsp (le_refl n) hs
  refine ⟨is, os, s, k1, k2, k5, k4, k6, k7, k10, ?_⟩
  rw [Reactor.energy_eq (c := c), k4]
  intro t o ho
  have ht : t < l.length := by
    have := (List.getElem?_eq_some_iff.1 ho).1
    omega
  exact (k10 t l[t] o (List.getElem?_eq_getElem ht) ho).power

/-! ## An example -/

theorem exAssayed : Assayed (1/100) (1/100) ⟨[(922350000, 1), (922380000, 99)]⟩ := by
  refine ⟨?_, by decide +kernel, by decide +kernel⟩
  intro m hm e he
  rw [List.mem_singleton] at hm
  subst hm
  simp only [List.mem_cons, List.not_mem_nil, or_false] at he
  rcases he with rfl | rfl
  · exact Or.inl rfl
  · exact Or.inr rfl

/-- Enrichment for two reactors, with feed for ten time steps. -/
def exPlant : Enrichment.Cfg :=
  { exEnrichment with
    swuCapacity := 50
    initialFeed := 12500
    maxFeed := 13000 }

/-- A mine, enrichment, two reactors, a sink for their spent fuel and one for tails. -/
def exOwnFuel : List Kind :=
  [.source { exMine with outcommod := "feed" }, .enrichment exPlant, .reactor exReactor (fun _ => 1) exDec,
    .reactor exSecond (fun _ => 1) exDec, .sink exPool, .sink exSink]

theorem exOwnFuel_sensible : ∀ k ∈ exOwnFuel, Sensible k ∧ Suits exAgreement k := by
  have base : ∀ k ∈ exKinds, Sensible k ∧ Suits exAgreement k := fun k hk =>
    ⟨exKinds_sensible k hk, exKinds_suit k hk⟩
  have mine := base (.source exMine) (by simp [exKinds])
  have plant := base (.enrichment exEnrichment) (by simp [exKinds])
  have first := base (.reactor exReactor (fun _ => 1) exDec) (by simp [exKinds])
  intro k hk
  simp only [exOwnFuel, List.mem_cons, List.not_mem_nil, or_false] at hk
  rcases hk with rfl | rfl | rfl | rfl | rfl | rfl
  · refine ⟨mine.1, Assayed (1/100) (1/100), OfEnrichment.assayed_blendable _ _, fun r hr => ?_, ?_, ?_⟩
    · cases hr
      exact exAssayed
    · intro h; cases h
    · intro m _ hm
      exact ⟨fun _ => hm, fun e => absurd e (by decide)⟩
  · refine ⟨⟨⟨plant.1.1.recipe, plant.1.1.recipePos, plant.1.1.eps, by norm_num [exPlant],
      plant.1.1.tails, plant.1.1.tailsLe, by norm_num [exPlant], plant.1.1.atom235, plant.1.1.atom238⟩,
      plant.1.2.1, plant.1.2.2.1, plant.1.2.2.2⟩, plant.2⟩
  · exact first
  · exact ⟨(exFleet_sensible (.reactor exSecond (fun _ => 1) exDec) (by simp [exFleet])).1, first.2⟩
  · refine ⟨(exFleet_sensible (.sink exPool) (by simp [exFleet])).1, fun k hk q _ e => ?_⟩
    simp only [exPool, List.mem_singleton] at hk
    exact absurd (hk.symm.trans e) (by decide)
  · exact base _ (by simp [exKinds])

theorem exOwnFuel_drained : Drains exOwnFuel exPool 10 := by
  refine ⟨?_, by decide +kernel, by decide +kernel, by decide +kernel⟩
  intro k hk
  simp only [exOwnFuel, List.mem_cons, List.not_mem_nil, or_false] at hk
  rcases hk with rfl | rfl | rfl | rfl | rfl | rfl <;> decide

theorem exOwnFuel_enriched :
    Enriches exAgreement exOwnFuel exPlant (1/100) (1/100) 13 (1/2) := by
  refine ⟨?_, by norm_num [exPlant, exEnrichment], exAssayed, fun m _ hm => hm.1 (Or.inr rfl),
    fun m _ hm _ => hm rfl, ?_, by decide +kernel⟩
  · intro k hk
    simp only [exOwnFuel, List.mem_cons, List.not_mem_nil, or_false] at hk
    rcases hk with rfl | rfl | rfl | rfl | rfl | rfl <;> decide
  · intro m hm ht hc x h1 h2
    obtain rfl : x = 1/100 := le_antisymm h2 h1
    have hu : 0 < m.mass Enrichment.u235 + m.mass Enrichment.u238 := by
      have := hc.has238
      have := hm.2.mass_nonneg Enrichment.u235
      linarith
    have hb := hc.below
    have ha := ht rfl
    have p1 : 1/100 ≤ Enrichment.assay m := by
      unfold Enrichment.assay
      rw [if_neg hu.ne', le_div_iff₀ hu]
      exact ha
    have p2 : Enrichment.assay m ≤ 100001/1000000 := by
      unfold Enrichment.assay
      rw [if_neg hu.ne', div_le_iff₀ hu]
      norm_num [exPlant, exEnrichment] at hb
      linarith
    generalize Enrichment.assay m = p at p1 p2
    simp only [feedPerKg, workPerKg, exPlant, exEnrichment]
    have e : (p - 1/500) / (1/100 - 1/500) = 125 * p - 1/4 := by ring
    rw [e]
    constructor
    · linarith
    · nlinarith

theorem exOwnFuel_lasts : Lasts exOwnFuel exPlant 13 10 := by
  unfold Lasts
  decide +kernel

/-- Both reactors of the example meet the hypotheses. -/
example : ∃ ps l ps', deployAll exOwnFuel = .ok ps ∧
    simulate (fun _ => sweeping) 10 0 ps = .ok (l, ps') ∧ ∀ j c, (j, c) ∈ [(2, exReactor), (3, exSecond)] →
    ∀ (t : Nat) gs, l[t]? = some gs → (givenTo gs j).length = Reactor.supplyAt c t ∧
      (givenBy gs j).length = Reactor.batchAt c t := by
  obtain ⟨ps, h1, h2⟩ := C125_runs_partial exOwnFuel_sensible
  obtain ⟨l, ps', h3, -⟩ := h2 (fun _ => sweeping) (fun _ => sweeping_fair) 10
  refine ⟨ps, l, ps', h1, h3, fun j c hjc => ?_⟩
  have key : ∀ {is : List Reactor.In} {os : List Reactor.Out}, l.length = 10 ∧ os.length = 10 →
      (∀ (t : Nat) gs o, l[t]? = some gs → os[t]? = some o → OnTime c t gs j o) →
      ∀ (t : Nat) gs, l[t]? = some gs → (givenTo gs j).length = Reactor.supplyAt c t ∧
      (givenBy gs j).length = Reactor.batchAt c t := by
    intro is os hl ho t gs hg
    have := (List.getElem?_eq_some_iff.1 hg).1
    have := ho t gs os[t] hg (List.getElem?_eq_getElem (by omega))
    exact ⟨this.supplied, this.shipped⟩
  have fresh : Enrichment.Feasible exPlant (exDec 1) :=
    ⟨by decide +kernel, by decide +kernel, by decide +kernel⟩
  have feasible : ∀ name ∈ ["fresh"] ++ [], ∀ r, exReactor.recipe name = some r →
      Enrichment.Feasible exPlant (exDec r) := by
    intro name hn r hr
    simp only [List.append_nil, List.mem_singleton] at hn
    subst hn
    cases hr
    exact fresh
  simp only [List.mem_cons, Prod.mk.injEq, List.not_mem_nil, or_false] at hjc
  rcases hjc with ⟨rfl, rfl⟩ | ⟨rfl, rfl⟩
  · obtain ⟨is, os, s, -, -, e1, e2, -, -, e3, -⟩ := C140_on_enriched_partial exOwnFuel_sensible h1
      (fun _ => sweeping_fair) (fun _ => sweeping_keen) (i := 1) rfl exOwnFuel_enriched
      exOwnFuel_lasts (b := 4) rfl
      exOwnFuel_drained (j := 2) rfl (by decide) (by decide +kernel)
      (fun name r hn => feasible name (Reactor.Names.given hn) r) (by decide) rfl rfl
      (by decide) h3
    exact key (is := is) ⟨e1, e2⟩ e3
  · obtain ⟨is, os, s, -, -, e1, e2, -, -, e3, -⟩ := C140_on_enriched_partial exOwnFuel_sensible h1
      (fun _ => sweeping_fair) (fun _ => sweeping_keen) (i := 1) rfl exOwnFuel_enriched
      exOwnFuel_lasts (b := 4) rfl
      exOwnFuel_drained (j := 3) rfl (by decide) (by decide +kernel)
      (fun name r hn => feasible name (Reactor.Names.given hn) r) (by decide) rfl rfl
      (by decide) h3
    exact key (is := is) ⟨e1, e2⟩ e3

/-- What the reactors of the example are given and give in seven steps. -/
example : ((deployAll exOwnFuel >>= simulate (fun _ => filling) 7 0).toOption.map fun r => r.1.map fun gs =>
      ((givenTo gs 2).length, (givenBy gs 2).length, (givenTo gs 3).length, (givenBy gs 3).length)) =
    some [(3, 0, 5, 0), (0, 0, 2, 2), (1, 1, 0, 0), (0, 0, 2, 2), (0, 0, 0, 0), (1, 1, 2, 2), (0, 0, 0, 0)] := by
  decide +kernel

end Cyc.Sim
