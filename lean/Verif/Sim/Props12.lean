import Verif.Sim.Commods
import Verif.Sim.Props9
import Verif.Sim.Props11
import Verif.Sim.Sating

/-!
# A mine that keeps enrichment in feed: property C141
-/

namespace Cyc.Sim

variable {A : Agreement}

/-- The feed that the source gives in a time step. -/
theorem feed_refill {ks : List Kind} (hks : ∀ k ∈ ks, Sensible k ∧ Suits A k)
    {ps : List (Running act)} (h : deployAll ks = .ok ps) {ex : Nat → Exchange}
    (hex : ∀ t, (ex t).Fair) (hth : ∀ t, (ex t).Thorough) {n i a : Nat} {e : Enrichment.Cfg}
    (hi : ks[i]? = some (.enrichment e)) {f : Source.Cfg} (ha : ks[a]? = some (.source f)) {φ : ℚ}
    (hM : Replenishes ks i e f φ n) {m : Nat} (hm : m < n)
    {l : List (List (Deal × NMat))} {ps₁ ps' : List (Running act)} {gs : List (Deal × NMat)}
    (e1 : simulate ex m 0 ps = .ok (l, ps₁)) (e2 : round (ex m) ps₁ = .ok (gs, ps'))
    {s : Enrichment.State} (k1 : ps₁[i]? = some ⟨.enrichment e, s⟩) :
    e.maxFeed - e.eps ≤ s.inventory.quantity ∨ f.throughput ≤ totalQty (givenTo gs i) ∨
      e.maxFeed - s.inventory.quantity ≤ totalQty (givenTo gs i) := by
  obtain ⟨g0, kinds⟩ := deployAll_k h hks
  obtain ⟨l', ps'', r1, -, r2, r3, -⟩ := simulate_ok (A := A) hex m 0 g0
  obtain ⟨rfl, rfl⟩ := Prod.mk.inj (Except.ok.inj (r1.symm.trans e1))
  have kinds' := r3.trans kinds
  have V : Enrichment.Valid e := (hks _ (List.mem_of_getElem? hi)).1.1
  obtain ⟨asks, offers, gs', ps₂, a1, o1, b3, ⟨b4, b5⟩, -⟩ := round_ok (hex m) r2
  obtain ⟨rfl, rfl⟩ := Prod.mk.inj (Except.ok.inj (b3.symm.trans e2))
  obtain ⟨asks', a1', a2, a3, a4⟩ := askAll_ok r2
  obtain rfl := Except.ok.inj (a1.symm.trans a1')
  obtain ⟨offers', o1', o2, o3⟩ := offerAll_ok a3 r2
  obtain rfl := Except.ok.inj (o1.symm.trans o1')
  have F := hex m _ _ a4 o3
  have T := hth m _ _ a4 o3
  have hto : totalQty (givenTo gs' i) = dealt (ex m asks offers) fun d => d.dst = i := by
    rw [← dealt_perm b4, dealt_given fun g hg => (b5 g hg).1.2]
    rfl
  -- the request
  obtain ⟨as, c1, c2⟩ := forall₂_get a2 k1
  rcases OfEnrichment.asked V c2 with ⟨h0, -⟩ | ⟨q, h0, hq, rfl⟩
  · left
    unfold Enrichment.requests at h0
    split at h0
    · cases h0
    · rename_i hn
      have h1 := le_trans (le_max_right _ _) (not_lt.1 hn)
      change e.maxFeed - s.inventory.quantity ≤ e.eps at h1
      linarith
  right
  have hq' : e.maxFeed - s.inventory.quantity ≤ q := by
    unfold Enrichment.requests at h0
    split at h0
    · rw [← Option.some.inj h0]
      exact le_max_right _ _
    · cases h0
  -- the offer
  obtain ⟨hcf, si, hsi, Li⟩ := lived_at hks h hex e1 ha
  have bal := C132_balance_partial hks h hex e1 hsi
  have full : f.size ≤ Source.stock si + totalQty (l'.map fun gs => givenBy gs a).flatten := by
    have hgot : (l'.flatMap fun gs => givenTo gs a) = [] := by
      obtain ⟨-, -, -, -, -, -, -, e, -⟩ := Li
      rw [List.flatMap_def, e, List.flatten_replicate_nil]
    rw [hgot, List.flatMap_def] at bal
    have : totalQty ([] : List NMat) = 0 := rfl
    rw [this, add_zero] at bal
    exact bal.ge
  obtain ⟨os, d1, d2⟩ := forall₂_get o2 hsi
  have hos := OfSource.offers_full hcf Li hm hM.lasts hM.offers full
    ⟨⟨e.feedCommod, _⟩, List.mem_flatMap.2 ⟨_, List.mem_flatten.2 ⟨_, List.mem_of_getElem? c1,
      List.mem_singleton.2 rfl⟩, List.mem_map.2 ⟨_, List.mem_singleton.2 rfl, rfl⟩⟩, hM.sells.symm⟩ d2
  rw [hos] at d1
  rcases pours F T d1 hM.amounts c1 (List.mem_singleton.2 (by rw [hM.sells])) (by
    rw [Mat.qty_scale]
    have := V.recipePos
    field_simp
    exact le_refl _) with hp | hp
  · left
    rw [hto]
    refine hp.trans (dealt_mono (fun d hd => (F.pos d hd).1.le) ?_)
    intro d hd hsrc
    have hsrc := of_decide_eq_true hsrc
    obtain ⟨os', i1, o', i2, i3, -⟩ := F.offered d hd
    rw [hsrc, d1] at i1
    obtain rfl := Option.some.inj i1
    rw [List.mem_singleton.1 i2] at i3
    change f.outcommod = d.commod at i3
    obtain ⟨as', j1, a', j2, j3, -⟩ := F.asked d hd
    obtain ⟨p, p1, p2⟩ := forall₂_get a2.flip j1
    have := asks_commods p2 _ (List.mem_of_getElem? j2) _ j3
    refine decide_eq_true (hM.only d.dst p.k ?_ ?_)
    · rw [← kinds', List.getElem?_map, p1]; rfl
    · rw [← hM.sells, i3]; exact this
  · right
    rw [hto]
    exact hq'.trans hp

/-- The feed never gets low. -/
theorem feed_kept {ks : List Kind} (hks : ∀ k ∈ ks, Sensible k ∧ Suits A k)
    {ps : List (Running act)} (h : deployAll ks = .ok ps) {ex : Nat → Exchange}
    (hex : ∀ t, (ex t).Fair) (hth : ∀ t, (ex t).Thorough) {n i a : Nat} {e : Enrichment.Cfg}
    (hi : ks[i]? = some (.enrichment e)) {lo hi' φ σ : ℚ} (hE : Enriches A ks e lo hi' φ σ)
    {f : Source.Cfg} (ha : ks[a]? = some (.source f)) (hM : Replenishes ks i e f φ n) (hφ : 0 ≤ φ) :
    ∀ {m : Nat}, m ≤ n → ∀ {l : List (List (Deal × NMat))} {ps' : List (Running act)},
    simulate ex m 0 ps = .ok (l, ps') → ∃ s : Enrichment.State, ps'[i]? = some ⟨.enrichment e, s⟩ ∧
      OfEnrichment.Fit e lo hi' s ∧ φ * (ks.map freshRoom).sum + e.eps ≤ s.inventory.quantity ∧
      min e.initialFeed (e.maxFeed - φ * (ks.map freshRoom).sum - e.eps) ≤ s.inventory.quantity := by
  have hR := freshRoom_nonneg fun k hk => (hks k hk).1
  have V : Enrichment.Valid e := (hks _ (List.mem_of_getElem? hi)).1.1
  have h3 := mul_nonneg hφ hR
  have h4 := V.eps
  have h5 := hM.first
  have h6 : φ * (ks.map freshRoom).sum + e.eps ≤
      min e.initialFeed (e.maxFeed - φ * (ks.map freshRoom).sum - e.eps) := by
    have := hM.room
    exact le_min h5 (by linarith)
  intro m
  induction m with
  | zero =>
    intro _ l ps' hs
    simp only [simulate, Except.ok.injEq, Prod.mk.injEq] at hs
    obtain ⟨rfl, rfl⟩ := hs
    obtain ⟨s, k1, k2, k3⟩ := feed_first hks h hi hE (by linarith)
    exact ⟨s, k1, k2, by rw [k3]; exact h5, by rw [k3]; exact min_le_left _ _⟩
  | succ m ih =>
    intro hm l ps' hs
    obtain ⟨l₁, ps₁, gs, e1, e2, rfl⟩ := simulate_snoc hs
    rw [Nat.zero_add] at e2
    obtain ⟨s, k1, F, k2, k3⟩ := ih (by omega) e1
    obtain ⟨s', k4, F', k5, k6⟩ := feed_step hks h hex hi hE hφ e1 e2 k1 F k2
    have key : min e.initialFeed (e.maxFeed - φ * (ks.map freshRoom).sum - e.eps) ≤
        s'.inventory.quantity := by
      have := min_le_right e.initialFeed (e.maxFeed - φ * (ks.map freshRoom).sum - e.eps)
      have := hM.rate
      rcases feed_refill hks h hex hth hi ha hM (by omega) e1 e2 k1 with k7 | k7 | k7 <;> linarith
    exact ⟨s', k4, F', h6.trans key, key⟩

/-- C141. In a simulation with a mine that keeps an enrichment facility in feed, an enrichment facility that
can supply its reactors, a sink that can take their spent fuel and an exchange that leaves no trade alone
that the constraints allow, every reactor runs on schedule, in the same sense as with a source of fuel
(C136). The enrichment facility needs a stock of feed for one time step only, however long the
simulation.

Partial: as C125. -/
theorem C141_fuel_cycle_partial {ks : List Kind} (hks : ∀ k ∈ ks, Sensible k ∧ Suits A k)
    {ps : List (Running act)} (h : deployAll ks = .ok ps) {ex : Nat → Exchange}
    (hex : ∀ t, (ex t).Fair) (hke : ∀ t, (ex t).Keen) (hth : ∀ t, (ex t).Thorough) {n i a : Nat}
    {e : Enrichment.Cfg} (hi : ks[i]? = some (.enrichment e)) {lo hi' φ σ : ℚ}
    (hE : Enriches A ks e lo hi' φ σ) {f : Source.Cfg} (ha : ks[a]? = some (.source f))
    (hM : Replenishes ks i e f φ n) {b : Nat}
    {w : Sink.Cfg} (hb : ks[b]? = some (.sink w)) (hD : Drains ks w n) {j : Nat} {c : Reactor.Cfg}
    {enc : NMat → Nat} {dec : Nat → NMat} (hj : ks[j]? = some (.reactor c enc dec))
    (h1 : e.productCommod ∈ c.inCommods) (h3 : max e.lo e.eps ≤ c.assemSize)
    (hf : ∀ name r, Reactor.Names c e.productCommod name → c.recipe name = some r →
      Enrichment.Feasible e (dec r))
    (h2 : ∀ x ∈ c.outCommods, x ∈ w.commods) (hx : c.exitTime = none) (hz : c.cycleStep = 0)
    (hsp : min c.nBatch c.nCore ≤ c.nSpent) {l : List (List (Deal × NMat))} {ps' : List (Running act)}
    (hs : simulate ex n 0 ps = .ok (l, ps')) : ∃ (is : List Reactor.In) (os : List Reactor.Out)
      (s : Reactor.State × Nat), ps'[j]? = some ⟨.reactor c enc dec, s⟩ ∧
      Reactor.History c is os s.1 ∧ l.length = n ∧ os.length = n ∧
      is.map (fun i => i.buys.map Prod.snd) = numbered enc 0 (l.map fun gs => givenTo gs j) ∧
      os.map (fun o => material dec (o.shipped.map Prod.snd)) = (l.map fun gs => givenBy gs j) ∧
      (∀ (t : Nat) gs o, l[t]? = some gs → os[t]? = some o → OnTime c t gs j o) ∧
      Reactor.energy os = c.powerCap * Reactor.ideal c n := by
  obtain ⟨is, os, s, k1, k2, -, k4, k5, k6, k7, -, -, k10⟩ :=
    on_schedule hks h hex (fun t => (hke t).eager) hb hD hj
      (enrichment_fills hks h hex hke hi hE hj h1 h3 hf fun hφ m hm l ps' hs =>
        let ⟨s, q1, q2, q3, _⟩ := feed_kept hks h hex hth hi hE ha hM hφ hm.le hs
        ⟨s, q1, q2, q3⟩) h2 hx hz hsp (le_refl n) hs
  refine ⟨is, os, s, k1, k2, k5, k4, k6, k7, k10, ?_⟩
  rw [Reactor.energy_eq (c := c), k4]
  intro t o ho
  have ht : t < l.length := by
    have := (List.getElem?_eq_some_iff.1 ho).1
    omega
  exact (k10 t l[t] o (List.getElem?_eq_getElem ht) ho).power

/-! ## An example -/

/-- A mine that gives 1300 kg of feed per step. -/
def exQuarry : Source.Cfg :=
  { exMine with
    outcommod := "feed"
    size := 13000
    throughput := 1300 }

/-- Enrichment for two reactors, with feed for one time step and room for two. -/
def exHandToMouth : Enrichment.Cfg :=
  { exPlant with
    initialFeed := 1250
    maxFeed := 2500 }

/-- A mine, enrichment, two reactors, a sink for their spent fuel and one for tails. -/
def exFrontEnd : List Kind :=
  [.source exQuarry, .enrichment exHandToMouth, .reactor exReactor (fun _ => 1) exDec,
    .reactor exSecond (fun _ => 1) exDec, .sink exPool, .sink exSink]

theorem exFrontEnd_sensible : ∀ k ∈ exFrontEnd, Sensible k ∧ Suits exAgreement k := by
  have base := exOwnFuel_sensible
  simp only [exOwnFuel, List.mem_cons, List.not_mem_nil, or_false, forall_eq_or_imp, forall_eq] at base
  obtain ⟨b1, b2, b3, b4, b5, b6⟩ := base
  intro k hk
  simp only [exFrontEnd, List.mem_cons, List.not_mem_nil, or_false] at hk
  rcases hk with rfl | rfl | rfl | rfl | rfl | rfl
  · exact ⟨⟨by norm_num [exQuarry], by norm_num [exQuarry], b1.1.2.2.1, b1.1.2.2.2⟩, b1.2⟩
  · exact ⟨⟨⟨b2.1.1.recipe, b2.1.1.recipePos, b2.1.1.eps, by norm_num [exHandToMouth],
      b2.1.1.tails, b2.1.1.tailsLe, b2.1.1.swu, b2.1.1.atom235, b2.1.1.atom238⟩, b2.1.2⟩, b2.2⟩
  · exact b3
  · exact b4
  · exact b5
  · exact b6

theorem exFrontEnd_drained : Drains exFrontEnd exPool 10 := by
  refine ⟨?_, by decide +kernel, by decide +kernel, by decide +kernel⟩
  intro k hk
  simp only [exFrontEnd, List.mem_cons, List.not_mem_nil, or_false] at hk
  rcases hk with rfl | rfl | rfl | rfl | rfl | rfl <;> decide

theorem exFrontEnd_enriched : Enriches exAgreement exFrontEnd exHandToMouth (1/100) (1/100) 13 (1/2) := by
  have E := exOwnFuel_enriched
  refine ⟨?_, E.tails, E.recipe, E.feed, fun m h1 h2 h3 => E.rich m h1 h2 ⟨h3.has238, h3.above, h3.below⟩,
    fun m h1 h2 h3 => E.uses m h1 h2 ⟨h3.has238, h3.above, h3.below⟩, by decide +kernel⟩
  intro k hk
  simp only [exFrontEnd, List.mem_cons, List.not_mem_nil, or_false] at hk
  rcases hk with rfl | rfl | rfl | rfl | rfl | rfl <;> decide

theorem exFrontEnd_mined : Replenishes exFrontEnd 1 exHandToMouth exQuarry 13 10 := by
  refine ⟨rfl, ?_, by decide +kernel, by decide +kernel, by decide +kernel, by decide +kernel,
    by decide +kernel, by decide +kernel⟩
  intro j k hj hk
  match j with
  | 0 | 2 | 3 | 4 | 5 => cases hj; exact absurd hk (by decide)
  | 1 => rfl
  | j + 6 => cases hj

/-- Both reactors of the example meet the hypotheses. The feed at the beginning would last for one step. -/
example : ∃ ps l ps', deployAll exFrontEnd = .ok ps ∧ ¬ Lasts exFrontEnd exHandToMouth 13 2 ∧
    simulate (fun _ => sating) 10 0 ps = .ok (l, ps') ∧ ∀ j c, (j, c) ∈ [(2, exReactor), (3, exSecond)] →
    ∀ (t : Nat) gs, l[t]? = some gs → (givenTo gs j).length = Reactor.supplyAt c t ∧
      (givenBy gs j).length = Reactor.batchAt c t := by
  obtain ⟨ps, h1, h2⟩ := C125_runs_partial exFrontEnd_sensible
  obtain ⟨l, ps', h3, -⟩ := h2 (fun _ => sating) (fun _ => sating_fair) 10
  refine ⟨ps, l, ps', h1, by unfold Lasts; decide +kernel, h3, fun j c hjc => ?_⟩
  have key : ∀ {is : List Reactor.In} {os : List Reactor.Out}, l.length = 10 ∧ os.length = 10 →
      (∀ (t : Nat) gs o, l[t]? = some gs → os[t]? = some o → OnTime c t gs j o) →
      ∀ (t : Nat) gs, l[t]? = some gs → (givenTo gs j).length = Reactor.supplyAt c t ∧
      (givenBy gs j).length = Reactor.batchAt c t := by
    intro is os hl ho t gs hg
    have := (List.getElem?_eq_some_iff.1 hg).1
    have := ho t gs os[t] hg (List.getElem?_eq_getElem (by omega))
    exact ⟨this.supplied, this.shipped⟩
  have fresh : Enrichment.Feasible exHandToMouth (exDec 1) :=
    ⟨by decide +kernel, by decide +kernel, by decide +kernel⟩
  have feasible : ∀ name ∈ ["fresh"] ++ [], ∀ r, exReactor.recipe name = some r →
      Enrichment.Feasible exHandToMouth (exDec r) := by
    intro name hn r hr
    simp only [List.append_nil, List.mem_singleton] at hn
    subst hn
    cases hr
    exact fresh
  simp only [List.mem_cons, Prod.mk.injEq, List.not_mem_nil, or_false] at hjc
  rcases hjc with ⟨rfl, rfl⟩ | ⟨rfl, rfl⟩
  · obtain ⟨is, os, s, -, -, e1, e2, -, -, e3, -⟩ := C141_fuel_cycle_partial exFrontEnd_sensible h1
      (fun _ => sating_fair) (fun _ => sating_keen) (fun _ => sating_thorough) (i := 1) (a := 0) rfl
      exFrontEnd_enriched rfl exFrontEnd_mined (b := 4) rfl
      exFrontEnd_drained (j := 2) rfl (by decide) (by decide +kernel)
      (fun name r hn => feasible name (Reactor.Names.given hn) r) (by decide) rfl rfl
      (by decide) h3
    exact key (is := is) ⟨e1, e2⟩ e3
  · obtain ⟨is, os, s, -, -, e1, e2, -, -, e3, -⟩ := C141_fuel_cycle_partial exFrontEnd_sensible h1
      (fun _ => sating_fair) (fun _ => sating_keen) (fun _ => sating_thorough) (i := 1) (a := 0) rfl
      exFrontEnd_enriched rfl exFrontEnd_mined (b := 4) rfl
      exFrontEnd_drained (j := 3) rfl (by decide) (by decide +kernel)
      (fun name r hn => feasible name (Reactor.Names.given hn) r) (by decide) rfl rfl
      (by decide) h3
    exact key (is := is) ⟨e1, e2⟩ e3

end Cyc.Sim
