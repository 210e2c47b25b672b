import Verif.Enrichment.Props1
import Verif.Enrichment.Lemmas6

/-!
# Enrichment: property C37
-/

namespace Cyc.Enrichment

open Mat (massOf)

/-! ## C37 -/

/-- C37, for any feed above the tails assay and products at least as rich as the feed: after any history in
an honest market, sales that respect the constraints of the bids are carried out, and the step succeeds,
provided the constraint on feed is respected with the uranium in the inventory for its capacity. What is
missing to C37: the capacity that is stated is the quantity of the whole inventory, with which it fails
(`C37_counterexample`); and poorer products (`C37_poor_counterexample`). -/
theorem C37_delivers_uranium_partial {c : Cfg} (V : Valid c) {is : List In} {os : List Out} {s : State}
    (h : HonestHistory c is os s) {i : In} (hi : Honest c s i)
    (hz : ∀ p s₁, bids c i.reqs (tick c s) = .ok (p, s₁) → Sizeable c p i.sells)
    (hu : ∀ p s₁ pp, bids c i.reqs (tick c s) = .ok (p, s₁) → p.product = some pp →
      Within (natuConvert pp.feedAssay c.tailsAssay) (productTrades c i.sells)
        (uranium s.inventory.items))
    (hr : ∀ t ∈ productTrades c i.sells, ∀ x, HasAssay x s.inventory.items →
      c.tailsAssay < x ∧ x * uranium [t.offer] ≤ t.offer.mass u235) :
    ∃ o s', step c s i = .ok (o, s') := by
  obtain ⟨I, hf⟩ := honest_history V h
  obtain ⟨p, s1, hb⟩ := bids_ok V (I.swu c.swuCapacity) hf i.reqs
  have hS := hi.sells p s1 hb
  obtain ⟨z1, z2⟩ := hz p s1 hb
  obtain ⟨-, hcase⟩ := bids_inv V.eps.le hb
  have hprod : ∀ t ∈ productTrades c i.sells, p.product ≠ none ∧ s.inventory.items ≠ [] ∧
      Pure [t.offer] ∧ Mat.Nonneg t.offer := by
    intro t ht
    obtain ⟨-, pp, hpq, j, hj⟩ := hS.product t ht
    rcases hcase with ⟨hnone, -⟩ | ⟨rs, hrs, -, -, hne, -, hpp⟩
    · rw [hnone] at hpq; cases hpq
    · rw [hpp] at hpq
      have := Option.some.inj hpq
      subst this
      obtain ⟨target, hj1, hj2, hj3⟩ := mem_productBids.1 hj
      rw [hj3]
      exact ⟨by rw [hpp]; simp, hne, offer_pure _,
        offer_nn (hi.reqs _ _ hrs target (List.mem_of_getElem? hj1))⟩
  refine step_delivers_any V I hf hi.buys hb (fun pp hpp => hu p s1 pp hb hpp) ⟨hS.amt, z1, ?_, hS.tailsCap,
    fun t ht => ⟨(hprod t ht).1, (hprod t ht).2.2⟩, hS.swu, hS.natu, z2, ?_⟩
  · intro hn
    obtain ⟨t, ht⟩ := List.exists_mem_of_ne_nil _ hn
    exact hS.tails t ht
  · intro t ht
    obtain ⟨-, hne, hpo, -⟩ := hprod t ht
    have hass : HasAssay (assay (Mat.squash s.inventory.items)) s.inventory.items := by
      by_cases h0 : (Mat.squash s.inventory.items).mass u235 +
          (Mat.squash s.inventory.items).mass u238 = 0
      · have hnn := I.squash_nn
        have h1 := hnn.mass_nonneg u235
        have h2 := hnn.mass_nonneg u238
        have h3 : (Mat.squash s.inventory.items).mass u235 = 0 := by linarith
        have h4 : (Mat.squash s.inventory.items).mass u238 = 0 := by linarith
        rw [Mat.mass_squash] at h3 h4
        simp [HasAssay, uranium, h3, h4]
      · have := mass_eq_of_assay (m := Mat.squash s.inventory.items) h0
        simpa only [HasAssay, uranium, Mat.mass_squash] using this
    obtain ⟨hx1, hx2⟩ := hr t ht _ hass
    refine ⟨hx1, ?_⟩
    obtain ⟨ha1, ha2⟩ := hS.amt t (List.mem_filter.1 ht).1
    have hu0 : 0 < t.offer.mass u235 + t.offer.mass u238 := by rw [← pure_qty hpo]; linarith
    have e : assay t.offer = t.offer.mass u235 / (t.offer.mass u235 + t.offer.mass u238) := by
      unfold assay; rw [if_neg (ne_of_gt hu0)]
    rw [e, le_div_iff₀ hu0]
    simpa [uranium] using hx2

/-- C37, for feed that holds uranium-235 and uranium-238 only and is above the tails assay, and
products at least as rich as the feed: after any history in an honest market, sales that respect
the constraints of the bids are carried out, and the step succeeds. What is missing to C37: other
feed and poorer products, for which it fails (`C37_counterexample`, `C37_poor_counterexample`). It is the case of the theorem above in which all feed is uranium. -/
theorem C37_delivers_partial {c : Cfg} (V : Valid c) {is : List In} {os : List Out} {s : State}
    (h : HonestHistory c is os s) {i : In} (hi : Honest c s i) (hp : Pure s.inventory.items)
    (hz : ∀ p s₁, bids c i.reqs (tick c s) = .ok (p, s₁) → Sizeable c p i.sells)
    (hr : ∀ t ∈ productTrades c i.sells, ∀ x, HasAssay x s.inventory.items →
      c.tailsAssay < x ∧ x * uranium [t.offer] ≤ t.offer.mass u235) :
    ∃ o s', step c s i = .ok (o, s') := by
  refine C37_delivers_uranium_partial V h hi hz (fun p s₁ pp hb hpp => ?_) hr
  have hn := (hi.sells p s₁ hb).natu pp hpp
  obtain ⟨-, ⟨hnone, -, -⟩ | ⟨rs, hrs, hq0, -, hne, hs1, hpp'⟩⟩ := bids_inv V.eps.le hb
  · rw [hnone] at hpp; cases hpp
  · rw [hpp'] at hpp
    have e := Option.some.inj hpp
    have hcap : pp.natuCap = s.inventory.quantity := by rw [← e]; rfl
    have hu : uranium s.inventory.items = s.inventory.quantity := by
      have h1 := pure_qty (pure_squash hp)
      rw [Mat.mass_squash, Mat.mass_squash, Mat.qty_squash] at h1
      exact h1.symm
    rw [hu, ← hcap]
    exact hn

/-- The sales of a step with one sale of product are honest if the offer is the only bid and both
constraints hold. -/
theorem honest_one {c : Cfg} {reqs : String → Option (List NMat)} {s s1 : State} {pp : ProductPort}
    {m : NMat} {q w n : ℚ} (hb : bids c reqs s = .ok (⟨none, some pp⟩, s1))
    (hc : c.productCommod ≠ c.tailsCommod) (hm : pp.bids = [(0, m)]) (hq : 0 < q ∧ q ≤ qty m)
    (hw : swuConvert c.value pp.feedAssay c.tailsAssay (cut ⟨c.productCommod, m, q⟩) = some w)
    (hw' : w ≤ pp.swuCap)
    (hn : natuConvert pp.feedAssay c.tailsAssay (cut ⟨c.productCommod, m, q⟩) = some n)
    (hn' : n ≤ pp.natuCap) :
    ∀ p s₁, bids c reqs s = .ok (p, s₁) → HonestSales c p [⟨c.productCommod, m, q⟩] := by
  intro p s₁ h
  rw [hb] at h
  simp only [Except.ok.injEq, Prod.mk.injEq] at h
  obtain ⟨rfl, rfl⟩ := h
  have ht : tailsTrades c [⟨c.productCommod, m, q⟩] = [] := by simp [tailsTrades, hc]
  have hp : productTrades c [⟨c.productCommod, m, q⟩] = [⟨c.productCommod, m, q⟩] := by
    simp [productTrades, hc]
  refine ⟨?_, ?_, ?_, ?_, ?_, ?_⟩
  · intro t h; rw [List.mem_singleton.1 h]; exact hq
  · intro t h; rw [ht] at h; cases h
  · intro tp h; cases h
  · intro t h
    rw [hp] at h
    rw [List.mem_singleton.1 h]
    exact ⟨rfl, pp, rfl, 0, by rw [hm]; simp⟩
  · intro pp' h
    cases h
    exact ⟨[w], by rw [hp]; simp [hw], by simpa using hw'⟩
  · intro pp' h
    cases h
    exact ⟨[n], by rw [hp]; simp [hn], by simpa using hn'⟩

theorem honest_buys_nil (c : Cfg) (s : State) : HonestBuys c s [] := by
  refine ⟨fun m hm => absurd hm List.not_mem_nil, ?_⟩
  simp only [totalQty, List.map_nil, List.sum_nil]
  unfold requests
  split
  · exact le_max_left _ _
  · exact le_refl _

theorem forProduct_nonneg {m : NMat} (hm : Mat.Nonneg m) :
    ∀ k rs, forProduct [m] k = some rs → ∀ m ∈ rs, Mat.Nonneg m := by
  intro k rs h
  unfold forProduct at h
  split at h
  · cases h
    intro x hx; rw [List.mem_singleton.1 hx]; exact hm
  · cases h

/-- The first step of the example without its second sale and delivery meets the hypotheses of
`C37_delivers_partial`. -/
example : ∃ s, HonestHistory exCfg [] [] s ∧
    Honest exCfg s ⟨forProduct [leu], [⟨"leu", leu, 5⟩], []⟩ ∧ Pure s.inventory.items ∧
    (∀ t ∈ productTrades exCfg [⟨"leu", leu, 5⟩], ∀ x, HasAssay x s.inventory.items →
      exCfg.tailsAssay < x ∧ x * uranium [t.offer] ≤ t.offer.mass u235) := by
  obtain ⟨s, hs⟩ : ∃ s, s = (⟨⟨some 200, [⟨[(u235, 1), (u238, 99)]⟩]⟩, ⟨none, []⟩, 0, none⟩ :
    State) := ⟨_, rfl⟩
  have hb : build exCfg = .ok s := ok_of_toOption (by rw [hs]; decide +kernel)
  refine ⟨s, ⟨s, hb, rfl, trivial⟩, ⟨honest_buys_nil _ _, ?_, ?_⟩, ?_, ?_⟩
  · exact forProduct_nonneg (nonneg_of_all (by decide +kernel))
  · have hbids : bids exCfg (forProduct [leu]) (tick exCfg s) =
        .ok (⟨none, some ⟨[(0, leu)], 1/100, 1, 100⟩⟩,
          ⟨⟨some 200, [⟨[(u235, 1), (u238, 99)]⟩]⟩, ⟨none, []⟩, 1, none⟩) :=
      ok_of_toOption (by rw [hs]; decide +kernel)
    exact honest_one (w := 9/400) (n := 25) hbids (by decide) rfl (by decide +kernel)
      (by decide +kernel) (by decide +kernel) (by decide +kernel) (by decide +kernel)
  · subst hs
    intro m hm e he
    simp only [List.mem_singleton] at hm
    subst hm
    simp only [List.mem_cons, List.not_mem_nil, or_false] at he
    rcases he with rfl | rfl <;> simp
  · intro t ht x hx
    have h1 : massOf s.inventory.items u235 = 1 := by subst hs; decide +kernel
    have h2 : uranium s.inventory.items = 100 := by subst hs; decide +kernel
    unfold HasAssay at hx
    rw [h1, h2] at hx
    have hxx : x = 1/100 := by linarith
    have : t = ⟨"leu", leu, 5⟩ := List.mem_singleton.1 ht
    subst this hxx
    exact ⟨by norm_num [exCfg], by decide +kernel⟩

/-- Half of the feed is oxygen. -/
def oxCfg : Cfg :=
  { exCfg with feedRecipe := ⟨[(u235, 1/2), (u238, 99/2), (80160000, 50)]⟩ }

/-- 20 kg of uranium of 4 %. -/
def leu20 : NMat := ⟨[(u235, 4/5), (u238, 96/5)]⟩

/-- C37 fails for feed with other nuclides: the constraint on feed counts uranium, not feed. 20 kg of
product at 4 % need 100 kg of uranium at 1 %, and the constraint of 100 kg is respected, but the
100 kg of feed hold only 50 kg of uranium: the sale aborts the simulation. -/
theorem C37_counterexample : ∃ (c : Cfg) (s : State) (i : In), Valid c ∧
    HonestHistory c [] [] s ∧ Honest c s i ∧ (∀ p s₁, bids c i.reqs (tick c s) = .ok (p, s₁) →
      Sizeable c p i.sells) ∧
    (∀ t ∈ i.sells, ∀ x, HasAssay x s.inventory.items →
      c.tailsAssay < x ∧ x * uranium [t.offer] ≤ t.offer.mass u235) ∧
    step c s i = .error .value := by
  obtain ⟨s, hs⟩ : ∃ s, s = (⟨⟨some 200, [⟨[(u235, 1/2), (u238, 99/2), (80160000, 50)]⟩]⟩,
    ⟨none, []⟩, 0, none⟩ : State) := ⟨_, rfl⟩
  have hb : build oxCfg = .ok s := ok_of_toOption (by rw [hs]; decide +kernel)
  have hbids : bids oxCfg (forProduct [leu20]) (tick oxCfg s) =
      .ok (⟨none, some ⟨[(0, leu20)], 1/100, 1, 100⟩⟩,
        ⟨⟨some 200, [⟨[(u235, 1/2), (u238, 99/2), (80160000, 50)]⟩]⟩, ⟨none, []⟩, 1, none⟩) :=
    ok_of_toOption (by rw [hs]; decide +kernel)
  refine ⟨oxCfg, s, ⟨forProduct [leu20], [⟨"leu", leu20, 20⟩], []⟩, ?_, ⟨s, hb, rfl, trivial⟩,
    ⟨honest_buys_nil _ _, ?_, ?_⟩, ?_, ?_, ?_⟩
  · refine ⟨nonneg_of_all (by decide +kernel), ?_, ?_, ?_, ?_, ?_, ?_, ?_, ?_⟩ <;>
      norm_num [oxCfg, exCfg, Mat.qty_def]
  · exact forProduct_nonneg (nonneg_of_all (by decide +kernel))
  · exact honest_one (w := 9/100) (n := 100) hbids (by decide) rfl (by decide +kernel)
      (by decide +kernel) (by decide +kernel) (by decide +kernel) (by decide +kernel)
  · intro p s₁ h
    rw [hbids] at h
    simp only [Except.ok.injEq, Prod.mk.injEq] at h
    obtain ⟨rfl, rfl⟩ := h
    refine ⟨fun t ht => ?_, fun pp hpp t ht q hq => ?_⟩
    · rw [List.mem_singleton.1 ht]; decide +kernel
    · cases hpp
      have : t = ⟨"leu", leu20, 20⟩ := List.mem_singleton.1 ht
      subst this
      have h1 : natuConvert (1/100) oxCfg.tailsAssay (cut ⟨"leu", leu20, 20⟩) = some 100 := by
        decide +kernel
      rw [h1] at hq
      cases hq
      exact ⟨by decide +kernel, by decide +kernel⟩
  · intro t ht x hx
    have h1 : massOf s.inventory.items u235 = 1/2 := by subst hs; decide +kernel
    have h2 : uranium s.inventory.items = 50 := by subst hs; decide +kernel
    unfold HasAssay at hx
    rw [h1, h2] at hx
    have hxx : x = 1/100 := by linarith
    have : t = ⟨"leu", leu20, 20⟩ := List.mem_singleton.1 ht
    subst this hxx
    exact ⟨by norm_num [oxCfg, exCfg], by decide +kernel⟩
  · have : step oxCfg s ⟨forProduct [leu20], [⟨"leu", leu20, 20⟩], []⟩ = .error .value := by
      rw [hs]; decide +kernel
    exact this

/-- With the same feed, a sale of 5 kg needs 25 kg of uranium and meets the hypotheses of
`C37_delivers_uranium_partial`, and is carried out. -/
example : ∃ s, HonestHistory oxCfg [] [] s ∧
    Honest oxCfg s ⟨forProduct [leu20], [⟨"leu", leu20, 5⟩], []⟩ ∧ ¬ Pure s.inventory.items ∧
    uranium s.inventory.items = 50 ∧
    (∀ p s₁ pp, bids oxCfg (forProduct [leu20]) (tick oxCfg s) = .ok (p, s₁) → p.product = some pp →
      Within (natuConvert pp.feedAssay oxCfg.tailsAssay) (productTrades oxCfg [⟨"leu", leu20, 5⟩])
        (uranium s.inventory.items)) ∧
    ∃ o s', step oxCfg s ⟨forProduct [leu20], [⟨"leu", leu20, 5⟩], []⟩ = .ok (o, s') := by
  obtain ⟨s, hs⟩ : ∃ s, s = (⟨⟨some 200, [⟨[(u235, 1/2), (u238, 99/2), (80160000, 50)]⟩]⟩,
    ⟨none, []⟩, 0, none⟩ : State) := ⟨_, rfl⟩
  have hb : build oxCfg = .ok s := ok_of_toOption (by rw [hs]; decide +kernel)
  have hbids : bids oxCfg (forProduct [leu20]) (tick oxCfg s) =
      .ok (⟨none, some ⟨[(0, leu20)], 1/100, 1, 100⟩⟩,
        ⟨⟨some 200, [⟨[(u235, 1/2), (u238, 99/2), (80160000, 50)]⟩]⟩, ⟨none, []⟩, 1, none⟩) :=
    ok_of_toOption (by rw [hs]; decide +kernel)
  have h50 : uranium s.inventory.items = 50 := by subst hs; decide +kernel
  have h25 : natuConvert (1/100) oxCfg.tailsAssay (cut ⟨"leu", leu20, 5⟩) = some 25 := by
    decide +kernel
  have hon : Honest oxCfg s ⟨forProduct [leu20], [⟨"leu", leu20, 5⟩], []⟩ :=
    ⟨honest_buys_nil _ _, forProduct_nonneg (nonneg_of_all (by decide +kernel)),
      honest_one (w := 9/400) (n := 25) hbids (by decide) rfl (by decide +kernel)
        (by decide +kernel) (by decide +kernel) h25 (by decide +kernel)⟩
  have hw : ∀ p s₁ pp, bids oxCfg (forProduct [leu20]) (tick oxCfg s) = .ok (p, s₁) →
      p.product = some pp →
      Within (natuConvert pp.feedAssay oxCfg.tailsAssay) (productTrades oxCfg [⟨"leu", leu20, 5⟩])
        (uranium s.inventory.items) := by
    intro p s₁ pp h hpp
    rw [hbids] at h
    simp only [Except.ok.injEq, Prod.mk.injEq] at h
    obtain ⟨rfl, rfl⟩ := h
    cases hpp
    refine ⟨[25], ?_, by rw [h50]; norm_num⟩
    have : productTrades oxCfg [⟨"leu", leu20, 5⟩] = [⟨"leu", leu20, 5⟩] := by
      simp [productTrades, oxCfg, exCfg]
    rw [this]
    simp only [List.map_cons, List.map_nil]
    rw [h25]
  have hist : HonestHistory oxCfg [] [] s := ⟨s, hb, rfl, trivial⟩
  refine ⟨s, hist, hon, ?_, h50, hw, C37_delivers_uranium_partial ?_ hist hon ?_ hw ?_⟩
  · subst hs
    intro hp
    have := hp _ (List.mem_singleton.2 rfl) (80160000, 50) (by simp)
    simp [u235, u238] at this
  · refine ⟨nonneg_of_all (by decide +kernel), ?_, ?_, ?_, ?_, ?_, ?_, ?_, ?_⟩ <;>
      norm_num [oxCfg, exCfg, Mat.qty_def]
  · intro p s₁ h
    rw [hbids] at h
    simp only [Except.ok.injEq, Prod.mk.injEq] at h
    obtain ⟨rfl, rfl⟩ := h
    refine ⟨fun t ht => ?_, fun pp hpp t ht q hq => ?_⟩
    · rw [List.mem_singleton.1 ht]; decide +kernel
    · cases hpp
      have : t = ⟨"leu", leu20, 5⟩ := List.mem_singleton.1 (List.mem_filter.1 ht).1
      subst this
      rw [h25] at hq
      cases hq
      exact ⟨by decide +kernel, by decide +kernel⟩
  · intro t ht x hx
    have h1 : massOf s.inventory.items u235 = 1/2 := by subst hs; decide +kernel
    unfold HasAssay at hx
    rw [h1, h50] at hx
    have hxx : x = 1/100 := by linarith
    have : t = ⟨"leu", leu20, 5⟩ := List.mem_singleton.1 (List.mem_filter.1 ht).1
    subst this hxx
    exact ⟨by norm_num [oxCfg, exCfg], by decide +kernel⟩

/-- 10 kg of uranium of 1/2 %. -/
def poor : NMat := ⟨[(u235, 1/20), (u238, 199/20)]⟩

/-- C37 fails for products between the tails assay and the feed assay: the facility bids, the sale
respects both constraints, and it aborts the simulation, because such a product needs less feed than
there is product. -/
theorem C37_poor_counterexample : ∃ (c : Cfg) (s : State) (i : In), Valid c ∧
    HonestHistory c [] [] s ∧ Honest c s i ∧ Pure s.inventory.items ∧
    (∀ p s₁, bids c i.reqs (tick c s) = .ok (p, s₁) → Sizeable c p i.sells) ∧
    step c s i = .error .value := by
  obtain ⟨s, hs⟩ : ∃ s, s = (⟨⟨some 200, [⟨[(u235, 1), (u238, 99)]⟩]⟩, ⟨none, []⟩, 0, none⟩ :
    State) := ⟨_, rfl⟩
  have hb : build exCfg = .ok s := ok_of_toOption (by rw [hs]; decide +kernel)
  have hbids : bids exCfg (forProduct [poor]) (tick exCfg s) =
      .ok (⟨none, some ⟨[(0, poor)], 1/100, 1, 100⟩⟩,
        ⟨⟨some 200, [⟨[(u235, 1), (u238, 99)]⟩]⟩, ⟨none, []⟩, 1, none⟩) :=
    ok_of_toOption (by rw [hs]; decide +kernel)
  refine ⟨exCfg, s, ⟨forProduct [poor], [⟨"leu", poor, 10⟩], []⟩, exCfg_valid,
    ⟨s, hb, rfl, trivial⟩, ⟨honest_buys_nil _ _, ?_, ?_⟩, ?_, ?_, ?_⟩
  · exact forProduct_nonneg (nonneg_of_all (by decide +kernel))
  · exact honest_one (w := -1/2000) (n := 10/3) hbids (by decide) rfl (by decide +kernel)
      (by decide +kernel) (by decide +kernel) (by decide +kernel) (by decide +kernel)
  · subst hs
    intro m hm e he
    simp only [List.mem_singleton] at hm
    subst hm
    simp only [List.mem_cons, List.not_mem_nil, or_false] at he
    rcases he with rfl | rfl <;> simp
  · intro p s₁ h
    rw [hbids] at h
    simp only [Except.ok.injEq, Prod.mk.injEq] at h
    obtain ⟨rfl, rfl⟩ := h
    refine ⟨fun t ht => ?_, fun pp hpp t ht q hq => ?_⟩
    · rw [List.mem_singleton.1 ht]; decide +kernel
    · cases hpp
      have : t = ⟨"leu", poor, 10⟩ := List.mem_singleton.1 ht
      subst this
      have h1 : natuConvert (1/100) exCfg.tailsAssay (cut ⟨"leu", poor, 10⟩) = some (10/3) := by
        decide +kernel
      rw [h1] at hq
      cases hq
      exact ⟨by decide +kernel, by decide +kernel⟩
  · have : step exCfg s ⟨forProduct [poor], [⟨"leu", poor, 10⟩], []⟩ = .error .value := by
      rw [hs]; decide +kernel
    exact this

end Cyc.Enrichment
