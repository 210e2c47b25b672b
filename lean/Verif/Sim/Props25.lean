import Verif.Sim.Props24

/-!
# Bids and offers (C158)

The bids that are ranked are those behind the offers of the market.
-/

namespace Cyc.Sim

theorem policyBid_iff {out : List String} {l : List NMat} {r : Req} :
    policyBid out l r ≠ [] ↔ r.commod ∈ out ∧ l ≠ [] := by
  unfold policyBid
  split
  · cases l <;> simp [*]
  · simp [*]

theorem OfReactor.bidLoop_bids {c : Reactor.Cfg} {reqs : String → List ℚ} {ks : List String}
    {s s' : Reactor.State} {ps : List Reactor.BidPort}
    (h : Reactor.bidLoop c reqs ks s = .ok (ps, s')) : ∀ p ∈ ps, p.bids ≠ [] := by
  induction ks generalizing s s' ps with
  | nil =>
    simp only [Reactor.bidLoop, Except.ok.injEq, Prod.mk.injEq] at h
    obtain ⟨rfl, -⟩ := h
    simp
  | cons k ks ih =>
    unfold Reactor.bidLoop at h
    split at h
    · exact ih h
    · next hk =>
      simp only [bind_ok] at h
      obtain ⟨⟨m, s₁⟩, -, h⟩ := h
      split at h
      · exact ih h
      · next hm =>
        split at h
        · cases h
        · simp only [bind_ok, pure_eq_ok, Except.ok.injEq, Prod.mk.injEq] at h
          obtain ⟨⟨ps', s₂⟩, h1, rfl, -⟩ := h
          intro p hp
          rcases List.mem_cons.1 hp with rfl | hp
          · show Reactor.bidsForAll _ (reqs k) 0 ≠ []
            cases hq : reqs k with
            | nil => exact absurd hq hk
            | cons q qs =>
              cases hms : SMap.get [] m k with
              | nil => exact absurd hms hm
              | cons a l => simp [Reactor.bidsForAll, Reactor.bidsFor]
          · exact ih h1 p hp

/-- C158, what is ranked: a facility bids on a request if and only if it offers what is requested, and can
serve the request; but a separations facility may offer what it does not bid for (C151). -/
theorem C158_bids_are_offers {r : Req} {k : Kind} {s : (act k).S} (S : Sensible k.plain) (K : Keyed k s)
    (hr : 0 < qty r.target)
    {os : List Offer} (h : (act k).offers [r] s = .ok os) :
    (bidsOn r k s ≠ [] → ∃ o ∈ os, o.commod = r.commod ∧ o.serves r.target = true) ∧
    ((∀ c, k ≠ .separations c) → (∃ o ∈ os, o.commod = r.commod ∧ o.serves r.target = true ∧ 0 < o.cap) →
      bidsOn r k s ≠ []) := by
  have hsell : bidsOn r k s ≠ [] → r.commod ∈ sellsOf k := by
    intro h
    by_contra hn
    exact h (bidsOn_none K hn)
  cases k with
  | conversion c =>
    simp only [act, conversion, bind_ok, pure_eq_ok, Except.ok.injEq] at h
    obtain ⟨s₁, h1, b, h2, rfl⟩ := h
    have hg : bidsOn r (.conversion c) s = (b.map fun p => p.bids.map Conversion.Bid.offer).getD [] := by
      show gather _ _ = _
      rw [h1, ok_bind, h2]; rfl
    constructor
    · intro hb
      have hs : r.commod = c.outcommod := by simpa [sellsOf] using hsell hb
      rw [hg] at hb
      cases b with
      | none => exact absurd rfl hb
      | some p => exact ⟨_, List.mem_singleton.2 rfl, hs.symm, rfl⟩
    · rintro - ⟨o, ho, hc, -, -⟩
      rw [hg]
      cases b with
      | none => cases ho
      | some p =>
        obtain rfl := List.mem_singleton.1 ho
        unfold Conversion.bids at h2
        split at h2
        · cases h2
        · rename_i hq
          have hc : r.commod = c.outcommod := hc.symm
          simp only [conversionReqs, List.zipIdx_cons, List.zipIdx_nil, List.map_cons, List.map_nil,
            List.filter_cons, hc, decide_true, if_true, List.filter_nil, Conversion.bidLoop, bind_ok, pure_eq_ok,
            Except.ok.injEq, Option.some.injEq] at h2
          obtain ⟨bs, ⟨b, hb, bs', rfl, rfl⟩, rfl⟩ := h2
          unfold Conversion.bidOne at hb
          rw [if_pos (lt_min (not_le.1 hq) hr)] at hb
          simp only [bind_ok, pure_eq_ok, Except.ok.injEq] at hb
          obtain ⟨m, -, rfl⟩ := hb
          simp
  | enrichment c =>
    simp only [act, enrichment, bind_ok, pure_eq_ok, Except.ok.injEq] at h
    obtain ⟨⟨p, s₁⟩, h1, rfl⟩ := h
    have hg : bidsOn r (.enrichment c) s = ((p.tails.map fun t => t.bids.map Prod.snd).getD []) ++
        ((p.product.map fun t => t.bids.map Prod.snd).getD []) := by
      show gather _ _ = _
      rw [h1]; rfl
    have ht : ∀ k, targets [r] k = if r.commod = k then some [r.target] else none := by
      intro k
      unfold targets
      by_cases hk : r.commod = k <;> simp [hk]
    simp only [Enrichment.bids, bind_ok, pure_eq_ok, Except.ok.injEq, Prod.mk.injEq] at h1
    obtain ⟨⟨q, s₂⟩, h2, rfl, -⟩ := h1
    simp only at hg h2
    have hprod : q = none ∨ ∃ x, q = some x ∧ r.commod = c.productCommod ∧
        x.bids = if Enrichment.served c r.target then [(0, Enrichment.offer r.target)] else [] := by
      rw [ht] at h2
      by_cases hk : r.commod = c.productCommod
      · rw [if_pos hk] at h2
        simp only [Enrichment.productBids] at h2
        split at h2
        · simp only [bind_ok] at h2
          obtain ⟨⟨x, s₃⟩, -, h2⟩ := h2
          split at h2
          · cases h2
          · simp only [pure_eq_ok, Except.ok.injEq, Prod.mk.injEq] at h2
            obtain ⟨rfl, -⟩ := h2
            exact .inr ⟨_, rfl, hk, by simp⟩
        · simp only [Except.ok.injEq, Prod.mk.injEq] at h2
          exact .inl h2.1.symm
      · rw [if_neg hk] at h2
        simp only [Enrichment.productBids, Except.ok.injEq, Prod.mk.injEq] at h2
        exact .inl h2.1.symm
    have htail : Enrichment.tailsBids (Enrichment.tick c s) (targets [r] c.tailsCommod) = none ∨
        ∃ x, Enrichment.tailsBids (Enrichment.tick c s) (targets [r] c.tailsCommod) = some x ∧
          r.commod = c.tailsCommod ∧ x.bids ≠ [] := by
      rw [ht]
      by_cases hk : r.commod = c.tailsCommod
      · rw [if_pos hk]
        simp only [Enrichment.tailsBids]
        split
        · rename_i hq
          refine .inr ⟨_, rfl, hk, ?_⟩
          intro e
          have e1 : (Enrichment.tick c s).tails.items = [] := by simpa using e
          simp [Buf.quantity, e1, totalQty] at hq
        · exact .inl rfl
      · rw [if_neg hk]
        exact .inl rfl
    rw [hg]
    constructor
    · intro hb
      rcases htail with e1 | ⟨x, e1, e2, -⟩
      · rcases hprod with rfl | ⟨y, rfl, e3, e4⟩
        · rw [e1] at hb; exact absurd rfl hb
        · rw [e1] at hb
          cases hv : Enrichment.served c r.target with
          | false => rw [hv] at e4; simp [e4] at hb
          | true =>
            exact ⟨_, List.mem_append_right _ (List.mem_singleton.2 rfl), e3.symm, hv⟩
      · refine ⟨⟨c.tailsCommod, x.cap, c.lo, none, fun _ => true, []⟩, List.mem_append_left _ ?_, e2.symm, rfl⟩
        simp only [tailsOffer, e1]
        exact List.mem_singleton.2 rfl
    · rintro - ⟨o, ho, -, hv, -⟩
      rcases List.mem_append.1 ho with ho | ho
      · rcases htail with e1 | ⟨x, e1, -, e2⟩
        · simp [tailsOffer, e1] at ho
        · rw [e1]; simp [e2]
      · rcases hprod with rfl | ⟨y, rfl, -, e4⟩
        · simp [productOffer] at ho
        · simp only [productOffer, List.mem_singleton] at ho
          subst ho
          have hv : Enrichment.served c r.target = true := hv
          rw [hv] at e4
          simp [e4]
  | fuelFab c =>
    simp only [act, fuelFab, bind_ok, pure_eq_ok, Except.ok.injEq] at h
    obtain ⟨⟨a, s₁⟩, h1, b, h2, rfl⟩ := h
    have hg : bidsOn r (.fuelFab c) s = (b.map fun p => p.bids.map Prod.snd).getD [] := by
      show gather _ _ = _
      rw [h1, ok_bind, h2]; rfl
    have hb : b = none ∨ ∃ p, b = some p ∧ r.commod = c.outCommod ∧
        (p.bids ≠ [] ↔ (fuelBid c s₁ r.target).isSome = true) := by
      unfold FuelFab.bids at h2
      split at h2
      · cases h2; exact .inl rfl
      · split at h2
        · cases h2; exact .inl rfl
        · rename_i hl
          have hk : r.commod = c.outCommod := by
            by_contra hn
            exact hl (by simp [fuelTargets, hn])
          simp only [bind_ok] at h2
          obtain ⟨k, hk1, bs, hb, h2⟩ := h2
          split at h2
          · cases h2
          · simp only [pure_eq_ok, Except.ok.injEq] at h2
            subst h2
            refine .inr ⟨_, rfl, hk, ?_⟩
            simp only [fuelTargets, List.filter_cons, hk, decide_true, if_true, List.filter_nil, List.map_cons,
              List.map_nil, FuelFab.bidLoop, bind_ok, pure_eq_ok, Except.ok.injEq] at hb
            obtain ⟨b, hb, bs', rfl, rfl⟩ := hb
            unfold fuelBid
            simp only [hk1, hb]
            cases b <;> simp
    rw [hg]
    constructor
    · intro hne
      rcases hb with rfl | ⟨p, rfl, e1, e2⟩
      · exact absurd rfl hne
      · refine ⟨_, List.mem_singleton.2 rfl, e1.symm, e2.1 fun e => hne ?_⟩
        simp [e]
    · rintro - ⟨o, ho, -, hv, -⟩
      rcases hb with rfl | ⟨p, rfl, e1, e2⟩
      · cases ho
      · obtain rfl := List.mem_singleton.1 ho
        have := e2.2 hv
        simp [this]
  | mixer c =>
    simp only [act, mixer, bind_ok, pure_eq_ok, Except.ok.injEq] at h
    obtain ⟨s₁, h1, rfl⟩ := h
    have hg : bidsOn r (.mixer c) s = policyBid [c.outCommod] s₁.output.items r := by
      show gather _ _ = _
      rw [h1]; rfl
    rw [hg, policyBid_iff]
    constructor
    · rintro ⟨h2, -⟩
      exact ⟨_, List.mem_singleton.2 rfl, (List.mem_singleton.1 h2).symm, rfl⟩
    · rintro - ⟨o, ho, hc, -, hq⟩
      obtain rfl := List.mem_singleton.1 ho
      refine ⟨List.mem_singleton.2 hc.symm, fun e => ?_⟩
      simp [e, totalQty] at hq
  | reactor c enc dec =>
    simp only [act, reactor, bind_ok, pure_eq_ok, Except.ok.injEq] at h
    obtain ⟨⟨o, s₁⟩, h1, rfl⟩ := h
    have hg : bidsOn r (.reactor c enc dec) s =
        o.bids.flatMap fun p => p.bids.map fun b => (dec b.2.comp).scale b.2.qty := by
      show gather _ _ = _
      rw [h1]; rfl
    have h2 : (∀ p ∈ o.bids, p.commod = r.commod) ∧ ∀ p ∈ o.bids, p.bids ≠ [] := by
      simp only [Reactor.offerPhase, bind_ok, pure_eq_ok, Except.ok.injEq, Prod.mk.injEq] at h1
      obtain ⟨s₂, -, ⟨rq, s₃⟩, -, ⟨bd, s₄⟩, h3, rfl, -⟩ := h1
      refine ⟨fun p hp => ?_, OfReactor.bidLoop_bids h3⟩
      have h5 := OfReactor.bidLoop_asked h3 p hp
      rw [quantities_one] at h5
      by_contra hne
      rw [if_neg fun e => hne e.symm] at h5
      exact h5 rfl
    rw [hg]
    constructor
    · intro hb
      cases hbd : o.bids with
      | nil => rw [hbd] at hb; exact absurd rfl hb
      | cons p ps => exact ⟨_, List.mem_cons_self .., h2.1 p (by simp [hbd]), rfl⟩
    · rintro - ⟨o', ho, -⟩ he
      obtain ⟨p, hp, -⟩ := List.mem_map.1 ho
      have := List.flatMap_eq_nil_iff.1 he p hp
      exact h2.2 p hp (List.map_eq_nil_iff.1 this)
  | separations c =>
    simp only [act, separations, bind_ok, pure_eq_ok, Except.ok.injEq] at h
    obtain ⟨⟨tr, s₁⟩, h1, rq, -, u, -, rfl⟩ := h
    refine ⟨fun hb => ?_, fun hn => absurd rfl (hn c)⟩
    have hg : bidsOn r (.separations c) s =
        (Separations.bids c s₁ (quantities [r])).flatMap fun p => p.bids.map Prod.snd := by
      show gather _ _ = _
      rw [h1]; rfl
    rw [hg] at hb
    cases hbd : Separations.bids c s₁ (quantities [r]) with
    | nil => rw [hbd] at hb; exact absurd rfl hb
    | cons p ps =>
      have hp : p ∈ Separations.bids c s₁ (quantities [r]) := by simp [hbd]
      have hone : ∀ k b, p ∈ Separations.bidsFor c.eps k b (quantities [r] k) → p.commod = r.commod := by
        intro k b hp
        unfold Separations.bidsFor at hp
        split at hp
        · cases hp
        · rename_i hne
          split at hp
          · cases hp
          · obtain rfl := List.mem_singleton.1 hp
            rw [quantities_one] at hne
            by_contra hn
            rw [if_neg fun e => hn e.symm] at hne
            exact hne rfl
      refine ⟨_, List.mem_cons_self .., ?_, rfl⟩
      unfold Separations.bids at hp
      rcases List.mem_append.1 hp with hp | hp
      · obtain ⟨b, -, hp⟩ := List.mem_flatMap.1 hp
        exact hone _ _ hp
      · exact hone _ _ hp
  | sink c =>
    simp only [act, sink, Except.ok.injEq] at h
    subst h
    exact ⟨fun hb => absurd rfl hb, by rintro - ⟨o, ho, -⟩; cases ho⟩
  | source c =>
    simp only [act, source, Except.ok.injEq] at h
    have hg : bidsOn r (.source c) s = ((Source.bids c (sourceReqs [r]) s).map fun p =>
      p.bids.map Source.Bid.offer).getD [] := rfl
    obtain ⟨-, -, -, -, hf, hn⟩ := S
    have hb : Source.bids c (sourceReqs [r]) s = none ∨ ∃ p, Source.bids c (sourceReqs [r]) s = some p ∧
        r.commod = c.outcommod ∧ p.bids ≠ [] := by
      unfold Source.bids
      split
      · exact .inl rfl
      · split
        · exact .inl rfl
        · rename_i hl
          have hk : r.commod = c.outcommod := by
            by_contra hn
            exact hl (by simp [sourceReqs, hn])
          refine .inr ⟨_, rfl, hk, ?_⟩
          simp [sourceReqs, hk, Source.bidsFor, Source.lots, hf, hn, Source.cut]
    rw [hg]
    constructor
    · intro hne
      rcases hb with e | ⟨p, e, e1, e2⟩
      · rw [e] at hne; exact absurd rfl hne
      · rw [e] at h
        subst h
        exact ⟨_, List.mem_singleton.2 rfl, e1.symm, rfl⟩
    · rintro - ⟨o, ho, -⟩
      rcases hb with e | ⟨p, e, e1, e2⟩
      · rw [e] at h; subst h; cases ho
      · rw [e]; simp [e2]
  | storage c want =>
    simp only [act, storage, Except.ok.injEq] at h
    subst h
    have hg : bidsOn r (.storage c want) s = policyBid (c.outCommods.take 1) s.stocks.items r := rfl
    rw [hg, policyBid_iff]
    constructor
    · rintro ⟨h2, -⟩
      exact ⟨_, List.mem_map_of_mem h2, rfl, rfl⟩
    · rintro - ⟨o, ho, hc, -, hq⟩
      obtain ⟨k, hk, rfl⟩ := List.mem_map.1 ho
      refine ⟨hc ▸ hk, fun e => ?_⟩
      simp [e, totalQty] at hq

/-- The hypotheses can be met, and there are bids: a request for 10 kg of feed, and a mine. -/
example : ∃ s : (act (.source exFeedMine)).S, ∃ os, Sensible (Kind.source exFeedMine).plain ∧
    Keyed (.source exFeedMine) s ∧ (act (.source exFeedMine)).offers [⟨"feed", blank 10⟩] s = .ok os ∧
    os.length = 1 ∧ (bidsOn ⟨"feed", blank 10⟩ (.source exFeedMine) s).length = 1 := by
  refine ⟨(⟨⟨none, [⟨[(922350000, 5), (922380000, 495)]⟩]⟩⟩ : Source.State), _,
    exKinds_sensible (.source exMine) (by simp [exKinds]), trivial, rfl, ?_⟩
  decide +kernel

end Cyc.Sim
