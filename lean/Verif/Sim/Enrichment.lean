import Verif.Sim.Conversion
import Verif.Enrichment.Lemmas6
import Verif.Enrichment.Lemmas7
import Verif.Network.Lemmas

/-!
# `Enrichment` keeps the contract, if its feed is uranium that is richer than its tails and not richer
than its products
-/

namespace Cyc.Sim

namespace OfEnrichment
open Enrichment

theorem assayed_blendable (lo hi : ℚ) : Blendable (Assayed lo hi) := by
  constructor
  · rintro m r hr ⟨h1, h2, h3⟩
    refine ⟨pure_scale h1, ?_, ?_⟩
    · simp only [Mat.mass_scale]; nlinarith
    · simp only [Mat.mass_scale]; nlinarith
  · intro l hl
    refine ⟨pure_squash fun m hm => (hl m hm).pure m (by simp), ?_, ?_⟩
    all_goals
      simp only [Mat.mass_squash]
      induction l with
      | nil => simp
      | cons m l ih =>
        have := hl m (by simp)
        have k := ih fun x hx => hl x (by simp [hx])
        simp only [Mat.massOf_cons]
        have := this.lower
        have := (hl m (by simp)).upper
        linarith

/-- The inventory after the bids. -/
theorem bids_has {P : Sim.NMat → Prop} (H : Blendable P) {c : Cfg} (he : 0 ≤ c.eps)
    {reqs : String → Option (List NMat)} {s s' : State} {p : Ports}
    (hP : AllOf P s.inventory.items) (h : bids c reqs s = .ok (p, s')) :
    AllOf P s'.inventory.items := by
  obtain ⟨-, ⟨-, rfl, -⟩ | ⟨rs, -, -, -, hne, rfl, -⟩⟩ := bids_inv he h
  · exact hP
  · intro x hx
    rw [List.mem_singleton] at hx
    subst hx
    exact H.squash _ hP

/-- The inventory after the sales. -/
theorem sellLoop_has {P : Sim.NMat → Prop} (H : Blendable P) {c : Cfg} (he : 0 ≤ c.eps)
    {ts : List Trade} {s s' : State} {l : List (NMat × Option Enr)} (I : Inv c s)
    (hP : AllOf P s.inventory.items) (h : sellLoop c ts s = .ok (l, s')) :
    AllOf P s'.inventory.items := by
  induction ts generalizing s l with
  | nil =>
    simp only [sellLoop, Except.ok.injEq, Prod.mk.injEq] at h
    obtain ⟨rfl, rfl⟩ := h
    exact hP
  | cons t ts ih =>
    simp only [sellLoop, bind_ok, pure_eq_ok, Except.ok.injEq, Prod.mk.injEq] at h
    obtain ⟨⟨m, e, s1⟩, h1, ⟨l1, s2⟩, h2, rfl, rfl⟩ := h
    refine ih (sellOne_pres he I h1).1 ?_ h2
    rcases sellOne_inv he I h1 with ⟨-, rfl, b, -, rfl⟩ | ⟨-, hne, x, k, rfl, E⟩
    · exact hP
    · rcases E.inv with ⟨-, e⟩ | ⟨hk, e⟩ <;> rw [e] <;> intro y hy
      · simp at hy
      · rw [List.mem_singleton] at hy
        subst hy
        exact H.scale _ _ (by linarith) (H.squash _ hP)

theorem sellAll_has {P : Sim.NMat → Prop} (H : Blendable P) {c : Cfg} (he : 0 ≤ c.eps)
    {ts : List Trade} {s s' : State} {l : List (NMat × Option Enr)} (I : Inv c s)
    (hP : AllOf P s.inventory.items) (h : Enrichment.sellAll c ts s = .ok (l, s')) :
    AllOf P s'.inventory.items := by
  cases ts with
  | nil =>
    simp only [Enrichment.sellAll, Except.ok.injEq, Prod.mk.injEq] at h
    exact h.2 ▸ hP
  | cons t ts => exact sellLoop_has H he (I.intra (some (0, 0))) hP (sell_inv h).1

/-- What is delivered: the traded amount, of the offer or out of the tails. -/
theorem sellLoop_amounts {c : Cfg} (he : 0 ≤ c.eps) {ts : List Trade} {s s' : State}
    {l : List (NMat × Option Enr)} (I : Inv c s) (hpos : ∀ t ∈ ts, 0 < t.amt)
    (htq : ((tailsTrades c ts).map Trade.amt).sum ≤ s.tails.quantity)
    (h : sellLoop c ts s = .ok (l, s')) :
    List.Forall₂ (fun t x => (t.commod = c.tailsCommod → qty x = t.amt ∧ Mat.Nonneg x) ∧
      (t.commod ≠ c.tailsCommod → x = cut t)) ts (l.map Prod.fst) := by
  induction ts generalizing s l with
  | nil =>
    simp only [sellLoop, Except.ok.injEq, Prod.mk.injEq] at h
    obtain ⟨rfl, rfl⟩ := h
    exact .nil
  | cons t ts ih =>
    simp only [sellLoop, bind_ok, pure_eq_ok, Except.ok.injEq, Prod.mk.injEq] at h
    obtain ⟨⟨m, e, s1⟩, h1, ⟨l1, s2⟩, h2, rfl, rfl⟩ := h
    have I1 := (sellOne_pres he I h1).1
    have hr : 0 ≤ ((tailsTrades c ts).map Trade.amt).sum := by
      apply List.sum_nonneg
      intro x hx
      obtain ⟨t', ht', rfl⟩ := List.mem_map.1 hx
      exact (hpos t' (by simp [(List.mem_filter.1 ht').1])).le
    rcases sellOne_inv he I h1 with ⟨hc, rfl, b, h3, rfl⟩ | ⟨hc, hne, x, k, rfl, E⟩
    · have e2 : tailsTrades c (t :: ts) = t :: tailsTrades c ts := by simp [tailsTrades, hc]
      rw [e2, List.map_cons, List.sum_cons] at htq
      rw [min_eq_left (by linarith)] at h3
      obtain ⟨-, k2, k3, -, -, k6, -⟩ := popEps_invNN I.tnn he (by linarith) h3
      refine .cons ⟨fun _ => ⟨k2, k6⟩, fun h => absurd hc h⟩
        (ih I1 (fun x hx => hpos x (by simp [hx])) (by simp only [k3]; linarith) h2)
    · have e2 : tailsTrades c (t :: ts) = tailsTrades c ts := by simp [tailsTrades, hc]
      rw [e2] at htq
      refine .cons ⟨fun h => absurd h hc, fun _ => E.response⟩
        (ih I1 (fun x hx => hpos x (by simp [hx])) ?_ h2)
      rw [E.tails]
      simp only [Buf.quantity, totalQty_append, totalQty_cons, totalQty_nil]
      have := E.rest.qty_nonneg
      unfold Buf.quantity at htq
      linarith

/-- The offers of a facility with the bids `p`. -/
theorem mem_offers {c : Cfg} {p : Ports} {o : Offer} (h : o ∈ tailsOffer c p ++ productOffer c p) :
    (∃ tp, p.tails = some tp ∧ o.commod = c.tailsCommod ∧ o.cap = tp.cap ∧ o.least = c.lo ∧
      o.limits = []) ∨
    (∃ pp, p.product = some pp ∧ o.commod = c.productCommod ∧ o.cap = pp.natuCap ∧
      o.least = max c.lo c.eps ∧ o.serves = served c ∧ o ∈ productOffer c p) := by
  rcases List.mem_append.1 h with h | h
  · unfold tailsOffer at h
    split at h
    · cases h
    · rename_i tp htp
      rw [List.mem_singleton] at h
      subst h
      exact Or.inl ⟨tp, htp, rfl, rfl, rfl, rfl⟩
  · have h' := h
    unfold productOffer at h
    split at h
    · cases h
    · rename_i pp hpp
      rw [List.mem_singleton] at h
      subst h
      exact Or.inr ⟨pp, hpp, rfl, rfl, rfl, rfl, h'⟩

/-- The invariant of the facility in a simulation. -/
structure Fit (c : Cfg) (lo hi : ℚ) (s : State) : Prop where
  inv : Inv c s
  room : s.inventory.quantity ≤ c.maxFeed + c.eps
  assayed : AllOf (Assayed lo hi) s.inventory.items

section

variable {A : Agreement} {c : Cfg} (hc : Sensible (.enrichment c)) {lo hi : ℚ}
  (ht : c.tailsAssay < lo)
  (hr : ∀ m, Sim.Solid m → A.target c.productCommod m → served c m = true →
    hi * (m.mass u235 + m.mass u238) ≤ m.mass u235)
include hc

/-- A request that is bid for. -/
theorem served_offer {m : NMat} (hm : Sim.Solid m) (h : served c m = true) :
    0 < m.mass u235 + m.mass u238 ∧ qty (offer m) = qty m ∧ assay (offer m) = assay m := by
  have h8 := ((served_iff hc.1 hm.2).1 h).has238
  have h5 := hm.2.mass_nonneg u235
  have hu : 0 < m.mass u235 + m.mass u238 := by linarith
  exact ⟨hu, (offer_of hu.ne').amount, offer_assay hu.ne' hm.1.ne'⟩

include ht hr

/-- The sales within the offers can be served. -/
theorem serviceable {s s1 : State} {rs : List Sim.Req} {ts : List Sale} {p : Ports}
    (F : Fit c lo hi s) (hrs : ∀ r ∈ rs, A.Allows r)
    (hb : bids c (targets rs) (tick c s) = .ok (p, s1))
    (W : WithinOffers rs (tailsOffer c p ++ productOffer c p) ts) :
    Serviceable c (Mat.squash s.inventory.items) p (ts.map (enrichmentTrade c)) ∧
      (∀ t ∈ ts, t.commod ≠ c.tailsCommod → t.commod = c.productCommod ∧ served c t.target = true) := by
  have hc' := hc
  obtain ⟨V, -, hne, -⟩ := hc
  have he := V.eps
  have kinds : ∀ t ∈ ts, (t.commod = c.tailsCommod ∧ c.lo ≤ t.amt ∧ ∃ tp, p.tails = some tp) ∨
      (t.commod = c.productCommod ∧ t.commod ≠ c.tailsCommod ∧ c.lo ≤ t.amt ∧ c.eps ≤ t.amt ∧
        served c t.target = true ∧ ∃ pp, p.product = some pp) := by
    intro t ht
    obtain ⟨o, h1, h2, h3, -, h4⟩ := W.offered t ht
    rcases mem_offers h1 with ⟨tp, e1, e2, -, e3, -⟩ | ⟨pp, e1, e2, -, e3, e4, -⟩
    · exact Or.inl ⟨by rw [← h2, e2], by rwa [e3] at h3, tp, e1⟩
    · rw [e3] at h3
      exact Or.inr ⟨by rw [← h2, e2], by rw [← h2, e2]; exact hne, (le_max_left _ _).trans h3,
        (le_max_right _ _).trans h3, by rwa [e4] at h4, pp, e1⟩
  have hprod : ∀ t ∈ ts, t.commod ≠ c.tailsCommod → Sim.Solid t.target ∧
      A.target c.productCommod t.target := by
    intro t h1 h2
    have := hrs _ (W.asked t h1)
    rcases kinds t h1 with ⟨e, -⟩ | ⟨e, -⟩
    · exact absurd e h2
    · exact ⟨this.1, by rw [← e]; exact this.2⟩
  have hfeed : p.product ≠ none → s.inventory.items ≠ [] ∧
      (∀ pp, p.product = some pp → pp.feedAssay = assay (Mat.squash s.inventory.items)) := by
    intro hp
    obtain ⟨-, ⟨e, -⟩ | ⟨rs', -, -, -, h1, -, h2⟩⟩ := bids_inv he.le hb
    · exact absurd e hp
    · refine ⟨h1, ?_⟩
      intro pp hpp
      rw [h2] at hpp
      rw [← Option.some.inj hpp]
      rfl
  have hB : s.inventory.items ≠ [] → 0 < qty (Mat.squash s.inventory.items) ∧
      lo ≤ assay (Mat.squash s.inventory.items) ∧ assay (Mat.squash s.inventory.items) ≤ hi := by
    intro hi'
    have h0 := F.inv.squash_pos hi'
    have hA := (assayed_blendable lo hi).squash _ F.assayed
    have hu : 0 < (Mat.squash s.inventory.items).mass u235 +
        (Mat.squash s.inventory.items).mass u238 := by rw [← pure_qty hA.pure]; exact h0
    refine ⟨h0, ?_⟩
    unfold assay
    rw [if_neg hu.ne', le_div_iff₀ hu, div_le_iff₀ hu]
    exact ⟨hA.lower, hA.upper⟩
  have hrich : ∀ t ∈ ts, t.commod ≠ c.tailsCommod →
      c.tailsAssay < assay (Mat.squash s.inventory.items) ∧
      assay (Mat.squash s.inventory.items) ≤ assay (offer t.target) := by
    intro t h1 h2
    rcases kinds t h1 with ⟨e, -⟩ | ⟨-, -, -, -, hs, pp, hpp⟩
    · exact absurd e h2
    · obtain ⟨b0, b1, b2⟩ := hB (hfeed (by rw [hpp]; simp)).1
      obtain ⟨k1, k2⟩ := hprod t h1 h2
      obtain ⟨u1, u2, u3⟩ := served_offer hc' k1 hs
      refine ⟨by linarith, b2.trans ?_⟩
      rw [u3]
      unfold assay
      rw [if_neg u1.ne', le_div_iff₀ u1]
      exact hr _ k1 k2 hs
  have htails : tailsTrades c (ts.map (enrichmentTrade c)) =
      (ts.filter fun t => t.commod = c.tailsCommod).map (enrichmentTrade c) := by
    unfold tailsTrades
    rw [List.filter_map]; rfl
  have hproduct : productTrades c (ts.map (enrichmentTrade c)) =
      (ts.filter fun t => t.commod = c.productCommod).map (enrichmentTrade c) := by
    unfold productTrades
    rw [List.filter_map]
    congr 1
    apply List.filter_congr
    intro t ht
    simp only [Function.comp, enrichmentTrade]
    rcases kinds t ht with ⟨e, -⟩ | ⟨e, e', -⟩
    · simp [e, hne.symm]
    · simp [e, hne]
  have hmem : ∀ x ∈ productTrades c (ts.map (enrichmentTrade c)), ∃ t ∈ ts,
      t.commod ≠ c.tailsCommod ∧ x = ⟨t.commod, offer t.target, t.amt⟩ := by
    intro x hx
    obtain ⟨h1, h2⟩ := List.mem_filter.1 hx
    obtain ⟨t, h3, rfl⟩ := List.mem_map.1 h1
    have h2 : t.commod ≠ c.tailsCommod := fun e => by simp [enrichmentTrade, e] at h2
    exact ⟨t, h3, h2, by simp [enrichmentTrade, h2]⟩
  have hcut : ∀ (f : NMat → Option ℚ), ((productTrades c (ts.map (enrichmentTrade c))).map fun t =>
      f (cut t)) = (ts.filter fun t => t.commod = c.productCommod).map fun t =>
        f (cut ⟨c.productCommod, offer t.target, t.amt⟩) := by
    intro f
    rw [hproduct, List.map_map]
    apply List.map_congr_left
    intro t ht
    have : t.commod = c.productCommod := by simpa using (List.mem_filter.1 ht).2
    simp only [Function.comp, enrichmentTrade, this, if_neg hne]
  refine ⟨⟨?_, ?_, ?_, ?_, ?_, ?_, ?_, ?_, ?_⟩, ?_⟩
  · intro x hx
    obtain ⟨t, h1, rfl⟩ := List.mem_map.1 hx
    have h2 := W.pos t h1
    refine ⟨h2.1, ?_⟩
    by_cases e : t.commod = c.tailsCommod
    · simpa [enrichmentTrade, e] using h2.2
    · rcases kinds t h1 with ⟨e', -⟩ | ⟨-, -, -, -, hs, -⟩
      · exact absurd e' e
      · have := (served_offer hc' (hprod t h1 e).1 hs).2.1
        simpa [enrichmentTrade, e, this] using h2.2
  · intro x hx
    obtain ⟨t, h1, rfl⟩ := List.mem_map.1 hx
    rcases kinds t h1 with ⟨-, h, -⟩ | ⟨-, -, h, -⟩ <;> exact h
  · rw [htails]
    intro hn
    obtain ⟨x, hx⟩ := List.exists_mem_of_ne_nil _ hn
    obtain ⟨t, h1, rfl⟩ := List.mem_map.1 hx
    obtain ⟨h1, h2⟩ := List.mem_filter.1 h1
    have h2 : t.commod = c.tailsCommod := by simpa using h2
    rcases kinds t h1 with ⟨-, -, h⟩ | ⟨-, h, -⟩
    · exact h
    · exact absurd h2 h
  · intro tp htp
    have := W.caps ⟨c.tailsCommod, tp.cap, c.lo, none, fun _ => true, []⟩
      (List.mem_append_left _ (by unfold tailsOffer; rw [htp]; simp))
    rw [htails, List.map_map]
    exact this
  · intro x hx
    obtain ⟨t, h1, h2, rfl⟩ := hmem x hx
    rcases kinds t h1 with ⟨e, -⟩ | ⟨-, -, -, -, hs, pp, hpp⟩
    · exact absurd e h2
    · exact ⟨by rw [hpp]; simp, offer_pure _, offer_nn (hprod t h1 h2).1.2⟩
  · intro pp hpp
    unfold Within
    rw [hcut]
    obtain ⟨vs, k1, k2⟩ := W.limits _ (List.mem_append_right _ (by
      unfold productOffer; rw [hpp]; exact List.mem_singleton.2 rfl)) _ (List.mem_cons_self ..)
    exact ⟨vs, k1, k2⟩
  · intro pp hpp
    unfold Within
    rw [hcut]
    obtain ⟨vs, k1, k2⟩ := W.limits _ (List.mem_append_right _ (by
      unfold productOffer; rw [hpp]; exact List.mem_singleton.2 rfl)) _
      (List.mem_cons_of_mem _ (List.mem_cons_self ..))
    exact ⟨vs, k1, k2⟩
  · intro pp hpp x hx q hq
    obtain ⟨t, h1, h2, rfl⟩ := hmem x hx
    obtain ⟨f1, f2⟩ := hfeed (by rw [hpp]; simp)
    obtain ⟨b0, b1, b2⟩ := hB f1
    obtain ⟨r1, r2⟩ := hrich t h1 h2
    have hA := (assayed_blendable lo hi).squash _ F.assayed
    rcases kinds t h1 with ⟨e, -⟩ | ⟨-, -, l1, l2, hs, -⟩
    · exact absurd e h2
    · obtain ⟨u1, u2, u3⟩ := served_offer hc' (hprod t h1 h2).1 hs
      have hamt := W.pos t h1
      rw [f2 pp hpp, natuConvert_cut (t := ⟨t.commod, offer t.target, t.amt⟩)
        (by rw [u2]; exact (hprod t h1 h2).1.1) hamt.1 (offer_pure _) r1.ne' hA.pure b0.ne'] at hq
      simp only [Option.some.injEq] at hq
      have : t.amt ≤ q := by
        rw [← hq]
        unfold need
        rw [pure_uFrac hA.pure b0.ne', div_one]
        have : 1 ≤ (assay (offer t.target) - c.tailsAssay) /
            (assay (Mat.squash s.inventory.items) - c.tailsAssay) := by
          rw [le_div_iff₀ (by linarith)]; linarith
        nlinarith [hamt.1]
      exact ⟨l1.trans this, l2.trans this⟩
  · intro x hx
    obtain ⟨t, h1, h2, rfl⟩ := hmem x hx
    exact hrich t h1 h2
  · intro t h1 h2
    rcases kinds t h1 with ⟨e, -⟩ | ⟨e, -, -, -, hs, -⟩
    · exact absurd e h2
    · exact ⟨e, hs⟩

/-- The sales and the deliveries of a step. -/
theorem stepped {s : State} {rs : List Sim.Req} {os : List Offer} {ts : List Sale}
    {ms : List Sim.NMat} (F : Fit c lo hi s) (hrs : ∀ r ∈ rs, A.Allows r)
    (ho : (enrichment c).offers rs s = .ok os) (W : WithinOffers rs os ts)
    (hbuy : HonestBuys c (tick c s) ms) :
    ∃ p s1 l s2 s3, bids c (targets rs) (tick c s) = .ok (p, s1) ∧
      Enrichment.sellAll c (ts.map (enrichmentTrade c)) s1 = .ok (l, s2) ∧
      accept c ms s2 = .ok s3 ∧
      List.Forall₂ (fun t x => (Sim.Solid x ∧ qty x = Sale.amt t) ∧
        (t.commod ≠ c.tailsCommod → t.commod = c.productCommod ∧ served c t.target = true ∧
          x = (offer t.target).scale (t.amt / qty (offer t.target)))) ts (l.map Prod.fst) ∧
      (AllOf (Assayed lo hi) ms → Fit c lo hi s3) ∧
      ∀ n, Mat.massOf (contents s3 ++ l.map Prod.fst) n = Mat.massOf (contents s ++ ms) n := by
  have hc' := hc
  obtain ⟨V, -, hne, -⟩ := hc
  have he := V.eps.le
  simp only [enrichment, bind_ok, pure_eq_ok, Except.ok.injEq] at ho
  obtain ⟨⟨p, s1⟩, hb, rfl⟩ := ho
  obtain ⟨hS, hk⟩ := serviceable hc' ht hr F hrs hb W
  have hpure : Enrichment.Pure s.inventory.items := fun m hm =>
    (F.assayed m hm).pure m (by simp)
  obtain ⟨o, s3, h⟩ := step_delivers V F.inv F.room
    (i := ⟨targets rs, ts.map (enrichmentTrade c), ms⟩) hbuy hb hpure hS
  obtain ⟨s1', s2, l, S⟩ := step_inv h
  have hb' := S.bids
  rw [hb] at hb'
  simp only [Except.ok.injEq, Prod.mk.injEq] at hb'
  obtain ⟨hp, rfl⟩ := hb'
  have hs := S.sells
  obtain ⟨I1, a1, -⟩ := bids_pres he (F.inv.swu _) hb
  obtain ⟨I3, hbal⟩ := step_pres he F.inv hbuy.mass h
  refine ⟨p, s1, l, s2, s3, hb, hs, S.buys, ?_, ?_, ?_⟩
  · have hfor : List.Forall₂ (fun t x => (t.commod = c.tailsCommod → qty x = t.amt ∧ Mat.Nonneg x) ∧
        (t.commod ≠ c.tailsCommod → x = cut t)) (ts.map (enrichmentTrade c)) (l.map Prod.fst) := by
      have hpos : ∀ t ∈ ts.map (enrichmentTrade c), 0 < t.amt := fun t h => (hS.amt t h).1
      have htq : ((tailsTrades c (ts.map (enrichmentTrade c))).map Trade.amt).sum ≤
          s1.tails.quantity := by
        rw [a1]
        change _ ≤ s.tails.quantity
        by_cases hn : tailsTrades c (ts.map (enrichmentTrade c)) = []
        · rw [hn]; exact F.inv.tnn.total_nonneg
        · obtain ⟨tp, htp⟩ := hS.tails hn
          refine le_trans (hS.tailsCap tp htp) ?_
          have := (bids_inv he hb).1
          rw [htp] at this
          unfold tailsBids at this
          split at this
          · cases this
          · split at this
            · rw [Option.some.inj this]; exact le_rfl
            · cases this
      generalize ts.map (enrichmentTrade c) = us at hs hpos htq ⊢
      change Enrichment.sellAll c us s1 = _ at hs
      cases us with
      | nil =>
        simp only [Enrichment.sellAll, Except.ok.injEq, Prod.mk.injEq] at hs
        rw [← hs.1]
        exact .nil
      | cons t us =>
        exact sellLoop_amounts he (I1.intra (some (0, 0))) hpos htq (sell_inv hs).1
    have hpos := W.pos
    have hsol : ∀ t ∈ ts, Sim.Solid t.target := fun t h => (hrs _ (W.asked t h)).1
    rw [List.forall₂_map_left_iff] at hfor
    generalize l.map Prod.fst = xs at hfor ⊢
    clear hS hs h S hb W hp hbal
    induction hfor with
    | nil => exact .nil
    | @cons t x ts l h1 _ ih =>
      refine .cons ?_ (ih (fun y hy => hk y (by simp [hy])) (fun y hy => hpos y (by simp [hy]))
        fun y hy => hsol y (by simp [hy]))
      have hamt := hpos t (by simp)
      by_cases e : t.commod = c.tailsCommod
      · obtain ⟨k1, k2⟩ := h1.1 e
        have k1 : qty x = t.amt := k1
        exact ⟨⟨⟨by rw [k1]; exact hamt.1, k2⟩, k1⟩, fun h => absurd e h⟩
      · obtain ⟨e1, e2⟩ := hk t (by simp) e
        have k := h1.2 e
        simp only [cut, enrichmentTrade, if_neg e] at k
        have hsl := hsol t (by simp)
        have hq : 0 < qty (offer t.target) := by
          rw [(served_offer hc' hsl e2).2.1]; exact hsl.1
        have hxq : qty x = t.amt := by
          rw [k, Mat.qty_scale]; field_simp
        refine ⟨⟨⟨by rw [hxq]; exact hamt.1, ?_⟩, hxq⟩, fun _ => ⟨e1, e2, k⟩⟩
        rw [k]
        exact (offer_nn hsl.2).scale (div_pos hamt.1 hq).le
  · intro hms
    refine ⟨I3, (step_room V F.inv F.room hbuy h).trans (max_le (by linarith) F.room), ?_⟩
    have B := assayed_blendable lo hi
    have h2 := sellAll_has B he I1 (bids_has B he (s := tick c s) F.assayed hb) hs
    obtain ⟨I2, -⟩ := sellAll_pres he I1 hs
    obtain ⟨-, rfl⟩ := accept_pres I2 hbuy.mass S.buys
    intro x hx
    rcases List.mem_append.1 hx with hx | hx
    · exact h2 x hx
    · exact hms x hx
  · rw [S.sold] at hbal
    intro n
    rw [Mat.massOf_append, Mat.massOf_append]
    exact (hbal n).symm

end

/-- What the facility asks for. -/
theorem asked {c : Cfg} (V : Valid c) {s : State} {as : List Ask} (h : (enrichment c).asks s = .ok as) :
    (requests c (tick c s) = none ∧ as = []) ∨ ∃ q, requests c (tick c s) = some q ∧ 0 < q ∧
      as = [⟨[(c.feedCommod, c.feedRecipe.scale (q / qty c.feedRecipe))], q, false⟩] := by
  simp only [enrichment, Except.ok.injEq] at h
  split at h
  · rename_i h0
    exact Or.inl ⟨h0, h.symm⟩
  · rename_i q h0
    refine Or.inr ⟨q, h0, ?_, h.symm⟩
    unfold requests at h0
    split at h0
    · rename_i h1
      have := Option.some.inj h0
      have := V.eps
      linarith
    · cases h0

/-- Deliveries within the requests are what an exchange can make of them. -/
theorem honest {c : Cfg} (V : Valid c) {s : State} {as : List Ask} {ds : List Delivery}
    (h : (enrichment c).asks s = .ok as) (WA : WithinAsks as ds) :
    HonestBuys c (tick c s) (ds.map Delivery.mat) ∧ ∀ d ∈ ds, d.commod = c.feedCommod := by
  have hs : ∀ m ∈ ds.map Delivery.mat, 0 < qty m ∧ Mat.Nonneg m := by
    intro m hm
    obtain ⟨d, hd, rfl⟩ := List.mem_map.1 hm
    exact WA.solid d hd
  rcases asked V h with ⟨h0, rfl⟩ | ⟨q, h0, h1, rfl⟩
  · rw [WithinAsks.empty WA]
    exact ⟨⟨by simp, by rw [h0]; simp⟩, by simp⟩
  · refine ⟨⟨hs, by rw [h0]; exact WA.single⟩, ?_⟩
    intro d hd
    obtain ⟨a, k1, k2, -⟩ := WA.asked d hd
    have := List.mem_of_getElem? k1
    rw [List.mem_singleton] at this
    subst this
    simpa using k2

theorem deployed {μ : Sim.NMat → ℚ} (hμ : Measure μ) {A : Agreement} {c : Cfg}
    (hc : Sensible (.enrichment c)) (hA : Suits A (.enrichment c)) :
    ∃ p, deploy (.enrichment c) = .ok p ∧ Sim.Good A μ holdings p := by
  have hc' := hc
  obtain ⟨V, hcap, hne, -⟩ := hc
  obtain ⟨a1, a2, a3, lo, hi, ht, a4, a5, hr⟩ := hA
  have he := V.eps.le
  have hb : ∃ s, build c = .ok s := by
    unfold build
    split
    · rename_i h0
      simp only [addMat]
      rw [(Buf.push_ok (b := ⟨some c.maxFeed, []⟩)).2 ⟨?_, rfl⟩]
      · exact ⟨_, rfl⟩
      · have hp := V.recipePos
        have hq : qty (c.feedRecipe.scale (c.initialFeed / qty c.feedRecipe)) = c.initialFeed := by
          rw [Mat.qty_scale]; field_simp
        simp only [Buf.fits, Buf.space, Option.map_some, Buf.quantity, totalQty_nil, sub_zero,
          decide_eq_true_eq, max_eq_right V.maxFeed, hq]
        linarith
    · exact ⟨_, rfl⟩
  obtain ⟨s, hb⟩ := hb
  have nobuys : ∀ s : State, HonestBuys c (tick c s) [] := by
    intro s
    refine ⟨by simp, ?_⟩
    unfold requests
    split
    · simp
    · simp
  refine ⟨⟨.enrichment c, s⟩, by simp only [deploy, hb, ok_bind, pure_eq_ok], Fit c lo hi, ?_, ?_⟩
  · constructor
    · intro s _
      refine ⟨_, rfl, ?_⟩
      intro a ha
      rcases asked V (s := s) rfl with ⟨-, e⟩ | ⟨q, -, h1, e⟩
      · rw [e] at ha; cases ha
      · rw [e, List.mem_singleton] at ha
        subst ha
        refine ⟨h1.le, ?_⟩
        intro x hx
        rw [List.mem_singleton] at hx
        subst hx
        have hp := V.recipePos
        have hq : qty (c.feedRecipe.scale (q / qty c.feedRecipe)) = q := by
          rw [Mat.qty_scale]; field_simp
        exact ⟨⟨by rw [hq]; exact h1, V.recipe.scale (by positivity)⟩, a1 _ (by positivity)⟩
    · intro s rs F _
      obtain ⟨p, s1, hb⟩ := bids_ok V (F.inv.swu c.swuCapacity) F.room (targets rs)
      refine ⟨tailsOffer c p ++ productOffer c p, ?_, ?_⟩
      · have hb' : bids c (targets rs) (tick c s) = .ok (p, s1) := hb
        show (enrichment c).offers rs s = _
        simp only [enrichment, hb', ok_bind, pure_eq_ok]
      · intro o ho
        obtain ⟨e1, e2⟩ := bids_inv he hb
        rcases mem_offers ho with ⟨tp, h1, -, h2, -, h3⟩ | ⟨pp, h1, -, h2, -, -, h3⟩
        · rw [h3, h2]
          refine ⟨?_, by simp⟩
          rw [h1] at e1
          unfold tailsBids at e1
          split at e1
          · cases e1
          · split at e1
            · rw [Option.some.inj e1]; exact F.inv.tnn.total_nonneg
            · cases e1
        · rw [h2]
          rcases e2 with ⟨e, -⟩ | ⟨rs', -, h0, h0', -, -, e⟩
          · rw [h1] at e; cases e
          · rw [h1] at e
            have e := Option.some.inj e
            have k1 : 0 ≤ pp.natuCap := by rw [e]; exact h0.le
            have k2 : 0 ≤ pp.swuCap := by rw [e]; exact h0'.le
            refine ⟨k1, ?_⟩
            unfold productOffer at h3
            rw [h1, List.mem_singleton] at h3
            subst h3
            intro L hL
            simp only [List.mem_cons, List.not_mem_nil, or_false] at hL
            rcases hL with rfl | rfl
            · exact k2
            · exact k1
    · intro s rs os ts F hrs ho W
      obtain ⟨p, s1, l, s2, s3, k1, k2, -, k4, -⟩ := stepped hc' ht hr F hrs ho W (nobuys s)
      refine ⟨l.map Prod.fst, s2, ?_, ?_⟩
      · show (enrichment c).sell rs ts s = _
        simp only [enrichment, k1, k2, ok_bind, pure_eq_ok]
        rfl
      have hall : ∀ t ∈ ts, A.Allows ⟨t.commod, t.target⟩ := fun t h => hrs _ (W.asked t h)
      have hpos := W.pos
      generalize l.map Prod.fst = xs at k4 ⊢
      clear W k2 ho
      induction k4 with
      | nil => exact .nil
      | @cons t x ts l h1 _ ih =>
        refine .cons ⟨h1.1, ?_⟩ (ih (fun y hy => hall y (by simp [hy]))
          fun y hy => hpos y (by simp [hy]))
        by_cases e : t.commod = c.tailsCommod
        · rw [e]; exact a2 _ h1.1.1
        · obtain ⟨e1, e2, e3⟩ := h1.2 e
          obtain ⟨w1, w2⟩ := hall t (by simp)
          simp only at w1 w2
          rw [e1] at w2 ⊢
          rw [e3]
          refine a3 _ _ w1 w2 e2 (div_pos (hpos t (by simp)).1 ?_)
          rw [(served_offer hc' w1 e2).2.1]
          exact w1.1
    · intro s rs os ts l m as ds F hrs ho W hs ha WA hd
      obtain ⟨hh, hk⟩ := honest V ha WA
      obtain ⟨p, s1, l', s2, s3, k1, k2, k3, -, k5, k6⟩ := stepped hc' ht hr F hrs ho W hh
      change (enrichment c).sell rs ts s = _ at hs
      simp only [enrichment, k1, k2, ok_bind, pure_eq_ok, Except.ok.injEq, Prod.mk.injEq] at hs
      obtain ⟨rfl, rfl⟩ := hs
      refine ⟨s3, k3, k5 ?_, hμ _ _ k6⟩
      intro x hx
      obtain ⟨d, hd', rfl⟩ := List.mem_map.1 hx
      refine a5 _ (WA.solid d hd') ?_
      rw [← hk d hd']
      exact hd d hd'
    · intro s F m hm
      rcases List.mem_append.1 hm with hm | hm
      · exact F.inv.nn m hm
      · exact F.inv.tnn m hm
  · obtain ⟨I, e1, -, -, e2⟩ := build_inv V hb
    refine ⟨I, e2, ?_⟩
    show AllOf _ s.inventory.items
    rw [e1]
    unfold initial
    split
    · rename_i h0
      intro x hx
      rw [List.mem_singleton] at hx
      subst hx
      have := V.recipePos
      exact (assayed_blendable lo hi).scale _ _ (by positivity) a4
    · intro x hx
      simp at hx

end OfEnrichment

end Cyc.Sim
