import Verif.Sim.Props7
import Verif.Sim.Sweeping

/-!
# An enrichment facility that is large enough
-/

namespace Cyc.Enrichment

/-- With feed to spare, the sales take exactly what they need. -/
theorem sellLoop_uses {c : Cfg} (he : 0 < c.eps) {B : NMat} {ts : List Trade} {s s' : State}
    {l : List (NMat × Option Enr)} (I : Inv c s) (hb : Blend B s.inventory.items)
    (hp : ∀ t ∈ productTrades c ts, 0 ≤ need c B t.offer t.amt)
    (hn : needs c B ts + c.eps ≤ s.inventory.quantity) (h : sellLoop c ts s = .ok (l, s')) :
    s'.inventory.quantity = s.inventory.quantity - needs c B ts := by
  induction ts generalizing s l with
  | nil =>
    simp only [sellLoop, Except.ok.injEq, Prod.mk.injEq] at h
    obtain ⟨rfl, rfl⟩ := h
    simp [needs, productTrades]
  | cons t ts ih =>
    simp only [sellLoop, bind_ok, pure_eq_ok, Except.ok.injEq, Prod.mk.injEq] at h
    obtain ⟨⟨m, e, s1⟩, h1, ⟨l1, s2⟩, h2, rfl, rfl⟩ := h
    obtain ⟨I1, -⟩ := sellOne_pres he.le I h1
    obtain ⟨hb1, hf, -⟩ := blend_step he.le I hb h1
    rcases sellOne_inv he.le I h1 with ⟨hc, rfl, b, h3, rfl⟩ | ⟨hc, hne, x, k, rfl, E⟩
    · have e1 : productTrades c (t :: ts) = productTrades c ts := by simp [productTrades, hc]
      have e3 : needs c B (t :: ts) = needs c B ts := by simp [needs, e1]
      rw [e1] at hp
      rw [e3] at hn ⊢
      exact ih (s := { s with tails := b }) I1 hb1 hp hn h2
    · have e1 : productTrades c (t :: ts) = t :: productTrades c ts := by simp [productTrades, hc]
      have e3 : needs c B (t :: ts) = need c B t.offer t.amt + needs c B ts := by simp [needs, e1]
      rw [e1] at hp
      rw [e3] at hn ⊢
      have hp' : ∀ t ∈ productTrades c ts, 0 ≤ need c B t.offer t.amt := fun x hx => hp x (by simp [hx])
      have h0 : 0 ≤ needs c B ts := by
        unfold needs
        apply List.sum_nonneg
        intro x hx
        obtain ⟨t', ht', rfl⟩ := List.mem_map.1 hx
        exact hp' t' ht'
      obtain ⟨-, y, e, -, hfeed⟩ := hf hc
      obtain rfl := Option.some.inj e
      have hQ : qty (Mat.squash s.inventory.items) = s.inventory.quantity := by simp [Buf.quantity]
      have hA := E.amount
      rw [hQ, hfeed] at hA
      have hinv : s1.inventory.quantity = s.inventory.quantity - need c B t.offer t.amt := by
        rcases E.inv with ⟨rfl, -⟩ | ⟨hk, h'⟩
        · exfalso
          rcases hA with h | ⟨-, -, h | h⟩
          · linarith
          · rw [abs_lt] at h; linarith [h.1]
          · linarith
        · rw [h']
          show totalQty [_] = _
          rw [totalQty_cons, totalQty_nil, Mat.qty_scale, hQ, add_zero]
          rcases hA with h | ⟨h, -⟩
          · rw [← h]; ring
          · exact absurd h (ne_of_lt hk)
      rw [ih I1 hb1 hp' (by rw [hinv]; linarith) h2, hinv]
      ring

/-- Sales of tails do not touch the feed. -/
theorem sellLoop_tails_only {c : Cfg} (he : 0 ≤ c.eps) {ts : List Trade} {s s' : State}
    {l : List (NMat × Option Enr)} (I : Inv c s) (hp : productTrades c ts = [])
    (h : sellLoop c ts s = .ok (l, s')) : s'.inventory = s.inventory := by
  induction ts generalizing s l with
  | nil =>
    simp only [sellLoop, Except.ok.injEq, Prod.mk.injEq] at h
    rw [h.2]
  | cons t ts ih =>
    simp only [sellLoop, bind_ok, pure_eq_ok, Except.ok.injEq, Prod.mk.injEq] at h
    obtain ⟨⟨m, e, s1⟩, h1, ⟨l1, s2⟩, h2, rfl, rfl⟩ := h
    obtain ⟨I1, -⟩ := sellOne_pres he I h1
    rcases sellOne_inv he I h1 with ⟨hc, rfl, b, h3, rfl⟩ | ⟨hc, -⟩
    · rw [ih (s := { s with tails := b }) I1 (by simpa [productTrades, hc] using hp) h2]
    · simp [productTrades, hc] at hp

end Cyc.Enrichment

namespace Cyc.Sim

namespace OfEnrichment
open Enrichment

variable {A : Agreement} {ks : List Kind} {c : Cfg} {lo hi φ σ : ℚ}

/-- The assay of the feed. -/
theorem Fit.assay {s : State} (F : Fit c lo hi s) (h : s.inventory.items ≠ []) :
    0 < qty (Mat.squash s.inventory.items) ∧ lo ≤ Enrichment.assay (Mat.squash s.inventory.items) ∧
      Enrichment.assay (Mat.squash s.inventory.items) ≤ hi ∧
      Enrichment.Pure [Mat.squash s.inventory.items] := by
  have h0 := F.inv.squash_pos h
  have hA := (assayed_blendable lo hi).squash _ F.assayed
  have hu : 0 < (Mat.squash s.inventory.items).mass u235 +
      (Mat.squash s.inventory.items).mass u238 := by rw [← pure_qty hA.pure]; exact h0
  refine ⟨h0, ?_, ?_, hA.pure⟩
  · unfold Enrichment.assay
    rw [if_neg hu.ne', le_div_iff₀ hu]
    exact hA.lower
  · unfold Enrichment.assay
    rw [if_neg hu.ne', div_le_iff₀ hu]
    exact hA.upper

/-- What a product that is asked for takes. -/
theorem takes (hc : Sensible (.enrichment c)) (hE : Enriches A ks c lo hi φ σ) {m B : NMat} {q : ℚ}
    (hm : Sim.Solid m) (ht : A.target c.productCommod m) (hs : served c m = true) (hq : 0 < q)
    (hB : 0 < qty B) (hx : lo ≤ assay B) (hy : assay B ≤ hi) (hp : Enrichment.Pure [B]) :
    (swuConvert c.value (assay B) c.tailsAssay (cut ⟨c.productCommod, offer m, q⟩) =
      some (work c B (offer m) q) ∧ work c B (offer m) q ≤ σ * q) ∧
    (natuConvert (assay B) c.tailsAssay (cut ⟨c.productCommod, offer m, q⟩) =
      some (need c B (offer m) q) ∧ q ≤ need c B (offer m) q ∧ need c B (offer m) q ≤ φ * q) := by
  obtain ⟨u1, u2, u3⟩ := served_offer hc hm hs
  have hf := (served_iff hc.1 hm.2).1 hs
  have hne : assay B ≠ c.tailsAssay := ne_of_gt (lt_of_lt_of_le hE.tails hx)
  have hpos : 0 < assay B - c.tailsAssay := sub_pos.2 (lt_of_lt_of_le hE.tails hx)
  have hoq : 0 < qty (offer m) := by rw [u2]; exact hm.1
  obtain ⟨k1, k2⟩ := hE.uses m hm ht hf _ hx hy
  have hrich := hE.rich m hm ht hf
  refine ⟨⟨swuConvert_cut (t := ⟨c.productCommod, offer m, q⟩) hoq hq hne, ?_⟩,
    natuConvert_cut (t := ⟨c.productCommod, offer m, q⟩) hoq hq (offer_pure _) hne hp hB.ne', ?_, ?_⟩
  · unfold work
    rw [u3]
    unfold workPerKg feedPerKg at k2
    nlinarith
  · unfold need
    rw [u3, pure_uFrac hp hB.ne', div_one]
    have : 1 ≤ (assay m - c.tailsAssay) / (assay B - c.tailsAssay) := by
      rw [le_div_iff₀ hpos]
      have : hi ≤ assay m := by
        unfold assay
        rw [if_neg u1.ne', le_div_iff₀ u1]
        exact hrich
      linarith
    nlinarith
  · unfold need
    rw [u3, pure_uFrac hp hB.ne', div_one]
    unfold feedPerKg at k1
    nlinarith

/-- A step leaves all the feed but what the sales may take, and adds what is delivered. -/
theorem keeps (hc : Sensible (.enrichment c)) (hE : Enriches A ks c lo hi φ σ) {s s' m : State}
    {rs : List Sim.Req} {os : List Offer} {ts : List Sale} {l : List Sim.NMat} {as : List Ask}
    {ds : List Delivery} (F : Fit c lo hi s) (hrs : ∀ r ∈ rs, A.Allows r)
    (P : Part (enrichment c) rs s os ts l as ds m s')
    (hd : ∀ d ∈ ds, A.mat d.commod d.mat) {R : ℚ}
    (hR : ((ts.filter fun t => t.commod = c.productCommod).map Sale.amt).sum ≤ R) (hφ : 0 ≤ φ)
    (hq : φ * R + c.eps ≤ s.inventory.quantity) :
    Fit c lo hi s' ∧ s.inventory.quantity - φ * R + totalQty (ds.map Delivery.mat) ≤
      s'.inventory.quantity := by
  have V := hc.1
  have he := V.eps
  obtain ⟨hh, hk⟩ := honest V P.asks P.deliveries
  have hr : ∀ m, Sim.Solid m → A.target c.productCommod m → served c m = true →
      hi * (m.mass u235 + m.mass u238) ≤ m.mass u235 :=
    fun m hm ht hs => hE.rich m hm ht ((served_iff V hm.2).1 hs)
  obtain ⟨p, s1, l', s2, s3, k1, k2, k3, k4, k5, -⟩ := stepped hc hE.tails hr F hrs P.offers P.sales hh
  have hs := P.sell
  simp only [enrichment, k1, k2, ok_bind, pure_eq_ok, Except.ok.injEq, Prod.mk.injEq] at hs
  obtain ⟨-, rfl⟩ := hs
  obtain rfl : s3 = s' := Except.ok.inj (k3.symm.trans P.settle)
  refine ⟨k5 ?_, ?_⟩
  · intro x hx
    obtain ⟨d, hd', rfl⟩ := List.mem_map.1 hx
    refine hE.feed _ (P.deliveries.solid d hd') ?_
    rw [← hk d hd']
    exact hd d hd'
  obtain ⟨I1, a1, -, -, a4, -⟩ := bids_pres he.le (F.inv.swu _) k1
  obtain ⟨I2, -, -, -, -, hnil, -⟩ := sellAll_pres he.le I1 k2
  have hacc : s3.inventory.quantity = s2.inventory.quantity + totalQty (ds.map Delivery.mat) := by
    obtain ⟨-, rfl⟩ := accept_pres I2 hh.mass k3
    simp only [Buf.quantity, totalQty_append]
  rw [hacc]
  refine add_le_add_left ?_ _
  have a4 : s1.inventory.quantity = s.inventory.quantity := a4
  have hR0 : 0 ≤ ((ts.filter fun t => t.commod = c.productCommod).map Sale.amt).sum := by
    apply List.sum_nonneg
    intro x hx
    obtain ⟨t, ht, rfl⟩ := List.mem_map.1 hx
    exact (P.sales.pos t (List.mem_filter.1 ht).1).1.le
  have hφR : 0 ≤ φ * R := mul_nonneg hφ (hR0.trans hR)
  have hne : s.inventory.items ≠ [] := by
    intro e
    simp only [Buf.quantity, e, totalQty_nil] at hq
    linarith
  obtain ⟨b0, b1, b2, b3⟩ := F.assay hne
  set B := Mat.squash s.inventory.items with hB
  have ho := P.offers
  simp only [enrichment, k1, ok_bind, pure_eq_ok, Except.ok.injEq] at ho
  subst ho
  obtain ⟨S, hprod⟩ := serviceable hc hE.tails hr F hrs k1 P.sales
  by_cases hts : ts = []
  · subst hts
    rw [(hnil rfl).2, a4]
    linarith
  have hloop : sellLoop c (ts.map (enrichmentTrade c)) { s1 with intra := some (0, 0) } = .ok (l', s2) := by
    cases ts with
    | nil => exact absurd rfl hts
    | cons t ts => exact (sell_inv k2).1
  have hneed : ∀ t ∈ ts, t.commod ≠ c.tailsCommod → t.commod = c.productCommod ∧
      0 ≤ need c B (offer t.target) t.amt ∧ need c B (offer t.target) t.amt ≤ φ * t.amt := by
    intro t ht h
    obtain ⟨e1, e2⟩ := hprod t ht h
    have hal := hrs _ (P.sales.asked t ht)
    have hpos := (P.sales.pos t ht).1
    have htar : A.target c.productCommod t.target := by rw [← e1]; exact hal.2
    obtain ⟨-, -, j1, j2⟩ := takes hc hE hal.1 htar e2 hpos b0 b1 b2 b3
    exact ⟨e1, by linarith, j2⟩
  have hneeds : needs c B (ts.map (enrichmentTrade c)) ≤
      φ * ((ts.filter fun t => t.commod = c.productCommod).map Sale.amt).sum := by
    clear hloop hR hq hR0 hnil k4 k2 S hprod P hts
    unfold needs productTrades
    rw [List.filter_map, List.map_map]
    induction ts with
    | nil => simp
    | cons t ts ih =>
      have ih := ih fun x hx => hneed x (by simp [hx])
      by_cases e : t.commod = c.tailsCommod
      · have hne2 : c.tailsCommod ≠ c.productCommod := fun h => hc.2.2.1 h.symm
        rw [List.filter_cons_of_neg (by simp [enrichmentTrade, e]),
          List.filter_cons_of_neg (by simpa [e] using hne2)]
        exact ih
      · obtain ⟨h1, h2, h3⟩ := hneed t (by simp) e
        rw [List.filter_cons_of_pos (by simp [enrichmentTrade, e]),
          List.filter_cons_of_pos (by simpa using h1), List.map_cons, List.map_cons, List.sum_cons,
          List.sum_cons, mul_add]
        simp only [Function.comp, enrichmentTrade, if_neg e] at ih ⊢
        linarith
  have hle : needs c B (ts.map (enrichmentTrade c)) ≤ φ * R :=
    hneeds.trans (mul_le_mul_of_nonneg_left hR hφ)
  have hblend : Blend B s1.inventory.items ∨ productTrades c (ts.map (enrichmentTrade c)) = [] := by
    obtain ⟨-, ⟨hnone, -, -⟩ | ⟨rs', -, -, -, -, hs1, -⟩⟩ := bids_inv he.le k1
    · right
      rw [List.eq_nil_iff_forall_not_mem]
      intro x hx
      exact (S.product x hx).1 hnone
    · left
      rw [hs1]
      exact Or.inr ⟨1, by norm_num, by simp [hB, tick]⟩
  rcases hblend with hblend | hnone
  · have := sellLoop_uses he (I1.intra (some (0, 0))) (B := B) hblend ?_ (by
      show _ ≤ s1.inventory.quantity
      rw [a4]; linarith) hloop
    · rw [this]
      show _ ≤ s1.inventory.quantity - _
      rw [a4]; linarith
    · intro x hx
      obtain ⟨h1, h2⟩ := List.mem_filter.1 hx
      obtain ⟨t, h3, rfl⟩ := List.mem_map.1 h1
      have h2 : t.commod ≠ c.tailsCommod := fun e => by simp [enrichmentTrade, e] at h2
      simpa [enrichmentTrade, h2] using (hneed t h3 h2).2.1
  · have : s2.inventory = s1.inventory := sellLoop_tails_only (s := { s1 with intra := some (0, 0) }) he.le
      (I1.intra (some (0, 0))) hnone hloop
    rw [this, a4]
    linarith

end OfEnrichment

end Cyc.Sim
