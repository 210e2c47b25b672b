import Verif.Enrichment.Lemmas5

/-!
# A step as a whole
-/

namespace Cyc.Enrichment

open Mat (massOf)

/-- Without product sales no separative work is spent. -/
theorem noProduct_swu {c : Cfg} {ts : List Trade} (hp : productTrades c ts = []) {s s' : State}
    {l : List (NMat × Option Enr)} (h : sellLoop c ts s = .ok (l, s')) : swuSum l = 0 := by
  induction ts generalizing s s' l with
  | nil =>
    simp only [sellLoop, Except.ok.injEq, Prod.mk.injEq] at h
    obtain ⟨rfl, rfl⟩ := h
    simp [swuSum]
  | cons t ts ih =>
    have hc : t.commod = c.tailsCommod := by
      by_contra hc; simp [productTrades, hc] at hp
    have hp' : productTrades c ts = [] := by simpa [productTrades, hc] using hp
    simp only [sellLoop, bind_ok] at h
    obtain ⟨⟨m, e, s1⟩, h1, ⟨l1, s2⟩, h2, h3⟩ := h
    simp only [pure_eq_ok, Except.ok.injEq, Prod.mk.injEq] at h3
    obtain ⟨rfl, rfl⟩ := h3
    simp only [sellOne, hc, if_true, bind_ok] at h1
    obtain ⟨⟨m', b⟩, -, h4⟩ := h1
    simp only [pure_eq_ok, Except.ok.injEq, Prod.mk.injEq] at h4
    obtain ⟨rfl, rfl, rfl⟩ := h4
    rw [swuSum_cons, ih hp' h2]; simp

/-- The step after the bids succeeds, given that the sales do. -/
theorem step_ok {c : Cfg} (V : Valid c) {s : State} (I : Inv c s)
    {i : In} (hbuy : HonestBuys c (tick c s) i.buys) {p : Ports} {s₁ : State}
    (hb : bids c i.reqs (tick c s) = .ok (p, s₁))
    (hw : ∀ l s₂, sellLoop c i.sells { s₁ with intra := some (0, 0) } = .ok (l, s₂) →
      swuSum l ≤ c.swuCapacity)
    (hl : ∃ l s₂, sellLoop c i.sells { s₁ with intra := some (0, 0) } = .ok (l, s₂)) :
    ∃ o s', step c s i = .ok (o, s') := by
  have he := le_of_lt V.eps
  obtain ⟨I1, a1, a2, a3, a4, a5⟩ := bids_pres he (I.swu _) hb
  have hsell : ∃ l s₂, sellAll c i.sells s₁ = .ok (l, s₂) := by
    cases hn : i.sells with
    | nil => exact ⟨[], s₁, rfl⟩
    | cons t ts =>
      rw [hn] at hl hw
      obtain ⟨l, s2, hl⟩ := hl
      have hp := sellLoop_pres he (I1.intra (some (0, 0))) hl
      refine ⟨l, s2, ?_⟩
      change sell c (t :: ts) s₁ = _
      unfold sell
      rw [hl]
      have h1 : ¬ s2.tails.quantity < -c.eps := by
        have : 0 ≤ s2.tails.quantity := hp.1.tnn.total_nonneg
        linarith
      have h2 : ¬ s2.swu < -c.eps := by
        have := hw l s2 hl
        rw [hp.2.2.2.1]
        have e : ({ s₁ with intra := some (0, 0) } : State).swu = c.swuCapacity := a2
        rw [e]; linarith
      simp only [ok_bind, h1, h2, if_false, pure_eq_ok]
  obtain ⟨l, s2, hsell⟩ := hsell
  obtain ⟨I2, -, b2, -⟩ := sellAll_pres he I1 hsell
  have hacc : ∃ s3, accept c i.buys s2 = .ok s3 := by
    apply accept_ok he I2.cap (fun m hm => (hbuy.mass m hm).1)
    by_cases hn : i.buys = []
    · exact Or.inl hn
    · right
      have ht := hbuy.total
      have hr := requests_le he (tick c s)
      have hpos : 0 < totalQty i.buys :=
        AllPos.total_pos (fun m hm => (hbuy.mass m hm).1) hn
      have hq : (tick c s).inventory.quantity = s.inventory.quantity := rfl
      have a4' : s₁.inventory.quantity = s.inventory.quantity := a4
      rw [hq] at hr
      rcases le_total c.maxFeed s.inventory.quantity with h1 | h1
      · rw [max_eq_left (by linarith)] at hr; linarith
      · rw [max_eq_right (by linarith)] at hr; linarith
  obtain ⟨s3, hacc⟩ := hacc
  refine ⟨⟨requests c (tick c s), (s.tails.quantity, s.inventory.quantity), p, l.map Prod.fst,
    l.filterMap Prod.snd, s3.intra⟩, s3, ?_⟩
  unfold step
  simp only [hb, ok_bind, hsell, hacc, pure_eq_ok]
  rfl

/-- What sales within the constraints are, short of answering a bid: `B` is the merged inventory. -/
structure Serviceable (c : Cfg) (B : NMat) (p : Ports) (ts : List Trade) : Prop where
  amt : ∀ t ∈ ts, 0 < t.amt ∧ t.amt ≤ qty t.offer
  lo : ∀ t ∈ ts, c.lo ≤ t.amt
  tails : tailsTrades c ts ≠ [] → ∃ tp, p.tails = some tp
  tailsCap : ∀ tp, p.tails = some tp → ((tailsTrades c ts).map Trade.amt).sum ≤ tp.cap
  product : ∀ t ∈ productTrades c ts, p.product ≠ none ∧ Pure [t.offer] ∧ Mat.Nonneg t.offer
  swu : ∀ pp, p.product = some pp →
    Within (swuConvert c.value pp.feedAssay c.tailsAssay) (productTrades c ts) pp.swuCap
  natu : ∀ pp, p.product = some pp →
    Within (natuConvert pp.feedAssay c.tailsAssay) (productTrades c ts) pp.natuCap
  feed : ∀ pp, p.product = some pp → ∀ t ∈ productTrades c ts, ∀ q,
    natuConvert pp.feedAssay c.tailsAssay (cut t) = some q → c.lo ≤ q ∧ c.eps ≤ q
  rich : ∀ t ∈ productTrades c ts, c.tailsAssay < assay B ∧ assay B ≤ assay t.offer

/-- The converter of the feed constraint counts uranium: what a sale needs, times the part of the feed that
is uranium. -/
theorem natuConvert_cut_any {c : Cfg} {B : NMat} {t : Trade} (hq : 0 < qty t.offer) (ha : 0 < t.amt)
    (hp : Pure [t.offer]) (hx : assay B ≠ c.tailsAssay) (hB : uFrac B ≠ 0) :
    natuConvert (assay B) c.tailsAssay (cut t) = some (need c B t.offer t.amt * uFrac B) := by
  unfold natuConvert
  have h1 : assay (cut t) = assay t.offer := assay_scale (ne_of_gt (div_pos ha hq)) _
  have h2 : uFrac (cut t) = 1 := pure_uFrac (pure_scale hp) (by
    rw [qty_cut (ne_of_gt hq)]; exact ne_of_gt ha)
  rw [qty_cut (ne_of_gt hq), h1, h2]
  simp [overFrac, feedQty, hx, need, hB]

/-- Sales that keep to the constraints, with the uranium in the feed in place of the feed, are carried out. -/
theorem step_delivers_any {c : Cfg} (V : Valid c) {s : State} (I : Inv c s)
    (hf : s.inventory.quantity ≤ c.maxFeed + c.eps) {i : In}
    (hbuy : HonestBuys c (tick c s) i.buys) {p : Ports} {s1 : State}
    (hb : bids c i.reqs (tick c s) = .ok (p, s1))
    (hU : ∀ pp, p.product = some pp → Within (natuConvert pp.feedAssay c.tailsAssay)
      (productTrades c i.sells) (uranium s.inventory.items))
    (hS : Serviceable c (Mat.squash s.inventory.items) p i.sells) :
    ∃ o s', step c s i = .ok (o, s') := by
  have he := le_of_lt V.eps
  obtain ⟨I1, a1, a2, a3, a4, a5⟩ := bids_pres he (I.swu _) hb
  have htt : ∀ t ∈ tailsTrades c i.sells, 0 < t.amt ∧ c.lo ≤ t.amt := by
    intro t ht
    have hm : t ∈ i.sells := (List.mem_filter.1 ht).1
    exact ⟨(hS.amt t hm).1, hS.lo t hm⟩
  have htq : ((tailsTrades c i.sells).map Trade.amt).sum ≤ s1.tails.quantity := by
    rw [a1]
    change _ ≤ s.tails.quantity
    by_cases hn : tailsTrades c i.sells = []
    · rw [hn]; exact I.tnn.total_nonneg
    · obtain ⟨tp, htp⟩ := hS.tails hn
      refine le_trans (hS.tailsCap tp htp) ?_
      have := (bids_inv he hb).1
      rw [htp] at this
      unfold tailsBids at this
      split at this
      · cases this
      · split at this
        · rw [Option.some.inj this]; exact le_rfl
        · cases this
  have Q1 : s1.inventory.quantity ≤ c.maxFeed + c.eps := by
    have : s1.inventory.quantity = s.inventory.quantity := a4
    linarith
  obtain ⟨-, ⟨hnone, -, -⟩ | ⟨rs, hrs, hq0, -, hne, hs1, hpp⟩⟩ := bids_inv he hb
  · have hpt : productTrades c i.sells = [] := by
      rw [List.eq_nil_iff_forall_not_mem]
      intro x hx
      exact (hS.product x hx).1 hnone
    apply step_ok V I hbuy hb
    · intro l s2 hl
      rw [noProduct_swu hpt hl]; exact le_of_lt V.swu
    · exact sellLoop_tails_ok V (I1.intra _) hpt htt htq
  · have hne : s.inventory.items ≠ [] := hne
    have hB := I.squash_pos hne
    have hN := I.squash_nn
    have hs1' : s1.inventory.items = [Mat.squash s.inventory.items] := by rw [hs1]; rfl
    have hur : uranium s.inventory.items = (Mat.squash s.inventory.items).mass u235 +
        (Mat.squash s.inventory.items).mass u238 := by
      simp only [uranium, Mat.mass_squash]
    have hqs : s.inventory.quantity = qty (Mat.squash s.inventory.items) := by
      rw [Mat.qty_squash]; rfl
    generalize hBB : Mat.squash s.inventory.items = B at *
    have hbl : Blend B s1.inventory.items := Or.inr ⟨1, by norm_num, by rw [hs1']; simp⟩
    have hfr : uFrac B = (B.mass u235 + B.mass u238) / qty B := by
      unfold uFrac; rw [if_neg (ne_of_gt hB)]
    have hB0 : c.tailsAssay < assay B → 0 < uFrac B := by
      intro hx
      rw [hfr]
      have h1 : B.mass u235 + B.mass u238 ≠ 0 := by
        intro h0
        have : assay B = 0 := by unfold assay; rw [if_pos h0]
        have := V.tails
        linarith
      have h2 : 0 ≤ B.mass u235 + B.mass u238 := add_nonneg (hN.mass_nonneg _) (hN.mass_nonneg _)
      exact div_pos (lt_of_le_of_ne h2 (Ne.symm h1)) hB
    have hB1 : uFrac B ≤ 1 := by
      rw [hfr, div_le_one hB]; exact u_le_qty hN
    have hpp' : p.product = some ⟨(List.range rs.length).flatMap fun j =>
          if served c (rs.getD j ⟨[]⟩) then [(j, offer (rs.getD j ⟨[]⟩))] else [],
        assay B, c.swuCapacity, s.inventory.quantity⟩ := by rw [hpp, ← hBB]; rfl
    obtain ⟨vs, hv1, hv2⟩ := hU _ hpp'
    obtain ⟨ws, hw1, hw2⟩ := hS.swu _ hpp'
    have hserv : ∀ t ∈ productTrades c i.sells, c.tailsAssay < assay B ∧ Servable c B t ∧
        natuConvert (assay B) c.tailsAssay (cut t) = some (need c B t.offer t.amt * uFrac B) := by
      intro t ht
      have hm : t ∈ i.sells := (List.mem_filter.1 ht).1
      obtain ⟨ha1, ha2⟩ := hS.amt t hm
      obtain ⟨hx1, hx2⟩ := hS.rich t ht
      obtain ⟨-, hpo, hno⟩ := hS.product t ht
      have hqo : 0 < qty t.offer := by linarith
      have hn := natuConvert_cut_any hqo ha1 hpo (ne_of_gt hx1) (ne_of_gt (hB0 hx1))
      obtain ⟨y1, y2⟩ := hS.feed _ hpp' t ht _ hn
      have hpos : 0 < need c B t.offer t.amt := by
        by_contra hc
        have := mul_nonpos_of_nonpos_of_nonneg (not_lt.1 hc) (hB0 hx1).le
        have := V.eps
        linarith
      have hle : need c B t.offer t.amt * uFrac B ≤ need c B t.offer t.amt :=
        mul_le_of_le_one_right hpos.le hB1
      exact ⟨hx1, ⟨ha1, hqo, hpo, hno, hx2, y1.trans hle, y2.trans hle⟩, hn⟩
    apply step_ok V I hbuy hb
    · intro l s2 hl
      rw [blend_swu he (I1.intra (some (0, 0))) hbl hS.amt hl hw1]
      exact hw2
    · by_cases hpt : productTrades c i.sells = []
      · exact sellLoop_tails_ok V (I1.intra _) hpt htt htq
      · obtain ⟨t0, ht0⟩ := List.exists_mem_of_ne_nil _ hpt
        have hx := (hserv t0 ht0).1
        apply sellLoop_ok V hN hB (ne_of_gt (hB0 hx)) hx (I1.intra (some (0, 0))) hbl Q1
          (fun t ht => (hserv t ht).2.1) htt _ htq
        have hneeds : needs c B i.sells * uFrac B = vs.sum := by
          have hmul : ∀ l : List Trade, (l.map fun t => need c B t.offer t.amt).sum * uFrac B =
              (l.map fun t => need c B t.offer t.amt * uFrac B).sum := by
            intro l
            induction l with
            | nil => simp
            | cons t l ih => simp only [List.map_cons, List.sum_cons, add_mul, ih]
          unfold needs
          rw [hmul]
          have : ((productTrades c i.sells).map fun t => need c B t.offer t.amt * uFrac B).map some =
              vs.map some := by
            rw [← hv1, List.map_map]
            apply List.map_congr_left
            intro t ht
            simp only [Function.comp]
            exact (hserv t ht).2.2.symm
          have hinj := List.map_injective_iff.2 (Option.some_injective ℚ) this
          rw [hinj]
        have : s1.inventory.quantity = s.inventory.quantity := a4
        change needs c B i.sells ≤ s1.inventory.quantity
        rw [this, hqs]
        have h3 : needs c B i.sells * uFrac B ≤ qty B * uFrac B := by
          rw [hneeds, hfr, mul_div_cancel₀ _ (ne_of_gt hB), ← hur]; exact hv2
        exact le_of_mul_le_mul_right h3 (hB0 hx)

/-- Sales within the constraints are carried out, out of feed of uranium. -/
theorem step_delivers {c : Cfg} (V : Valid c) {s : State} (I : Inv c s)
    (hf : s.inventory.quantity ≤ c.maxFeed + c.eps) {i : In}
    (hbuy : HonestBuys c (tick c s) i.buys) {p : Ports} {s1 : State}
    (hb : bids c i.reqs (tick c s) = .ok (p, s1)) (hp : Pure s.inventory.items)
    (hS : Serviceable c (Mat.squash s.inventory.items) p i.sells) :
    ∃ o s', step c s i = .ok (o, s') := by
  refine step_delivers_any V I hf hbuy hb (fun pp hpp => ?_) hS
  have h := hS.natu pp hpp
  obtain ⟨-, ⟨hnone, -, -⟩ | ⟨rs, hrs, hq0, -, hne, hs1, hpp'⟩⟩ := bids_inv V.eps.le hb
  · rw [hnone] at hpp; cases hpp
  · rw [hpp'] at hpp
    have e := Option.some.inj hpp
    have hcap : pp.natuCap = s.inventory.quantity := by rw [← e]; rfl
    have hu : uranium s.inventory.items = s.inventory.quantity := by
      have h1 := pure_qty (pure_squash hp)
      rw [Mat.mass_squash, Mat.mass_squash, Mat.qty_squash] at h1
      exact h1.symm
    rw [hu, ← hcap]
    exact h

end Cyc.Enrichment
