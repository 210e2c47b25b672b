import Verif.Enrichment.Lemmas3

/-!
# When the sales of a step succeed
-/

namespace Cyc.Enrichment

open Mat (massOf)

/-- A product sale that the merged inventory `B` can serve. -/
structure Servable (c : Cfg) (B : NMat) (t : Trade) : Prop where
  amt : 0 < t.amt
  pos : 0 < qty t.offer
  pure : Pure [t.offer]
  nn : Mat.Nonneg t.offer
  rich : assay B ≤ assay t.offer
  lo : c.lo ≤ need c B t.offer t.amt
  eps : c.eps ≤ need c B t.offer t.amt

/-- The feed that the product sales need. -/
def needs (c : Cfg) (B : NMat) (ts : List Trade) : ℚ :=
  ((productTrades c ts).map fun t => need c B t.offer t.amt).sum

theorem needs_nonneg {c : Cfg} (V : Valid c) {B : NMat} {ts : List Trade}
    (h : ∀ t ∈ productTrades c ts, Servable c B t) : 0 ≤ needs c B ts := by
  unfold needs
  apply List.sum_nonneg
  intro x hx
  obtain ⟨t, ht, rfl⟩ := List.mem_map.1 hx
  have := (h t ht).eps; have := V.eps; linarith

theorem sellLoop_ok {c : Cfg} (V : Valid c) {B : NMat} (hB : Mat.Nonneg B) (hBq : 0 < qty B)
    (hu : uFrac B ≠ 0) (hx : c.tailsAssay < assay B) {ts : List Trade} {s : State} (I : Inv c s)
    (hb : Blend B s.inventory.items) (hf : s.inventory.quantity ≤ c.maxFeed + c.eps)
    (hp : ∀ t ∈ productTrades c ts, Servable c B t)
    (ht : ∀ t ∈ tailsTrades c ts, 0 < t.amt ∧ c.lo ≤ t.amt)
    (hn : needs c B ts ≤ s.inventory.quantity)
    (htq : ((tailsTrades c ts).map Trade.amt).sum ≤ s.tails.quantity) :
    ∃ l s', sellLoop c ts s = .ok (l, s') := by
  have he := le_of_lt V.eps
  induction ts generalizing s with
  | nil => exact ⟨[], s, rfl⟩
  | cons t ts ih =>
    by_cases hc : t.commod = c.tailsCommod
    · have e1 : productTrades c (t :: ts) = productTrades c ts := by simp [productTrades, hc]
      have e2 : tailsTrades c (t :: ts) = t :: tailsTrades c ts := by simp [tailsTrades, hc]
      have e3 : needs c B (t :: ts) = needs c B ts := by simp [needs, e1]
      rw [e1] at hp
      rw [e2] at ht htq
      rw [e3] at hn
      rw [List.map_cons, List.sum_cons] at htq
      have hr : 0 ≤ ((tailsTrades c ts).map Trade.amt).sum := by
        apply List.sum_nonneg
        intro x hx
        obtain ⟨t', ht', rfl⟩ := List.mem_map.1 hx
        exact le_of_lt (ht t' (by simp [ht'])).1
      obtain ⟨a1, a2⟩ := ht t (by simp)
      have hmin : min t.amt s.tails.quantity = t.amt := min_eq_left (by linarith)
      obtain ⟨m, l', p1, p2, p3, -, -, -, p7⟩ := popEps_nonneg (lo := c.lo) (ε := c.eps)
        (b := s.tails) (q := t.amt) I.tnn he a1 (Or.inl a2) (by linarith)
      have h1 : sellOne c t s = .ok (m, none, { s with tails := { s.tails with items := l' } }) := by
        unfold sellOne; rw [if_pos hc, hmin, p1]; rfl
      obtain ⟨l2, s2, h2⟩ := ih (s := { s with tails := { s.tails with items := l' } })
        ⟨I.cap, I.tailsCap, I.pos, I.nn, p7⟩ hb hf hp
        (fun x hx => ht x (by simp [hx])) hn (by
          simp only [Buf.quantity, p3]
          unfold Buf.quantity at htq; linarith)
      refine ⟨(m, none) :: l2, s2, ?_⟩
      simp only [sellLoop, h1, ok_bind, h2, pure_eq_ok]
    · have e1 : productTrades c (t :: ts) = t :: productTrades c ts := by simp [productTrades, hc]
      have e2 : tailsTrades c (t :: ts) = tailsTrades c ts := by simp [tailsTrades, hc]
      have e3 : needs c B (t :: ts) = need c B t.offer t.amt + needs c B ts := by
        simp [needs, e1]
      rw [e1] at hp
      rw [e2] at ht htq
      rw [e3] at hn
      have S := hp t (by simp)
      have hp' : ∀ t ∈ productTrades c ts, Servable c B t := fun x hx => hp x (by simp [hx])
      have hn0 := needs_nonneg V hp'
      have hnpos : 0 < need c B t.offer t.amt := lt_of_lt_of_le V.eps S.eps
      rcases hb with hb | ⟨k', hk', hb⟩
      · exfalso
        simp only [Buf.quantity, hb, totalQty_nil] at hn
        linarith
      · have hk0 := ne_of_gt hk'
        have hQ : s.inventory.quantity = k' * qty B := by simp [Buf.quantity, hb]
        have hsq : Mat.squash s.inventory.items = B.scale k' := by rw [hb, squash_singleton]
        have hne : s.inventory.items ≠ [] := by rw [hb]; simp
        have hBk : 0 < qty (B.scale k') := by rw [Mat.qty_scale]; exact mul_pos hk' hBq
        obtain ⟨resp, e, s', h1⟩ := enrich_ok (mat := t.offer) (q := t.amt) he hsq hne hBk
          (by
            intro x hx
            rw [I.cap] at hx
            have := V.maxFeed
            rw [← Option.some.inj hx, max_eq_right this]; exact hf)
          I.tailsCap (by rw [assay_scale hk0]; exact ne_of_gt hx) (by rwa [uFrac_scale hk0])
          (by rwa [need_scale hk0]) (by rw [need_scale hk0]; exact S.lo)
          (by rw [need_scale hk0, Mat.qty_scale]; linarith)
          (by
            intro k hk hk1
            exact feasible V (hB.scale (le_of_lt hk')) hBk (by rwa [uFrac_scale hk0])
              (by rwa [assay_scale hk0]) S.pure S.nn S.pos (by rw [assay_scale hk0]; exact S.rich)
              S.amt hk hk1)
        have h1' : sellOne c t s = .ok (resp, some e, s') := by
          unfold sellOne; rw [if_neg hc, h1]; rfl
        obtain ⟨-, k, E⟩ := enrich_inv he I.pos h1
        rw [hsq] at E
        have I' := (sellOne_pres he I h1').1
        have hq' := (sellOne_pres he I h1').2.2.1
        have hb' := (blend_step he I (Or.inr ⟨k', hk', hb⟩) h1').1
        have hfeed : e.feed = need c B t.offer t.amt := by rw [E.feed, need_scale hk0]
        have hn' : needs c B ts ≤ s'.inventory.quantity := by
          rcases E.inv with ⟨rfl, h'⟩ | ⟨hk, h'⟩
          · rw [h']
            simp only [Buf.quantity, totalQty_nil]
            -- everything was taken: no product sale can be left
            cases hpt : productTrades c ts with
            | nil => simp [needs, hpt]
            | cons t' l' =>
              exfalso
              have S' := hp' t' (by rw [hpt]; simp)
              have hge : c.eps ≤ needs c B ts := by
                unfold needs
                rw [hpt, List.map_cons, List.sum_cons]
                have : 0 ≤ (l'.map fun t => need c B t.offer t.amt).sum := by
                  apply List.sum_nonneg
                  intro x hx
                  obtain ⟨u, hu', rfl⟩ := List.mem_map.1 hx
                  have := (hp' u (by rw [hpt]; simp [hu'])).eps; linarith
                have := S'.eps
                linarith
              have he' := V.eps
              rcases E.amount with h | ⟨-, -, h | h⟩
              · rw [hfeed, Mat.qty_scale] at h; linarith
              · rw [hfeed, Mat.qty_scale, abs_lt] at h
                linarith [h.1]
              · rw [hfeed, Mat.qty_scale] at h; linarith
          · rw [h']
            simp only [Buf.quantity, totalQty_cons, totalQty_nil, Mat.qty_scale, add_zero]
            rcases E.amount with h | ⟨h, -⟩
            · rw [hfeed, Mat.qty_scale] at h
              have : (1 - k) * (k' * qty B) = k' * qty B - k * (k' * qty B) := by ring
              rw [this]; linarith
            · exact absurd h (ne_of_lt hk)
        obtain ⟨l2, s2, h2⟩ := ih (s := s') I' hb' (le_trans hq' hf) hp' ht hn' (by
          rw [E.tails]
          simp only [Buf.quantity, totalQty_append, totalQty_cons, totalQty_nil, add_zero]
          have := E.rest.qty_nonneg
          unfold Buf.quantity at htq; linarith)
        refine ⟨(resp, some e) :: l2, s2, ?_⟩
        simp only [sellLoop, h1', ok_bind, h2, pure_eq_ok]

/-- Sales of tails only. -/
theorem sellLoop_tails_ok {c : Cfg} (V : Valid c) {ts : List Trade} {s : State} (I : Inv c s)
    (hp : productTrades c ts = [])
    (ht : ∀ t ∈ tailsTrades c ts, 0 < t.amt ∧ c.lo ≤ t.amt)
    (htq : ((tailsTrades c ts).map Trade.amt).sum ≤ s.tails.quantity) :
    ∃ l s', sellLoop c ts s = .ok (l, s') := by
  have he := le_of_lt V.eps
  induction ts generalizing s with
  | nil => exact ⟨[], s, rfl⟩
  | cons t ts ih =>
    by_cases hc : t.commod = c.tailsCommod
    · have e1 : productTrades c (t :: ts) = productTrades c ts := by simp [productTrades, hc]
      have e2 : tailsTrades c (t :: ts) = t :: tailsTrades c ts := by simp [tailsTrades, hc]
      rw [e1] at hp
      rw [e2] at ht htq
      rw [List.map_cons, List.sum_cons] at htq
      have hr : 0 ≤ ((tailsTrades c ts).map Trade.amt).sum := by
        apply List.sum_nonneg
        intro x hx
        obtain ⟨t', ht', rfl⟩ := List.mem_map.1 hx
        exact le_of_lt (ht t' (by simp [ht'])).1
      obtain ⟨a1, a2⟩ := ht t (by simp)
      have hmin : min t.amt s.tails.quantity = t.amt := min_eq_left (by linarith)
      obtain ⟨m, l', p1, p2, p3, -, -, -, p7⟩ := popEps_nonneg (lo := c.lo) (ε := c.eps)
        (b := s.tails) (q := t.amt) I.tnn he a1 (Or.inl a2) (by linarith)
      have h1 : sellOne c t s = .ok (m, none, { s with tails := { s.tails with items := l' } }) := by
        unfold sellOne; rw [if_pos hc, hmin, p1]; rfl
      obtain ⟨l2, s2, h2⟩ := ih (s := { s with tails := { s.tails with items := l' } })
        ⟨I.cap, I.tailsCap, I.pos, I.nn, p7⟩ hp
        (fun x hx => ht x (by simp [hx])) (by
          simp only [Buf.quantity, p3]
          unfold Buf.quantity at htq; linarith)
      refine ⟨(m, none) :: l2, s2, ?_⟩
      simp only [sellLoop, h1, ok_bind, h2, pure_eq_ok]
    · simp [productTrades, hc] at hp

theorem accept_ok {c : Cfg} (he : 0 ≤ c.eps) {ms : List NMat} {s : State}
    (hc : s.inventory.cap = some c.maxFeed) (hm : ∀ m ∈ ms, 0 < qty m)
    (h : ms = [] ∨ s.inventory.quantity + totalQty ms ≤ c.maxFeed) :
    ∃ s', accept c ms s = .ok s' := by
  induction ms generalizing s with
  | nil => exact ⟨s, rfl⟩
  | cons m ms ih =>
    have hq : s.inventory.quantity + totalQty (m :: ms) ≤ c.maxFeed := by
      rcases h with h | h
      · cases h
      · exact h
    rw [totalQty_cons] at hq
    have h0 : 0 ≤ totalQty ms := AllPos.total_nonneg (fun x hx => hm x (by simp [hx]))
    have hp : s.inventory.push c.eps m =
        .ok { s.inventory with items := s.inventory.items ++ [m] } := by
      rw [Buf.push_ok]
      refine ⟨?_, rfl⟩
      unfold Buf.fits Buf.space
      rw [hc]
      simp only [Option.map_some, decide_eq_true_eq]
      have := le_max_right 0 (c.maxFeed - s.inventory.quantity)
      linarith
    obtain ⟨s', h'⟩ := ih (s := { s with inventory :=
      { s.inventory with items := s.inventory.items ++ [m] } }) hc
      (fun x hx => hm x (by simp [hx])) (Or.inr (by
        simp only [Buf.quantity, totalQty_append, totalQty_cons, totalQty_nil]
        unfold Buf.quantity at hq; linarith))
    refine ⟨s', ?_⟩
    simp only [accept, addMat, hp, ok_bind, pure_eq_ok, h']

end Cyc.Enrichment
