import Verif.Order.Props
import Verif.Sink.Props
import Verif.Enrichment.Props3

/-!
# The order of the deliveries: C120 for `Sink`, `Conversion` and `Enrichment`
-/

namespace Cyc

open Mat (massOf)

theorem totalQty_perm {ρ : Type} [HasQty ρ] {a b : List ρ} (h : a.Perm b) :
    totalQty a = totalQty b := sum_perm (h.map qty)

theorem massOf_perm {ν : Type} [DecidableEq ν] {a b : List (Mat ν)} (h : a.Perm b) (n : ν) :
    massOf a n = massOf b n := by
  unfold massOf
  exact sum_perm (h.map _)

namespace Sink

theorem delivered_perm {i : In} {ms : List NMat} {ps : List (String × ℚ)} (hm : i.mats.Perm ms)
    (hp : i.prods.Perm ps) : (delivered i).Perm (delivered { i with mats := ms, prods := ps }) :=
  (hm.map _).append (hp.map _)

/-- C120: a step that succeeds with deliveries within the requests succeeds with the same deliveries
in any other order; demand and requests are the same, the sink holds the same resources, and
everything else it remembers is the same. -/
theorem C120_sink {c : Cfg} (V : Valid c) {g : Rng} {t : ℤ} {is : List In} {os : List Out}
    {s s' : State} (h : History c g t is os s) (S : AllSound g is) {i : In} (Si : Sound i.rng)
    (H : Honest c (t + is.length) s i) {o : Out} (hs : step c (t + is.length) s i = .ok (o, s'))
    {ms : List NMat} {ps : List (String × ℚ)} (hm : i.mats.Perm ms) (hp : i.prods.Perm ps) :
    ∃ s'', step c (t + is.length) s { i with mats := ms, prods := ps } = .ok (o, s'') ∧
      s'.inventory.items.Perm s''.inventory.items ∧
      s'' = { s' with inventory := { s'.inventory with items := s''.inventory.items } } := by
  obtain ⟨I, -⟩ := history_inv V h S
  obtain ⟨a, n, h1, h2, h3, rfl, rfl⟩ := step_ok V I Si hs
  obtain ⟨f1, f2, -⟩ := honest_fits V I Si H h1
  have hd := delivered_perm hm hp
  have f2' : totalQty (delivered { i with mats := ms, prods := ps }) ≤ max 0 (c.maxInv - held s) := by
    rw [← totalQty_perm hd]
    exact le_trans f2 (le_trans h3 (min_le_right _ _))
  obtain ⟨o', s'', e⟩ := step_full (i := { i with mats := ms, prods := ps }) V I Si h1
    (fun r hr => f1 r (hd.mem_iff.2 hr)) f2'
  obtain ⟨a', n', e1, -, -, rfl, rfl⟩ := step_ok (i := { i with mats := ms, prods := ps }) V I Si e
  rw [h1] at e1
  simp only [Except.ok.injEq, State.mk.injEq, true_and, and_true] at e1
  obtain ⟨rfl, rfl⟩ := e1
  exact ⟨_, e, List.Perm.append (List.Perm.refl _) hd, rfl⟩

/-- The second step of the example history, with its two deliveries in both orders. -/
example : (((enter exC (rngOf (1 / 2) 1) 0).bind fun s =>
      run exC 0 s (exIns.take 1 ++ [inOf (1 / 2) 2 [spent 5, spent 7] []])).toOption.map fun r =>
      (r.1.map askedMatl, held r.2)) = some ([0, 15], 12) ∧
    (((enter exC (rngOf (1 / 2) 1) 0).bind fun s =>
      run exC 0 s (exIns.take 1 ++ [inOf (1 / 2) 2 [spent 7, spent 5] []])).toOption.map fun r =>
      (r.1.map askedMatl, held r.2)) = some ([0, 15], 12) := by
  decide +kernel

end Sink

namespace Conversion

/-- C120: a step that succeeds with deliveries within the request succeeds with the same deliveries in
any other order. What can be observed and the product are the same, and so is the feed, nuclide by
nuclide. -/
theorem C120_conversion {c : Cfg} (he : 0 ≤ c.eps) {is : List In} {os : List Out}
    {s s₁ s' : State} {i : In} {o : Out} (h : History c is os s) (hd : Substantial is)
    (ht : tick c s = .ok s₁) (H : Honest c s₁ i) (hs : step c s i = .ok (o, s'))
    {l : List NMat} (hl : i.buys.Perm l) :
    ∃ s'', step c s { i with buys := l } = .ok (o, s'') ∧ s''.output = s'.output ∧
      feed s'' = feed s' ∧ (∀ n, massOf s''.input.items n = massOf s'.input.items n) ∧
      s''.input.cap = s'.input.cap := by
  have I := (tick_inv (history_inv h hd) ht).1
  simp only [step, ht, ok_bind, bind_ok] at hs ⊢
  obtain ⟨b, h1, ⟨ms, s2⟩, h2, s3, h3, h4⟩ := hs
  simp only [pure_eq_ok, Except.ok.injEq, Prod.mk.injEq] at h4
  obtain ⟨rfl, rfl⟩ := h4
  obtain ⟨I2, e2, -⟩ := sell_inv I h2
  obtain ⟨I3, e3, e4, e5⟩ := accept_inv I2 H.solid h3
  have hin : feed s2 = feed s₁ := by
    unfold feed; rw [e2]
  obtain ⟨s3', h3'⟩ : ∃ s3', accept c l s2 = .ok s3' := by
    by_cases hav : available c s₁ ≤ 0
    · have hb := H.unasked (by unfold requests; rw [if_pos hav])
      rw [hb] at hl
      rw [hl.symm.eq_nil]
      exact ⟨s2, rfl⟩
    · have hb := H.amounts _ (by unfold requests; rw [if_neg hav])
      simp only at hb
      unfold available at hb
      change _ ≤ c.capacity - feed s₁ at hb
      rw [totalQty_perm hl] at hb
      exact accept_ok I2 he (fun m hm => H.solid m (hl.mem_iff.2 hm)) (by rw [hin]; linarith)
  obtain ⟨I3', f3, f4, f5⟩ := accept_inv I2 (fun m hm => H.solid m (hl.mem_iff.2 hm)) h3'
  refine ⟨s3', ⟨b, h1, (ms, s2), h2, s3', h3', rfl⟩, f3.trans e3.symm, ?_, fun n => ?_,
    I3'.incap.trans I3.incap.symm⟩
  · rw [e4, f4, totalQty_perm hl]
  · rw [e5, f5, massOf_perm hl]

/-- The two deliveries of the first step of the example history in both orders: the feed is the same,
nuclide by nuclide. -/
example : ((step exCfg (enter exCfg) ⟨[], [], [u, w]⟩).toOption.map fun r =>
      (feed r.2, [922350000, 922380000].map (massOf r.2.input.items))) = some (7, [2, 5]) ∧
    ((step exCfg (enter exCfg) ⟨[], [], [w, u]⟩).toOption.map fun r =>
      (feed r.2, [922350000, 922380000].map (massOf r.2.input.items))) = some (7, [2, 5]) := by
  decide +kernel

end Conversion

namespace Enrichment

/-- C120: an honest step that succeeds does so with its deliveries in any other order. What can be
observed is the same; the feed consists of the same materials, and everything else the facility holds
is the same. -/
theorem C120_enrichment {c : Cfg} (V : Valid c) {is : List In} {os : List Out} {s s' : State} {i : In}
    {o : Out} (h : HonestHistory c is os s) (hi : Honest c s i) (hs : step c s i = .ok (o, s'))
    {l : List NMat} (hl : i.buys.Perm l) :
    ∃ s'', step c s { i with buys := l } = .ok (o, s'') ∧
      s'.inventory.items.Perm s''.inventory.items ∧
      s'' = { s' with inventory := { s'.inventory with items := s''.inventory.items } } := by
  have he := le_of_lt V.eps
  obtain ⟨I, hf⟩ := honest_history V h
  simp only [step, bind_ok] at hs ⊢
  obtain ⟨⟨p, s1⟩, hb, ⟨r, s2⟩, h2, s3, h3, h4⟩ := hs
  simp only [pure_eq_ok, Except.ok.injEq, Prod.mk.injEq] at h4
  obtain ⟨rfl, rfl⟩ := h4
  obtain ⟨I1, -, -, -, a4, -⟩ := bids_pres he (I.swu _) hb
  obtain ⟨I2, -, b2, -⟩ := sellAll_pres he I1 h2
  obtain ⟨-, e3⟩ := accept_pres I2 hi.buys.mass h3
  have hm : ∀ m ∈ l, 0 < qty m ∧ Mat.Nonneg m := fun m hm => hi.buys.mass m (hl.mem_iff.2 hm)
  have hq : (tick c s).inventory.quantity = s.inventory.quantity := rfl
  have ht := hi.buys.total
  have hr := requests_le he (tick c s)
  rw [totalQty_perm hl] at ht
  rw [hq] at hr
  have a4' : s1.inventory.quantity = s.inventory.quantity := a4
  obtain ⟨s3', h3'⟩ := accept_ok he (ms := l) I2.cap (fun m h => (hm m h).1) (by
    rcases le_total c.maxFeed s.inventory.quantity with h1 | h1
    · rw [max_eq_left (by linarith)] at hr
      left
      cases l with
      | nil => rfl
      | cons m l =>
        exfalso
        have h0 : 0 ≤ totalQty l := AllPos.total_nonneg (fun x hx => (hm x (by simp [hx])).1)
        have := (hm m (by simp)).1
        rw [totalQty_cons] at ht
        linarith
    · rw [max_eq_right (by linarith)] at hr
      right
      linarith)
  obtain ⟨-, e3'⟩ := accept_pres I2 hm h3'
  refine ⟨s3', ⟨(p, s1), hb, (r, s2), h2, s3', h3', ?_⟩, ?_, ?_⟩
  · rw [e3, e3']; rfl
  · rw [e3, e3']; exact List.Perm.append_left _ hl
  · rw [e3, e3']

/-- A delivery of 10 kg and one of 3 kg, in both orders, beside a sale of 5 kg of product. -/
example : ((play exCfg [⟨forProduct [leu], [⟨"leu", leu, 5⟩],
        [natu, ⟨[(u235, 3/100), (u238, 297/100)]⟩]⟩]).toOption.map fun r =>
      (r.1.map fun o => o.sold.map qty, r.2.inventory.items.map qty)) = some ([[5]], [75, 10, 3]) ∧
    ((play exCfg [⟨forProduct [leu], [⟨"leu", leu, 5⟩],
        [⟨[(u235, 3/100), (u238, 297/100)]⟩, natu]⟩]).toOption.map fun r =>
      (r.1.map fun o => o.sold.map qty, r.2.inventory.items.map qty)) = some ([[5]], [75, 3, 10]) := by
  decide +kernel

end Enrichment

end Cyc
