import Verif.Separations.Props5

/-!
# Separations: exactly when processing fails (C70)
-/

namespace Cyc.Separations

open Mat (massOf)

private theorem pushLeftover_yes {c : Cfg} {m : NMat} {t : State}
    (h : ∀ x, t.leftover.cap = some x → qty m ≤ max 0 (x - t.leftover.quantity) + c.eps) :
    ∃ t', pushLeftover c m t = .ok t' := by
  unfold pushLeftover
  split
  · have hf : t.leftover.fits c.eps (qty m) = true := by
      unfold Buf.fits Buf.space
      cases hx : t.leftover.cap with
      | none => rfl
      | some x => have := h x hx; simp only [Option.map_some, decide_eq_true_eq]; linarith
    unfold Buf.push
    rw [if_pos hf]
    exact ⟨_, rfl⟩
  · exact ⟨_, rfl⟩

private theorem pushLeftover_no {c : Cfg} (hε : 0 ≤ c.eps) {m : NMat} {t : State} {x : ℚ}
    (hx : t.leftover.cap = some x) (h : max 0 (x - t.leftover.quantity) + c.eps < qty m) :
    pushLeftover c m t = .error .value := by
  have h0 : 0 < qty m := by
    have := le_max_left 0 (x - t.leftover.quantity)
    linarith
  unfold pushLeftover
  rw [if_pos h0]
  have hf : t.leftover.fits c.eps (qty m) = false := by
    unfold Buf.fits Buf.space
    rw [hx]
    simp only [Option.map_some, decide_eq_false_iff_not]
    linarith
  unfold Buf.push
  rw [if_neg (by rw [hf]; decide)]
  rfl

/-- C70: exactly when processing fails. A facility with feed (within its size) takes the oldest `q` kg
of it, of which it can process the fraction `f` that its streams have room for. If the leftover of that
fraction exceeds the room for it, and the tolerance, `Tick` throws; otherwise it succeeds. The facility
never halts for a full leftover inventory. -/
theorem C70_exact {c : Cfg} (V : Valid c) {is : List In} {os : List Out} {s : State}
    (h : History c is os s) (hs : Substantial is) (hne : s.feed.items ≠ [])
    (hfeed : totalQty s.feed.items ≤ c.feedbufSize) {q : ℚ} {p : List NMat}
    (hq : q = min c.throughput (totalQty s.feed.items)) (hp : p = upto q s.feed.items) :
    ∃ f, 0 ≤ f ∧ f ≤ 1 ∧
      (∀ st ∈ c.streams, 0 ≤ st.2.cap → totalQty (held s st.1) + f * yield st.2.effs p ≤ st.2.cap) ∧
      (f = 1 ∨ ∃ st ∈ c.streams, 0 ≤ st.2.cap ∧ 0 < yield st.2.effs p ∧
        totalQty (held s st.1) + f * yield st.2.effs p = st.2.cap) ∧
      ((∀ x, c.leftoverCap = some x →
          f * (q - yieldAll c.streams p) ≤ max 0 (x - totalQty s.leftover.items) + c.eps) →
        ∃ r s', tick c s = .ok (r, s')) ∧
      ((∃ x, c.leftoverCap = some x ∧
          max 0 (x - totalQty s.leftover.items) + c.eps < f * (q - yieldAll c.streams p)) →
        tick c s = .error .value) := by
  have I := history_inv V h hs
  obtain ⟨mat, l, f, recs, rest, bufs', f0, f1, p1, hf, p2, q0, pq, pm, pl, hm, hl, hlp, hr, rm, rq,
    fit, lim, gb, gk, hrec, nd, ky⟩ := tick_core V I hne
  have hqq : q = min c.throughput s.feed.quantity := hq
  rw [← hqq] at p1 q0 pq pm pl
  have hpm : ∀ n, massOf [mat] n = massOf p n := by intro n; rw [hp]; simpa using pm n
  have hy : ∀ effs, yield effs [mat] = yield effs p := fun effs => yield_congr hpm
  have hY : yieldAll c.streams [mat] = yieldAll c.streams p := yieldAll_congr hpm
  have hm' : AllNonneg [mat] := by simpa [AllNonneg] using hm
  have hYq : yieldAll c.streams p ≤ q := by
    rw [← hY, ← pq]; simpa using yieldAll_le V.share hm'
  have hY0 : 0 ≤ yieldAll c.streams p := by rw [← hY]; exact yieldAll_nonneg V.effs hm'
  have hc : ¬ s.feed.count = 0 := by simpa [Buf.count] using hne
  rw [hY, pq] at rq
  -- what is pushed to the leftover
  have hfin : ∃ m t, qty m = f * (q - yieldAll c.streams p) ∧ t.leftover = s.leftover ∧
      finish c f (qty mat) rest { s with feed := { s.feed with items := l }, bufs := bufs' } =
        pushLeftover c m t := by
    unfold finish
    by_cases hf1 : f = 1
    · refine ⟨rest, { s with feed := { s.feed with items := l }, bufs := bufs' }, ?_, rfl, if_pos hf1⟩
      rw [rq, hf1]; ring
    · have hlt : f < 1 := lt_of_le_of_ne f1 hf1
      have hge : (1 - f) * qty mat ≤ qty rest := by rw [rq, pq]; nlinarith
      have hback0 : 0 < (1 - f) * qty mat := mul_pos (by linarith) (by rw [pq]; exact q0)
      have hr0 : qty rest ≠ 0 := by intro e; rw [e] at hge; linarith
      rw [if_neg hf1]
      unfold Mat.extractQty
      rw [if_neg (not_lt.2 hge)]
      simp only [ok_bind]
      have hb1 : qty (rest.split ((1 - f) * qty mat)).1 = (1 - f) * qty mat := by
        simp only [Mat.split, Mat.qty_scale]; field_simp
      have hb2 : qty (rest.split ((1 - f) * qty mat)).2 = qty rest - (1 - f) * qty mat := by
        simp only [Mat.split, Mat.qty_scale]; field_simp
      have hlq : totalQty l = s.feed.quantity - qty mat := by
        rw [pl, totalQty_after I.feedPos (le_of_lt q0) (by rw [hqq]; exact min_le_right _ _), pq]; rfl
      have hpu := push_fits (ε := c.eps) (b := ({ s.feed with items := l } : Buf NMat))
        (r := (rest.split ((1 - f) * qty mat)).1) V.eps (by
          intro sp hsp
          unfold Buf.space at hsp
          rw [I.feedCap] at hsp
          simp only [Option.map_some, Option.some.injEq] at hsp
          have h1 : c.feedbufSize - totalQty l ≤ sp := by
            rw [← hsp]; exact le_max_right _ _
          have h2 : s.feed.quantity ≤ c.feedbufSize := hfeed
          rw [hb1]
          nlinarith)
      rw [hpu]
      refine ⟨(rest.split ((1 - f) * qty mat)).2, { s with
        feed := { s.feed with items := l ++ [(rest.split ((1 - f) * qty mat)).1] }
        bufs := bufs' }, ?_, rfl, rfl⟩
      rw [hb2, rq, pq]; ring
  obtain ⟨m, t, hmq, ht, hfe⟩ := hfin
  have htick : tick c s = (do
      let s' ← pushLeftover c m t
      pure (some ⟨qty mat, recs, s'.leftover.quantity⟩, s')) := by
    unfold tick
    rw [if_neg hc, ← hqq, p1]
    simp only [ok_bind]
    rw [hf, checkStaged_ok V hm, ok_bind, p2]
    simp only [ok_bind]
    rw [hfe]
  have hcap : t.leftover.cap = c.leftoverCap := by rw [ht, I.leftCap]
  refine ⟨f, f0, f1, ?_, ?_, ?_, ?_⟩
  · intro st hst h0
    have hsp : (getBuf s.bufs st.1).space = some (max 0 (st.2.cap - (getBuf s.bufs st.1).quantity)) := by
      unfold Buf.space
      rw [I.caps st hst]
      unfold capOf
      rw [if_pos h0]; rfl
    have h1 := fit st hst _ hsp
    obtain ⟨-, h2, -⟩ := space_eq I hst hsp
    rw [h2, hy] at h1
    unfold Buf.quantity at h1
    unfold held
    linarith
  · rcases lim with e | ⟨st, hst, sp, h1, h2, h3⟩
    · exact Or.inl e
    · obtain ⟨g1, g2, -⟩ := space_eq I hst h1
      refine Or.inr ⟨st, hst, g1, by rw [← hy]; exact h2, ?_⟩
      rw [hy, g2] at h3
      unfold Buf.quantity at h3
      unfold held
      linarith
  · intro hx
    obtain ⟨t', e⟩ := pushLeftover_yes (c := c) (m := m) (t := t) (by
      intro x e
      rw [hmq, ht]
      exact hx x (by rw [← hcap]; exact e))
    rw [htick, e]
    exact ⟨_, _, rfl⟩
  · rintro ⟨x, e, hlt⟩
    rw [htick, pushLeftover_no V.eps (x := x) (by rw [hcap]; exact e) (by rw [hmq, ht]; exact hlt)]
    rfl

/-- In the example with room for 1 kg of leftover there are, after one step, 12 kg of feed, the streams
have room for their shares of 6 kg, and 27/20 kg of these are leftover: processing fails. With room for
8 kg it succeeds. -/
example : ((play exFull (exIn.take 1)).toOption.map fun r =>
      (totalQty r.2.feed.items, totalQty (upto 6 r.2.feed.items) -
        yieldAll exFull.streams (upto 6 r.2.feed.items), totalQty r.2.leftover.items,
        (tick exFull r.2).toOption.isSome)) = some (12, 27/20, 0, false) ∧
    ((play exRoomy (exIn.take 1)).toOption.map fun r => (totalQty r.2.feed.items,
      (tick exRoomy r.2).toOption.isSome)) = some (12, true) := by
  decide +kernel

end Cyc.Separations
