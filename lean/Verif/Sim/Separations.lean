import Verif.Sim.Conversion
import Verif.Separations.Props2
import Verif.Network.Lemmas

/-!
# `Separations` keeps the contract
-/

namespace Cyc.Sim

namespace OfSeparations
open Separations

theorem sell_nonneg {c : Cfg} (V : Valid c) {ts : List (String × ℚ)} {s s' : State} {l : List Sim.NMat}
    (I : Inv c s) (h : sellLoop c ts s = .ok (l, s')) : AllNonneg l := by
  induction ts generalizing s l with
  | nil =>
    simp only [sellLoop, Except.ok.injEq, Prod.mk.injEq] at h
    rw [← h.1]; exact AllNonneg.nil
  | cons t ts ih =>
    have h' := h
    simp only [sellLoop, bind_ok] at h
    obtain ⟨⟨m, s1⟩, h1, ⟨ms, s2⟩, h2, h3⟩ := h
    simp only [pure_eq_ok, Except.ok.injEq, Prod.mk.injEq] at h3
    obtain ⟨rfl, rfl⟩ := h3
    have I1 : Inv c s1 := (sellLoop_inv V.eps (ts := [t]) (ms := [m]) I (by
      simp only [sellLoop, h1, ok_bind, pure_eq_ok])).1
    refine AllNonneg.cons.2 ⟨?_, ih I1 h2⟩
    unfold sellOne at h1
    split at h1
    · simp only [bind_ok, pure_eq_ok, Except.ok.injEq, Prod.mk.injEq] at h1
      obtain ⟨⟨m', b⟩, e1, rfl, -⟩ := h1
      obtain ⟨-, -, -, -, -, a6, -⟩ := popEps_invNN I.leftNN V.eps (min_le_left _ _) e1
      exact a6
    · split at h1
      · rename_i b hb
        simp only [bind_ok, pure_eq_ok, Except.ok.injEq, Prod.mk.injEq] at h1
        obtain ⟨⟨m', b'⟩, e1, rfl, -⟩ := h1
        have hg : getBuf s.bufs t.1 = b := by unfold getBuf Map.getD; rw [hb]; rfl
        have hn := I.bufNN t.1
        rw [hg] at hn
        obtain ⟨-, -, -, -, -, a6, -⟩ := popEps_invNN hn V.eps (min_le_left _ _) e1
        exact a6
      · cases h1

theorem contract {μ : Sim.NMat → ℚ} (hμ : Measure μ) {c : Cfg} (hc : Sensible (.separations c)) :
    Contract (separations c) μ contents fun s =>
      Inv c s ∧ s.feed.quantity ≤ c.feedbufSize := by
  obtain ⟨V, heps, hleft, hf, hp, hn⟩ := hc
  have PF : PrefsFit c := ⟨hf, hp⟩
  have htick : ∀ {s}, Inv c s → s.feed.quantity ≤ c.feedbufSize →
      ∃ r s₁ d rq, tick c s = .ok (r, s₁) ∧ requests c s₁ = .ok (d, rq) ∧ Inv c s₁ ∧
        s₁.feed.quantity ≤ c.feedbufSize := by
    intro s I hq
    obtain ⟨r, s₁, h⟩ := tick_ok V I hq hleft
    have I1 := tick_inv V I h
    obtain ⟨d, rq, h2⟩ := requests_ok I1 PF
    exact ⟨r, s₁, d, rq, h, h2, I1, (tick_feed_le V I h).trans hq⟩
  have hdeal : ∀ {s₁ : State} {rs : List Req} {ts : List Sale}, Inv c s₁ →
      WithinOffers rs ((bids c s₁ (quantities rs)).map fun p =>
        ⟨p.commod, p.cap, c.lo, none, fun _ => true, []⟩) ts →
      (∀ t ∈ ts.map fun t => (t.commod, t.amt), 0 < t.2 ∧ c.lo ≤ t.2) ∧
      ∀ k, tradedIn k (ts.map fun t => (t.commod, t.amt)) ≤ totalQty (stock c s₁ k) := by
    intro s₁ rs ts I1 W
    have hoff : ∀ t ∈ ts, 0 < t.amt ∧ c.lo ≤ t.amt ∧
        ∃ p ∈ bids c s₁ (quantities rs), p.commod = t.commod := by
      intro t ht
      obtain ⟨o, ho, h1, h2, -⟩ := W.offered t ht
      obtain ⟨p, hp, rfl⟩ := List.mem_map.1 ho
      exact ⟨(W.pos t ht).1, h2, p, hp, h1⟩
    have hsum : ∀ k, tradedIn k (ts.map fun t => (t.commod, t.amt)) =
        ((ts.filter fun t => t.commod = k).map Sale.amt).sum := by
      intro k
      unfold tradedIn
      rw [List.filter_map, List.map_map]
      rfl
    constructor
    · intro x hx
      obtain ⟨t, ht, rfl⟩ := List.mem_map.1 hx
      exact ⟨(hoff t ht).1, (hoff t ht).2.1⟩
    · intro k
      rw [hsum]
      by_cases hk : ∃ t ∈ ts, t.commod = k
      · obtain ⟨t, ht, rfl⟩ := hk
        obtain ⟨-, -, p, hp, hpc⟩ := hoff t ht
        have := W.caps ⟨p.commod, p.cap, c.lo, none, fun _ => true, []⟩ (List.mem_map.2 ⟨p, hp, rfl⟩)
        simp only [hpc] at this
        rwa [bids_cap V I1 hp, hpc] at this
      · rw [List.filter_eq_nil_iff.2]
        · simpa using (I1.stockNN k).total_nonneg
        · intro t ht
          simp only [decide_eq_true_eq]
          exact fun h => hk ⟨t, ht, h⟩
  constructor
  · rintro s ⟨I, hq⟩
    obtain ⟨r, s₁, d, rq, h1, h2, I1, hq1⟩ := htick I hq
    refine ⟨_, by simp only [separations, h1, h2, ok_bind, pure_eq_ok]; rfl, ?_⟩
    intro a ha
    split at ha
    · cases ha
    · rename_i r
      rw [List.mem_singleton] at ha
      subst ha
      suffices hpos : 0 < r.amount by
        refine ⟨hpos.le, fun x hx => ?_⟩
        simp only [List.mem_map] at hx
        obtain ⟨k, -, rfl⟩ := hx
        exact solid_blank hpos
      unfold requests at h2
      simp only [bind_ok] at h2
      obtain ⟨k, -, h2⟩ := h2
      split at h2
      · simp only [pure_eq_ok, Except.ok.injEq, Prod.mk.injEq, reduceCtorEq, and_false] at h2
      · split at h2
        · simp only [pure_eq_ok, Except.ok.injEq, Prod.mk.injEq, reduceCtorEq, and_false] at h2
        · rename_i hlt
          simp only [bind_ok, pure_eq_ok, Except.ok.injEq, Prod.mk.injEq, Option.some.injEq] at h2
          obtain ⟨l, -, -, rfl⟩ := h2
          exact lt_of_lt_of_le heps (not_lt.1 hlt)
  · rintro s rs ⟨I, hq⟩ -
    obtain ⟨r, s₁, d, rq, h1, h2, I1, hq1⟩ := htick I hq
    refine ⟨_, by simp only [separations, h1, h2, reinsert_ok V I1 hleft, ok_bind, pure_eq_ok]; rfl,
      ?_⟩
    intro o ho
    obtain ⟨p, hp, rfl⟩ := List.mem_map.1 ho
    show 0 ≤ p.cap
    rw [bids_cap V I1 hp]
    exact (I1.stockNN _).total_nonneg
  · rintro s rs os ts ⟨I, hq⟩ - ho W
    obtain ⟨r, s₁, d, rq, h1, h2, I1, hq1⟩ := htick I hq
    simp only [separations, h1, h2, reinsert_ok V I1 hleft, ok_bind, pure_eq_ok,
      Except.ok.injEq] at ho
    subst ho
    obtain ⟨k1, k2⟩ := hdeal I1 W
    obtain ⟨l, s₂, h3, e, -⟩ := sellLoop_ok V I1 k1 k2
    refine ⟨l, s₂, by simp only [separations, h1, h2, reinsert_ok V I1 hleft, ok_bind]; exact h3, ?_⟩
    rw [List.map_map] at e
    refine forall₂_of_map e fun m hm => ⟨?_, sell_nonneg V I1 h3 m hm⟩
    have : qty m ∈ ts.map Sale.amt := by
      have := List.mem_map_of_mem (f := qty) hm
      rw [e] at this
      exact this
    obtain ⟨t, ht, h⟩ := List.mem_map.1 this
    rw [← h]
    exact (W.pos t ht).1
  · rintro s rs os ts l m as ds ⟨I, hq⟩ - ho W hs ha WA
    obtain ⟨r, s₁, d, rq, h1, h2, I1, hq1⟩ := htick I hq
    simp only [separations, h1, h2, reinsert_ok V I1 hleft, ok_bind, pure_eq_ok,
      Except.ok.injEq] at ho hs ha
    subst ho ha
    obtain ⟨I2, e2⟩ := sellLoop_inv V.eps I1 hs
    have hb : ∀ x ∈ ds.map Delivery.mat, Sim.Solid x := by
      intro x hx
      obtain ⟨d, hd, rfl⟩ := List.mem_map.1 hx
      exact WA.solid d hd
    have hroom : m.feed.quantity + totalQty (ds.map Delivery.mat) ≤ c.feedbufSize := by
      rw [e2]
      cases rq with
      | none =>
        rw [WithinAsks.empty WA]
        simpa using hq1
      | some q =>
        have h := WA.single.trans (request_amount h2)
        rw [feedSpace_eq I1, max_eq_right (by linarith)] at h
        linarith
    obtain ⟨s3, h4⟩ := accept_ok V.eps I2.feedCap (fun x hx => (hb x hx).2) hroom
    refine ⟨{ s3 with time := s3.time + 1 }, by simp only [separations, h4, ok_bind, pure_eq_ok],
      ⟨(accept_inv I2 (fun x hx => (hb x hx).2) (fun x hx => (hb x hx).1) h4).later (s3.time + 1),
        ?_⟩, ?_⟩
    · obtain ⟨-, a2, -⟩ := accept_conserve h4
      show totalQty s3.feed.items ≤ _
      rw [a2, totalQty_append]; exact hroom
    · refine hμ _ _ fun n => ?_
      have t1 := (tick_conserve V.eps I.feedNN h1).1 n
      have t2 := (sellLoop_conserve hs).1 n
      have t3 := (accept_conserve h4).1 n
      simp only [Mat.massOf_append]
      show Mat.massOf (contents s3) n + _ = _
      linarith
  · rintro s ⟨I, -⟩ m hm
    rcases List.mem_append.1 hm with hm | hm
    · rcases List.mem_append.1 hm with hm | hm
      · exact I.feedNN m hm
      · exact I.leftNN m hm
    · obtain ⟨⟨k, b⟩, hx, hm⟩ := List.mem_flatMap.1 hm
      have := I.bufNN k
      rw [getBuf, Map.getD, Map.get?_of_mem I.nodup hx] at this
      exact this m hm

theorem deployed {μ : Sim.NMat → ℚ} (hμ : Measure μ) {A : Agreement} {c : Cfg}
    (hc : Sensible (.separations c)) (hA : Suits A (.separations c)) :
    ∃ p, deploy (.separations c) = .ok p ∧ Good A μ holdings p := by
  have hc' := hc
  obtain ⟨V, heps, hleft, hf, hp, hn⟩ := hc
  obtain ⟨a1, a2, a3⟩ := hA
  obtain ⟨s, h, -⟩ := C70_progress_partial V hn hf (hp.imp List.length_eq_zero_iff.1 id) hleft
  refine ⟨⟨.separations c, s⟩, by simp only [deploy, h, ok_bind, pure_eq_ok], _,
    (contract hμ hc').free ?_ ?_, enter_Inv V h, trivial⟩
  · rintro s as ⟨I, -⟩ h a ha x hx hq
    simp only [separations, bind_ok, pure_eq_ok, Except.ok.injEq] at h
    obtain ⟨⟨r, s₁⟩, h1, ⟨d, rq⟩, h2, rfl⟩ := h
    split at ha
    · cases ha
    · rename_i p
      simp only at p
      subst p
      rw [List.mem_singleton] at ha
      subst ha
      obtain ⟨k, hk, rfl⟩ := List.mem_map.1 hx
      refine a1 _ ?_ _ (by simpa [qty_blank] using hq.1)
      unfold requests at h2
      simp only [bind_ok] at h2
      obtain ⟨k', -, h2⟩ := h2
      split at h2
      · simp only [pure_eq_ok, Except.ok.injEq, Prod.mk.injEq, reduceCtorEq, and_false] at h2
      · split at h2
        · simp only [pure_eq_ok, Except.ok.injEq, Prod.mk.injEq, reduceCtorEq, and_false] at h2
        · simp only [bind_ok, pure_eq_ok, Except.ok.injEq, Prod.mk.injEq, Option.some.injEq] at h2
          obtain ⟨l, h2, -, rfl⟩ := h2
          rw [mkRequests_ok, Except.ok.injEq] at h2
          · subst h2
            exact (List.of_mem_zip hk).1
          · rw [(tick_inv V I h1).prefs]
            split
            · simp
            · rename_i hp'
              exact (hp.resolve_left hp').ge
  · rintro s rs os ⟨I, -⟩ h o ho
    simp only [separations, bind_ok, pure_eq_ok, Except.ok.injEq] at h
    obtain ⟨⟨r, s₁⟩, h1, ⟨d, rq⟩, -, u, -, rfl⟩ := h
    obtain ⟨p, hp', rfl⟩ := List.mem_map.1 ho
    refine ⟨rfl, ?_⟩
    have key : ∀ {k b qs}, p ∈ bidsFor c.eps k b qs → p.commod = k := by
      intro k b qs hb
      unfold bidsFor at hb
      split at hb
      · cases hb
      · split at hb
        · cases hb
        · rw [List.mem_singleton] at hb
          subst hb; rfl
    rcases List.mem_append.1 hp' with hp' | hp'
    · obtain ⟨b, hb, hp'⟩ := List.mem_flatMap.1 hp'
      obtain ⟨x, hx, e⟩ := List.mem_map.1 ((tick_inv V I h1).keys b.1 (List.mem_map_of_mem hb))
      show Free A p.commod
      rw [key hp', ← e]
      exact a3 x hx
    · show Free A p.commod
      rw [key hp']
      exact a2

end OfSeparations

end Cyc.Sim
