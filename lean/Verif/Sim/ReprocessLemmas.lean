import Verif.Sim.Reprocess
import Verif.Sim.Props19

/-!
# The steps of a separations facility that keeps up
-/

namespace Cyc.Separations

open Mat (massOf)

theorem yield_le {c : Cfg} (V : Valid c) {ms : List NMat} (hn : AllNonneg ms) {st : String × Stream}
    (h : st ∈ c.streams) : yield st.2.effs ms ≤ totalQty ms := by
  refine le_trans ?_ (yieldAll_le V.share hn)
  refine List.single_le_sum ?_ _ (List.mem_map.2 ⟨st, h, rfl⟩)
  intro x hx
  obtain ⟨st', h', rfl⟩ := List.mem_map.1 hx
  exact yield_nonneg (V.effs st' h') hn

/-- A facility that has the throughput and the room works off all its feed. -/
theorem tick_through {c : Cfg} (V : Valid c) {s s₁ : State} (I : Inv c s) {r : Option TickRec}
    (h : tick c s = .ok (r, s₁)) (hq : totalQty s.feed.items ≤ c.throughput)
    (hroom : ∀ st ∈ c.streams, 0 ≤ st.2.cap → totalQty (held s st.1) + totalQty s.feed.items ≤ st.2.cap) :
    (∀ st ∈ c.streams, (∀ n, massOf (held s₁ st.1) n =
        massOf (held s st.1) n + fraction st.2.effs n * massOf s.feed.items n) ∧
      totalQty (held s₁ st.1) = totalQty (held s st.1) + yield st.2.effs s.feed.items) ∧
    (∀ n, massOf s₁.leftover.items n =
      massOf s.leftover.items n + (1 - share c.streams n) * massOf s.feed.items n) ∧
    totalQty s₁.leftover.items =
      totalQty s.leftover.items + (totalQty s.feed.items - yieldAll c.streams s.feed.items) ∧
    totalQty s₁.feed.items = 0 := by
  by_cases hne : s.feed.items = []
  · rw [tick_empty hne, Except.ok.injEq, Prod.mk.injEq] at h
    obtain ⟨-, rfl⟩ := h
    have y0 : ∀ effs, yield effs [] = 0 := fun effs => rfl
    refine ⟨fun st _ => ⟨fun n => ?_, ?_⟩, fun n => ?_, ?_, ?_⟩ <;> rw [hne]
    · simp
    · rw [y0]; simp
    · simp
    · simp [yieldAll, y0]
    · simp
  · obtain ⟨t, f, -, E, -⟩ := tick_eff V I hne h
    have e1 : s.feed.quantity = totalQty s.feed.items := rfl
    have e2 : min c.throughput s.feed.quantity = totalQty s.feed.items := min_eq_right hq
    rw [e2, upto_all I.feedPos le_rfl] at E
    have hf : f = 1 := by
      rcases E.limit with h | ⟨st, hst, sp, h1, h2, h3⟩
      · exact h
      · obtain ⟨g1, g2, -⟩ := space_eq I hst h1
        have hr := hroom st hst g1
        have : sp = st.2.cap - totalQty (held s st.1) := g2
        have hy := yield_le V I.feedNN hst
        have h5 : yield st.2.effs s.feed.items ≤ f * yield st.2.effs s.feed.items := by
          rw [h3, this]; linarith
        have h6 := E.f1
        by_contra hne'
        have : f < 1 := lt_of_le_of_ne h6 hne'
        nlinarith
    subst hf
    refine ⟨fun st hst => ⟨fun n => ?_, ?_⟩, fun n => ?_, ?_, ?_⟩
    · rw [E.stream st hst n, one_mul]
    · rw [E.streamQty st hst, one_mul]
    · have := E.leftMass n
      simp only [if_true, one_mul, sub_zero] at this
      exact this
    · have := E.leftQty
      rw [one_mul] at this
      exact this
    · have := E.feedQty
      rw [one_mul, e1, sub_self] at this
      exact this

theorem buf_stock {c : Cfg} (V : Valid c) {s : State} (I : Inv c s) {b : String × Buf NMat} (h : b ∈ s.bufs) :
    b.2.items = stock c s b.1 ∧ b.1 ∈ c.streams.map Prod.fst := by
  have hk : b.1 ∈ c.streams.map Prod.fst := I.keys _ (List.mem_map.2 ⟨b, h, rfl⟩)
  refine ⟨?_, hk⟩
  have hne : b.1 ≠ c.leftoverCommod := fun h => V.leftover (h ▸ hk)
  unfold stock
  rw [if_neg hne]
  unfold getBuf Map.getD
  rw [Map.get?_of_mem I.nodup (show (b.1, b.2) ∈ s.bufs from h)]
  rfl

theorem totalQty_contents {s : State} : totalQty (contents s) =
    totalQty s.feed.items + totalQty s.leftover.items + (s.bufs.map fun b => totalQty b.2.items).sum := by
  unfold contents
  rw [totalQty_append, totalQty_append]
  congr 1
  induction s.bufs with
  | nil => rfl
  | cons b l ih => rw [List.flatMap_cons, totalQty_append, ih]; rfl

/-- If nothing is in stock, all there is is feed. -/
theorem contents_feed {c : Cfg} (V : Valid c) {s : State} (I : Inv c s)
    (h : ∀ k ∈ c.leftoverCommod :: c.streams.map Prod.fst, totalQty (stock c s k) = 0) :
    totalQty (contents s) = totalQty s.feed.items := by
  have h1 := h c.leftoverCommod (by simp)
  rw [stock_leftover] at h1
  have h2 : (s.bufs.map fun b => totalQty b.2.items).sum = 0 := by
    refine List.sum_eq_zero fun x hx => ?_
    obtain ⟨b, hb, rfl⟩ := List.mem_map.1 hx
    obtain ⟨e, hk⟩ := buf_stock V I hb
    rw [e, h _ (List.mem_cons_of_mem _ hk)]
  rw [totalQty_contents, h1, h2]
  ring

theorem bufs_nonneg {c : Cfg} (V : Valid c) {s : State} (I : Inv c s) :
    ∀ x ∈ s.bufs.map fun b => totalQty b.2.items, 0 ≤ x := by
  intro x hx
  obtain ⟨b, hb, rfl⟩ := List.mem_map.1 hx
  rw [(buf_stock V I hb).1]
  exact (I.stockNN _).total_nonneg

/-- What is in stock is part of what there is. -/
theorem stock_le {c : Cfg} (V : Valid c) {s : State} (I : Inv c s) (k : String) :
    totalQty (stock c s k) ≤ totalQty (contents s) := by
  have n1 := I.feedNN.total_nonneg
  have n2 := I.leftNN.total_nonneg
  have n3 := List.sum_nonneg (bufs_nonneg V I)
  rw [totalQty_contents]
  by_cases hk : k = c.leftoverCommod
  · subst hk
    rw [stock_leftover]
    linarith
  · cases e : Map.get? s.bufs k with
    | none =>
      have : stock c s k = [] := by
        unfold stock getBuf Map.getD
        rw [if_neg hk, e]
        rfl
      rw [this, totalQty_nil]
      linarith
    | some b =>
      have hb : (k, b) ∈ s.bufs := Map.mem_of_get? e
      have e1 := (buf_stock V I hb).1
      have := List.single_le_sum (bufs_nonneg V I) _ (List.mem_map.2 ⟨_, hb, rfl⟩)
      simp only at e1 this
      rw [← e1]
      linarith

/-- There is a bid for what is in stock, if somebody asks for it and it is not too little. -/
theorem bid_made {c : Cfg} (V : Valid c) {s : State} (I : Inv c s) (he : 0 < c.eps) {reqs : String → List ℚ}
    {k : String} (hr : reqs k ≠ []) (h : c.eps ≤ totalQty (stock c s k)) :
    ∃ p ∈ bids c s reqs, p.commod = k := by
  have made : ∀ {b : Buf NMat}, totalQty b.items = totalQty (stock c s k) →
      ∃ p ∈ bidsFor c.eps k b (reqs k), p.commod = k := by
    intro b e
    unfold bidsFor
    rw [if_neg (by simpa using hr), if_neg (by
      rw [show b.quantity = totalQty b.items from rfl, e]
      exact not_lt.2 h)]
    exact ⟨_, List.mem_singleton.2 rfl, rfl⟩
  unfold bids
  by_cases hk : k = c.leftoverCommod
  · subst hk
    obtain ⟨p, h1, h2⟩ := made (b := s.leftover) (by rw [stock_leftover])
    exact ⟨p, List.mem_append_right _ h1, h2⟩
  · cases e : Map.get? s.bufs k with
    | none =>
      have : stock c s k = [] := by
        unfold stock getBuf Map.getD
        rw [if_neg hk, e]
        rfl
      rw [this, totalQty_nil] at h
      linarith
    | some b =>
      have hb : (k, b) ∈ s.bufs := Map.mem_of_get? e
      obtain ⟨p, h1, h2⟩ := made (b := b) (by rw [← (buf_stock V I hb).1])
      exact ⟨p, List.mem_append_left _ (List.mem_flatMap.2 ⟨_, hb, h1⟩), h2⟩

/-- A facility without feed asks for as much as it can store. -/
theorem requests_empty {c : Cfg} {s : State} (I : Inv c s) (PF : PrefsFit c) (hx : c.exitTime = none)
    (h0 : totalQty s.feed.items = 0) (he : c.eps ≤ c.feedbufSize) (hf : 0 ≤ c.feedbufSize) {d : String × ℚ}
    {rq : Option Request} (h : requests c s = .ok (d, rq)) :
    rq = some ⟨c.feedbufSize, c.feedCommods.zip s.prefs⟩ := by
  have hl := prefs_length I PF
  have hfs : feedSpace s = c.feedbufSize := by
    rw [feedSpace_eq I, show s.feed.quantity = totalQty s.feed.items from rfl, h0, sub_zero, max_eq_right hf]
  unfold requests at h
  simp only [bind_ok] at h
  obtain ⟨k, -, h⟩ := h
  have : enough c s = false := by unfold enough; rw [hx]
  rw [this, hfs, if_neg Bool.false_ne_true, if_neg (not_lt.2 he),
    mkRequests_ok (show c.feedCommods.length ≤ s.prefs.length by omega)] at h
  simp only [ok_bind, pure_eq_ok, Except.ok.injEq, Prod.mk.injEq] at h
  exact h.2.symm

end Cyc.Separations

namespace Cyc.Sim

variable {A : Agreement}

open Mat (massOf)

namespace OfSeparations
open Separations

/-- What a separations facility does in a step. -/
structure Turn (c : Cfg) (rs : List Req) (s : State) (os : List Offer) (ts : List Sale) (l : List NMat)
    (as : List Ask) (ds : List Delivery) (m s' s₁ : State) : Prop where
  tick : ∃ r, tick c s = .ok (r, s₁)
  inv : Inv c s₁
  offers : os = (bids c s₁ (quantities rs)).map fun p => ⟨p.commod, p.cap, c.lo, none, fun _ => true, []⟩
  asks : ∃ d rq, requests c s₁ = .ok (d, rq) ∧ as = match rq with
    | none => []
    | some r => [⟨r.commods.map fun k => (k.1, blank r.amount), r.amount, false⟩]
  traded : ∀ k, 0 ≤ ((ts.filter fun t => t.commod = k).map Sale.amt).sum
  stock : ∀ k, totalQty (stock c m k) =
    totalQty (stock c s₁ k) - ((ts.filter fun t => t.commod = k).map Sale.amt).sum
  sold : ∀ k n, massOf (((ts.zip l).filter fun x => x.1.commod = k).map Prod.snd) n =
    massOf (upto ((ts.filter fun t => t.commod = k).map Sale.amt).sum (Separations.stock c s₁ k)) n
  invM : Inv c m
  feedM : m.feed = s₁.feed
  all : ∀ n, massOf l n + massOf (contents m) n = massOf (contents s) n
  feed : s'.feed.items = m.feed.items ++ ds.map Delivery.mat
  still : ∀ k, Separations.stock c s' k = Separations.stock c m k
  has : ∀ n, massOf (contents s') n = massOf (contents m) n + massOf (ds.map Delivery.mat) n

theorem turn {c : Cfg} (hc : Sensible (.separations c)) {s s' m : State} {n : Nat}
    {got gave : List (List NMat)} (L : Lived (.separations c) s n got gave) {rs : List Req} {os : List Offer}
    {ts : List Sale} {l : List NMat} {as : List Ask} {ds : List Delivery}
    (P : Part (separations c) rs s os ts l as ds m s') : ∃ s₁, Turn c rs s os ts l as ds m s' s₁ := by
  have I := lived_inv hc L
  obtain ⟨V, heps, hleft, -⟩ := hc
  have hsell := P.sell
  simp only [separations, bind_ok] at hsell
  obtain ⟨⟨tr, s₁⟩, e1, ⟨d, rq⟩, e2, u, e3, hs⟩ := hsell
  have hset := P.settle
  simp only [separations, bind_ok, pure_eq_ok, Except.ok.injEq] at hset
  obtain ⟨s3, e4, rfl⟩ := hset
  have ho := P.offers
  simp only [separations, e1, e2, e3, ok_bind, pure_eq_ok, Except.ok.injEq] at ho
  have ha := P.asks
  simp only [separations, e1, e2, ok_bind, pure_eq_ok, Except.ok.injEq] at ha
  have I1 := tick_inv V I e1
  have W := P.sales
  rw [← ho] at W
  have hsum : ∀ k, tradedIn k (ts.map fun t => (t.commod, t.amt)) =
      ((ts.filter fun t => t.commod = k).map Sale.amt).sum := by
    intro k
    unfold tradedIn
    rw [List.filter_map, List.map_map]
    rfl
  have hnn : ∀ k, 0 ≤ ((ts.filter fun t => t.commod = k).map Sale.amt).sum := by
    intro k
    refine List.sum_nonneg fun x hx => ?_
    obtain ⟨t, ht, rfl⟩ := List.mem_map.1 hx
    exact (W.pos t (List.mem_filter.1 ht).1).1.le
  have hoff : ∀ t ∈ ts, 0 < t.amt ∧ c.lo ≤ t.amt ∧
      ∃ p ∈ bids c s₁ (quantities rs), p.commod = t.commod := by
    intro t ht
    obtain ⟨o, ho, h1, h2, -⟩ := W.offered t ht
    obtain ⟨p, hp, rfl⟩ := List.mem_map.1 ho
    exact ⟨(W.pos t ht).1, h2, p, hp, h1⟩
  have hcap : ∀ k, tradedIn k (ts.map fun t => (t.commod, t.amt)) ≤ totalQty (Separations.stock c s₁ k) := by
    intro k
    rw [hsum]
    by_cases hk : ∃ t ∈ ts, t.commod = k
    · obtain ⟨t, ht, rfl⟩ := hk
      obtain ⟨-, -, p, hp, hpc⟩ := hoff t ht
      have := W.caps ⟨p.commod, p.cap, c.lo, none, fun _ => true, []⟩ (List.mem_map.2 ⟨p, hp, rfl⟩)
      simp only [hpc] at this
      rwa [bids_cap V I1 hp, hpc] at this
    · rw [List.filter_eq_nil_iff.2]
      · simpa using (I1.stockNN k).total_nonneg
      · intro t ht
        simp only [decide_eq_true_eq]
        exact fun h => hk ⟨t, ht, h⟩
  obtain ⟨l', m', h3, -, q2, -, q3, q4, q5, -⟩ := sellLoop_ok V I1 (ts := ts.map fun t => (t.commod, t.amt))
    (by
      intro x hx
      obtain ⟨t, ht, rfl⟩ := List.mem_map.1 hx
      exact ⟨(hoff t ht).1, (hoff t ht).2.1⟩) hcap
  obtain ⟨rfl, rfl⟩ := Prod.mk.inj (Except.ok.inj (h3.symm.trans hs))
  obtain ⟨a1, a2, -, a4, a5, -⟩ := accept_conserve e4
  refine ⟨s₁, ⟨tr, e1⟩, I1, ho.symm, ⟨d, rq, e2, ha.symm⟩, hnn, fun k => by rw [q3, hsum], fun k n => ?_, q4, q5,
    fun n => ?_, a2, fun k => ?_, a1⟩
  · rw [← hsum, ← q2]
    unfold soldIn
    rw [List.zip_map_left, List.filter_map, List.map_map]
    rfl
  · rw [(sellLoop_conserve hs).1, (tick_conserve V.eps I.feedNN e1).1]
  · unfold Separations.stock
    simp only [a4, a5]

end OfSeparations

/-- Of somebody who offers in any amounts and somebody who asks for any amount, one is served, if no deal can be
added; the supplier may offer other commodities as well. -/
theorem pours_in {asks : List (List Ask)} {offers : List (List Offer)} {ds : List Deal}
    (F : Fair asks offers ds) (T : ∀ d, Loose asks offers d → ¬ Fair asks offers (ds ++ [d])) {i j : Nat}
    {x : String} {v b u : ℚ} {m : NMat} {alts : List (String × NMat)} {os : List Offer}
    (e2 : offers[i]? = some os) (hex : ∃ o ∈ os, o.commod = x)
    (hos : ∀ o ∈ os, o.commod = x → o = ⟨x, v, b, none, fun _ => true, []⟩) (hlo : b ≤ 0)
    (e1 : asks[j]? = some [⟨alts, u, false⟩]) (hmem : (x, m) ∈ alts) (hu : u ≤ qty m) :
    v ≤ (dealt ds fun d => d.src = i ∧ d.commod = x) ∨ u ≤ dealt ds fun d => d.dst = j := by
  by_contra hno
  push Not at hno
  obtain ⟨n1, n2⟩ := hno
  have posamt : ∀ d ∈ ds, 0 ≤ d.amt := fun d hd => (F.pos d hd).1.le
  have hport : (dealt ds fun d => d.dst = j ∧ d.port = 0) = dealt ds fun d => d.dst = j := by
    unfold dealt
    congr 2
    refine List.filter_congr fun d hd => ?_
    obtain ⟨as', m1, a, m2, -⟩ := F.asked d hd
    rw [Bool.eq_iff_iff]
    simp only [decide_eq_true_eq]
    refine ⟨fun e => e.1, fun e => ⟨e, ?_⟩⟩
    rw [e, e1] at m1
    obtain rfl := Option.some.inj m1
    have := (List.getElem?_eq_some_iff.1 m2).1
    simpa using this
  set r := min (v - dealt ds fun d => d.src = i ∧ d.commod = x) (u - dealt ds fun d => d.dst = j) with hr'
  have r0 : 0 < r := lt_min (by linarith) (by linarith)
  have r1 : r ≤ v - dealt ds fun d => d.src = i ∧ d.commod = x := min_le_left _ _
  have r2 : r ≤ u - dealt ds fun d => d.dst = j := min_le_right _ _
  have r3 : r ≤ qty m := by
    have := dealt_nonneg posamt fun d => d.dst = j
    linarith
  have hl : ∀ os, offers[i]? = some os → ∀ o ∈ os, o.commod = x → o.limits = [] ∧ o.piece = none := by
    intro os' hos' o ho e
    obtain rfl := Option.some.inj (e2.symm.trans hos')
    rw [hos o ho e]
    exact ⟨rfl, rfl⟩
  obtain ⟨o, ho, hox⟩ := hex
  refine T ⟨i, j, 0, x, m, r⟩ ⟨hl, _, e1, _, rfl, rfl⟩
    (F.add ⟨r0, r3⟩ ⟨_, e2, o, ho, hox, ?_, ?_, ?_⟩
      ⟨_, e1, _, rfl, hmem, fun h => by cases h⟩ (fun os' h o ho e => (hl os' h o ho e).1) ?_ ?_)
  · rw [hos o ho hox]; exact hlo.trans r0.le
  · rw [hos o ho hox]; intro v hv; cases hv
  · rw [hos o ho hox]
  · intro os' hos' o ho e
    obtain rfl := Option.some.inj (e2.symm.trans hos')
    rw [hos o ho e, dealt_append, dealt_single, if_pos (by simp)]
    change (dealt ds fun d => d.src = i ∧ d.commod = x) + r ≤ v
    linarith
  · intro as' has' a ha
    obtain rfl := Option.some.inj (e1.symm.trans has')
    obtain rfl : _ = a := by simpa using ha
    rw [dealt_append, dealt_single, if_pos (by simp)]
    change (dealt ds fun d => d.dst = j ∧ d.port = 0) + r ≤ u
    rw [hport]; linarith

/-- What a facility hands over belongs to its deals, in their order. -/
theorem sellAll_zip {rs : List Req} {ds : List Deal} {ps : List (Running act)} {k : Nat}
    {gs : List (Deal × NMat)} {hs : List (Halfway act)} (h : sellAll rs ds k ps = .ok (gs, hs)) :
    (∀ g ∈ gs, k ≤ g.1.src) ∧ ∀ (j : Nat) p, ps[j]? = some p → ∃ l m,
      (act p.k).sell rs ((dealsOf ds (k + j)).map Deal.sale) p.s = .ok (l, m) ∧
      (gs.filter fun g => g.1.src = k + j) = (dealsOf ds (k + j)).zip l := by
  induction ps generalizing k gs hs with
  | nil =>
    simp only [sellAll, Except.ok.injEq, Prod.mk.injEq] at h
    obtain ⟨rfl, rfl⟩ := h
    exact ⟨by simp, by simp⟩
  | cons p ps ih =>
    simp only [sellAll, bind_ok, pure_eq_ok, Except.ok.injEq, Prod.mk.injEq] at h
    obtain ⟨⟨l, m⟩, h1, ⟨gs', hs'⟩, h2, rfl, rfl⟩ := h
    obtain ⟨e2, e3⟩ := ih h2
    have hsrc : ∀ g ∈ (dealsOf ds k).zip l, g.1.src = k := by
      intro g hg
      have := (List.mem_filter.1 (List.of_mem_zip hg).1).2
      simpa using this
    refine ⟨?_, ?_⟩
    · intro g hg
      rcases List.mem_append.1 hg with hg | hg
      · exact (hsrc g hg).ge
      · exact le_trans (Nat.le_succ k) (e2 g hg)
    · intro j q hq
      cases j with
      | zero =>
        simp only [List.getElem?_cons_zero, Option.some.injEq] at hq
        subst hq
        refine ⟨l, m, h1, ?_⟩
        rw [List.filter_append, List.filter_eq_self.2 (by
          intro g hg; simpa using hsrc g hg), List.filter_eq_nil_iff.2 (by
          intro g hg
          have := e2 g hg
          simp only [decide_eq_true_eq]
          omega), List.append_nil]
        rfl
      | succ j =>
        obtain ⟨l', m', f1, f2⟩ := e3 j q (by simpa using hq)
        have ek : k + 1 + j = k + (j + 1) := by omega
        rw [ek] at f1 f2
        refine ⟨l', m', f1, ?_⟩
        rw [List.filter_append, List.filter_eq_nil_iff.2 (by
          intro g hg
          have := hsrc g hg
          simp only [decide_eq_true_eq]
          omega), List.nil_append]
        exact f2

end Cyc.Sim
