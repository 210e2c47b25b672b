import Verif.Separations.Lemmas3

/-!
# Sales, deliveries, whole steps and histories
-/

namespace Cyc.Separations

open Mat (massOf)

/-- The materials handed over for trades in one commodity. -/
def soldIn (k : String) (sells : List (String × ℚ)) (ms : List NMat) : List NMat :=
  ((sells.zip ms).filter (·.1.1 = k)).map Prod.snd

theorem initBufs_cap {l : List (String × Stream)} (hn : (l.map Prod.fst).Nodup) :
    ∀ st ∈ l, (getBuf (initBufs l) st.1).cap = capOf st.2 := by
  induction l with
  | nil => simp
  | cons s l ih =>
    simp only [List.map_cons, List.nodup_cons] at hn
    intro st hst
    unfold initBufs
    rcases List.mem_cons.1 hst with rfl | hst
    · unfold capOf
      split
      · rw [getBuf_set_self]
      · have : st.1 ∉ Map.keys (initBufs l) := by
          intro hk
          have : ∀ (l : List (String × Stream)) k, k ∈ Map.keys (initBufs l) →
              k ∈ l.map Prod.fst := by
            intro l
            induction l with
            | nil => simp [initBufs, Map.keys]
            | cons s l ih =>
              intro k hk
              unfold initBufs at hk
              rw [List.map_cons, List.mem_cons]
              split at hk
              · rcases Map.mem_keys_set.1 hk with h | h
                · left; exact h
                · right; exact ih k h
              · right; exact ih k hk
          exact hn.1 (this l _ hk)
        unfold getBuf Map.getD
        rw [Map.get?_eq_none.2 this]; rfl
    · have hne : s.1 ≠ st.1 := by
        intro h; exact hn.1 (h ▸ List.mem_map.2 ⟨st, hst, rfl⟩)
      split
      · rw [getBuf_set_ne hne]; exact ih hn.2 st hst
      · exact ih hn.2 st hst

theorem initBufs_keys (l : List (String × Stream)) :
    (Map.keys (initBufs l)).Nodup ∧ ∀ k ∈ Map.keys (initBufs l), k ∈ l.map Prod.fst := by
  induction l with
  | nil => simp [initBufs, Map.keys]
  | cons s l ih =>
    unfold initBufs
    split
    · refine ⟨Map.nodup_set ih.1 _ _, ?_⟩
      intro k hk
      rw [List.map_cons, List.mem_cons]
      rcases Map.mem_keys_set.1 hk with h | h
      · left; exact h
      · right; exact ih.2 k h
    · refine ⟨ih.1, fun k hk => ?_⟩
      rw [List.map_cons, List.mem_cons]; right; exact ih.2 k hk

theorem enter_Inv {c : Cfg} (V : Valid c) {s : State} (h : enter c = .ok s) :
    Inv c s ∧ s.feed.quantity ≤ c.feedbufSize := by
  have hp : s.prefs = if c.feedPrefs.length = 0 then c.feedCommods.map fun _ => (1 : ℚ)
    else c.feedPrefs := by
    unfold enter at h
    split at h
    · cases h
    · simp only [Except.ok.injEq] at h
      subst h; rfl
  obtain ⟨h1, h2, h3, -⟩ := enter_inv h
  have hitems : ∀ k, (getBuf s.bufs k).items = [] := by
    intro k; rw [h3]
    exact Map.getD_prop (p := fun b : Buf NMat => b.items = []) (initBufs_items _) rfl
  refine ⟨?_, by rw [h1]; simpa [Buf.quantity] using V.feedbuf⟩
  constructor
  · rw [h1]; exact AllNonneg.nil
  · rw [h1]; simp [AllPos]
  · rw [h2]; exact AllNonneg.nil
  · intro k; rw [hitems]; exact AllNonneg.nil
  · rw [h3]; exact (initBufs_keys _).1
  · rw [h3]; exact (initBufs_keys _).2
  · rw [h1]
  · rw [h2]
  · rw [h3]; exact initBufs_cap V.names
  · intro st _ h0; unfold Buf.quantity; rw [hitems]; simpa using h0
  · exact hp

/-! ## Sales -/

theorem stock_leftover (c : Cfg) (s : State) : stock c s c.leftoverCommod = s.leftover.items := by
  simp [stock]

theorem Inv.stockNN {c : Cfg} {s : State} (I : Inv c s) (k : String) : AllNonneg (stock c s k) := by
  unfold stock; split
  · exact I.leftNN
  · exact I.bufNN k

/-- Updating a stream with what a removal left keeps the invariant. -/
theorem Inv.setBuf {c : Cfg} {s : State} (I : Inv c s) {k : String} {b b' : Buf NMat}
    (hb : Map.get? s.bufs k = some b) (hcap : b'.cap = b.cap) (hq : b'.quantity ≤ b.quantity)
    (hnn : AllNonneg b'.items) : Inv c { s with bufs := Map.set s.bufs k b' } := by
  have hg : getBuf s.bufs k = b := by simp [getBuf, Map.getD, hb]
  constructor
  · exact I.feedNN
  · exact I.feedPos
  · exact I.leftNN
  · intro k'
    by_cases h : k = k'
    · subst h; show AllNonneg (getBuf (Map.set s.bufs k b') k).items; rw [getBuf_set_self]; exact hnn
    · show AllNonneg (getBuf (Map.set s.bufs k b') k').items; rw [getBuf_set_ne h]; exact I.bufNN k'
  · exact Map.nodup_set I.nodup _ _
  · intro k' hk
    rcases Map.mem_keys_set.1 hk with h | h
    · rw [h]; exact I.keys k (Map.mem_keys.2 ⟨b, hb⟩)
    · exact I.keys k' h
  · exact I.feedCap
  · exact I.leftCap
  · intro st hst
    show (getBuf (Map.set s.bufs k b') st.1).cap = _
    by_cases h : k = st.1
    · rw [h, getBuf_set_self, hcap, ← hg, h]; exact I.caps st hst
    · rw [getBuf_set_ne h]; exact I.caps st hst
  · intro st hst h0
    show (getBuf (Map.set s.bufs k b') st.1).quantity ≤ _
    by_cases h : k = st.1
    · rw [h, getBuf_set_self]
      refine hq.trans ?_
      rw [← hg, h]; exact I.room st hst h0
    · rw [getBuf_set_ne h]; exact I.room st hst h0
  · exact I.prefs

/-- One sale of no more than is there. -/
theorem sellOne_ok {c : Cfg} (V : Valid c) {s : State} (I : Inv c s) {t : String × ℚ}
    (h0 : 0 < t.2) (hlo : c.lo ≤ t.2) (hq : t.2 ≤ totalQty (stock c s t.1)) :
    ∃ m s', sellOne c s t = .ok (m, s') ∧ qty m = t.2 ∧
      (∀ n, m.mass n = massOf (upto t.2 (stock c s t.1)) n) ∧
      solid (stock c s' t.1) = after t.2 (solid (stock c s t.1)) ∧
      totalQty (stock c s' t.1) = totalQty (stock c s t.1) - t.2 ∧
      (∀ k, k ≠ t.1 → stock c s' k = stock c s k) ∧ Inv c s' ∧ s'.feed = s.feed ∧
      s'.time = s.time ∧ s'.prefs = s.prefs := by
  by_cases hl : t.1 = c.leftoverCommod
  · rw [hl, stock_leftover] at hq
    have hmin : min s.leftover.quantity t.2 = t.2 := min_eq_right hq
    obtain ⟨m, l, p1, p2, p3, p4, p5, p6, p7⟩ := popEps_nonneg (b := s.leftover) (lo := c.lo)
      I.leftNN V.eps h0 (Or.inl hlo) hq
    have hs := popEps_solid I.leftNN V.eps hq p1
    refine ⟨m, { s with leftover := { s.leftover with items := l } }, ?_, p2, ?_, ?_, ?_, ?_, ?_,
      rfl, rfl, rfl⟩
    · unfold sellOne
      rw [if_pos hl, hmin, p1]; rfl
    · intro n; rw [hl, stock_leftover]; exact p4 n
    · rw [hl, stock_leftover, stock_leftover]; exact hs
    · rw [hl, stock_leftover, stock_leftover]; exact p3
    · intro k hk
      have : k ≠ c.leftoverCommod := by rw [← hl]; exact hk
      simp [stock, this]
    · exact ⟨I.feedNN, I.feedPos, p7, I.bufNN, I.nodup, I.keys, I.feedCap, I.leftCap, I.caps,
        I.room, I.prefs⟩
  · have hst : stock c s t.1 = (getBuf s.bufs t.1).items := by simp [stock, hl]
    cases hb : Map.get? s.bufs t.1 with
    | none =>
      exfalso
      have : getBuf s.bufs t.1 = emptyBuf := by simp [getBuf, Map.getD, hb]
      rw [hst, this] at hq
      simp [emptyBuf] at hq
      linarith
    | some b =>
      have hg : getBuf s.bufs t.1 = b := by simp [getBuf, Map.getD, hb]
      rw [hst, hg] at hq
      have hmin : min b.quantity t.2 = t.2 := min_eq_right hq
      have hnn : AllNonneg b.items := by rw [← hg]; exact I.bufNN _
      obtain ⟨m, l, p1, p2, p3, p4, p5, p6, p7⟩ := popEps_nonneg (b := b) (lo := c.lo)
        hnn V.eps h0 (Or.inl hlo) hq
      have hs := popEps_solid hnn V.eps hq p1
      refine ⟨m, { s with bufs := Map.set s.bufs t.1 { b with items := l } }, ?_, p2, ?_, ?_, ?_,
        ?_, ?_, rfl, rfl, rfl⟩
      · unfold sellOne
        rw [if_neg hl, hb]
        simp only
        rw [hmin, p1]; rfl
      · intro n; rw [hst, hg]; exact p4 n
      · simp only [stock, hl, if_false, getBuf_set_self, hg]; exact hs
      · simp only [stock, hl, if_false, getBuf_set_self, hg]; exact p3
      · intro k hk
        simp only [stock]
        rw [getBuf_set_ne (Ne.symm hk)]
      · refine I.setBuf hb rfl ?_ p7
        show totalQty l ≤ totalQty b.items
        rw [p3]; linarith

/-- Sales of no more than is there. -/
theorem sellLoop_ok {c : Cfg} (V : Valid c) {ts : List (String × ℚ)} {s : State} (I : Inv c s)
    (h0 : ∀ t ∈ ts, 0 < t.2 ∧ c.lo ≤ t.2)
    (hq : ∀ k, tradedIn k ts ≤ totalQty (stock c s k)) :
    ∃ ms s', sellLoop c ts s = .ok (ms, s') ∧ ms.map qty = ts.map Prod.snd ∧
      (∀ k n, massOf (soldIn k ts ms) n = massOf (upto (tradedIn k ts) (stock c s k)) n) ∧
      (∀ k, solid (stock c s' k) = after (tradedIn k ts) (solid (stock c s k))) ∧
      (∀ k, totalQty (stock c s' k) = totalQty (stock c s k) - tradedIn k ts) ∧
      Inv c s' ∧ s'.feed = s.feed ∧ s'.time = s.time ∧ s'.prefs = s.prefs := by
  induction ts generalizing s with
  | nil =>
    refine ⟨[], s, rfl, rfl, ?_, ?_, ?_, I, rfl, rfl, rfl⟩
    · intro k n
      simp only [soldIn, tradedIn, List.zip_nil_left, List.filter_nil, List.map_nil, List.sum_nil,
        Mat.massOf_nil]
      rw [massOf_upto_zero (I.stockNN k)]
    · intro k
      simp only [tradedIn, List.filter_nil, List.map_nil, List.sum_nil]
      rw [after_zero (I.stockNN k).solid_pos]
    · intro k; simp [tradedIn]
  | cons t ts ih =>
    have hnn : ∀ k, 0 ≤ tradedIn k ts := by
      intro k
      apply List.sum_nonneg
      intro x hx
      obtain ⟨y, hy, rfl⟩ := List.mem_map.1 hx
      exact le_of_lt (h0 y (List.mem_cons_of_mem _ (List.mem_filter.1 hy).1)).1
    have hself : tradedIn t.1 (t :: ts) = t.2 + tradedIn t.1 ts := by simp [tradedIn]
    have hoth : ∀ k, k ≠ t.1 → tradedIn k (t :: ts) = tradedIn k ts := by
      intro k hk; simp [tradedIn, Ne.symm hk]
    obtain ⟨m, s1, e1, e2, e3, e4, e5, e6, I1, e7, e8, e9⟩ := sellOne_ok V I (h0 t (by simp)).1
      (h0 t (by simp)).2 (by have := hq t.1; rw [hself] at this; have := hnn t.1; linarith)
    obtain ⟨ms, s2, g1, g2, g3, g4, g5, I2, g6, g7, g8⟩ := ih I1
      (fun x hx => h0 x (by simp [hx])) (by
        intro k
        by_cases hk : k = t.1
        · rw [hk, e5]; have := hq t.1; rw [hself] at this; linarith
        · rw [e6 k hk]; have := hq k; rw [hoth k hk] at this; exact this)
    refine ⟨m :: ms, s2, ?_, ?_, ?_, ?_, ?_, I2, g6.trans e7, g7.trans e8, g8.trans e9⟩
    · simp only [sellLoop, e1, ok_bind, g1, pure_eq_ok]
    · simp [e2, g2]
    · intro k n
      by_cases hk : k = t.1
      · subst hk
        rw [hself]
        have hs : soldIn t.1 (t :: ts) (m :: ms) = m :: soldIn t.1 ts ms := by
          simp [soldIn]
        rw [hs, Mat.massOf_cons, g3, e3,
          massOf_upto_solid_add (I.stockNN _) (I1.stockNN _) (le_of_lt (h0 t (by simp)).1)
            (hnn _) e4]
      · have hs : soldIn k (t :: ts) (m :: ms) = soldIn k ts ms := by
          simp [soldIn, Ne.symm hk]
        rw [hs, hoth k hk, g3, e6 k hk]
    · intro k
      by_cases hk : k = t.1
      · subst hk
        rw [g4, e4, hself, after_after (I.stockNN _).solid_pos (le_of_lt (h0 t (by simp)).1) (hnn _)]
      · rw [g4, e6 k hk, hoth k hk]
    · intro k
      by_cases hk : k = t.1
      · subst hk; rw [g5, e5, hself]; ring
      · rw [g5, e6 k hk, hoth k hk]

/-- The invariant survives any list of sales that succeeds. -/
theorem sellLoop_inv {c : Cfg} (hε : 0 ≤ c.eps) {ts : List (String × ℚ)} {s s' : State} (I : Inv c s)
    {ms : List NMat} (h : sellLoop c ts s = .ok (ms, s')) : Inv c s' ∧ s'.feed = s.feed := by
  induction ts generalizing s ms with
  | nil =>
    simp only [sellLoop, Except.ok.injEq, Prod.mk.injEq] at h
    obtain ⟨-, rfl⟩ := h; exact ⟨I, rfl⟩
  | cons t ts ih =>
    simp only [sellLoop, bind_ok] at h
    obtain ⟨⟨m, s1⟩, h1, ⟨ms', s2⟩, h2, h3⟩ := h
    simp only [pure_eq_ok, Except.ok.injEq, Prod.mk.injEq] at h3
    obtain ⟨-, rfl⟩ := h3
    have key : Inv c s1 ∧ s1.feed = s.feed := by
      unfold sellOne at h1
      split at h1
      · simp only [bind_ok] at h1
        obtain ⟨⟨m', b⟩, e1, e2⟩ := h1
        simp only [pure_eq_ok, Except.ok.injEq, Prod.mk.injEq] at e2
        obtain ⟨-, rfl⟩ := e2
        obtain ⟨a1, a2, a3, -, -, a6, a7, a8, -⟩ := popEps_invNN I.leftNN hε (min_le_left _ _) e1
        exact ⟨⟨I.feedNN, I.feedPos, a7, I.bufNN, I.nodup, I.keys, I.feedCap,
          a1.trans I.leftCap, I.caps, I.room, I.prefs⟩, rfl⟩
      · split at h1
        · rename_i b hb
          simp only [bind_ok] at h1
          obtain ⟨⟨m', b'⟩, e1, e2⟩ := h1
          simp only [pure_eq_ok, Except.ok.injEq, Prod.mk.injEq] at e2
          obtain ⟨-, rfl⟩ := e2
          have hg : getBuf s.bufs t.1 = b := by simp [getBuf, Map.getD, hb]
          obtain ⟨a1, a2, a3, -, -, a6, a7, a8, -⟩ := popEps_invNN (by rw [← hg]; exact I.bufNN _) hε
            (min_le_left _ _) e1
          exact ⟨I.setBuf hb a1 (by rw [a3]; linarith) a7, rfl⟩
        · cases h1
    obtain ⟨i1, i2⟩ := ih key.1 h2
    exact ⟨i1, i2.trans key.2⟩

/-! ## Requests, bids -/

theorem mapM_ok {α β : Type} {f : α → R β} {g : α → β} {l : List α}
    (h : ∀ a ∈ l, f a = .ok (g a)) : l.mapM f = .ok (l.map g) := by
  induction l with
  | nil => rfl
  | cons a l ih =>
    rw [List.mapM_cons, h a (by simp), ok_bind, ih (fun x hx => h x (by simp [hx]))]; rfl

theorem mkRequests_ok {ks : List String} {ps : List ℚ} (h : ks.length ≤ ps.length) :
    mkRequests ks ps = .ok (ks.zip ps) := by
  unfold mkRequests
  have : ∀ i ∈ List.range ks.length, (do
      let k ← at! ks i
      let p ← at! ps i
      pure (k, p) : R (String × ℚ)) = .ok (ks.getD i "", ps.getD i 0) := by
    intro i hi
    have hi := List.mem_range.1 hi
    rw [at!_of_lt hi, ok_bind, at!_of_lt (by omega : i < ps.length), ok_bind]
    simp [List.getD_eq_getElem?_getD, List.getElem?_eq_getElem hi,
      List.getElem?_eq_getElem (by omega : i < ps.length)]
  rw [mapM_ok this]
  congr 1
  apply List.ext_getElem
  · simp [h]
  · intro i h1 h2
    simp only [List.length_map, List.length_range] at h1
    simp [List.getD_eq_getElem?_getD, List.getElem?_eq_getElem h1,
      List.getElem?_eq_getElem (by omega : i < ps.length)]

theorem feedSpace_eq {c : Cfg} {s : State} (I : Inv c s) :
    feedSpace s = max 0 (c.feedbufSize - s.feed.quantity) := by
  unfold feedSpace Buf.space; rw [I.feedCap]; rfl

/-- The input tables fit together. -/
def PrefsFit (c : Cfg) : Prop :=
  c.feedCommods ≠ [] ∧ (c.feedPrefs.length = 0 ∨ c.feedPrefs.length = c.feedCommods.length)

theorem prefs_length {c : Cfg} {s : State} (I : Inv c s) (h : PrefsFit c) :
    s.prefs.length = c.feedCommods.length := by
  rw [I.prefs]; split
  · simp
  · rcases h.2 with h | h
    · contradiction
    · exact h

theorem requests_ok {c : Cfg} {s : State} (I : Inv c s) (h : PrefsFit c) :
    ∃ d rq, requests c s = .ok (d, rq) := by
  have hl := prefs_length I h
  have hp : s.prefs ≠ [] := by
    intro hn; rw [hn] at hl; exact h.1 (List.eq_nil_of_length_eq_zero hl.symm)
  have hlt := maxIndex_lt hp
  unfold requests
  rw [at!_of_lt (by omega), ok_bind]
  simp only [mkRequests_ok (show c.feedCommods.length ≤ s.prefs.length by omega), ok_bind]
  generalize enough c s = en
  cases en
  · by_cases h : feedSpace s < c.eps
    · simp only [h, if_true]; exact ⟨_, _, rfl⟩
    · simp only [h, if_false]; exact ⟨_, _, rfl⟩
  · exact ⟨_, _, rfl⟩

theorem request_amount {c : Cfg} {s : State} {d : String × ℚ} {rq : Option Request}
    (h : requests c s = .ok (d, rq)) : (rq.map Request.amount).getD 0 ≤ feedSpace s := by
  have h0 : 0 ≤ feedSpace s := by
    unfold feedSpace Buf.space
    cases s.feed.cap <;> simp
  unfold requests at h
  simp only [bind_ok] at h
  obtain ⟨k, -, h⟩ := h
  generalize enough c s = en at h
  cases en
  · by_cases hs : feedSpace s < c.eps
    · simp only [hs, if_true, pure_eq_ok, Bool.false_eq_true, if_false, Except.ok.injEq,
        Prod.mk.injEq] at h
      rw [← h.2]; simpa using h0
    · simp only [hs, if_false, pure_eq_ok, Bool.false_eq_true, bind_ok, Except.ok.injEq,
        Prod.mk.injEq] at h
      obtain ⟨rs, -, -, h⟩ := h
      rw [← h]; simp
  · simp only [if_true, pure_eq_ok, Except.ok.injEq, Prod.mk.injEq] at h
    rw [← h.2]; simpa using h0

theorem mem_bidsFor {eps : ℚ} {k : String} {b : Buf NMat} {reqs : List ℚ} {p : Portfolio}
    (h : p ∈ bidsFor eps k b reqs) : p.commod = k ∧ p.cap = b.quantity ∧ reqs ≠ [] ∧
      ¬ b.quantity < eps ∧ p.bids = (List.range reqs.length).flatMap
        fun j => bidLoop eps (reqs.getD j 0) j b.items 0 := by
  unfold bidsFor at h
  split at h
  · cases h
  · split at h
    · cases h
    · rename_i h1 h2
      simp only [List.mem_singleton] at h
      subst h
      exact ⟨rfl, rfl, by simpa using h1, h2, rfl⟩

/-- A portfolio's constraint is the content of the inventory sold under its commodity. -/
theorem bids_cap {c : Cfg} (V : Valid c) {s : State} (I : Inv c s) {reqs : String → List ℚ}
    {p : Portfolio} (h : p ∈ bids c s reqs) : p.cap = totalQty (stock c s p.commod) := by
  unfold bids at h
  rcases List.mem_append.1 h with h | h
  · obtain ⟨b, hb, h⟩ := List.mem_flatMap.1 h
    obtain ⟨h1, h2, -⟩ := mem_bidsFor h
    have hk : b.1 ∈ Map.keys s.bufs := List.mem_map.2 ⟨b, hb, rfl⟩
    have hne : b.1 ≠ c.leftoverCommod := fun h => V.leftover (h ▸ I.keys _ hk)
    rw [h1, h2]
    unfold stock
    rw [if_neg hne]
    have : getBuf s.bufs b.1 = b.2 := by
      unfold getBuf Map.getD
      rw [Map.get?_of_mem I.nodup (show (b.1, b.2) ∈ s.bufs from hb)]; rfl
    rw [this]; rfl
  · obtain ⟨h1, h2, -⟩ := mem_bidsFor h
    rw [h1, h2, stock_leftover]; rfl

/-! ## Steps -/

theorem accept_ok {c : Cfg} {l : List NMat} {s : State} (hε : 0 ≤ c.eps)
    (hcap : s.feed.cap = some c.feedbufSize) (hl : AllNonneg l)
    (h : s.feed.quantity + totalQty l ≤ c.feedbufSize) :
    ∃ s', l.foldlM (accept c) s = .ok s' := by
  induction l generalizing s with
  | nil => exact ⟨s, rfl⟩
  | cons m l ih =>
    obtain ⟨hm, hl'⟩ := AllNonneg.cons.1 hl
    rw [totalQty_cons] at h
    have hp := push_fits (ε := c.eps) (b := s.feed) (r := m) hε (by
      intro sp hsp
      unfold Buf.space at hsp
      rw [hcap] at hsp
      simp only [Option.map_some, Option.some.injEq] at hsp
      have h1 : c.feedbufSize - s.feed.quantity ≤ sp := by rw [← hsp]; exact le_max_right _ _
      have := hl'.total_nonneg
      linarith)
    rw [List.foldlM_cons]
    unfold accept
    rw [hp]
    simp only [ok_bind, pure_eq_ok]
    refine ih (s := { s with feed := { s.feed with items := s.feed.items ++ [m] } }) hcap hl' ?_
    show totalQty (s.feed.items ++ [m]) + _ ≤ _
    rw [totalQty_append]
    have : totalQty s.feed.items = s.feed.quantity := rfl
    simp only [totalQty_cons, totalQty_nil]
    linarith

theorem accept_inv {c : Cfg} {l : List NMat} {s s' : State} (I : Inv c s) (hl : AllNonneg l)
    (hp : AllPos l) (h : l.foldlM (accept c) s = .ok s') : Inv c s' := by
  obtain ⟨-, a2, a3, a4, a5, a6, a7⟩ := accept_conserve h
  refine ⟨?_, ?_, ?_, ?_, ?_, ?_, ?_, ?_, ?_, ?_, ?_⟩
  · rw [a2]; exact AllNonneg.append.2 ⟨I.feedNN, hl⟩
  · rw [a2]; exact AllPos.append.2 ⟨I.feedPos, hp⟩
  · rw [a4]; exact I.leftNN
  · rw [a5]; exact I.bufNN
  · rw [a5]; exact I.nodup
  · rw [a5]; exact I.keys
  · rw [a3]; exact I.feedCap
  · rw [a4]; exact I.leftCap
  · rw [a5]; exact I.caps
  · rw [a5]; exact I.room
  · rw [a7]; exact I.prefs

theorem Inv.later {c : Cfg} {s : State} (I : Inv c s) (t : Nat) : Inv c { s with time := t } :=
  ⟨I.feedNN, I.feedPos, I.leftNN, I.bufNN, I.nodup, I.keys, I.feedCap, I.leftCap, I.caps, I.room,
    I.prefs⟩

theorem step_inv {c : Cfg} (V : Valid c) {s s' : State} {i : In} {o : Out} (I : Inv c s)
    (hi : ∀ m ∈ i.buys, 0 < qty m ∧ Mat.Nonneg m) (h : step c s i = .ok (o, s')) : Inv c s' := by
  simp only [step, bind_ok] at h
  obtain ⟨⟨tr, s1⟩, h1, ⟨d, rq⟩, h2, -, -, ⟨sd, s2⟩, h3, s3, h4, h5⟩ := h
  simp only [pure_eq_ok, Except.ok.injEq, Prod.mk.injEq] at h5
  obtain ⟨rfl, rfl⟩ := h5
  exact (accept_inv (sellLoop_inv V.eps (tick_inv V I h1) h3).1 (fun m hm => (hi m hm).2)
    (fun m hm => (hi m hm).1) h4).later _

theorem run_inv {c : Cfg} (V : Valid c) {is : List In} {s s' : State} {os : List Out} (I : Inv c s)
    (hi : Substantial is) (h : run c s is = .ok (os, s')) : Inv c s' := by
  induction is generalizing s os with
  | nil =>
    simp only [run, Except.ok.injEq, Prod.mk.injEq] at h
    obtain ⟨-, rfl⟩ := h; exact I
  | cons i is ih =>
    simp only [run, bind_ok] at h
    obtain ⟨⟨o, s1⟩, h1, ⟨os', s2⟩, h2, h3⟩ := h
    simp only [pure_eq_ok, Except.ok.injEq, Prod.mk.injEq] at h3
    obtain ⟨-, rfl⟩ := h3
    exact ih (step_inv V I (hi i (by simp)) h1) (fun j hj => hi j (by simp [hj])) h2

theorem history_inv {c : Cfg} (V : Valid c) {is : List In} {s : State} {os : List Out}
    (h : History c is os s) (hi : Substantial is) : Inv c s := by
  obtain ⟨s0, h0, h1⟩ := h
  exact run_inv V (enter_Inv V h0).1 hi h1

/-- `Tick` never makes the feed grow. -/
theorem tick_feed_le {c : Cfg} (V : Valid c) {s s' : State} (I : Inv c s) {r : Option TickRec}
    (h : tick c s = .ok (r, s')) : s'.feed.quantity ≤ s.feed.quantity := by
  by_cases hne : s.feed.items = []
  · rw [tick_empty hne] at h
    simp only [Except.ok.injEq, Prod.mk.injEq] at h
    rw [← h.2]
  · obtain ⟨t, f, -, E, -⟩ := tick_eff V I hne h
    rw [E.feedQty]
    have h1 : 0 ≤ min c.throughput s.feed.quantity :=
      le_min (le_of_lt V.throughput) I.feedNN.total_nonneg
    have := mul_nonneg E.f0 h1
    linarith

theorem traded_le {c : Cfg} (V : Valid c) {s : State} (I : Inv c s) {i : In} (H : Honest c s i)
    (k : String) : tradedIn k i.sells ≤ totalQty (stock c s k) := by
  by_cases hk : ∃ t ∈ i.sells, t.1 = k
  · obtain ⟨t, ht, rfl⟩ := hk
    obtain ⟨-, -, p, hp, hpc⟩ := H.sells t ht
    have h1 := H.total p hp
    rw [bids_cap V I hp, hpc] at h1
    exact h1
  · have : i.sells.filter (·.1 = k) = [] := by
      rw [List.filter_eq_nil_iff]
      intro t ht; simp only [decide_eq_true_eq]; intro h; exact hk ⟨t, ht, h⟩
    unfold tradedIn
    rw [this]
    simpa using (I.stockNN k).total_nonneg

theorem reinsertOne_ok {eps : ℚ} {b : Buf NMat} {reqs : List ℚ}
    (h : ∀ cap, b.cap = some cap → b.quantity ≤ cap + eps) :
    reinsertOne eps b reqs = .ok () := by
  unfold reinsertOne
  split
  · rfl
  · have : ({ b with items := [] } : Buf NMat).fits eps (totalQty b.items) = true := by
      unfold Buf.fits Buf.space
      cases hc : b.cap with
      | none => rfl
      | some cap =>
        have h1 := h cap hc
        simp only [Option.map_some, Buf.quantity, totalQty_nil, sub_zero, decide_eq_true_eq]
        have h2 := le_max_right (0 : ℚ) cap
        unfold Buf.quantity at h1
        linarith
    rw [Buf.pushAll, if_pos this]
    rfl

/-- What was removed for bidding fits again. -/
theorem reinsert_ok_room {c : Cfg} (V : Valid c) {s : State} (I : Inv c s)
    (hleft : ∀ x, c.leftoverCap = some x → s.leftover.quantity ≤ x)
    (reqs : String → List ℚ) : reinsert c s reqs = .ok () := by
  have key : ∀ l : List (String × Buf NMat), (∀ b ∈ l, ∀ cap, b.2.cap = some cap →
      b.2.quantity ≤ cap + c.eps) → reinsertAll c.eps reqs l = .ok () := by
    intro l
    induction l with
    | nil => intro _; rfl
    | cons b l ih =>
      intro h
      rw [reinsertAll, reinsertOne_ok (h b (by simp)), ok_bind]
      exact ih fun x hx => h x (by simp [hx])
  unfold reinsert
  rw [key s.bufs, ok_bind]
  · exact reinsertOne_ok fun cap hcap => by
      rw [I.leftCap] at hcap
      have := hleft cap hcap
      have := V.eps
      linarith
  · intro b hb cap hcap
    have hk : b.1 ∈ Map.keys s.bufs := List.mem_map_of_mem hb
    obtain ⟨st, hst, he⟩ := List.mem_map.1 (I.keys _ hk)
    have hg : getBuf s.bufs st.1 = b.2 := by
      rw [he]
      unfold getBuf Map.getD
      rw [Map.get?_of_mem I.nodup hb]
      rfl
    have h1 := I.caps st hst
    rw [hg, hcap] at h1
    unfold capOf at h1
    split at h1
    · next h0 =>
      simp only [Option.some.injEq] at h1
      have := I.room st hst (by linarith)
      rw [hg] at this
      have := V.eps
      linarith
    · cases h1

theorem reinsert_ok {c : Cfg} (V : Valid c) {s : State} (I : Inv c s) (hleft : c.leftoverCap = none)
    (reqs : String → List ℚ) : reinsert c s reqs = .ok () :=
  reinsert_ok_room V I (fun x hx => by rw [hleft] at hx; cases hx) reqs

/-- A step in an honest market succeeds, given that `Tick` does and leaves leftover within its size. -/
theorem step_ok {c : Cfg} (V : Valid c) (hp : PrefsFit c) {s : State} {i : In} (I : Inv c s)
    (hfeed : s.feed.quantity ≤ c.feedbufSize) 
    (hleft : ∀ x, c.leftoverCap = some x →
      s.leftover.quantity + min c.throughput s.feed.quantity ≤ x)
    (htick : ∃ r s₁, tick c s = .ok (r, s₁))
    (H : ∀ r s₁, tick c s = .ok (r, s₁) → Honest c s₁ i) :
    ∃ o s', step c s i = .ok (o, s') ∧ Inv c s' ∧ s'.feed.quantity ≤ c.feedbufSize := by
  obtain ⟨r, s1, h1⟩ := htick
  have H1 := H r s1 h1
  have I1 := tick_inv V I h1
  have hle : ∀ x, c.leftoverCap = some x → s1.leftover.quantity ≤ x := fun x hx =>
    (tick_left_le V I h1).trans (hleft x hx)
  obtain ⟨d, rq, h2⟩ := requests_ok I1 hp
  obtain ⟨ms, s2, h3, -, -, -, -, I2, e2, -, -⟩ := sellLoop_ok V I1
    (fun t ht => ⟨(H1.sells t ht).1, (H1.sells t ht).2.1⟩) (traded_le V I1 H1)
  have hq1 : s1.feed.quantity ≤ c.feedbufSize := (tick_feed_le V I h1).trans hfeed
  have hroom : s2.feed.quantity + totalQty i.buys ≤ c.feedbufSize := by
    have h := (H1.room d rq h2).trans (request_amount h2)
    rw [feedSpace_eq I1, max_eq_right (by linarith)] at h
    rw [e2]; linarith
  obtain ⟨s3, h4⟩ := accept_ok V.eps I2.feedCap (fun m hm => (H1.buys m hm).2) hroom
  refine ⟨⟨s.time, r, d, rq, bids c s1 i.reqs, ms, mayRetire s3⟩,
    { s3 with time := s3.time + 1 }, ?_, (accept_inv I2 (fun m hm => (H1.buys m hm).2)
      (fun m hm => (H1.buys m hm).1) h4).later (s3.time + 1), ?_⟩
  · simp only [step, h1, ok_bind, h2, reinsert_ok_room V I1 hle, h3, h4, pure_eq_ok]
  · obtain ⟨-, a2, -⟩ := accept_conserve h4
    show totalQty s3.feed.items ≤ _
    rw [a2, totalQty_append]; exact hroom

end Cyc.Separations
