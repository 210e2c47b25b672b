import Verif.Separations.Props1

/-!
# Separations: properties C33, C34 and C70-C72
-/

namespace Cyc.Separations

open Mat (massOf)

/-! ## C33 -/

/-- Restart: a newly deployed facility is given the snapshot of `s`. -/
def reboot (c : Cfg) (s : State) : R State := do
  let s₀ ← enter c
  restore c (snapshot s) s₀

theorem fits_empty {ε : ℚ} (hε : 0 ≤ ε) {b : Buf NMat} (hb : b.items = []) {q : ℚ}
    (h : ∀ x, b.cap = some x → q ≤ x) : b.fits ε q = true := by
  unfold Buf.fits Buf.space Buf.quantity
  rw [hb]
  cases hc : b.cap with
  | none => rfl
  | some x =>
    simp only [Option.map_some, totalQty_nil, sub_zero, decide_eq_true_eq]
    have := h x hc
    have := le_max_right (0 : ℚ) x
    linarith

/-- C33, in part: after a restart the feed, the leftover and every stream hold what they held. The
condition is that they were within their limits and no stream has one of the two reserved names.
Missing: there must be no other inventories; but there are, see the last two lines and
`C33_counterexample`. -/
theorem C33_restart_partial {c : Cfg} (V : Valid c) {is : List In} {os : List Out} {s : State}
    (h : History c is os s) (hs : Substantial is) {s₀ : State} (h0 : enter c = .ok s₀)
    (hn : ∀ st ∈ c.streams, st.1 ≠ "feed-inv-name" ∧ st.1 ≠ "leftover-inv-name")
    (hf : totalQty s.feed.items ≤ c.feedbufSize)
    (hl : ∀ x, c.leftoverCap = some x → totalQty s.leftover.items ≤ x) :
    ∃ s', restore c (snapshot s) s₀ = .ok s' ∧ s'.feed = s.feed ∧ s'.leftover = s.leftover ∧
      (∀ st ∈ c.streams, held s' st.1 = held s st.1) ∧
      held s' "feed-inv-name" = s.feed.items ∧ held s' "leftover-inv-name" = s.leftover.items := by
  have I := history_inv V h hs
  obtain ⟨e1, e2, e3, -⟩ := enter_inv h0
  have I0 := (enter_Inv V h0).1
  have hitems : ∀ k, (getBuf s₀.bufs k).items = [] := by
    intro k; rw [e3]
    exact Map.getD_prop (p := fun b : Buf NMat => b.items = []) (initBufs_items _) rfl
  have hF : Map.get? s.bufs "feed-inv-name" = none := by
    rw [Map.get?_eq_none]; intro hk
    obtain ⟨st, hst, e⟩ := List.mem_map.1 (I.keys _ hk)
    exact (hn st hst).1 e
  have hL : Map.get? s.bufs "leftover-inv-name" = none := by
    rw [Map.get?_eq_none]; intro hk
    obtain ⟨st, hst, e⟩ := List.mem_map.1 (I.keys _ hk)
    exact (hn st hst).2 e
  obtain ⟨g1, g2⟩ := snapshot_fold s.bufs I.nodup
    [("leftover-inv-name", s.leftover.items), ("feed-inv-name", s.feed.items)] (by
      simp [Map.keys])
  change (Map.keys (snapshot s)).Nodup at g1
  change ∀ k, Map.get? (snapshot s) k = _ at g2
  have gF : Map.get? (snapshot s) "feed-inv-name" = some s.feed.items := by
    rw [g2, hF]; simp [Map.get?]
  have gL : Map.get? (snapshot s) "leftover-inv-name" = some s.leftover.items := by
    rw [g2, hL]; simp [Map.get?]
  have nocap : ∀ k, k ∉ c.streams.map Prod.fst → (getBuf s₀.bufs k).cap = none := by
    intro k hk
    have : Map.get? s₀.bufs k = none := Map.get?_eq_none.2 fun h => hk (I0.keys k h)
    simp [getBuf, Map.getD, this, emptyBuf]
  have nF : "feed-inv-name" ∉ c.streams.map Prod.fst := by
    intro hk; obtain ⟨st, hst, e⟩ := List.mem_map.1 hk; exact (hn st hst).1 e
  have nL : "leftover-inv-name" ∉ c.streams.map Prod.fst := by
    intro hk; obtain ⟨st, hst, e⟩ := List.mem_map.1 hk; exact (hn st hst).2 e
  have hfit : ∀ x ∈ snapshot s, (getBuf s₀.bufs x.1).fits c.eps (totalQty x.2) = true := by
    intro x hx
    apply fits_empty V.eps (hitems _)
    intro cap hcap
    by_cases hk : x.1 ∈ c.streams.map Prod.fst
    · obtain ⟨st, hst, e⟩ := List.mem_map.1 hk
      rw [← e, I0.caps st hst] at hcap
      unfold capOf at hcap
      split at hcap
      · rename_i hc0
        simp only [Option.some.injEq] at hcap
        have hx2 := Map.get?_of_mem g1 (show (x.1, x.2) ∈ snapshot s from hx)
        rw [g2] at hx2
        have hroom := I.room st hst hc0
        rw [← hcap]
        cases hb : Map.get? s.bufs x.1 with
        | some b =>
          rw [hb] at hx2
          simp only [Option.map_some, Option.some_or, Option.some.injEq] at hx2
          have : getBuf s.bufs st.1 = b := by rw [e]; simp [getBuf, Map.getD, hb]
          rw [this] at hroom
          rw [← hx2]; exact hroom
        | none =>
          rw [hb] at hx2
          have n1 := (hn st hst).1; have n2 := (hn st hst).2
          rw [e] at n1 n2
          simp [Map.get?, Ne.symm n1, Ne.symm n2] at hx2
      · cases hcap
    · rw [nocap _ hk] at hcap; cases hcap
  obtain ⟨bufs', r1, r2⟩ := restoreBufs_ok g1 hfit
  have p1 : s₀.leftover.pushAll c.eps (Map.getD (snapshot s) "leftover-inv-name" []) =
      .ok s.leftover := by
    rw [Map.getD, gL, Buf.pushAll_ok]
    constructor
    · apply fits_empty V.eps (by rw [e2])
      intro x hx
      rw [e2] at hx
      exact hl x hx
    · rw [e2]
      have := I.leftCap
      cases hc : s.leftover
      rw [hc] at this; subst this; rfl
  have p2 : s₀.feed.pushAll c.eps (Map.getD (snapshot s) "feed-inv-name" []) = .ok s.feed := by
    rw [Map.getD, gF, Buf.pushAll_ok]
    constructor
    · apply fits_empty V.eps (by rw [e1])
      intro x hx
      rw [e1] at hx
      simp only [Option.some.injEq] at hx
      rw [← hx]; exact hf
    · rw [e1]
      have := I.feedCap
      cases hc : s.feed
      rw [hc] at this; subst this; rfl
  refine ⟨{ s₀ with leftover := s.leftover, feed := s.feed, bufs := bufs' }, ?_, rfl, rfl, ?_, ?_, ?_⟩
  · simp only [restore, p1, p2, r1, ok_bind, pure_eq_ok]
  · intro st hst
    show (getBuf bufs' st.1).items = (getBuf s.bufs st.1).items
    rw [r2]
    simp only [hitems, List.nil_append]
    have n1 := (hn st hst).1; have n2 := (hn st hst).2
    have : Map.get? (snapshot s) st.1 = (Map.get? s.bufs st.1).map Buf.items := by
      rw [g2]; simp [Map.get?, Ne.symm n1, Ne.symm n2]
    rw [Map.getD, this]
    unfold getBuf Map.getD
    cases Map.get? s.bufs st.1 <;> simp [emptyBuf]
  · show (getBuf bufs' _).items = _
    rw [r2]; simp [hitems, Map.getD, gF]
  · show (getBuf bufs' _).items = _
    rw [r2]; simp [hitems, Map.getD, gL]

/-- C33 is false of the code as it stands: after one delivery of 12 kg and a restart the facility
holds 24 kg, half of them for sale under the commodity "feed-inv-name"; once the 12 kg have been
processed, another restart makes 12 kg of feed out of nothing. -/
theorem C33_counterexample :
    ((do let r ← play exCfg (exIn.take 1)
         let s' ← reboot exCfg r.2
         let (_, s₂) ← run exCfg s' [⟨fun _ => [], [], []⟩, ⟨fun _ => [], [], []⟩]
         let s₃ ← reboot exCfg s₂
         pure (totalQty (contents r.2), totalQty (contents s'),
           (bids exCfg s' fun _ => [1]).map Portfolio.commod,
           totalQty s₂.feed.items, totalQty s₃.feed.items)) : R _).toOption =
    some (12, 24, ["feed-inv-name"], 0, 12) := by
  decide +kernel

/-- A facility that was restarted with feed in hand can never be decommissioned: as long as nobody
buys the commodity "feed-inv-name", the answer stays no, whatever it processes and sells. -/
theorem C33_never_retires {c : Cfg} (hn : "feed-inv-name" ∉ c.streams.map Prod.fst) {is : List In} {s s' : State} {os : List Out}
    (h0 : held s "feed-inv-name" ≠ [])
    (hi : ∀ i ∈ is, ∀ t ∈ i.sells, t.1 ≠ "feed-inv-name") (h : run c s is = .ok (os, s')) :
    ∀ o ∈ os, o.retire = false := by
  have hret : ∀ s : State, held s "feed-inv-name" ≠ [] → mayRetire s = false := by
    intro s hs
    unfold mayRetire
    split
    · rfl
    · rw [List.all_eq_false]
      unfold held getBuf Map.getD at hs
      cases hg : Map.get? s.bufs "feed-inv-name" with
      | none => rw [hg] at hs; simp [emptyBuf] at hs
      | some b =>
        rw [hg] at hs
        refine ⟨_, Map.mem_of_get? hg, ?_⟩
        simp only [Option.getD_some] at hs
        have := List.length_pos_of_ne_nil hs
        simp [Buf.count, this]
  have hstage : ∀ (mat : NMat) (l : List (String × Stream)) (bufs : List (String × Buf NMat)) (f : ℚ)
      (k : String), getBuf (stage mat l bufs f).2.1 k = getBuf bufs k := by
    intro mat l
    induction l with
    | nil => intro bufs f k; rfl
    | cons a l ih =>
      intro bufs f k
      simp only [stage]
      rw [ih]
      by_cases hk : a.1 = k
      · subst hk; rw [getBuf_set_self]
      · rw [getBuf_set_ne hk]
  have hstaged : ∀ (mat : NMat) (l : List (String × Stream)) (bufs : List (String × Buf NMat)) (f : ℚ),
      (stage mat l bufs f).1.map Prod.fst = l.map Prod.fst := by
    intro mat l
    induction l with
    | nil => intro bufs f; rfl
    | cons a l ih => intro bufs f; simp only [stage, List.map_cons]; rw [ih]
  have hsep : ∀ (f : ℚ) (l : List (String × NMat)) (mat mat' : NMat)
      (bufs bufs' : List (String × Buf NMat)) (rs : List SepRec),
      "feed-inv-name" ∉ l.map Prod.fst → sepLoop c.eps f l mat bufs = .ok (rs, mat', bufs') →
      getBuf bufs' "feed-inv-name" = getBuf bufs "feed-inv-name" := by
    intro f l
    induction l with
    | nil =>
      intro mat mat' bufs bufs' rs _ h
      simp only [sepLoop, Except.ok.injEq, Prod.mk.injEq] at h
      rw [h.2.2]
    | cons x l ih =>
      intro mat mat' bufs bufs' rs hx h
      simp only [List.map_cons, List.mem_cons, not_or] at hx
      simp only [sepLoop, bind_ok] at h
      obtain ⟨⟨r, m1, b1⟩, h1, ⟨rs', m2, b2⟩, h2, h3⟩ := h
      simp only [pure_eq_ok, Except.ok.injEq, Prod.mk.injEq] at h3
      obtain ⟨-, -, rfl⟩ := h3
      rw [ih _ _ _ _ _ hx.2 h2]
      unfold sepOne at h1
      split at h1
      · simp only [bind_ok] at h1
        obtain ⟨⟨e, r'⟩, -, b, -, h1⟩ := h1
        simp only [pure_eq_ok, Except.ok.injEq, Prod.mk.injEq] at h1
        rw [← h1.2.2, getBuf_set_ne (Ne.symm hx.1)]
      · simp only [Except.ok.injEq, Prod.mk.injEq] at h1
        rw [h1.2.2]
  have htick : ∀ s s' r, tick c s = .ok (r, s') → held s' "feed-inv-name" =
      held s "feed-inv-name" := by
    intro s s' r ht
    unfold tick at ht
    split at ht
    · simp only [Except.ok.injEq, Prod.mk.injEq] at ht; rw [ht.2]
    · simp only [bind_ok] at ht
      obtain ⟨⟨mat, fd⟩, -, -, -, ⟨recs, rest, bf⟩, h2, s2, h3, h4⟩ := ht
      simp only [pure_eq_ok, Except.ok.injEq, Prod.mk.injEq] at h4
      obtain ⟨-, rfl⟩ := h4
      have e := hsep _ _ _ _ _ _ _ (by rw [hstaged]; exact hn) h2
      rw [hstage] at e
      have hb : s2.bufs = bf := by
        unfold finish at h3
        split at h3
        · exact (pushLeftover_feed h3).2.1
        · simp only [bind_ok] at h3
          obtain ⟨⟨back, rest'⟩, -, b, -, h3⟩ := h3
          exact (pushLeftover_feed h3).2.1
      show (getBuf s2.bufs _).items = _
      rw [hb, e]; rfl
  have hsell : ∀ (ts : List (String × ℚ)) (s s' : State) (ms : List NMat),
      (∀ t ∈ ts, t.1 ≠ "feed-inv-name") → sellLoop c ts s = .ok (ms, s') →
      held s' "feed-inv-name" = held s "feed-inv-name" := by
    intro ts
    induction ts with
    | nil =>
      intro s s' ms _ h
      simp only [sellLoop, Except.ok.injEq, Prod.mk.injEq] at h
      rw [h.2]
    | cons t ts ih =>
      intro s s' ms ht h
      simp only [sellLoop, bind_ok] at h
      obtain ⟨⟨m, s1⟩, h1, ⟨ms', s2⟩, h2, h3⟩ := h
      simp only [pure_eq_ok, Except.ok.injEq, Prod.mk.injEq] at h3
      obtain ⟨-, rfl⟩ := h3
      rw [ih s1 s2 ms' (fun x hx => ht x (by simp [hx])) h2]
      unfold sellOne at h1
      split at h1
      · simp only [bind_ok] at h1
        obtain ⟨⟨m', b⟩, -, h1⟩ := h1
        simp only [pure_eq_ok, Except.ok.injEq, Prod.mk.injEq] at h1
        rw [← h1.2]; rfl
      · split at h1
        · simp only [bind_ok] at h1
          obtain ⟨⟨m', b⟩, -, h1⟩ := h1
          simp only [pure_eq_ok, Except.ok.injEq, Prod.mk.injEq] at h1
          rw [← h1.2]
          show (getBuf (Map.set s.bufs t.1 b) _).items = _
          rw [getBuf_set_ne (ht t (by simp))]; rfl
        · cases h1
  induction is generalizing s os with
  | nil =>
    simp only [run, Except.ok.injEq, Prod.mk.injEq] at h
    obtain ⟨rfl, rfl⟩ := h; simp
  | cons i is ih =>
    simp only [run, bind_ok] at h
    obtain ⟨⟨o, s1⟩, h1, ⟨os', s2⟩, h2, h3⟩ := h
    simp only [pure_eq_ok, Except.ok.injEq, Prod.mk.injEq] at h3
    obtain ⟨rfl, rfl⟩ := h3
    simp only [step, bind_ok] at h1
    obtain ⟨⟨tr, s3⟩, g1, ⟨d, rq⟩, g2, -, -, ⟨sd, s4⟩, g3, s5, g4, g5⟩ := h1
    simp only [pure_eq_ok, Except.ok.injEq, Prod.mk.injEq] at g5
    obtain ⟨rfl, rfl⟩ := g5
    have k5 : held s5 "feed-inv-name" = held s "feed-inv-name" := by
      have : s5.bufs = s4.bufs := (accept_conserve g4).2.2.2.2.1
      rw [← htick _ _ _ g1, ← hsell _ _ _ _ (hi i (by simp)) g3]
      unfold held; rw [this]
    intro o ho
    rcases List.mem_cons.1 ho with rfl | ho
    · exact hret s5 (by rw [k5]; exact h0)
    · exact ih (s := { s5 with time := s5.time + 1 }) (by
        show held s5 _ ≠ []
        rw [k5]; exact h0) (fun j hj => hi j (by simp [hj])) h2 o ho

set_option synthInstance.maxSize 1000 in
/-- The hypotheses hold of the example: restarted with feed, then everything processed and sold. -/
example : ((do
      let r ← play exCfg (exIn.take 1)
      let s' ← reboot exCfg r.2
      let (os, s₂) ← run exCfg s' [⟨fun _ => [], [], []⟩, ⟨fun _ => [],
        [], []⟩, ⟨fun _ => [], [("u", 15/2), ("pu", 9/5), ("waste", 27/10)], []⟩]
      pure ((held s' "feed-inv-name").length, totalQty s₂.feed.items, totalQty s₂.leftover.items,
        totalQty (held s₂ "u"), totalQty (held s₂ "pu"), os.map Out.retire)) : R _).toOption =
    some (1, 0, 0, 0, 0, [false, false, false]) := by
  decide +kernel

/-! ## C34 -/

theorem mayRetire_iff {c : Cfg} {s : State} (I : Inv c s) : mayRetire s = true ↔
    s.leftover.items = [] ∧ ∀ st ∈ c.streams, held s st.1 = [] := by
  have hz : ∀ b : Buf NMat, (¬ b.count > 0) ↔ b.items = [] := by
    intro b; unfold Buf.count; simp
  unfold mayRetire
  split
  · rename_i h
    simp only [Bool.false_eq_true, false_iff, not_and]
    intro h1; rw [Buf.count, h1] at h; simp at h
  · rename_i h
    have h1 : s.leftover.items = [] := (hz _).1 h
    rw [List.all_eq_true]
    constructor
    · intro h2
      refine ⟨h1, fun st _ => ?_⟩
      unfold held getBuf Map.getD
      cases hg : Map.get? s.bufs st.1 with
      | none => rfl
      | some b =>
        have := h2 _ (Map.mem_of_get? hg)
        simp only [decide_eq_true_eq] at this
        exact (hz b).1 this
    · rintro ⟨-, h2⟩ x hx
      have hk : x.1 ∈ Map.keys s.bufs := List.mem_map.2 ⟨x, hx, rfl⟩
      obtain ⟨st, hst, e⟩ := List.mem_map.1 (I.keys _ hk)
      have := h2 st hst
      unfold held getBuf Map.getD at this
      rw [e, Map.get?_of_mem I.nodup (show (x.1, x.2) ∈ s.bufs from hx)] at this
      simp only [decide_eq_true_eq]
      exact (hz _).2 this

/-- C34: at the end of every step the facility may be decommissioned exactly when leftover and all
product streams are empty; then everything received is sold or still in the feed. -/
theorem C34_retire {c : Cfg} (V : Valid c) {is : List In} {os : List Out} {s : State}
    (h : History c is os s) (hs : Substantial is) :
    (mayRetire s = true ↔ s.leftover.items = [] ∧ ∀ st ∈ c.streams, held s st.1 = []) ∧
    (∀ o, os.getLast? = some o → o.retire = mayRetire s) ∧
    (mayRetire s = true →
      ∀ n, massOf (received is) n = massOf (sold os) n + massOf s.feed.items n) := by
  have I := history_inv V h hs
  have hc := (C27_conserved V.eps h hs).1
  refine ⟨mayRetire_iff I, ?_, fun hm n => ?_⟩
  · obtain ⟨s0, -, h1⟩ := h
    clear hs hc I
    induction is generalizing s0 os with
    | nil =>
      simp only [run, Except.ok.injEq, Prod.mk.injEq] at h1
      obtain ⟨rfl, rfl⟩ := h1; simp
    | cons i is ih =>
      simp only [run, bind_ok] at h1
      obtain ⟨⟨o, s1⟩, h1, ⟨os', s2⟩, h2, h3⟩ := h1
      simp only [pure_eq_ok, Except.ok.injEq, Prod.mk.injEq] at h3
      obtain ⟨rfl, rfl⟩ := h3
      intro o' ho
      cases is with
      | nil =>
        simp only [run, Except.ok.injEq, Prod.mk.injEq] at h2
        obtain ⟨rfl, rfl⟩ := h2
        simp only [List.getLast?_singleton, Option.some.injEq] at ho
        subst ho
        simp only [step, bind_ok] at h1
        obtain ⟨⟨tr, s3⟩, g1, ⟨d, rq⟩, g2, -, -, ⟨sd, s4⟩, g3, s5, g4, g5⟩ := h1
        simp only [pure_eq_ok, Except.ok.injEq, Prod.mk.injEq] at g5
        obtain ⟨rfl, rfl⟩ := g5
        rfl
      | cons j is =>
        cases os' with
        | nil =>
          simp only [run, bind_ok, pure_eq_ok, Except.ok.injEq, Prod.mk.injEq] at h2
          obtain ⟨_, _, _, _, h, _⟩ := h2
          cases h
        | cons o2 os' =>
          rw [List.getLast?_cons_cons] at ho
          exact ih s1 h2 o' ho
  · have := hc n
    obtain ⟨h1, h2⟩ := (mayRetire_iff I).1 hm
    have hb : bufMass s.bufs n = 0 := by
      unfold bufMass
      apply List.sum_eq_zero
      intro x hx
      obtain ⟨b, hb, rfl⟩ := List.mem_map.1 hx
      have hk : b.1 ∈ Map.keys s.bufs := List.mem_map.2 ⟨b, hb, rfl⟩
      obtain ⟨st, hst, e⟩ := List.mem_map.1 (I.keys _ hk)
      have := h2 st hst
      unfold held getBuf Map.getD at this
      rw [e, Map.get?_of_mem I.nodup (show (b.1, b.2) ∈ s.bufs from hb)] at this
      simp only [Option.getD_some] at this
      rw [this]; rfl
    rw [massOf_contents, hb, h1] at this
    simp only [Mat.massOf_nil] at this
    linarith

/-- In the example the answer is yes before anything was processed, then no, and yes again once
everything is sold. -/
example : ((play exCfg (exIn ++ [⟨fun _ => [], [("u", 9/2), ("pu", 4/5), ("waste", 11/5)], []⟩])
      ).toOption.map fun r => r.1.map Out.retire) = some [true, false, false, true] := by
  decide +kernel

/-! ## C70 -/

theorem run_ok {c : Cfg} (V : Valid c) (hp : PrefsFit c)
    {is : List In} {s : State} (I : Inv c s) (hfeed : s.feed.quantity ≤ c.feedbufSize)
    (H : HonestRun c s is) (W : RoomyRun c s is) : ∃ os s', run c s is = .ok (os, s') := by
  induction is generalizing s with
  | nil => exact ⟨[], s, rfl⟩
  | cons i is ih =>
    obtain ⟨o, s1, h1, I1, h2⟩ := step_ok V hp I hfeed W.1 (tick_ok_room V I hfeed W.1) H.1
    obtain ⟨os, s', h3⟩ := ih I1 h2 (H.2 o s1 h1) (W.2 o s1 h1)
    exact ⟨o :: os, s', by simp only [run, h1, ok_bind, h3, pure_eq_ok]⟩

/-- C70, in part: with sensible input a separations facility is deployed, and no step fails in any
honest market as long as, at the start of each step, the leftover inventory has room for the feed of
the step. Missing: that the facility halts when it has not, where the claim is false
(`C70_leftover_counterexample`). -/
theorem C70_room_partial {c : Cfg} (V : Valid c)
    (hn : ∀ s ∈ c.streams, (s.2.effs.map Prod.fst).Nodup) (hc : c.feedCommods ≠ [])
    (hl : c.feedPrefs = [] ∨ c.feedPrefs.length = c.feedCommods.length) :
    ∃ s₀, enter c = .ok s₀ ∧
      ∀ is, HonestRun c s₀ is → RoomyRun c s₀ is → ∃ os s', run c s₀ is = .ok (os, s') := by
  obtain ⟨s0, h0⟩ := (enter_check hn).2 fun k => (listed_le_share V.effs k).trans (V.share k)
  obtain ⟨I, hf⟩ := enter_Inv V h0
  refine ⟨s0, h0, fun is H W => run_ok V ⟨hc, ?_⟩ I hf H W⟩
  rcases hl with h | h
  · left; rw [h]; rfl
  · right; exact h

/-- C70, in part: with sensible input and an unlimited leftover inventory, a separations facility is
deployed and no step fails in any honest market. Missing: a limited leftover inventory, for which
the claim is false (`C70_leftover_counterexample`). -/
theorem C70_progress_partial {c : Cfg} (V : Valid c)
    (hn : ∀ s ∈ c.streams, (s.2.effs.map Prod.fst).Nodup) (hc : c.feedCommods ≠ [])
    (hl : c.feedPrefs = [] ∨ c.feedPrefs.length = c.feedCommods.length)
    (hleft : c.leftoverCap = none) :
    ∃ s₀, enter c = .ok s₀ ∧
      ∀ is, HonestRun c s₀ is → ∃ os s', run c s₀ is = .ok (os, s') := by
  obtain ⟨s0, h0, h⟩ := C70_room_partial V hn hc hl
  refine ⟨s0, h0, fun is H => h is H ?_⟩
  have key : ∀ (l : List In) (s : State), RoomyRun c s l := by
    intro l
    induction l with
    | nil => intro s; trivial
    | cons i l ih => intro s; exact ⟨fun x hx => (by rw [hleft] at hx; cases hx), fun o s' _ => ih s'⟩
  exact key is s0

/-- The first step of the example is honest: an empty facility asks for 20 kg and is given 12. -/
example : ∃ s₀, enter exCfg = .ok s₀ ∧ HonestRun exCfg s₀ (exIn.take 1) := by
  obtain ⟨s0, h0⟩ := (enter_check (c := exCfg) (by
    intro s hs
    simp only [exCfg, List.mem_cons, List.not_mem_nil, or_false] at hs
    rcases hs with rfl | rfl <;> decide)).2
      fun k => (listed_le_share exCfg_valid.effs k).trans (exCfg_valid.share k)
  refine ⟨s0, h0, ?_, fun _ _ _ => trivial⟩
  intro r s₁ ht
  rw [tick_empty (by rw [(enter_inv h0).1])] at ht
  simp only [Except.ok.injEq, Prod.mk.injEq] at ht
  obtain ⟨-, rfl⟩ := ht
  constructor
  · exact exIn_substantial _ (by simp [exIn])
  · intro d rq h
    have h1 : totalQty [spent] = 12 := by decide +kernel
    have h2 : ((enter exCfg).toOption.bind fun s => (requests exCfg s).toOption.map fun x =>
        (x.2.map Request.amount).getD 0) = some 20 := by decide +kernel
    rw [h0] at h2
    simp only [Except.toOption, Option.bind_some, h, Option.map_some, Option.some.injEq] at h2
    rw [h2, h1]; norm_num
  · intro t ht; simp at ht
  · intro p _
    have h1 : bids exCfg s0 (fun _ => []) = [] := by
      simp [bids, bidsFor]
    rename_i hp
    rw [h1] at hp; cases hp

/-- The example with room for 1 kg of leftover. -/
def exFull : Cfg := { exCfg with leftoverCap := some 1 }

/-- The documentation says that a facility whose leftover inventory is full "halts operation until
space becomes available". It does not: with sensible input, after one delivery that answers the
request, `Tick` throws. -/
theorem C70_leftover_counterexample : Valid exFull ∧
    ∃ os s, History exFull (exIn.take 1) os s ∧ tick exFull s = .error .value := by
  constructor
  · obtain ⟨h1, h2, h3, h4, h5, h6, h7, h8⟩ := exCfg_valid
    exact ⟨h1, h2, h3, h4, h5, h6, h7, h8⟩
  · cases h : play exFull (exIn.take 1) with
    | error e =>
      have : (play exFull (exIn.take 1)).toOption.isSome = true := by decide +kernel
      rw [h] at this; simp [Except.toOption] at this
    | ok r =>
      refine ⟨r.1, r.2, history_of_play h, ?_⟩
      have : ((play exFull (exIn.take 1)).toOption.map fun r =>
        match tick exFull r.2 with
        | .error .value => true
        | _ => false) = some true := by decide +kernel
      rw [h] at this
      simp only [Except.toOption, Option.map_some, Option.some.injEq] at this
      revert this
      cases tick exFull r.2 with
      | ok x => simp
      | error e => cases e <;> simp

/-- Deliveries of uranium with some caesium, which is leftover: first 1 kg, then less than the
tolerance of a buffer. -/
def exDust : List In :=
  [⟨fun _ => [], [], [⟨[(922380000, 1), (551370000, 1)]⟩]⟩,
    ⟨fun _ => [], [], [⟨[(922380000, 1), (551370000, 9/10000000)]⟩]⟩,
    ⟨fun _ => [], [], [⟨[(922380000, 1), (551370000, 9/10000000)]⟩]⟩]

/-- Another way to fail with a limited leftover inventory: a full buffer accepts anything up to its
tolerance each time, but what was accepted can exceed the tolerance when it is removed and pushed back
for bidding. Then the first request for leftover makes the facility throw. -/
theorem C70_bids_counterexample : Valid exFull ∧
    ∃ os s, History exFull exDust os s ∧ (∃ r s₁, tick exFull s = .ok (r, s₁)) ∧
      step exFull s ⟨fun _ => [1], [], []⟩ = .error .value := by
  constructor
  · obtain ⟨h1, h2, h3, h4, h5, h6, h7, h8⟩ := exCfg_valid
    exact ⟨h1, h2, h3, h4, h5, h6, h7, h8⟩
  · cases h : play exFull exDust with
    | error e =>
      have : (play exFull exDust).toOption.isSome = true := by decide +kernel
      rw [h] at this; simp [Except.toOption] at this
    | ok r =>
      refine ⟨r.1, r.2, history_of_play h, ?_, ?_⟩
      · have : ((play exFull exDust).toOption.map fun r =>
          (tick exFull r.2).toOption.isSome) = some true := by decide +kernel
        rw [h] at this
        simp only [Except.toOption, Option.map_some, Option.some.injEq] at this
        cases ht : tick exFull r.2 with
        | ok x => exact ⟨x.1, x.2, rfl⟩
        | error e => rw [ht] at this; simp at this
      · have : ((play exFull exDust).toOption.map fun r =>
          match step exFull r.2 ⟨fun _ => [1], [], []⟩ with
          | .error .value => true
          | _ => false) = some true := by decide +kernel
        rw [h] at this
        simp only [Except.toOption, Option.map_some, Option.some.injEq] at this
        revert this
        cases step exFull r.2 ⟨fun _ => [1], [], []⟩ with
        | ok x => simp
        | error e => cases e <;> simp

/-! ## C71 -/

/-- C71, in part: when a stream's space allows only the fraction `f` of the feed taken to be
processed, `1 - f` of the amount goes back to the feed and leftover gains `f` of what no stream asks
for; and if all nuclides in the feed are asked for equally, the returned feed is unchanged in
composition. Missing: the composition in general, where the claim is false
(`C71_counterexample`). -/
theorem C71_returned_partial {c : Cfg} (V : Valid c) {is : List In} {os : List Out} {s : State}
    (h : History c is os s) (hs : Substantial is) (hne : s.feed.items ≠ []) {r : Option TickRec}
    {s' : State} (ht : tick c s = .ok (r, s')) {q : ℚ} {p : List NMat}
    (hq : q = min c.throughput (totalQty s.feed.items)) (hp : p = upto q s.feed.items) :
    ∃ f, 0 ≤ f ∧ f ≤ 1 ∧
      totalQty s'.feed.items = totalQty s.feed.items - q + (1 - f) * q ∧
      totalQty s'.leftover.items = totalQty s.leftover.items + f * (q - yieldAll c.streams p) ∧
      ∀ a, (∀ n, massOf p n ≠ 0 → share c.streams n = a) → f * a ≠ 1 →
        ∀ n, massOf s'.feed.items n =
          massOf s.feed.items n - massOf p n + (1 - f) * massOf p n := by
  have I := history_inv V h hs
  obtain ⟨t, f, -, E, -⟩ := tick_eff V I hne ht
  subst hq; subst hp
  have hq0 : 0 < min c.throughput s.feed.quantity :=
    lt_min V.throughput (I.feedPos.total_pos hne)
  refine ⟨f, E.f0, E.f1, ?_, E.leftQty, ?_⟩
  · have := E.feedQty
    show s'.feed.quantity = s.feed.quantity - _ + _ * min c.throughput s.feed.quantity
    rw [this]; change _ = s.feed.quantity - min c.throughput s.feed.quantity + _; ring
  · intro a ha hfa n
    have e1 := E.feedMass n
    have hy : yieldAll c.streams (upto (min c.throughput s.feed.quantity) s.feed.items) =
        a * min c.throughput s.feed.quantity := by
      have h1 := yieldAll_const (l := c.streams)
        (p := upto (min c.throughput s.feed.quantity) s.feed.items) ha
      rw [h1, totalQty_upto I.feedPos (le_of_lt hq0) (min_le_right _ _)]
    rw [e1, massOf_after]
    change _ = massOf s.feed.items n - massOf (upto (min c.throughput s.feed.quantity)
      s.feed.items) n + (1 - f) * massOf (upto (min c.throughput s.feed.quantity) s.feed.items) n
    by_cases hf : f = 1
    · simp [hf]
    · simp only [hf, if_false]
      rw [hy]
      by_cases hm : massOf (upto (min c.throughput s.feed.quantity) s.feed.items) n = 0
      · rw [hm]; ring
      · rw [ha n hm]
        have h1 : min c.throughput s.feed.quantity - f * (a * min c.throughput s.feed.quantity) =
            (1 - f * a) * min c.throughput s.feed.quantity := by ring
        have h2 : 1 - f * a ≠ 0 := by intro h; apply hfa; linarith
        rw [h1]
        have h3 : (1 - f) * min c.throughput s.feed.quantity /
            ((1 - f * a) * min c.throughput s.feed.quantity) = (1 - f) / (1 - f * a) :=
          mul_div_mul_right _ _ (ne_of_gt hq0)
        rw [h3]
        field_simp

/-- Half of each element of the example feed. -/
def halves : List (Nat × ℚ) := [(920000000, 1/2), (940000000, 1/2), (550000000, 1/2)]

/-- A feed of which every nuclide is asked for equally: half of 12 kg is processed, for lack of room
for more than 3 kg of product, and what returns has its composition. -/
example : (play { exCfg with throughput := 12, streams := [("u", ⟨3, halves⟩)] }
      (exIn.take 1 ++ [⟨fun _ => [], [], []⟩])).toOption.map (fun r =>
        (totalQty r.2.feed.items, massOf r.2.feed.items 942390000, totalQty (held r.2 "u"),
          totalQty r.2.leftover.items)) = some (6, 1, 3, 3) := by
  decide +kernel

/-- C71 is false of the code as it stands: a stream for plutonium with room for 9/10 kg, and 12 kg
of feed with 2 kg of plutonium in one step of 12 kg. Half is processed, so half of everything should
return to the feed, 1 kg of plutonium in 6 kg, and 1/10 kg of plutonium go to leftover. What returns
has 22/37 kg of plutonium; 187/370 kg of plutonium are lost to leftover. -/
theorem C71_counterexample :
    (play { exCfg with throughput := 12, streams := [("pu", ⟨9/10, [(940000000, 9/10)]⟩)] }
      (exIn.take 1 ++ [⟨fun _ => [], [], []⟩])).toOption.map (fun r =>
        (totalQty r.2.feed.items, massOf r.2.feed.items 942390000,
          totalQty (held r.2 "pu"), massOf r.2.leftover.items 942390000)) =
    some (6, 22/37, 9/10, 187/370) := by
  decide +kernel

/-! ## C72 -/

/-- C72: every bid portfolio is for a commodity somebody requests; its constraint is what the
inventory holds (not less than `eps`); the offers to each request are materials of that inventory,
oldest first, leaving out negligible ones, up to the first that covers the request; and an inventory
with a non-negligible content for which there is a request is offered. -/
theorem C72_bids {c : Cfg} (V : Valid c) {is : List In} {os : List Out} {s : State}
    (h : History c is os s) (hs : Substantial is) {r : Option TickRec} {s₁ : State}
    (ht : tick c s = .ok (r, s₁)) (reqs : String → List ℚ) :
    (∀ p ∈ bids c s₁ reqs, reqs p.commod ≠ [] ∧ p.cap = totalQty (stock c s₁ p.commod) ∧
      c.eps ≤ p.cap ∧ (∀ b ∈ p.bids, b.1 < (reqs p.commod).length) ∧
      ∀ j, j < (reqs p.commod).length → ∃ k,
        ((p.bids.filter fun b => b.1 = j).map Prod.snd) =
          ((stock c s₁ p.commod).take k).filter (fun m => c.eps < qty m) ∧
        (stock c s₁ p.commod = (stock c s₁ p.commod).take k ∨
          (reqs p.commod).getD j 0 ≤ totalQty ((stock c s₁ p.commod).take k)) ∧
        ∀ k' < k, 0 < k' →
          totalQty ((stock c s₁ p.commod).take k') < (reqs p.commod).getD j 0) ∧
    (∀ k, k = c.leftoverCommod ∨ k ∈ c.streams.map Prod.fst → reqs k ≠ [] →
      c.eps ≤ totalQty (stock c s₁ k) → 0 < totalQty (stock c s₁ k) →
      ∃ p ∈ bids c s₁ reqs, p.commod = k) := by
  have I := tick_inv V (history_inv V h hs) ht
  constructor
  · intro p hp
    have hcap := bids_cap V I hp
    have key : ∃ b, p ∈ bidsFor c.eps p.commod b (reqs p.commod) ∧
        b.items = stock c s₁ p.commod := by
      unfold bids at hp
      rcases List.mem_append.1 hp with hp | hp
      · obtain ⟨b, hb, hp⟩ := List.mem_flatMap.1 hp
        have e := (mem_bidsFor hp).1
        have hk : b.1 ∈ Map.keys s₁.bufs := List.mem_map.2 ⟨b, hb, rfl⟩
        have hne : b.1 ≠ c.leftoverCommod := fun h => V.leftover (h ▸ I.keys _ hk)
        refine ⟨b.2, by rw [e]; exact hp, ?_⟩
        unfold stock
        rw [e, if_neg hne]
        unfold getBuf Map.getD
        rw [Map.get?_of_mem I.nodup (show (b.1, b.2) ∈ s₁.bufs from hb)]; rfl
      · have e := (mem_bidsFor hp).1
        exact ⟨s₁.leftover, by rw [e]; exact hp, by rw [e, stock_leftover]⟩
    obtain ⟨b, hb, hst⟩ := key
    obtain ⟨-, h2, h3, h4, h5⟩ := mem_bidsFor hb
    have hj : ∀ j, ∀ x ∈ bidLoop c.eps ((reqs p.commod).getD j 0) j b.items 0, x.1 = j := by
      intro j x hx
      obtain ⟨k, -, e, -⟩ := bidLoop_spec c.eps ((reqs p.commod).getD j 0) j b.items 0
      rw [e] at hx
      obtain ⟨m, -, rfl⟩ := List.mem_map.1 hx
      rfl
    refine ⟨h3, hcap, by rw [h2]; exact not_lt.1 h4, ?_, ?_⟩
    · intro x hx
      rw [h5] at hx
      obtain ⟨j, hj', hx⟩ := List.mem_flatMap.1 hx
      rw [hj j x hx]; exact List.mem_range.1 hj'
    · intro j hlt
      obtain ⟨k, hk, e1, e2, e3⟩ := bidLoop_spec c.eps ((reqs p.commod).getD j 0) j b.items 0
      refine ⟨k, ?_, ?_, ?_⟩
      · rw [h5, filter_flatMap_range _ _ hj hlt, e1, ← hst]
        simp [List.map_map, Function.comp_def]
      · rw [← hst]
        rcases e2 with e2 | e2
        · left; rw [e2, List.take_length]
        · right; simpa using e2
      · intro k' h1 h2; rw [← hst]; simpa using e3 k' h1 h2
  · intro k hk hr he h0
    have hfor : ∀ b : Buf NMat, b.items = stock c s₁ k → ∃ p ∈ bidsFor c.eps k b (reqs k),
        p.commod = k := by
      intro b hb
      unfold bidsFor
      rw [if_neg (by simpa using hr), if_neg (by
        show ¬ totalQty b.items < c.eps
        rw [hb]; exact not_lt.2 he)]
      exact ⟨_, List.mem_singleton.2 rfl, rfl⟩
    unfold bids
    by_cases hl : k = c.leftoverCommod
    · obtain ⟨p, hp, e⟩ := hfor s₁.leftover (by rw [hl, stock_leftover])
      exact ⟨p, List.mem_append.2 (Or.inr (by rw [hl] at hp; exact hp)), e⟩
    · have hst : stock c s₁ k = (getBuf s₁.bufs k).items := by simp [stock, hl]
      cases hg : Map.get? s₁.bufs k with
      | none =>
        exfalso
        rw [hst] at h0
        simp [getBuf, Map.getD, hg, emptyBuf] at h0
      | some b =>
        have hgb : getBuf s₁.bufs k = b := by simp [getBuf, Map.getD, hg]
        obtain ⟨p, hp, e⟩ := hfor b (by rw [hst, hgb])
        exact ⟨p, List.mem_append.2 (Or.inl (List.mem_flatMap.2
          ⟨(k, b), Map.mem_of_get? hg, hp⟩)), e⟩

set_option synthInstance.maxSize 1000 in
/-- In the example the second step offers each inventory to both requests. -/
example : ((play exCfg exIn).toOption.map fun r => r.1.map fun o => o.bids.map fun p =>
      (p.commod, p.cap, p.bids.map fun b => (b.1, qty b.2))) =
    some [[], [("pu", 9/10, [(0, 9/10), (1, 9/10)]), ("u", 15/4, [(0, 15/4), (1, 15/4)]),
      ("waste", 27/20, [(0, 27/20), (1, 27/20)])], []] := by
  decide +kernel

/-! ## C73 -/

/-- C73: a step without feed records nothing. A step with feed records, as separating, the amount
taken from the feed; for each stream in turn, as separated, the amount it gained (nothing if the
feed has nothing for it), and as supply its new content; and as supply of the leftover commodity its
new content. -/
theorem C73_records {c : Cfg} (V : Valid c) {is : List In} {os : List Out} {s : State}
    (h : History c is os s) (hs : Substantial is) {r : Option TickRec} {s' : State}
    (ht : tick c s = .ok (r, s')) :
    (s.feed.items = [] → r = none) ∧
    (s.feed.items ≠ [] → ∃ t, r = some t ∧
      t.separating = min c.throughput (totalQty s.feed.items) ∧
      t.supplyLeftover = totalQty s'.leftover.items ∧
      t.streams.map SepRec.name = c.streams.map Prod.fst ∧
      ∀ x ∈ t.streams, x.supply = totalQty (held s' x.name) ∧
        x.separated.getD 0 = totalQty (held s' x.name) - totalQty (held s x.name)) := by
  have I := history_inv V h hs
  constructor
  · intro hf
    rw [tick_empty hf] at ht
    simp only [Except.ok.injEq, Prod.mk.injEq] at ht
    exact ht.1.symm
  · intro hne
    obtain ⟨t, f, h1, E, -⟩ := tick_eff V I hne ht
    refine ⟨t, h1, E.separating, E.supply, ?_, ?_⟩
    · rw [E.recs, List.map_map]; rfl
    · intro x hx
      rw [E.recs] at hx
      obtain ⟨st, hst, rfl⟩ := List.mem_map.1 hx
      refine ⟨rfl, ?_⟩
      have e := E.streamQty st hst
      have hy : 0 ≤ yield st.2.effs (upto (min c.throughput s.feed.quantity) s.feed.items) :=
        yield_nonneg (V.effs st hst) (allNonneg_upto I.feedNN
          (le_min (le_of_lt V.throughput) I.feedNN.total_nonneg))
      simp only
      rw [e]
      split
      · simp
      · rename_i h0
        have : yield st.2.effs (upto (min c.throughput s.feed.quantity) s.feed.items) = 0 :=
          le_antisymm (not_lt.1 h0) hy
        rw [this]; simp

/-- The records of the example. -/
example : ((play exCfg exIn).toOption.map fun r => r.1.map Out.tick) =
    some [none, some ⟨6, [⟨"pu", some (9/10), 9/10⟩, ⟨"u", some (15/4), 15/4⟩], 27/20⟩,
      some ⟨6, [⟨"pu", some (9/10), 9/5⟩, ⟨"u", some (15/4), 13/2⟩], 11/5⟩] := by
  decide +kernel

/-! ## C31, deliveries -/

/-- C31, deliveries: what is delivered in a step enters the feed, behind what processing left there;
sales do not touch the feed, and deliveries touch neither the streams nor the leftover. -/
theorem C31_received {c : Cfg} {s s' : State} {i : In} {o : Out} (h : step c s i = .ok (o, s')) :
    ∃ r s₁ s₂, tick c s = .ok (r, s₁) ∧ sellLoop c i.sells s₁ = .ok (o.sold, s₂) ∧
      s'.feed.items = s₁.feed.items ++ i.buys ∧ s'.leftover.items = s₂.leftover.items ∧
      ∀ k, held s' k = held s₂ k := by
  simp only [step, bind_ok] at h
  obtain ⟨⟨tr, s1⟩, h1, ⟨d, rq⟩, h2, -, -, ⟨sd, s2⟩, h3, s3, h4, h5⟩ := h
  simp only [pure_eq_ok, Except.ok.injEq, Prod.mk.injEq] at h5
  obtain ⟨rfl, rfl⟩ := h5
  obtain ⟨-, a2, -, a4, a5, -⟩ := accept_conserve h4
  refine ⟨tr, s1, s2, h1, h3, ?_, ?_, ?_⟩
  · change s3.feed.items = _
    rw [a2, (sellLoop_conserve h3).2]
  · change s3.leftover.items = _
    rw [a4]
  · intro k
    change (getBuf s3.bufs k).items = _
    rw [a5]; rfl

/-- The feed of the example after its first step is the delivery of that step. -/
example : ((play exCfg (exIn.take 1)).toOption.map fun r => r.2.feed.items.map qty) =
    some ((exIn.take 1).flatMap fun i => i.buys.map qty) := by
  decide +kernel

end Cyc.Separations
