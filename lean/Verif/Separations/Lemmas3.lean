import Verif.Separations.Lemmas2

/-!
# The invariant of a separations facility, and the effect of `Tick`
-/

namespace Cyc.Separations

open Mat (massOf)

/-- The capacity of a stream's buffer. -/
def capOf (st : Stream) : Option ℚ := if st.cap ≥ 0 then some st.cap else none

/-- What holds in every state that a valid facility can reach. -/
structure Inv (c : Cfg) (s : State) : Prop where
  feedNN : AllNonneg s.feed.items
  feedPos : AllPos s.feed.items
  leftNN : AllNonneg s.leftover.items
  bufNN : ∀ k, AllNonneg (getBuf s.bufs k).items
  nodup : (Map.keys s.bufs).Nodup
  keys : ∀ k ∈ Map.keys s.bufs, k ∈ c.streams.map Prod.fst
  feedCap : s.feed.cap = some c.feedbufSize
  leftCap : s.leftover.cap = c.leftoverCap
  caps : ∀ st ∈ c.streams, (getBuf s.bufs st.1).cap = capOf st.2
  room : ∀ st ∈ c.streams, 0 ≤ st.2.cap → (getBuf s.bufs st.1).quantity ≤ st.2.cap
  prefs : s.prefs = if c.feedPrefs.length = 0 then c.feedCommods.map fun _ => (1 : ℚ)
    else c.feedPrefs

/-- The effect of processing, in terms of the feed that was taken (`p`) and the fraction `f`. -/
structure Effect (c : Cfg) (s s' : State) (r : TickRec) (q f : ℚ) (p : List NMat) : Prop where
  amount : q = min c.throughput s.feed.quantity
  first : p = upto q s.feed.items
  f0 : 0 ≤ f
  f1 : f ≤ 1
  fits : ∀ st ∈ c.streams, ∀ sp, (getBuf s.bufs st.1).space = some sp → f * yield st.2.effs p ≤ sp
  limit : f = 1 ∨ ∃ st ∈ c.streams, ∃ sp, (getBuf s.bufs st.1).space = some sp ∧
    0 < yield st.2.effs p ∧ f * yield st.2.effs p = sp
  stream : ∀ st ∈ c.streams, ∀ n,
    massOf (held s' st.1) n = massOf (held s st.1) n + f * fraction st.2.effs n * massOf p n
  streamQty : ∀ st ∈ c.streams,
    totalQty (held s' st.1) = totalQty (held s st.1) + f * yield st.2.effs p
  feedQty : s'.feed.quantity = s.feed.quantity - f * q
  leftQty : s'.leftover.quantity = s.leftover.quantity + f * (q - yieldAll c.streams p)
  feedMass : ∀ n, massOf s'.feed.items n = massOf (after q s.feed.items) n +
    (if f = 1 then 0 else (1 - f) * q / (q - f * yieldAll c.streams p)) *
      ((1 - f * share c.streams n) * massOf p n)
  leftMass : ∀ n, massOf s'.leftover.items n = massOf s.leftover.items n +
    (1 - (if f = 1 then 0 else (1 - f) * q / (q - f * yieldAll c.streams p))) *
      ((1 - f * share c.streams n) * massOf p n)
  separating : r.separating = q
  recs : r.streams = c.streams.map fun st => ⟨st.1, if 0 < yield st.2.effs p then
    some (f * yield st.2.effs p) else none, totalQty (held s' st.1)⟩
  supply : r.supplyLeftover = totalQty s'.leftover.items
  time : s'.time = s.time

theorem space_eq {c : Cfg} {s : State} (I : Inv c s) {st : String × Stream} (h : st ∈ c.streams)
    {sp : ℚ} (hs : (getBuf s.bufs st.1).space = some sp) :
    0 ≤ st.2.cap ∧ sp = st.2.cap - (getBuf s.bufs st.1).quantity ∧ 0 ≤ sp := by
  unfold Buf.space at hs
  rw [I.caps st h] at hs
  unfold capOf at hs
  split at hs
  · rename_i h0
    simp only [Option.map_some, Option.some.injEq] at hs
    have := I.room st h h0
    rw [max_eq_right (by linarith)] at hs
    exact ⟨h0, hs.symm, by linarith⟩
  · simp at hs

theorem mat_yield {q : ℚ} {mat : NMat} {l : List NMat}
    (h : ∀ n, mat.mass n = massOf (upto q l) n) (effs : List (Nat × ℚ)) :
    yield effs [mat] = yield effs (upto q l) := by
  apply yield_congr; intro n; simpa using h n

/-- The part of `Tick` before the end. -/
theorem tick_core {c : Cfg} (V : Valid c) {s : State} (I : Inv c s) (hne : s.feed.items ≠ []) :
    ∃ mat l f recs rest bufs', 0 ≤ f ∧ f ≤ 1 ∧
      s.feed.popEps c.lo c.eps (min c.throughput s.feed.quantity) =
        .ok (mat, { s.feed with items := l }) ∧
      (stage mat c.streams s.bufs 1).2.2 = f ∧
      sepLoop c.eps f (stage mat c.streams s.bufs 1).1 mat (stage mat c.streams s.bufs 1).2.1 =
        .ok (recs, rest, bufs') ∧
      0 < min c.throughput s.feed.quantity ∧ qty mat = min c.throughput s.feed.quantity ∧
      (∀ n, mat.mass n = massOf (upto (min c.throughput s.feed.quantity) s.feed.items) n) ∧
      l = after (min c.throughput s.feed.quantity) s.feed.items ∧
      Mat.Nonneg mat ∧ AllNonneg l ∧ AllPos l ∧ Mat.Nonneg rest ∧
      (∀ n, rest.mass n = (1 - f * share c.streams n) * mat.mass n) ∧
      qty rest = qty mat - f * yieldAll c.streams [mat] ∧
      (∀ st ∈ c.streams, ∀ sp, (getBuf s.bufs st.1).space = some sp →
        f * yield st.2.effs [mat] ≤ sp) ∧
      (f = 1 ∨ ∃ st ∈ c.streams, ∃ sp, (getBuf s.bufs st.1).space = some sp ∧
        0 < yield st.2.effs [mat] ∧ f * yield st.2.effs [mat] = sp) ∧
      (∀ st ∈ c.streams, getBuf bufs' st.1 = { getBuf s.bufs st.1 with
        items := (getBuf s.bufs st.1).items ++ gain f mat st.2 }) ∧
      (∀ k, k ∉ c.streams.map Prod.fst → getBuf bufs' k = getBuf s.bufs k) ∧
      recs = c.streams.map (fun st => (⟨st.1, if 0 < yield st.2.effs [mat] then
        some (f * yield st.2.effs [mat]) else none, (getBuf bufs' st.1).quantity⟩ : SepRec)) ∧
      (Map.keys bufs').Nodup ∧ (∀ k ∈ Map.keys bufs', k ∈ c.streams.map Prod.fst) := by
  have hfq : 0 < s.feed.quantity := I.feedPos.total_pos hne
  have hq0 : 0 < min c.throughput s.feed.quantity := lt_min V.throughput hfq
  have hlo : c.lo ≤ min c.throughput s.feed.quantity ∨
      s.feed.quantity ≤ min c.throughput s.feed.quantity := by
    rcases le_total c.throughput s.feed.quantity with h | h
    · left; rw [min_eq_left h]; exact V.lo
    · right; rw [min_eq_right h]
  obtain ⟨mat, p1, p2, p3, -⟩ := popEps_ok (lo := c.lo) I.feedPos V.eps hq0 hlo (min_le_right _ _)
  have hnn := popEps_invNN I.feedNN V.eps (min_le_right _ _) p1
  have hm : Mat.Nonneg mat := hnn.2.2.2.2.2.1
  have hm' : AllNonneg [mat] := by simpa [AllNonneg] using hm
  have hl : AllNonneg (after (min c.throughput s.feed.quantity) s.feed.items) :=
    hnn.2.2.2.2.2.2.1
  generalize hst : stage mat c.streams s.bufs 1 = st
  have hf1 : st.2.2 ≤ 1 := by rw [← hst]; exact stage_le _ _ _ _
  have hyn : ∀ x ∈ c.streams, 0 ≤ yield x.2.effs [mat] := fun x hx => yield_nonneg (V.effs x hx) hm'
  have hatt : st.2.2 = 1 ∨ ∃ x ∈ c.streams, ∃ sp, (getBuf s.bufs x.1).space = some sp ∧
        0 < yield x.2.effs [mat] ∧ st.2.2 * yield x.2.effs [mat] = sp := by
    have := stage_attained mat c.streams s.bufs 1
    rw [hst] at this
    rcases this with h | ⟨x, hx, sp, h1, h2, h3⟩
    · left; exact h
    · right
      rw [qty_sepMaterial] at h2 h3
      have hpos : 0 < yield x.2.effs [mat] := lt_of_le_of_ne (hyn x hx) (Ne.symm h2)
      refine ⟨x, hx, sp, h1, hpos, ?_⟩
      rw [h3]; field_simp
  have hf0 : 0 ≤ st.2.2 := by
    rcases hatt with h | ⟨x, hx, sp, h1, h2, h3⟩
    · rw [h]; norm_num
    · have := (space_eq I hx h1).2.2
      by_contra hneg
      push Not at hneg
      have : st.2.2 * yield x.2.effs [mat] < 0 := mul_neg_of_neg_of_pos hneg h2
      linarith
  have hbound : ∀ x ∈ c.streams, ∀ sp, (getBuf s.bufs x.1).space = some sp →
        st.2.2 * yield x.2.effs [mat] ≤ sp := by
    intro x hx sp hsp
    by_cases h0 : yield x.2.effs [mat] = 0
    · rw [h0, mul_zero]; exact (space_eq I hx hsp).2.2
    · have hpos : 0 < yield x.2.effs [mat] := lt_of_le_of_ne (hyn x hx) (Ne.symm h0)
      have := stage_bound mat c.streams s.bufs 1 x hx sp hsp (by rw [qty_sepMaterial]; exact h0)
      rw [hst, qty_sepMaterial, le_div_iff₀ hpos] at this
      exact this
  have hY : yieldAll c.streams [mat] ≤ qty mat := by
    have := yieldAll_le V.share hm'
    simpa using this
  obtain ⟨recs, rest, bufs', g1, g2, g3, g4, g5, g6, g7, g8⟩ :=
    sepLoop_ok V.eps hf0 hf1 hm c.streams (fun _ => 0) 0 mat st.2.1 V.names V.effs
      (fun n => by simpa using V.share n) le_rfl (by simpa using hY) (fun n => by ring) (by ring)
      (fun x hx sp hsp => by
        rw [← hst, stage_getBuf] at hsp; exact hbound x hx sp hsp)
      (by rw [← hst]; exact stage_nodup _ _ _ I.nodup)
  have hgb : ∀ k, getBuf st.2.1 k = getBuf s.bufs k := by
    intro k; rw [← hst]; exact stage_getBuf _ _ _ _ k
  refine ⟨mat, after (min c.throughput s.feed.quantity) s.feed.items, st.2.2, recs, rest, bufs',
    hf0, hf1, p1, by rw [hst], ?_, hq0, p2, fun n => p3 n, rfl, hm, hl,
    allPos_after I.feedPos (le_of_lt hq0), ?_, ?_, ?_, hbound, hatt, ?_, ?_, g6, g7, ?_⟩
  · have : st.1 = c.streams.map (staged mat) := by rw [← hst]; exact stage_staged _ _ _ _
    rw [hst, this]; exact g1
  · exact sepLoop_nonneg hm g1
  · intro n; rw [g2 n]; ring
  · rw [g3]; ring
  · intro x hx; rw [g4 x hx, hgb]
  · intro k hk; rw [g5 k hk, hgb]
  · intro k hk
    rcases g8 k hk with h | h
    · rw [← hst] at h
      rcases (stage_keys _ _ _ _).1 h with h | h
      · exact h
      · exact I.keys k h
    · exact h

theorem totalQty_gain {c : Cfg} (V : Valid c) {f : ℚ} {mat : NMat} (hm : Mat.Nonneg mat)
    {st : String × Stream} (h : st ∈ c.streams) :
    totalQty (gain f mat st.2) = f * yield st.2.effs [mat] :=
  gain_qty (yield_nonneg (V.effs st h) (by simpa [AllNonneg] using hm))

/-- What pushing into leftover does. -/
theorem pushLeftover_eff {c : Cfg} {mat : NMat} (hm : Mat.Nonneg mat) {s s' : State}
    (h : pushLeftover c mat s = .ok s') :
    s'.leftover.quantity = s.leftover.quantity + qty mat ∧
      (∀ n, massOf s'.leftover.items n = massOf s.leftover.items n + mat.mass n) ∧
      s'.leftover.cap = s.leftover.cap ∧
      (AllNonneg s.leftover.items → AllNonneg s'.leftover.items) := by
  unfold pushLeftover at h
  split at h
  · simp only [bind_ok] at h
    obtain ⟨b, h1, h2⟩ := h
    simp only [pure_eq_ok, Except.ok.injEq] at h2
    subst h2
    rw [Buf.push_ok] at h1
    rw [h1.2]
    refine ⟨by simp [Buf.quantity], by simp, rfl, fun hn => ?_⟩
    exact AllNonneg.append.2 ⟨hn, by simpa [AllNonneg] using hm⟩
  · rename_i hq
    simp only [Except.ok.injEq] at h
    subst h
    have h0 : qty mat = 0 := le_antisymm (not_lt.1 hq) hm.qty_nonneg
    refine ⟨by rw [h0]; ring, fun n => by rw [Mat.mass_eq_zero hm h0]; ring, rfl, id⟩

/-- What the end of `Tick` does. -/
theorem finish_eff {c : Cfg} {f orig : ℚ} {mat : NMat} (hm : Mat.Nonneg mat) (hf : f ≤ 1)
    (ho : 0 < orig) {s s' : State} (hNN : AllNonneg s.feed.items) (hP : AllPos s.feed.items)
    (h : finish c f orig mat s = .ok s') :
    s'.feed.quantity = s.feed.quantity + (1 - f) * orig ∧
      s'.leftover.quantity = s.leftover.quantity + (qty mat - (1 - f) * orig) ∧
      (∀ n, massOf s'.feed.items n = massOf s.feed.items n +
        (if f = 1 then 0 else (1 - f) * orig / qty mat) * mat.mass n) ∧
      (∀ n, massOf s'.leftover.items n = massOf s.leftover.items n +
        (1 - (if f = 1 then 0 else (1 - f) * orig / qty mat)) * mat.mass n) ∧
      s'.bufs = s.bufs ∧ s'.time = s.time ∧ s'.prefs = s.prefs ∧ s'.feed.cap = s.feed.cap ∧
      s'.leftover.cap = s.leftover.cap ∧ AllNonneg s'.feed.items ∧ AllPos s'.feed.items ∧
      (AllNonneg s.leftover.items → AllNonneg s'.leftover.items) := by
  unfold finish at h
  split at h
  · rename_i h1
    obtain ⟨a1, a2, a3, a4⟩ := pushLeftover_eff hm h
    obtain ⟨b1, b2, b3, b4⟩ := pushLeftover_feed h
    subst h1
    refine ⟨by rw [b1]; ring, by rw [a1]; ring, fun n => by rw [b1]; simp, fun n => by rw [a2]; simp,
      b2, b3, b4, by rw [b1], a3, by rw [b1]; exact hNN, by rw [b1]; exact hP, a4⟩
  · rename_i h1
    simp only [bind_ok] at h
    obtain ⟨⟨back, rest⟩, e1, b, e2, e3⟩ := h
    unfold Mat.extractQty at e1
    split at e1
    · cases e1
    · rename_i hq
      have hf' : 0 < 1 - f := by
        have := lt_of_le_of_ne hf h1; linarith
      have hx : 0 < (1 - f) * orig := mul_pos hf' ho
      have hqm : (1 - f) * orig ≤ qty mat := not_lt.1 hq
      have hmp : 0 < qty mat := lt_of_lt_of_le hx hqm
      have hsp := split_nonneg hm (le_of_lt hx) hqm
      simp only [Except.ok.injEq, Prod.mk.injEq, Mat.split] at e1
      simp only [Mat.split] at hsp
      rw [e1.1, e1.2] at hsp
      obtain ⟨a1, a2, a3, a4⟩ := pushLeftover_eff hsp.2 e3
      obtain ⟨b1, b2, b3, b4⟩ := pushLeftover_feed e3
      rw [Buf.push_ok] at e2
      have hqb : qty back = (1 - f) * orig := by
        rw [← e1.1, Mat.qty_scale]; field_simp
      have hqr : qty rest = qty mat - (1 - f) * orig := by
        rw [← e1.2, Mat.qty_scale]; field_simp
      refine ⟨?_, ?_, fun n => ?_, fun n => ?_, b2, b3, b4, ?_, a3, ?_, ?_, a4⟩
      · rw [b1, e2.2]; simp [Buf.quantity, hqb]
      · rw [a1, hqr]
      · rw [b1, e2.2, if_neg h1]
        simp [← e1.1]
      · rw [a2, if_neg h1]
        simp [← e1.2]
      · rw [b1, e2.2]
      · rw [b1, e2.2]; exact AllNonneg.append.2 ⟨hNN, by simpa [AllNonneg] using hsp.1⟩
      · rw [b1, e2.2]; exact AllPos.append.2 ⟨hP, by simp [AllPos, hqb, hx]⟩

/-- `Tick` of a facility without feed does nothing. -/
theorem tick_empty {c : Cfg} {s : State} (h : s.feed.items = []) : tick c s = .ok (none, s) := by
  simp [tick, Buf.count, h]

/-- What the streams separate from material without negative masses has none. -/
theorem checkStaged_ok {c : Cfg} (V : Valid c) {mat : NMat} (hm : Mat.Nonneg mat)
    {bufs : List (String × Buf NMat)} {f : ℚ} :
    checkStaged (stage mat c.streams bufs f).1 = .ok () := by
  have key : ∀ (l : List (String × Stream)), (∀ s ∈ l, ∀ e ∈ s.2.effs, 0 ≤ e.2) →
      ∀ (bufs : List (String × Buf NMat)) (f : ℚ), ∀ x ∈ (stage mat l bufs f).1,
      ∀ e ∈ x.2.entries, 0 ≤ e.2 := by
    intro l
    induction l with
    | nil => intro _ bufs f x hx; simp [stage] at hx
    | cons s l ih =>
      intro he bufs f x hx e hxe
      rw [stage] at hx
      rcases List.mem_cons.1 hx with rfl | hx
      · simp only [sepMaterial, List.mem_filterMap, Option.map_eq_some_iff] at hxe
        obtain ⟨a, ha, v, hv, rfl⟩ := hxe
        refine mul_nonneg (hm a ha) ?_
        unfold effOf at hv
        split at hv
        · next w hw =>
          simp only [Option.some.injEq] at hv
          subst hv
          exact he s (by simp) _ (Map.mem_of_get? hw)
        · exact he s (by simp) _ (Map.mem_of_get? hv)
      · exact ih (fun s hs => he s (by simp [hs])) _ _ x hx e hxe
  unfold checkStaged
  rw [if_neg]
  simp only [List.any_eq_true, decide_eq_true_eq, not_exists, not_and, not_lt]
  exact fun x hx e he => key c.streams V.effs bufs f x hx e he

/-- What `Tick` of a facility with feed does, whenever it succeeds. -/
theorem tick_eff {c : Cfg} (V : Valid c) {s s' : State} (I : Inv c s) (hne : s.feed.items ≠ [])
    {r : Option TickRec} (h : tick c s = .ok (r, s')) :
    ∃ t f, r = some t ∧ Effect c s s' t (min c.throughput s.feed.quantity) f
        (upto (min c.throughput s.feed.quantity) s.feed.items) ∧ Inv c s' := by
  obtain ⟨mat, l, f, recs, rest, bufs', f0, f1, p1, hf, p2, q0, pq, pm, pl, hm, hl, hlp, hr, rm, rq,
    fit, lim, gb, gk, hrec, nd, ky⟩ := tick_core V I hne
  have hc : ¬ s.feed.count = 0 := by simpa [Buf.count] using hne
  unfold tick at h
  rw [if_neg hc, p1] at h
  simp only [ok_bind] at h
  rw [hf, checkStaged_ok V hm, ok_bind, p2] at h
  simp only [ok_bind, bind_ok] at h
  obtain ⟨s1, h1, h2⟩ := h
  simp only [pure_eq_ok, Except.ok.injEq, Prod.mk.injEq] at h2
  obtain ⟨rfl, rfl⟩ := h2
  obtain ⟨a1, a2, a3, a4, a5, a6, a7, a8, a9, a10, a11, a12⟩ := finish_eff hr f1 (by rw [pq]; exact q0)
    (by exact hl) (by exact hlp) h1
  have hyl : ∀ effs, yield effs [mat] =
      yield effs (upto (min c.throughput s.feed.quantity) s.feed.items) := mat_yield pm
  have hya : yieldAll c.streams [mat] =
      yieldAll c.streams (upto (min c.throughput s.feed.quantity) s.feed.items) :=
    yieldAll_congr (by intro n; simpa using pm n)
  have hcap : s1.leftover.cap = s.leftover.cap := a9
  have hgb : ∀ st ∈ c.streams, getBuf s1.bufs st.1 = { getBuf s.bufs st.1 with
        items := (getBuf s.bufs st.1).items ++ gain f mat st.2 } := by
    intro st hst; rw [a5]; exact gb st hst
  refine ⟨_, f, rfl, ?_, ?_⟩
  · constructor
    · rfl
    · rfl
    · exact f0
    · exact f1
    · intro st hst sp hsp; rw [← hyl]; exact fit st hst sp hsp
    · rcases lim with h | ⟨st, hst, sp, h⟩
      · left; exact h
      · right; refine ⟨st, hst, sp, ?_⟩; rw [← hyl]; exact h
    · intro st hst n
      unfold held
      rw [hgb st hst]
      simp only [Mat.massOf_append]
      rw [gain_mass (V.effs st hst) hm, pm n]
    · intro st hst
      unfold held
      rw [hgb st hst]
      simp only [totalQty_append]
      rw [totalQty_gain V hm hst, hyl]
    · rw [a1, pq]
      show totalQty l + _ = _
      rw [pl, totalQty_after I.feedPos (le_of_lt q0) (min_le_right _ _)]
      show s.feed.quantity - _ + _ = _
      ring
    · rw [a2, rq, hya, pq]
      show s.leftover.quantity + _ = _
      ring
    · intro n
      rw [a3 n, rq, pq, hya, rm n, pm n]
      show massOf l n + _ = _
      rw [pl]
    · intro n
      rw [a4 n, rq, pq, hya, rm n, pm n]
    · exact pq
    · show recs = _
      rw [hrec]
      apply List.map_congr_left
      intro st hst
      rw [hyl]
      show _ = (⟨_, _, totalQty (getBuf s1.bufs st.1).items⟩ : SepRec)
      rw [a5]
      rfl
    · rfl
    · exact a6
  · have hkk : ∀ k, getBuf s1.bufs k = getBuf bufs' k := by intro k; rw [a5]
    constructor
    · exact a10
    · exact a11
    · exact a12 I.leftNN
    · intro k
      by_cases hk : k ∈ c.streams.map Prod.fst
      · obtain ⟨st, hst, rfl⟩ := List.mem_map.1 hk
        rw [hgb st hst]
        exact AllNonneg.append.2 ⟨I.bufNN _, gain_nonneg f0 (V.effs st hst) hm⟩
      · rw [hkk, gk k hk]; exact I.bufNN k
    · rw [a5]; exact nd
    · rw [a5]; exact ky
    · rw [a8]; exact I.feedCap
    · rw [hcap]; exact I.leftCap
    · intro st hst
      rw [hgb st hst]
      exact I.caps st hst
    · intro st hst h0
      rw [hgb st hst]
      have hsp : (getBuf s.bufs st.1).space =
          some (max 0 (st.2.cap - (getBuf s.bufs st.1).quantity)) := by
        unfold Buf.space; rw [I.caps st hst, capOf, if_pos h0]; rfl
      have h1 := fit st hst _ hsp
      rw [max_eq_right (by have := I.room st hst h0; linarith)] at h1
      show totalQty (_ ++ _) ≤ _
      rw [totalQty_append, totalQty_gain V hm hst]
      have : totalQty (getBuf s.bufs st.1).items = (getBuf s.bufs st.1).quantity := rfl
      linarith
    · rw [a7]; exact I.prefs

theorem tick_inv {c : Cfg} (V : Valid c) {s s' : State} (I : Inv c s) {r : Option TickRec}
    (h : tick c s = .ok (r, s')) : Inv c s' := by
  by_cases hne : s.feed.items = []
  · rw [tick_empty hne] at h
    simp only [Except.ok.injEq, Prod.mk.injEq] at h
    rw [← h.2]; exact I
  · obtain ⟨_, _, _, _, h2⟩ := tick_eff V I hne h
    exact h2

/-- `Tick` succeeds when the feed is within its size and leftover has room for all that is taken. -/
theorem tick_ok_room {c : Cfg} (V : Valid c) {s : State} (I : Inv c s) (hfeed : s.feed.quantity ≤ c.feedbufSize)
    (hleft : ∀ x, c.leftoverCap = some x →
      s.leftover.quantity + min c.throughput s.feed.quantity ≤ x) :
    ∃ r s', tick c s = .ok (r, s') := by
  by_cases hne : s.feed.items = []
  · exact ⟨_, _, tick_empty hne⟩
  · obtain ⟨mat, l, f, recs, rest, bufs', f0, f1, p1, hf, p2, q0, pq, pm, pl, hm, hl, hlp, hr, rm, rq,
      fit, lim, gb, gk, hrec, nd, ky⟩ := tick_core V I hne
    have hc : ¬ s.feed.count = 0 := by simpa [Buf.count] using hne
    have hm' : AllNonneg [mat] := by simpa [AllNonneg] using hm
    have hY : yieldAll c.streams [mat] ≤ qty mat := by simpa using yieldAll_le V.share hm'
    have hY0 : 0 ≤ yieldAll c.streams [mat] := yieldAll_nonneg V.effs hm'
    have hpl : ∀ (m : NMat) (t : State), t.leftover = s.leftover → qty m ≤ qty mat →
        ∃ t', pushLeftover c m t = .ok t' := by
      intro m t ht hm
      unfold pushLeftover
      split
      · have : t.leftover.push c.eps m = .ok { t.leftover with items := t.leftover.items ++ [m] } :=
          push_fits V.eps (by
            intro sp hsp
            unfold Buf.space at hsp
            rw [ht, I.leftCap] at hsp
            cases hx : c.leftoverCap with
            | none => rw [hx] at hsp; simp at hsp
            | some x =>
              rw [hx] at hsp
              simp only [Option.map_some, Option.some.injEq] at hsp
              have h1 := hleft x hx
              have h2 : x - s.leftover.quantity ≤ sp := by rw [← hsp]; exact le_max_right _ _
              linarith)
        rw [this]; exact ⟨_, rfl⟩
      · exact ⟨_, rfl⟩
    have hfin : ∃ s', finish c f (qty mat) rest
        { s with feed := { s.feed with items := l }, bufs := bufs' } = .ok s' := by
      unfold finish
      split
      · exact hpl _ _ rfl (by rw [rq]; have := mul_nonneg f0 hY0; linarith)
      · have hge : (1 - f) * qty mat ≤ qty rest := by rw [rq]; nlinarith
        unfold Mat.extractQty
        rw [if_neg (not_lt.2 hge)]
        simp only [ok_bind]
        have hx0 : 0 ≤ qty mat := hm.qty_nonneg
        have hback : qty (rest.split ((1 - f) * qty mat)).1 ≤ qty mat := by
          simp only [Mat.split, Mat.qty_scale]
          rcases eq_or_ne (qty rest) 0 with h0 | h0
          · rw [h0]; simp; exact hx0
          · field_simp; nlinarith
        have hlq : totalQty l = s.feed.quantity - qty mat := by
          rw [pl, totalQty_after I.feedPos (le_of_lt q0) (min_le_right _ _), pq]; rfl
        have hp := push_fits (ε := c.eps) (b := ({ s.feed with items := l } : Buf NMat))
          (r := (rest.split ((1 - f) * qty mat)).1) V.eps (by
            intro sp hsp
            unfold Buf.space at hsp
            rw [I.feedCap] at hsp
            simp only [Option.map_some, Option.some.injEq] at hsp
            have : c.feedbufSize - totalQty l ≤ sp := by
              rw [← hsp]; exact le_max_right _ _
            linarith)
        rw [hp]
        refine hpl _ _ rfl ?_
        have hr0 : 0 ≤ qty rest := hr.qty_nonneg
        have hle : qty rest ≤ qty mat := by rw [rq]; have := mul_nonneg f0 hY0; linarith
        have hsum : qty (rest.split ((1 - f) * qty mat)).2 ≤ qty rest := by
          simp only [Mat.split, Mat.qty_scale]
          rcases eq_or_ne (qty rest) 0 with h0 | h0
          · rw [h0]; simp
          · have h9 : 0 ≤ (1 - f) * qty mat := mul_nonneg (by linarith) hx0
            field_simp; nlinarith
        linarith
    obtain ⟨s', hs'⟩ := hfin
    refine ⟨some ⟨qty mat, recs, s'.leftover.quantity⟩, s', ?_⟩
    · unfold tick
      rw [if_neg hc, p1]
      simp only [ok_bind]
      rw [hf, checkStaged_ok V hm, ok_bind, p2]
      simp only [ok_bind]
      rw [hs']
      rfl

/-- `Tick` succeeds when the feed is within its size and leftover is unlimited. -/
theorem tick_ok {c : Cfg} (V : Valid c) {s : State} (I : Inv c s) (hfeed : s.feed.quantity ≤ c.feedbufSize)
    (hleft : c.leftoverCap = none) : ∃ r s', tick c s = .ok (r, s') :=
  tick_ok_room V I hfeed fun x hx => by rw [hleft] at hx; cases hx

/-- `Tick` adds to leftover no more than it takes from the feed. -/
theorem tick_left_le {c : Cfg} (V : Valid c) {s s' : State} (I : Inv c s) {r : Option TickRec}
    (h : tick c s = .ok (r, s')) :
    s'.leftover.quantity ≤ s.leftover.quantity + min c.throughput s.feed.quantity := by
  have hq0 : 0 ≤ min c.throughput s.feed.quantity :=
    le_min (le_of_lt V.throughput) I.feedNN.total_nonneg
  by_cases hne : s.feed.items = []
  · rw [tick_empty hne] at h
    simp only [Except.ok.injEq, Prod.mk.injEq] at h
    rw [← h.2]; linarith
  · obtain ⟨t, f, _, E, _⟩ := tick_eff V I hne h
    rw [E.leftQty]
    have hy : 0 ≤ yieldAll c.streams (upto (min c.throughput s.feed.quantity) s.feed.items) := by
      obtain ⟨mat, _, _, _, _, _, _, _, _, _, _, _, _, pm, _, hm, _⟩ := tick_core V I hne
      have hm' : AllNonneg [mat] := by simpa [AllNonneg] using hm
      have := yieldAll_nonneg V.effs hm'
      rwa [yieldAll_congr (l' := upto (min c.throughput s.feed.quantity) s.feed.items)
        (by intro n; simpa using pm n)] at this
    have h1 := mul_nonneg E.f0 hy
    have h2 := mul_le_mul_of_nonneg_right E.f1 hq0
    nlinarith

end Cyc.Separations
