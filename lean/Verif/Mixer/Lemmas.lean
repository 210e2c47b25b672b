import Verif.Mixer.Spec
import Mathlib.Algebra.Order.BigOperators.Group.List

/-!
# Lemmas about the model of `Mixer`
-/

namespace Cyc.Mixer

open Mat (massOf)

/-! ## Names -/

theorem toString_inj {i j : Nat} (h : toString i = toString j) : i = j := by
  rw [Nat.toString_eq_repr, Nat.toString_eq_repr, Nat.repr_eq_ofList_toDigits,
    Nat.repr_eq_ofList_toDigits] at h
  have h' := congrArg String.toList h
  simp only [String.toList_ofList] at h'
  rw [← Nat.ofDigitChars_ten_toDigits (n := i), ← Nat.ofDigitChars_ten_toDigits (n := j), h']

theorem name_inj {i j : Nat} (h : name i = name j) : i = j := by
  unfold name at h
  have h' := congrArg String.toList h
  simp only [String.toList_append, List.append_cancel_left_eq] at h'
  exact toString_inj (String.toList_injective h')

theorem name_eq {i j : Nat} : name i = name j ↔ i = j := ⟨name_inj, fun h => h ▸ rfl⟩

theorem name_ne {k : Nat} {x : String} (h : x.toList.take 3 ≠ ['i', 'n', '_']) : name k ≠ x := by
  rintro rfl
  apply h
  unfold name
  rw [String.toList_append, List.take_append_of_le_length (by decide)]
  decide

theorem name_ne_out (k : Nat) : name k ≠ "output-inv-name" := name_ne (by decide)

theorem name_ne_empty (k : Nat) : name k ≠ "" := name_ne (by decide)

/-! ## Buffers by name -/

theorem getBuf_set (bufs : List (String × Buf NMat)) (k k' : String) (b : Buf NMat) :
    getBuf (Map.set bufs k b) k' = if k = k' then b else getBuf bufs k' := by
  unfold getBuf Map.getD; rw [Map.get?_set]; split <;> rfl

@[simp] theorem getBuf_touch (bufs : List (String × Buf NMat)) (k k' : String) :
    getBuf (touch bufs k) k' = getBuf bufs k' := by
  unfold touch; rw [getBuf_set]; split
  · rename_i h; rw [h]
  · rfl

@[simp] theorem getBuf_touchLoop (i n : Nat) (bufs : List (String × Buf NMat)) (k : String) :
    getBuf (touchLoop i n bufs) k = getBuf bufs k := by
  induction n generalizing i bufs with
  | zero => rfl
  | succ n ih => rw [touchLoop, ih, getBuf_touch]

theorem getBuf_of_get? {bufs : List (String × Buf NMat)} {k : String} {b : Buf NMat}
    (h : Map.get? bufs k = some b) : getBuf bufs k = b := by
  simp [getBuf, Map.getD, h]

/-- The mass of a nuclide in all streams. -/
def stockMass (bufs : List (String × Buf NMat)) (n : Nat) : ℚ :=
  (bufs.map fun x => massOf x.2.items n).sum

theorem massOf_flatMap (bufs : List (String × Buf NMat)) (n : Nat) :
    massOf (bufs.flatMap fun b => b.2.items) n = stockMass bufs n := by
  induction bufs with
  | nil => rfl
  | cons x l ih =>
    rw [List.flatMap_cons, Mat.massOf_append, ih]; rfl

theorem stockMass_set (bufs : List (String × Buf NMat)) (k : String) (b : Buf NMat) (n : Nat) :
    stockMass (Map.set bufs k b) n =
      stockMass bufs n - massOf (getBuf bufs k).items n + massOf b.items n :=
  Map.sum_set bufs k b ⟨none, []⟩ (fun b => massOf b.items n) rfl

theorem stockMass_touch (bufs : List (String × Buf NMat)) (k : String) (n : Nat) :
    stockMass (touch bufs k) n = stockMass bufs n := by
  unfold touch; rw [stockMass_set]; ring

theorem stockMass_touchLoop (i m : Nat) (bufs : List (String × Buf NMat)) (n : Nat) :
    stockMass (touchLoop i m bufs) n = stockMass bufs n := by
  induction m generalizing i bufs with
  | zero => rfl
  | succ m ih => rw [touchLoop, ih, stockMass_touch]

/-- What is known of the map of buffers: distinct keys, all of them names of streams, sound
contents. -/
structure Good (n : Nat) (bufs : List (String × Buf NMat)) : Prop where
  nodup : (Map.keys bufs).Nodup
  keys : ∀ k ∈ Map.keys bufs, ∃ i < n, k = name i
  solid : ∀ x ∈ bufs, ∀ m ∈ x.2.items, Solid m

theorem Good.get {n : Nat} {bufs : List (String × Buf NMat)} (G : Good n bufs) (k : String) :
    ∀ m ∈ (getBuf bufs k).items, Solid m :=
  Map.getD_prop (p := fun b : Buf NMat => ∀ m ∈ b.items, Solid m) G.solid (by simp)

theorem Good.set {n : Nat} {bufs : List (String × Buf NMat)} (G : Good n bufs) {i : Nat}
    (hi : i < n) {b : Buf NMat} (hb : ∀ m ∈ b.items, Solid m) :
    Good n (Map.set bufs (name i) b) := by
  refine ⟨Map.nodup_set G.nodup _ _, ?_, ?_⟩
  · intro k hk
    rcases Map.mem_keys_set.1 hk with rfl | hk
    · exact ⟨i, hi, rfl⟩
    · exact G.keys k hk
  · exact Map.forall_set (p := fun b : Buf NMat => ∀ m ∈ b.items, Solid m) G.solid hb

theorem Good.touch {n : Nat} {bufs : List (String × Buf NMat)} (G : Good n bufs) {i : Nat}
    (hi : i < n) : Good n (touch bufs (name i)) := G.set hi (G.get _)

theorem Good.touchLoop {n : Nat} {bufs : List (String × Buf NMat)} (G : Good n bufs) {i m : Nat}
    (hi : i + m ≤ n) : Good n (touchLoop i m bufs) := by
  induction m generalizing i bufs with
  | zero => exact G
  | succ m ih => exact ih (G.touch (by omega)) (by omega)

theorem allNonneg_of_solid {l : List NMat} (h : ∀ m ∈ l, Solid m) : AllNonneg l :=
  fun m hm => (h m hm).2

theorem allPos_of_solid {l : List NMat} (h : ∀ m ∈ l, Solid m) : AllPos l :=
  fun m hm => (h m hm).1

/-! ## Removals -/

theorem after_solid {l : List NMat} {q : ℚ} (hl : ∀ m ∈ l, Solid m) (h0 : 0 ≤ q) :
    ∀ m ∈ after q l, Solid m := by
  intro m hm
  refine ⟨allPos_after (allPos_of_solid hl) h0 m hm, ?_⟩
  induction l generalizing q with
  | nil => simp [after] at hm
  | cons x l ih =>
    have hx := hl x (by simp)
    unfold after at hm; split at hm
    · rename_i hle
      exact ih (q := q - qty x) (fun m h => hl m (by simp [h])) (by linarith) hm
    · rename_i hlt
      rcases List.mem_cons.1 hm with rfl | hm
      · apply hx.2.scale
        have : q / qty x ≤ 1 := by rw [div_le_one hx.1]; exact le_of_lt (not_le.1 hlt)
        linarith
      · exact (hl m (by simp [hm])).2

/-- What a removal of no more than the content returns and leaves. -/
theorem pop_inv {lo ε q : ℚ} {b b' : Buf NMat} {m : NMat} (hl : ∀ m ∈ b.items, Solid m)
    (hε : 0 ≤ ε) (hq : q ≤ b.quantity) (h : b.popEps lo ε q = .ok (m, b')) :
    0 < q ∧ Solid m ∧ qty m = q ∧ b' = { b with items := after q b.items } ∧
      (∀ n, m.mass n = massOf (upto q b.items) n) ∧ (∀ x ∈ b'.items, Solid x) := by
  have hq0 : 0 < q ∧ (lo ≤ q ∨ b.quantity ≤ q) := by
    by_cases hall : b.quantity ≤ q
    · refine ⟨?_, Or.inr hall⟩
      have hne := (popEps_invNN (allNonneg_of_solid hl) hε hq h).2.2.2.2.2.2.2.2
      exact lt_of_lt_of_le ((allPos_of_solid hl).total_pos hne) hall
    · have h' := h
      unfold Buf.popEps at h'
      rw [if_neg (by push Not; linarith), if_neg hall] at h'
      obtain ⟨h0, hlo, -⟩ := popQty_inv h'
      exact ⟨h0, Or.inl hlo⟩
  have hnn := (popEps_invNN (allNonneg_of_solid hl) hε hq h).2.2.2.2.2.1
  obtain ⟨m', e1, e2, e3, -⟩ := popEps_ok (allPos_of_solid hl) hε hq0.1 hq0.2 hq
  rw [e1] at h
  simp only [Except.ok.injEq, Prod.mk.injEq] at h
  obtain ⟨rfl, rfl⟩ := h
  exact ⟨hq0.1, ⟨by rw [e2]; exact hq0.1, hnn⟩, e2, rfl, fun n => e3 n,
    after_solid hl (le_of_lt hq0.1)⟩

/-- What any successful removal returns and leaves. -/
theorem pop_any {lo ε q : ℚ} {b b' : Buf NMat} {m : NMat} (hl : ∀ m ∈ b.items, Solid m)
    (hε : 0 ≤ ε) (h : b.popEps lo ε q = .ok (m, b')) :
    Solid m ∧ b'.cap = b.cap ∧ b'.quantity = b.quantity - qty m ∧ qty m ≤ q ∧
      (∀ n, massOf b'.items n = massOf b.items n - m.mass n) ∧ (∀ x ∈ b'.items, Solid x) := by
  by_cases hq : q ≤ b.quantity
  · obtain ⟨h0, h1, h2, rfl, h4, h5⟩ := pop_inv hl hε hq h
    refine ⟨h1, rfl, ?_, le_of_eq h2, ?_, h5⟩
    · rw [h2]; exact totalQty_after (allPos_of_solid hl) (le_of_lt h0) hq
    · intro n; rw [h4]; exact massOf_after n
  · have hle : b.quantity ≤ q := le_of_lt (not_le.1 hq)
    unfold Buf.popEps at h
    split at h
    · cases h
    · split at h
      · cases h
      · rename_i hne
        simp only [Except.ok.injEq, Prod.mk.injEq] at h
        obtain ⟨rfl, rfl⟩ := h
        refine ⟨⟨?_, Mat.Nonneg.squash (allNonneg_of_solid hl)⟩, rfl, ?_, ?_, ?_, by simp⟩
        · rw [Mat.qty_squash]; exact (allPos_of_solid hl).total_pos hne
        · rw [Mat.qty_squash]; simp [Buf.quantity]
        · rw [Mat.qty_squash]; exact hle
        · intro n; simp

/-! ## Ratios -/

theorem sum_map_mul (l : List ℚ) (a : ℚ) : (l.map fun r => r * a).sum = l.sum * a := by
  induction l with
  | nil => simp
  | cons x l ih => simp only [List.map_cons, List.sum_cons, ih]; ring

theorem normalise_length (rs : List ℚ) : (normalise rs).length = rs.length := by
  unfold normalise; split <;> simp

theorem normalise_sum {rs : List ℚ} (hne : rs ≠ []) : (normalise rs).sum = 1 := by
  unfold normalise; split
  · rename_i h; rw [sum_map_mul]; field_simp
  · rw [List.map_const', List.sum_replicate, nsmul_eq_mul]
    have : (rs.length : ℚ) ≠ 0 := by
      simpa using hne
    field_simp

theorem sum_nonneg {rs : List ℚ} (h : ∀ r ∈ rs, 0 ≤ r) : 0 ≤ rs.sum := List.sum_nonneg h

theorem normalise_nonneg {rs : List ℚ} (h : ∀ r ∈ rs, 0 ≤ r) : ∀ r ∈ normalise rs, 0 ≤ r := by
  have := sum_nonneg h
  unfold normalise; split
  · intro r hr
    obtain ⟨x, hx, rfl⟩ := List.mem_map.1 hr
    have := h x hx
    positivity
  · intro r hr
    obtain ⟨x, hx, rfl⟩ := List.mem_map.1 hr
    positivity

theorem sum_eq_zero {rs : List ℚ} (h : ∀ r ∈ rs, 0 ≤ r) (h0 : rs.sum = 0) : ∀ r ∈ rs, r = 0 := by
  induction rs with
  | nil => simp
  | cons x l ih =>
    have hx := h x (by simp)
    have hl : ∀ r ∈ l, 0 ≤ r := fun r hr => h r (by simp [hr])
    have := sum_nonneg hl
    rw [List.sum_cons] at h0
    intro r hr
    rcases List.mem_cons.1 hr with rfl | hr
    · linarith
    · exact ih hl (by linarith) r hr

/-! ## The amount to mix -/

theorem limitLoop_spec (bufs : List (String × Buf NMat)) {rs : List ℚ} (hr : ∀ r ∈ rs, 0 ≤ r)
    (hq : ∀ k, 0 ≤ (getBuf bufs k).quantity) (i : Nat) (t : ℚ) :
    limitLoop bufs i rs t ≤ t ∧
      (∀ (k : Nat) (r : ℚ), rs[k]? = some r →
        r * limitLoop bufs i rs t ≤ (getBuf bufs (name (i + k))).quantity) ∧
      (∀ x, x ≤ t → (∀ (k : Nat) (r : ℚ), rs[k]? = some r →
        r * x ≤ (getBuf bufs (name (i + k))).quantity) → x ≤ limitLoop bufs i rs t) := by
  induction rs generalizing i t with
  | nil => simp [limitLoop]
  | cons r rs ih =>
    have hr0 := hr r (by simp)
    have hrs : ∀ r ∈ rs, 0 ≤ r := fun x hx => hr x (by simp [hx])
    obtain ⟨h1, h2, h3⟩ := ih hrs (i + 1) (limit t (getBuf bufs (name i)).quantity r)
    rw [limitLoop]
    have hl : limit t (getBuf bufs (name i)).quantity r ≤ t := by
      unfold limit; split
      · exact le_refl _
      · exact min_le_left _ _
    refine ⟨h1.trans hl, ?_, ?_⟩
    · intro k r' hk
      cases k with
      | zero =>
        simp only [List.getElem?_cons_zero, Option.some.injEq] at hk
        subst hk
        rcases eq_or_lt_of_le hr0 with h0 | h0
        · rw [← h0, zero_mul]; exact hq _
        · have : limit t (getBuf bufs (name i)).quantity r ≤ (getBuf bufs (name i)).quantity / r := by
            unfold limit; rw [if_neg (ne_of_gt h0)]; exact min_le_right _ _
          have := h1.trans this
          rw [le_div_iff₀ h0] at this
          rw [mul_comm]; exact this
      | succ k =>
        rw [List.getElem?_cons_succ] at hk
        have := h2 k r' hk
        rwa [show i + 1 + k = i + (k + 1) by omega] at this
    · intro x hx hall
      apply h3
      · unfold limit; split
        · exact hx
        · rename_i hrn
          have h0 : 0 < r := lt_of_le_of_ne hr0 (Ne.symm hrn)
          refine le_min hx ?_
          rw [le_div_iff₀ h0, mul_comm]
          exact hall 0 r rfl
      · intro k r' hk
        have := hall (k + 1) r' (by simpa using hk)
        rwa [show i + (k + 1) = i + 1 + k by omega] at this

/-! ## The removals of one mixture -/

/-- What the streams lose of a nuclide when `t` kg are mixed; the first ratio is that of the
stream `i`. -/
def taken (bufs : List (String × Buf NMat)) (t : ℚ) (rs : List ℚ) (i n : Nat) : ℚ :=
  ((rs.zipIdx i).map fun x => massOf (upto (x.1 * t) (getBuf bufs (name x.2)).items) n).sum

theorem taken_set {bufs : List (String × Buf NMat)} {t : ℚ} {rs : List ℚ} {i j n : Nat}
    (h : j < i) (b : Buf NMat) : taken (Map.set bufs (name j) b) t rs i n = taken bufs t rs i n := by
  unfold taken
  congr 1
  apply List.map_congr_left
  intro x hx
  have : i ≤ x.2 := List.le_snd_of_mem_zipIdx hx
  rw [getBuf_set, if_neg (by rw [name_eq]; omega)]

theorem popAll_inv {c : Cfg} (hε : 0 ≤ c.eps) {N : Nat} {t : ℚ} {rs : List ℚ} {i : Nat}
    {bufs bufs' : List (String × Buf NMat)} {ms : List NMat} (G : Good N bufs)
    (hi : i + rs.length ≤ N)
    (hq : ∀ (k : Nat) (r : ℚ), rs[k]? = some r → r * t ≤ (getBuf bufs (name (i + k))).quantity)
    (h : popAll c t i rs bufs = .ok (ms, bufs')) :
    Good N bufs' ∧ ms.length = rs.length ∧ (∀ m ∈ ms, Solid m) ∧ totalQty ms = rs.sum * t ∧
      (∀ n, massOf ms n = taken bufs t rs i n) ∧
      (∀ n, stockMass bufs' n = stockMass bufs n - massOf ms n) ∧
      (∀ k, k < i → getBuf bufs' (name k) = getBuf bufs (name k)) ∧
      (∀ (k : Nat) (r : ℚ), rs[k]? = some r → 0 < r * t ∧ getBuf bufs' (name (i + k)) =
        ⟨(getBuf bufs (name (i + k))).cap, after (r * t) (getBuf bufs (name (i + k))).items⟩) ∧
      (∀ k, i + rs.length ≤ k → getBuf bufs' (name k) = getBuf bufs (name k)) := by
  induction rs generalizing i bufs bufs' ms with
  | nil =>
    simp only [popAll, Except.ok.injEq, Prod.mk.injEq] at h
    obtain ⟨rfl, rfl⟩ := h
    refine ⟨G, rfl, by simp, by simp, by simp [taken], by simp, ?_, by simp, ?_⟩
    · intro k hk; rfl
    · intro k hk; rfl
  | cons r rs ih =>
    simp only [List.length_cons] at hi
    simp only [popAll, bind_ok] at h
    obtain ⟨⟨m, b⟩, h1, ⟨ms', bufs''⟩, h2, h3⟩ := h
    simp only [pure_eq_ok, Except.ok.injEq, Prod.mk.injEq] at h3
    obtain ⟨rfl, rfl⟩ := h3
    obtain ⟨p0, p1, p2, rfl, p4, p5⟩ := pop_inv (G.get _) hε (hq 0 r rfl) h1
    have G' := G.set (i := i) (by omega) p5
    obtain ⟨q1, q2, q3, q4, q5, q6, q7, q8, q9⟩ := ih G' (i := i + 1) (by omega) (by
      intro k r' hk
      rw [getBuf_set, if_neg (by rw [name_eq]; omega)]
      have := hq (k + 1) r' (by simpa using hk)
      rwa [show i + (k + 1) = i + 1 + k by omega] at this) h2
    refine ⟨q1, by simp [q2], ?_, ?_, ?_, ?_, ?_, ?_, ?_⟩
    · intro x hx
      rcases List.mem_cons.1 hx with rfl | hx
      · exact p1
      · exact q3 x hx
    · rw [totalQty_cons, q4, p2, List.sum_cons]; ring
    · intro n
      rw [Mat.massOf_cons, q5, taken_set (by omega), p4]
      simp [taken]
    · intro n
      rw [q6, stockMass_set, Mat.massOf_cons]
      show _ - _ + massOf (after (r * t) (getBuf bufs (name i)).items) n - _ = _
      rw [massOf_after, p4]; ring_nf
    · intro k hk
      rw [q7 k (by omega), getBuf_set, if_neg (by rw [name_eq]; omega)]
    · intro k r' hk
      cases k with
      | zero =>
        simp only [List.getElem?_cons_zero, Option.some.injEq] at hk
        subst hk
        refine ⟨p0, ?_⟩
        rw [q7 (i + 0) (by omega), getBuf_set, if_pos (by simp)]
      | succ k =>
        rw [List.getElem?_cons_succ] at hk
        have := q8 k r' hk
        rw [show i + 1 + k = i + (k + 1) by omega, getBuf_set,
          if_neg (by rw [name_eq]; omega)] at this
        exact this
    · intro k hk
      simp only [List.length_cons] at hk
      rw [q9 k (by omega), getBuf_set, if_neg (by rw [name_eq]; omega)]

theorem popAll_ok {c : Cfg} (hε : 0 ≤ c.eps) {N : Nat} {t : ℚ} (ht : 0 < t) {rs : List ℚ} {i : Nat}
    {bufs : List (String × Buf NMat)} (G : Good N bufs) (hi : i + rs.length ≤ N)
    (hr : ∀ r ∈ rs, 0 < r ∧ c.lo ≤ r * t)
    (hq : ∀ (k : Nat) (r : ℚ), rs[k]? = some r → r * t ≤ (getBuf bufs (name (i + k))).quantity) :
    ∃ ms bufs', popAll c t i rs bufs = .ok (ms, bufs') := by
  induction rs generalizing i bufs with
  | nil => exact ⟨_, _, rfl⟩
  | cons r rs ih =>
    simp only [List.length_cons] at hi
    obtain ⟨r0, r1⟩ := hr r (by simp)
    obtain ⟨m, h1, -⟩ := popEps_ok (lo := c.lo) (allPos_of_solid (G.get (name i))) hε
      (mul_pos r0 ht) (Or.inl r1) (hq 0 r rfl)
    have p5 := after_solid (G.get (name i)) (le_of_lt (mul_pos r0 ht))
    obtain ⟨ms, bufs', h2⟩ := ih (G.set (i := i) (by omega)
      (b := { getBuf bufs (name i) with items := after (r * t) (getBuf bufs (name i)).items }) p5)
      (i := i + 1) (by omega) (fun x hx => hr x (by simp [hx])) (by
      intro k r' hk
      rw [getBuf_set, if_neg (by rw [name_eq]; omega)]
      have := hq (k + 1) r' (by simpa using hk)
      rwa [show i + (k + 1) = i + 1 + k by omega] at this)
    exact ⟨m :: ms, bufs', by simp only [popAll, h1, ok_bind, h2, pure_eq_ok]⟩

theorem foldl_absorb (ms : List NMat) (m : NMat) :
    ms.foldl Mat.absorb m = ⟨m.entries ++ ms.flatMap Mat.entries⟩ := by
  induction ms generalizing m with
  | nil => simp
  | cons x l ih => rw [List.foldl_cons, ih]; simp [Mat.absorb]

theorem combine_eq {ms : List NMat} (h : ms ≠ []) : combine ms = .ok (Mat.squash ms) := by
  cases ms with
  | nil => exact absurd rfl h
  | cons m ms => simp only [combine, foldl_absorb, Mat.squash, List.flatMap_cons]

/-! ## The invariant -/

/-- What holds at all times. -/
structure Inv (c : Cfg) (s : State) : Prop where
  ratios : s.ratios = normalise (c.streams.map Stream.ratio)
  good : Good c.streams.length s.bufs
  caps : ∀ (k : Nat) (x : Stream), c.streams[k]? = some x →
    (getBuf s.bufs (name k)).cap = if 0 ≤ x.size then some x.size else none
  outCap : s.output.cap = some c.outSize
  outQty : totalQty s.output.items ≤ c.outSize
  outSolid : ∀ m ∈ s.output.items, Solid m

theorem Inv.length {c : Cfg} {s : State} (I : Inv c s) : s.ratios.length = c.streams.length := by
  rw [I.ratios, normalise_length, List.length_map]

theorem Inv.nonneg {c : Cfg} (V : Valid c) {s : State} (I : Inv c s) : ∀ r ∈ s.ratios, 0 ≤ r := by
  rw [I.ratios]
  apply normalise_nonneg
  intro r hr
  obtain ⟨x, hx, rfl⟩ := List.mem_map.1 hr
  exact V.ratios x hx

theorem Inv.sum {c : Cfg} (V : Valid c) {s : State} (I : Inv c s) : s.ratios.sum = 1 := by
  rw [I.ratios]
  apply normalise_sum
  simpa using V.streams

theorem Inv.quantity {c : Cfg} {s : State} (I : Inv c s) (k : String) :
    0 ≤ (getBuf s.bufs k).quantity :=
  (allPos_of_solid (I.good.get k)).total_nonneg

theorem initBufs_good {N i : Nat} {l : List Stream} {bufs : List (String × Buf NMat)}
    (G : Good N bufs) (hi : i + l.length ≤ N) : Good N (initBufs i l bufs) := by
  induction l generalizing i bufs with
  | nil => exact G
  | cons x l ih =>
    simp only [List.length_cons] at hi
    unfold initBufs
    apply ih _ (by omega)
    split
    · exact G.set (by omega) (by simp)
    · exact G

theorem initBufs_get (i : Nat) (l : List Stream) (bufs : List (String × Buf NMat)) :
    (∀ k, k < i → getBuf (initBufs i l bufs) (name k) = getBuf bufs (name k)) ∧
      (∀ (k : Nat) (x : Stream), l[k]? = some x →
        getBuf (initBufs i l bufs) (name (i + k)) =
          if 0 ≤ x.size then ⟨some x.size, []⟩ else getBuf bufs (name (i + k))) := by
  induction l generalizing i bufs with
  | nil => simp [initBufs]
  | cons x l ih =>
    unfold initBufs
    obtain ⟨h1, h2⟩ := ih (i + 1)
      (if x.size ≥ 0 then Map.set bufs (name i) ⟨some x.size, []⟩ else bufs)
    constructor
    · intro k hk
      rw [h1 k (by omega)]
      split
      · rw [getBuf_set, if_neg (by rw [name_eq]; omega)]
      · rfl
    · intro k y hk
      cases k with
      | zero =>
        simp only [List.getElem?_cons_zero, Option.some.injEq] at hk
        subst hk
        rw [h1 (i + 0) (by omega)]
        simp only [ge_iff_le, add_zero]
        split
        · rw [getBuf_set, if_pos rfl]
        · rfl
      | succ k =>
        rw [List.getElem?_cons_succ] at hk
        have := h2 k y hk
        rw [show i + 1 + k = i + (k + 1) by omega] at this
        rw [this]
        split
        · rfl
        · split
          · rw [getBuf_set, if_neg (by rw [name_eq]; omega)]
          · rfl

theorem enter_inv {c : Cfg} (V : Valid c) : Inv c (enter c) := by
  refine ⟨rfl, ?_, ?_, rfl, by simpa [enter] using V.outSize, by simp [enter]⟩
  · apply initBufs_good _ (by simp)
    exact ⟨by simp [Map.keys], by simp [Map.keys], by simp⟩
  · intro k x hk
    have := (initBufs_get 0 c.streams []).2 k x hk
    rw [zero_add] at this
    show (getBuf (initBufs 0 c.streams []) (name k)).cap = _
    rw [this]
    split <;> rfl

theorem enter_items (c : Cfg) (k : String) : (getBuf (enter c).bufs k).items = [] := by
  have : ∀ i l bufs, (∀ x ∈ bufs, (x : String × Buf NMat).2.items = []) →
      ∀ x ∈ initBufs i l bufs, x.2.items = [] := by
    intro i l
    induction l generalizing i with
    | nil => intro bufs h; exact h
    | cons y l ih =>
      intro bufs h
      unfold initBufs
      apply ih
      split
      · exact Map.forall_set (p := fun b : Buf NMat => b.items = []) h rfl
      · exact h
  exact Map.getD_prop (p := fun b : Buf NMat => b.items = []) (this 0 c.streams [] (by simp)) rfl

/-! ## Mixing -/

theorem space_of {c : Cfg} {s : State} (I : Inv c s) :
    max 0 (c.outSize - s.output.quantity) = c.outSize - totalQty s.output.items :=
  max_eq_right (by have := I.outQty; unfold Buf.quantity; linarith)

theorem target_greatest {c : Cfg} (V : Valid c) {s : State} (I : Inv c s) :
    IsGreatest {t | Mixable c s t} (target c s (c.outSize - totalQty s.output.items)) := by
  obtain ⟨h1, h2, h3⟩ := limitLoop_spec s.bufs (I.nonneg V) I.quantity 0
    (c.outSize - totalQty s.output.items)
  simp only [zero_add] at h2 h3
  have hq := I.outQty
  have h0 : 0 ≤ limitLoop s.bufs 0 s.ratios (c.outSize - totalQty s.output.items) := by
    apply h3 0 (by linarith)
    intro k r _; rw [mul_zero]; exact I.quantity _
  constructor
  · refine ⟨le_min h0 V.throughput, min_le_right _ _, (min_le_left _ _).trans h1, ?_⟩
    intro k r hk
    have hr : 0 ≤ r := I.nonneg V r (List.mem_of_getElem? hk)
    exact (mul_le_mul_of_nonneg_left (min_le_left _ _) hr).trans (h2 k r hk)
  · rintro x ⟨-, x1, x2, x3⟩
    exact le_min (h3 x x2 x3) x1

/-- What a successful tick does. -/
structure Ticked (s : State) (t : ℚ) (s' : State) : Prop where
  ratios : s'.ratios = s.ratios
  reqInv : s'.reqInv = s.reqInv
  streams : ∀ (k : Nat) (r : ℚ), s.ratios[k]? = some r →
    held s' k = if t = 0 then held s k else after (r * t) (held s k)
  others : ∀ k, s.ratios.length ≤ k → held s' k = held s k
  cap : ∀ k, (getBuf s'.bufs (name k)).cap = (getBuf s.bufs (name k)).cap
  output : (t = 0 ∧ s'.output = s.output) ∨ 0 < t ∧ ∃ m, qty m = t ∧
    (∀ n, m.mass n = taken s.bufs t s.ratios 0 n) ∧
    s'.output = { s.output with items := s.output.items ++ [m] }
  stock : ∀ n, massOf (contents s') n = massOf (contents s) n
  pos : ∀ (k : Nat) (r : ℚ), 0 < t → s.ratios[k]? = some r → 0 < r

theorem tick_inv {c : Cfg} (V : Valid c) {s s' : State} (I : Inv c s) (h : tick c s = .ok s') :
    ∃ t, IsGreatest {t | Mixable c s t} t ∧ Ticked s t s' ∧ Inv c s' := by
  have hT := target_greatest V I
  unfold tick at h
  simp only [space_of I] at h
  generalize target c s (c.outSize - totalQty s.output.items) = t at hT h
  refine ⟨t, hT, ?_⟩
  obtain ⟨t0, t1, t2, t3⟩ := hT.1
  have hlen := I.length
  split at h
  · split at h
    · rename_i htp
      have htp : 0 < t := htp
      simp only [mix, bind_ok] at h
      obtain ⟨⟨ms, bufs'⟩, h1, m, h2, out, h3, h4⟩ := h
      simp only [pure_eq_ok, Except.ok.injEq] at h4
      subst h4
      have G := I.good.touchLoop (i := 0) (m := s.ratios.length) (by omega)
      obtain ⟨p1, p2, p3, p4, p5, p6, p7, p8, p9⟩ := popAll_inv V.eps G
        (by omega) (by
          intro k r hk
          rw [getBuf_touchLoop, zero_add]
          exact t3 k r hk) h1
      simp only [zero_add, getBuf_touchLoop] at p8 p9
      have hms : ms ≠ [] := by
        intro e; rw [e] at p2
        have h0 : c.streams.length = 0 := by simp at p2; omega
        exact V.streams (List.length_eq_zero_iff.1 h0)
      rw [combine_eq hms] at h2
      simp only [Except.ok.injEq] at h2
      subst h2
      obtain ⟨-, rfl⟩ := Buf.push_ok.1 h3
      have hqm : qty (Mat.squash ms) = t := by
        rw [Mat.qty_squash, p4, I.sum V, one_mul]
      have htk : ∀ n, massOf ms n = taken s.bufs t s.ratios 0 n := by
        intro n; rw [p5]; unfold taken; simp
      refine ⟨⟨rfl, rfl, ?_, ?_, ?_, ?_, ?_, ?_⟩, ⟨I.ratios, p1, ?_, I.outCap, ?_, ?_⟩⟩
      · intro k r hk
        rw [if_neg (ne_of_gt htp)]
        show (getBuf bufs' (name k)).items = _
        rw [(p8 k r hk).2]; rfl
      · intro k hk
        show (getBuf bufs' (name k)).items = _
        rw [p9 k hk]; rfl
      · intro k
        show (getBuf bufs' (name k)).cap = _
        by_cases hk : k < s.ratios.length
        · rw [(p8 k _ (List.getElem?_eq_getElem hk)).2]
        · rw [p9 k (by omega)]
      · refine Or.inr ⟨htp, Mat.squash ms, hqm, ?_, rfl⟩
        intro n; rw [Mat.mass_squash, htk]
      · intro n
        simp only [contents, Mat.massOf_append, massOf_flatMap, Mat.massOf_cons, Mat.massOf_nil,
          p6, stockMass_touchLoop, Mat.mass_squash]
        ring
      · intro k r _ hk
        have h0 := (p8 k r hk).1
        by_contra hn
        nlinarith [not_lt.1 hn]
      · intro k x hk
        show (getBuf bufs' (name k)).cap = _
        have hkl : k < c.streams.length := by
          by_contra hh
          rw [List.getElem?_eq_none (by omega)] at hk; cases hk
        rw [(p8 k _ (List.getElem?_eq_getElem (by omega))).2]
        exact I.caps k x hk
      · simp only [totalQty_append, totalQty_cons, totalQty_nil, hqm]; linarith
      · intro x hx
        rcases List.mem_append.1 hx with hx | hx
        · exact I.outSolid x hx
        · rw [List.mem_singleton] at hx
          subst hx
          exact ⟨by rw [hqm]; exact htp, Mat.Nonneg.squash fun m hm => (p3 m hm).2⟩
    · rename_i htp
      have ht : t = 0 := le_antisymm (not_lt.1 htp) t0
      simp only [Except.ok.injEq] at h
      subst h
      subst ht
      refine ⟨⟨rfl, rfl, ?_, ?_, ?_, Or.inl ⟨rfl, rfl⟩, ?_, ?_⟩,
        ⟨I.ratios, I.good.touchLoop (by omega), ?_, I.outCap, I.outQty, I.outSolid⟩⟩
      · intro k r hk; rw [if_pos rfl]; simp [held]
      · intro k hk; simp [held]
      · intro k; simp
      · intro n; simp only [contents, Mat.massOf_append, massOf_flatMap, stockMass_touchLoop]
      · intro k r hk; exact absurd hk (lt_irrefl _)
      · intro k x hk; rw [getBuf_touchLoop]; exact I.caps k x hk
  · rename_i hfull
    simp only [Except.ok.injEq] at h
    subst h
    have ht : t = 0 := by
      unfold Buf.quantity at hfull
      exact le_antisymm (by linarith [not_lt.1 hfull]) t0
    subst ht
    refine ⟨⟨rfl, rfl, ?_, ?_, ?_, Or.inl ⟨rfl, rfl⟩, ?_, ?_⟩, I⟩
    · intro k r hk; rw [if_pos rfl]
    · intro k hk; rfl
    · intro k; rfl
    · intro n; rfl
    · intro k r hk; exact absurd hk (lt_irrefl _)

theorem tick_ok {c : Cfg} (V : Valid c) {s : State} (I : Inv c s) (hr : ∀ r ∈ s.ratios, 0 < r)
    (hlo : ∀ t, IsGreatest {t | Mixable c s t} t → 0 < t → ∀ r ∈ s.ratios, c.lo ≤ r * t) :
    ∃ s', tick c s = .ok s' := by
  have hT := target_greatest V I
  unfold tick
  simp only [space_of I]
  generalize target c s (c.outSize - totalQty s.output.items) = t at hT
  obtain ⟨t0, t1, t2, t3⟩ := hT.1
  have hlen := I.length
  split
  · split
    · rename_i htp
      have htp : 0 < t := htp
      have G := I.good.touchLoop (i := 0) (m := s.ratios.length) (by omega)
      have hq : ∀ (k : Nat) (r : ℚ), s.ratios[k]? = some r → r * t ≤
          (getBuf (touchLoop 0 s.ratios.length s.bufs) (name (0 + k))).quantity := by
        intro k r hk; rw [getBuf_touchLoop, zero_add]; exact t3 k r hk
      obtain ⟨ms, bufs', h1⟩ := popAll_ok V.eps htp G (by omega)
        (fun r hr' => ⟨hr r hr', hlo t hT htp r hr'⟩) hq
      obtain ⟨-, p2, -, p4, -⟩ := popAll_inv V.eps G (by omega) hq h1
      have hms : ms ≠ [] := by
        intro e; rw [e] at p2
        have h0 : c.streams.length = 0 := by simp at p2; omega
        exact V.streams (List.length_eq_zero_iff.1 h0)
      have hfit : s.output.fits c.eps (qty (Mat.squash ms)) = true := by
        unfold Buf.fits Buf.space
        rw [I.outCap]
        simp only [Option.map_some, decide_eq_true_eq, Mat.qty_squash, p4, I.sum V, one_mul]
        rw [space_of I]
        have := V.eps
        linarith
      simp only [mix, h1, ok_bind, combine_eq hms, Buf.push, hfit, if_true, pure_eq_ok]
      exact ⟨_, rfl⟩
    · exact ⟨_, rfl⟩
  · exact ⟨_, rfl⟩

end Cyc.Mixer
