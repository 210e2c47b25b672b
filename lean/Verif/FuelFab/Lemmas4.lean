import Verif.FuelFab.Lemmas3

/-!
# Lemmas about bids and sales in an honest market
-/

namespace Cyc.FuelFab

open Mat (massOf)

/-! ## Bids -/

/-- What holds of the compositions a bid is made with. -/
structure CompsOk (c : Cfg) (s : State) (k : Comps) : Prop where
  fill : Solid k.fill
  fiss : Solid k.fiss
  topup : Solid k.topup
  wFill : k.wFill = weight c k.fill
  wFiss : k.wFiss = weight c k.fiss
  wTopup : s.topup.items ≠ [] → k.wTopup = weight c k.topup
  fillStock : s.fill.items ≠ [] → s.fill.items = [k.fill]
  fissStock : s.fiss.items ≠ [] → s.fiss.items = [k.fiss]
  topupStock : s.topup.items ≠ [] → s.topup.items = [k.topup]

theorem streamComp_some {b : Buf NMat} {r : Option NMat} {m : NMat} (hb : Single b)
    (hr : ∀ m, r = some m → Solid m) (h : streamComp b r = some m) :
    Solid m ∧ (b.items ≠ [] → b.items = [m]) := by
  rcases hb with hb | ⟨x, hx, hb⟩
  · simp only [streamComp, hb] at h
    exact ⟨hr m h, fun h => absurd hb h⟩
  · simp only [streamComp, hb, Option.some.injEq] at h
    subst h
    exact ⟨hx, fun _ => hb⟩

theorem streamComp_none {b : Buf NMat} {r : Option NMat} (h : streamComp b r = none) :
    b.items = [] := by
  cases hb : b.items with
  | nil => rfl
  | cons x l => simp [streamComp, hb] at h

theorem wt_solid {c : Cfg} (V : Valid c) {m : NMat} (h : Solid m) : wt c m = weight c m :=
  wt_eq (ne_of_gt (atoms_pos V h))

theorem comps_ok {c : Cfg} (V : Valid c) {s : State} (I : Inv c s) :
    ∃ k, comps c s = .ok k ∧ CompsOk c s k := by
  obtain ⟨m, hm⟩ : ∃ m, streamComp s.fill c.fillRecipe = some m := by
    unfold streamComp
    cases s.fill.items with
    | nil => exact V.fillRecipe
    | cons x l => exact ⟨x, rfl⟩
  obtain ⟨m1, m2⟩ := streamComp_some I.fill (fun m hm => V.recipes m (Or.inl hm)) hm
  have hw := wt_solid V m1
  unfold comps
  simp only [hm, recipe!, ok_bind, cosi_eq V]
  have ht : ∃ t, cosiOr c (streamComp s.topup c.topupRecipe) 0 = .ok t ∧
      Solid ((streamComp s.topup c.topupRecipe).getD m) ∧
      (s.topup.items ≠ [] → t = weight c ((streamComp s.topup c.topupRecipe).getD m)) ∧
      (s.topup.items ≠ [] → s.topup.items = [(streamComp s.topup c.topupRecipe).getD m]) := by
    cases hx : streamComp s.topup c.topupRecipe with
    | none =>
      have := streamComp_none hx
      exact ⟨0, rfl, m1, fun h => absurd this h, fun h => absurd this h⟩
    | some x =>
      obtain ⟨x1, x2⟩ := streamComp_some I.topup (fun m hm => V.recipes m (Or.inr (Or.inr hm))) hx
      exact ⟨_, cosi_eq V x, x1, fun _ => wt_solid V x1, x2⟩
  obtain ⟨t, t1, t2, t3, t4⟩ := ht
  have hf : ∃ f, cosiOr c (streamComp s.fiss c.fissRecipe) (wt c m) = .ok f ∧
      Solid ((streamComp s.fiss c.fissRecipe).getD m) ∧
      f = weight c ((streamComp s.fiss c.fissRecipe).getD m) ∧
      (s.fiss.items ≠ [] → s.fiss.items = [(streamComp s.fiss c.fissRecipe).getD m]) := by
    cases hx : streamComp s.fiss c.fissRecipe with
    | none =>
      have := streamComp_none hx
      exact ⟨_, rfl, m1, hw, fun h => absurd this h⟩
    | some x =>
      obtain ⟨x1, x2⟩ := streamComp_some I.fiss (fun m hm => V.recipes m (Or.inr (Or.inl hm))) hx
      exact ⟨_, cosi_eq V x, x1, wt_solid V x1, x2⟩
  obtain ⟨f, f1, f2, f3, f4⟩ := hf
  simp only [t1, f1, ok_bind, pure_eq_ok]
  exact ⟨_, rfl, m1, f2, t2, hw, f3, t3, m2, f4, t4⟩

/-- The offer on a request. -/
def offerOf (c : Cfg) (k : Comps) (tp : Bool) (m : NMat) : Option NMat :=
  if k.wFill ≤ wt c m ∧ wt c m ≤ k.wFiss then
    some (mixture c (qty m) (frac c.near k.wFill (wt c m) k.wFiss) k.fiss k.fill)
  else if tp = true ∧ k.wFiss ≤ wt c m ∧ wt c m ≤ k.wTopup then
    some (mixture c (qty m) (frac c.near k.wFiss (wt c m) k.wTopup) k.topup k.fiss)
  else none

theorem bidOne_ok {c : Cfg} (V : Valid c) (k : Comps) (tp : Bool) (m : NMat) :
    bidOne c k tp m = .ok (offerOf c k tp m) := by
  unfold bidOne offerOf
  simp only [cosi_eq V, ok_bind]
  by_cases h1 : k.wFill ≤ wt c m ∧ wt c m ≤ k.wFiss
  · rw [if_pos (validWeights_iff.2 h1), if_pos h1, highFrac_eq h1.1 h1.2]; rfl
  · have h1' : ¬ validWeights k.wFill (wt c m) k.wFiss = true := fun h => h1 (validWeights_iff.1 h)
    rw [if_neg h1', if_neg h1]
    by_cases h2 : tp = true ∧ k.wFiss ≤ wt c m ∧ wt c m ≤ k.wTopup
    · rw [if_pos (by simp [h2.1, validWeights_iff.2 h2.2]), if_pos h2, highFrac_eq h2.2.1 h2.2.2]
      rfl
    · rw [if_neg (by rw [Bool.and_eq_true, validWeights_iff]; exact h2), if_neg h2]; rfl

theorem bidLoop_ok {c : Cfg} (V : Valid c) (k : Comps) (tp : Bool) (j : Nat) (ms : List NMat) :
    ∃ bs, bidLoop c k tp j ms = .ok bs ∧ ∀ i m, (i, m) ∈ bs ↔
      ∃ n t, i = j + n ∧ ms[n]? = some t ∧ offerOf c k tp t = some m := by
  induction ms generalizing j with
  | nil => exact ⟨[], rfl, by simp⟩
  | cons x ms ih =>
    obtain ⟨bs, h1, h2⟩ := ih (j + 1)
    refine ⟨((offerOf c k tp x).map fun x => (j, x)).toList ++ bs, ?_, ?_⟩
    · simp only [bidLoop, bidOne_ok V, h1, ok_bind, pure_eq_ok]
    · intro i m
      rw [List.mem_append, h2]
      constructor
      · rintro (h | ⟨n, t, rfl, h4, h5⟩)
        · cases ho : offerOf c k tp x with
          | none => rw [ho] at h; simp at h
          | some y =>
            rw [ho] at h
            simp only [Option.map_some, Option.toList_some, List.mem_singleton,
              Prod.mk.injEq] at h
            obtain ⟨rfl, rfl⟩ := h
            exact ⟨0, x, rfl, rfl, ho⟩
        · exact ⟨n + 1, t, by omega, by simpa using h4, h5⟩
      · rintro ⟨n, t, rfl, h4, h5⟩
        cases n with
        | zero =>
          simp only [List.getElem?_cons_zero, Option.some.injEq] at h4
          subst h4
          left; rw [h5]; simp
        | succ n =>
          right
          exact ⟨n, t, by omega, by simpa using h4, h5⟩

/-- What `GetMatlBids` returns. -/
theorem bids_ok {c : Cfg} (V : Valid c) {s : State} (I : Inv c s) (reqs : String → List NMat)
    {p : Option Port} (h : bids c reqs s = .ok p) :
    (p = none ∧ (c.throughput = 0 ∨ reqs c.outCommod = [])) ∨
    ∃ k bs, comps c s = .ok k ∧ CompsOk c s k ∧ p = some ⟨bs, k.fill, k.fiss, k.topup,
        max s.fiss.quantity c.near, max s.fill.quantity c.near, max s.topup.quantity c.near,
        c.throughput⟩ ∧
      ∀ i m, (i, m) ∈ bs ↔ ∃ t, (reqs c.outCommod)[i]? = some t ∧
        offerOf c k (decide (s.topup.items ≠ [])) t = some m := by
  unfold bids at h
  split at h
  · simp only [Except.ok.injEq] at h
    exact Or.inl ⟨h.symm, Or.inl (by assumption)⟩
  · split at h
    · simp only [Except.ok.injEq] at h
      exact Or.inl ⟨h.symm, Or.inr (List.length_eq_zero_iff.1 (by assumption))⟩
    · right
      obtain ⟨k, k1, k2⟩ := comps_ok V I
      obtain ⟨bs, b1, b2⟩ := bidLoop_ok V k (decide (s.topup.count > 0)) 0 (reqs c.outCommod)
      simp only [k1, b1, ok_bind] at h
      split at h
      · cases h
      · simp only [pure_eq_ok, Except.ok.injEq] at h
        refine ⟨k, bs, k1, k2, h.symm, ?_⟩
        intro i m
        rw [b2]
        have hc : decide (s.topup.count > 0) = decide (s.topup.items ≠ []) := by
          unfold Buf.count; cases s.topup.items <;> simp
        rw [hc]
        constructor
        · rintro ⟨n, t, rfl, h1, h2⟩; exact ⟨t, by simpa using h1, h2⟩
        · rintro ⟨t, h1, h2⟩; exact ⟨i, t, by omega, h1, h2⟩

theorem bids_total {c : Cfg} (V : Valid c) {s : State} (I : Inv c s) (reqs : String → List NMat) :
    ∃ p, bids c reqs s = .ok p := by
  unfold bids
  split
  · exact ⟨_, rfl⟩
  · split
    · exact ⟨_, rfl⟩
    · rename_i h0 _
      obtain ⟨k, k1, k2⟩ := comps_ok V I
      obtain ⟨bs, b1, b2⟩ := bidLoop_ok V k (decide (s.topup.count > 0)) 0 (reqs c.outCommod)
      simp only [k1, b1, ok_bind]
      rw [if_neg (by push Not; exact lt_of_le_of_ne V.throughput (Ne.symm h0))]
      exact ⟨_, rfl⟩

/-! ## What a trade needs -/

/-- What a trade needs of each stream, given the compositions `x` (fissile), `y` (filler), `z`
(top-up) and their weights. -/
def Plan (c : Cfg) (x y z : NMat) (a b d : ℚ) (t : Trade) (nf nl nt : ℚ) : Prop :=
  (∃ f, a ≤ wt c t.target ∧ wt c t.target ≤ b ∧ f = frac c.near a (wt c t.target) b ∧
    t.offer = mixture c (qty t.target) f x y ∧
    nf = atomToMass c.atomMass f x y * t.amt ∧ nl = (1 - atomToMass c.atomMass f x y) * t.amt ∧
    nt = 0) ∨
  (∃ f, ¬ (a ≤ wt c t.target ∧ wt c t.target ≤ b) ∧ b ≤ wt c t.target ∧ wt c t.target ≤ d ∧
    f = frac c.near b (wt c t.target) d ∧ t.offer = mixture c (qty t.target) f z x ∧
    nf = (1 - atomToMass c.atomMass f z x) * t.amt ∧ nl = 0 ∧
    nt = atomToMass c.atomMass f z x * t.amt)

theorem Plan.amount {c : Cfg} {x y z : NMat} {a b d : ℚ} {t : Trade} {nf nl nt : ℚ}
    (h : Plan c x y z a b d t nf nl nt) : nf + nl + nt = t.amt := by
  rcases h with ⟨f, -, -, -, -, rfl, rfl, rfl⟩ | ⟨f, -, -, -, -, -, rfl, rfl, rfl⟩ <;> ring

theorem Plan.nonneg {c : Cfg} (V : Valid c) {x y z : NMat} {a b d : ℚ} {t : Trade} {nf nl nt : ℚ}
    (hx : Solid x) (hy : Solid y) (hz : Solid z) (ht : 0 ≤ t.amt)
    (h : Plan c x y z a b d t nf nl nt) : 0 ≤ nf ∧ 0 ≤ nl ∧ 0 ≤ nt := by
  rcases h with ⟨f, h1, h2, rfl, -, rfl, rfl, rfl⟩ | ⟨f, -, h1, h2, rfl, -, rfl, rfl, rfl⟩
  · obtain ⟨r1, r2⟩ := frac_range (e := c.near) h1 h2
    obtain ⟨g1, g2⟩ := atomToMass_range V hx hy r1 r2
    exact ⟨mul_nonneg g1 ht, mul_nonneg (by linarith) ht, le_refl _⟩
  · obtain ⟨r1, r2⟩ := frac_range (e := c.near) h1 h2
    obtain ⟨g1, g2⟩ := atomToMass_range V hz hx r1 r2
    exact ⟨mul_nonneg (by linarith) ht, le_refl _, mul_nonneg g1 ht⟩

theorem offer_plan {c : Cfg} (V : Valid c) {s : State} {k : Comps} (K : CompsOk c s k) {t : Trade}
    (h : offerOf c k (decide (s.topup.items ≠ [])) t.target = some t.offer) :
    ∃ nf nl nt, Plan c k.fiss k.fill k.topup k.wFill k.wFiss k.wTopup t nf nl nt ∧
      (s.topup.items = [] → k.wFill ≤ wt c t.target ∧ wt c t.target ≤ k.wFiss) := by
  unfold offerOf at h
  split at h
  · rename_i hv
    simp only [Option.some.injEq] at h
    exact ⟨_, _, _, Or.inl ⟨_, hv.1, hv.2, rfl, h.symm, rfl, rfl, rfl⟩, fun _ => hv⟩
  · split at h
    · rename_i hv ht
      simp only [Option.some.injEq] at h
      exact ⟨_, _, _, Or.inr ⟨_, hv, ht.2.1, ht.2.2, rfl, h.symm, rfl, rfl, rfl⟩,
        fun he => by simp [he] at ht⟩
    · cases h

theorem cut_qty {t : Trade} (h : qty t.offer ≠ 0) : qty (cut t) = t.amt := by
  unfold cut; rw [Mat.qty_scale, div_mul_cancel₀ _ h]

theorem atomToMass_one {c : Cfg} (V : Valid c) {a b : NMat} (ha : Solid a) (hb : Solid b) :
    atomToMass c.atomMass 1 a b = 1 := by
  rw [atomToMass_eq V (ne_of_gt (atoms_pos V ha)) (ne_of_gt (atoms_pos V hb))]
  rw [one_mul, sub_self, zero_mul, add_zero, div_self (ne_of_gt (mu_pos V ha))]

theorem atomToMass_nil {c : Cfg} (V : Valid c) {a b : NMat} (ha : Solid a) (hb : Solid b) :
    atomToMass c.atomMass 0 a b = 0 :=
  (atomToMass_zero_iff V ha hb (le_refl _) (by norm_num)).2 rfl

/-- The offer of a trade has mass, and the weight its fractions give. -/
theorem offer_solid {c : Cfg} (V : Valid c) {x y : NMat} (hx : Solid x) (hy : Solid y) {t : Trade}
    {a b : ℚ} (h1 : a ≤ wt c t.target) (h2 : wt c t.target ≤ b)
    (h : t.offer = mixture c (qty t.target) (frac c.near a (wt c t.target) b) x y)
    (ht : 0 < t.amt) (ht' : t.amt ≤ qty t.offer) :
    Solid t.offer ∧ qty t.offer = qty t.target ∧ 0 < qty t.target ∧
      weight c t.offer = frac c.near a (wt c t.target) b * weight c x +
        (1 - frac c.near a (wt c t.target) b) * weight c y := by
  obtain ⟨r1, r2⟩ := frac_range (e := c.near) h1 h2
  have hq : qty t.offer = qty t.target := by rw [h, mixture_qty V hx hy r1 r2]
  have hp : 0 < qty t.target := by rw [← hq]; linarith
  refine ⟨?_, hq, hp, ?_⟩
  · rw [h]; exact mixture_solid V hx hy r1 r2 hp
  · conv_lhs => rw [h]
    exact mixture_weight V hx hy r1 r2 hp

/-- The converters of the portfolio compute what the trade needs. -/
theorem plan_convert {c : Cfg} (V : Valid c) {s : State} {k : Comps} (K : CompsOk c s k) {t : Trade}
    {bs : List (Nat × NMat)} {q1 q2 q3 q4 : ℚ} (ht : 0 < t.amt) (ht' : t.amt ≤ qty t.offer)
    {nf nl nt : ℚ} (h : Plan c k.fiss k.fill k.topup k.wFill k.wFiss k.wTopup t nf nl nt)
    (htp : s.topup.items = [] → k.wFill ≤ wt c t.target ∧ wt c t.target ≤ k.wFiss) :
    fissConvert c ⟨bs, k.fill, k.fiss, k.topup, q1, q2, q3, q4⟩ (cut t) = .ok nf ∧
    fillConvert c ⟨bs, k.fill, k.fiss, k.topup, q1, q2, q3, q4⟩ (cut t) = .ok nl ∧
    topupConvert c ⟨bs, k.fill, k.fiss, k.topup, q1, q2, q3, q4⟩ (cut t) = .ok nt ∧
    weight c (cut t) = weight c t.offer := by
  have w1 : wt c k.fill = k.wFill := by rw [K.wFill, wt_solid V K.fill]
  have w2 : wt c k.fiss = k.wFiss := by rw [K.wFiss, wt_solid V K.fiss]
  have hcutw : ∀ (_ : Solid t.offer), wt c (cut t) = weight c t.offer ∧ qty (cut t) = t.amt ∧
      weight c (cut t) = weight c t.offer := by
    intro hs
    have hk : t.amt / qty t.offer ≠ 0 := ne_of_gt (div_pos ht hs.1)
    have : wt c (cut t) = weight c t.offer := by
      unfold cut
      rw [wt_scale hk (ne_of_gt (atoms_pos V hs)), wt_solid V hs]
    refine ⟨this, cut_qty (ne_of_gt hs.1), ?_⟩
    unfold cut; rw [weight_scale hk]
  rcases h with ⟨f, h1, h2, hf, ho, rfl, rfl, rfl⟩ | ⟨f, hv, h1, h2, hf, ho, rfl, rfl, rfl⟩
  · rw [hf] at ho
    obtain ⟨s1, s2, s3, s4⟩ := offer_solid V K.fiss K.fill h1 h2 ho ht ht'
    obtain ⟨c1, c2, c3⟩ := hcutw s1
    rw [← hf] at s4
    have hw : wt c (cut t) = f * k.wFiss + (1 - f) * k.wFill := by
      rw [c1, s4, K.wFill, K.wFiss]
    obtain ⟨b1, b2⟩ := frac_between (e := c.near) h1 h2
    obtain ⟨r1, r2⟩ := frac_range (e := c.near) h1 h2
    have hag := frac_again (l := k.wFill) (t := wt c t.target) (h := k.wFiss) V.near V.nearHalf
    rw [← hf, ← hw] at b1 b2 hag
    rw [← hf] at r1 r2
    have hval : validWeights k.wFill (wt c (cut t)) k.wFiss = true := validWeights_iff.2 ⟨b1, b2⟩
    refine ⟨?_, ?_, ?_, c3⟩
    · simp only [fissConvert, cosi_eq V, ok_bind, w1, w2, hval, if_true, highFrac_eq b1 b2, hag, c2,
        pure_eq_ok]
    · simp only [fillConvert, cosi_eq V, ok_bind, w1, w2, hval, if_true, lowFrac_eq b1 b2, hag, c2,
        pure_eq_ok, atomToMass_compl V K.fiss K.fill r1 r2]
    · simp only [topupConvert, cosi_eq V, ok_bind, w1, w2, hval, if_true, pure_eq_ok]
  · have hne : s.topup.items ≠ [] := fun he => hv (htp he)
    have w3 : wt c k.topup = k.wTopup := by rw [K.wTopup hne, wt_solid V K.topup]
    rw [hf] at ho
    obtain ⟨s1, s2, s3, s4⟩ := offer_solid V K.topup K.fiss h1 h2 ho ht ht'
    obtain ⟨c1, c2, c3⟩ := hcutw s1
    rw [← hf] at s4
    have hw : wt c (cut t) = f * k.wTopup + (1 - f) * k.wFiss := by
      rw [c1, s4, K.wFiss, K.wTopup hne]
    obtain ⟨b1, b2⟩ := frac_between (e := c.near) h1 h2
    obtain ⟨r1, r2⟩ := frac_range (e := c.near) h1 h2
    have hag := frac_again (l := k.wFiss) (t := wt c t.target) (h := k.wTopup) V.near V.nearHalf
    rw [← hf, ← hw] at b1 b2 hag
    rw [← hf] at r1 r2
    by_cases hval : k.wFill ≤ wt c (cut t) ∧ wt c (cut t) ≤ k.wFiss
    · -- the offer is pure fissile material
      have hweq : wt c (cut t) = k.wFiss := le_antisymm hval.2 b1
      have hf0 : f = 0 := by
        rw [hweq] at hw
        have h3 : f * (k.wTopup - k.wFiss) = 0 := by linarith
        rcases mul_eq_zero.1 h3 with h3 | h3
        · exact h3
        · exfalso
          apply hv
          have : wt c t.target = k.wFiss := le_antisymm (by linarith) h1
          rw [this, ← hweq]; exact ⟨hval.1, le_refl _⟩
      have hfr : frac c.near k.wFill (wt c (cut t)) k.wFiss = 1 := by
        unfold frac
        split
        · rfl
        · rename_i hne'
          rw [hweq, div_self (sub_ne_zero.2 (Ne.symm hne'))]
          simp [snap, V.near]
      have hvv := validWeights_iff.2 hval
      rw [hf0, atomToMass_nil V K.topup K.fiss]
      refine ⟨?_, ?_, ?_, c3⟩
      · simp only [fissConvert, cosi_eq V, ok_bind, w1, w2, hvv, if_true,
          highFrac_eq hval.1 hval.2, hfr, c2, pure_eq_ok, atomToMass_one V K.fiss K.fill]
        ring_nf
      · simp only [fillConvert, cosi_eq V, ok_bind, w1, w2, hvv, if_true,
          lowFrac_eq hval.1 hval.2, hfr, c2, pure_eq_ok, sub_self, atomToMass_nil V K.fill K.fiss,
          zero_mul]
      · simp only [topupConvert, cosi_eq V, ok_bind, w1, w2, hvv, if_true, pure_eq_ok, zero_mul]
    · have hvv : ¬ validWeights k.wFill (wt c (cut t)) k.wFiss = true :=
        fun h => hval (validWeights_iff.1 h)
      have hv2 : validWeights k.wFiss (wt c (cut t)) k.wTopup = true :=
        validWeights_iff.2 ⟨b1, b2⟩
      refine ⟨?_, ?_, ?_, c3⟩
      · simp only [fissConvert, cosi_eq V, ok_bind, w1, w2, w3, hvv, hv2, if_true, if_false,
          lowFrac_eq b1 b2, hag, c2, pure_eq_ok, atomToMass_compl V K.topup K.fiss r1 r2]
        rfl
      · simp only [fillConvert, cosi_eq V, ok_bind, w1, w2, w3, hvv, hv2, if_true, if_false,
          pure_eq_ok]
        rfl
      · simp only [topupConvert, cosi_eq V, ok_bind, w1, w2, w3, hvv, hv2, if_true, if_false,
          highFrac_eq b1 b2, hag, c2, pure_eq_ok]
        rfl

end Cyc.FuelFab
