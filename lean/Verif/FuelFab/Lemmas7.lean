import Verif.FuelFab.Lemmas6

/-!
# Exact amounts, sales of one stream
-/

namespace Cyc.FuelFab

open Mat (massOf)

/-! ## Exact amounts -/

/-- A stream is empty or holds an amount. -/
def Covers (b : Buf NMat) (q : ℚ) : Prop := b.items = [] ∨ q ≤ b.quantity

theorem take_covers {c : Cfg} {b b' : Buf NMat} {m : NMat} {n q : ℚ} (hb : Single b)
    (he : 0 < c.eps) (h : take c b n = .ok (m, b')) (hq : Covers b q) (hn : n ≤ q) :
    qty m = n ∧ 0 < n ∧ b'.quantity = b.quantity - n ∧ q ≤ b.quantity := by
  obtain ⟨h1, -, h3, -, h5, h6, -, h8⟩ := take_single hb he h
  have h0 := h3.1
  have hq' : q ≤ b.quantity := by
    rcases hq with hq | hq
    · exfalso
      have hz : b.quantity = 0 := by unfold Buf.quantity; rw [hq, totalQty_nil]
      have := h1.quantity_nonneg
      linarith
    · exact hq
  have e := h8 (hn.trans hq')
  exact ⟨e, by linarith, by linarith, hq'⟩

theorem addFrom_covers {c : Cfg} {b b' : Buf NMat} {m m' : NMat} {f n q : ℚ} (hb : Single b)
    (hm : Solid m) (he : 0 < c.eps) (hf : 0 ≤ f) (h : addFrom c m b f n = .ok (m', b'))
    (hq : q ≤ b.quantity) (hn : f * n ≤ q) :
    qty m' = qty m + f * n ∧ b'.quantity = b.quantity - f * n := by
  obtain ⟨-, -, -, -, h5, -, -, h8⟩ := addFrom_single hb hm he hf h
  have e := h8 (hn.trans hq)
  exact ⟨e, by linarith⟩

theorem peek_ne {b : Buf NMat} {x : NMat} (h : peek b = .ok x) : b.items ≠ [] := by
  intro h0; unfold peek at h; rw [h0] at h; cases h

theorem sellOne_exact {c : Cfg} (V : Valid c) {wl wf wt : ℚ} {t : Trade} {s s' : State} {m : NMat}
    (I : Inv c s) (h : sellOne c wl wf wt t s = .ok (m, s')) {q : ℚ} (hq : 0 ≤ q)
    (h1 : Covers s.fill (t.amt + q)) (h2 : Covers s.fiss (t.amt + q))
    (h3 : Covers s.topup (t.amt + q)) :
    qty m = t.amt ∧ Covers s'.fill q ∧ Covers s'.fiss q ∧ Covers s'.topup q ∧
      totalQty (contents s') = totalQty (contents s) - t.amt := by
  have he := V.eps
  have hI := (sellOne_inv V I h).inv
  have tot : ∀ s : State, totalQty (contents s) =
      s.fill.quantity + s.fiss.quantity + s.topup.quantity := by
    intro s; simp only [contents, Buf.quantity, totalQty_append]
  rw [tot, tot]
  have cov : ∀ {b : Buf NMat}, 0 < t.amt → Covers b (t.amt + q) → Covers b q := by
    intro b h0 hb
    rcases hb with hb | hb
    · exact Or.inl hb
    · exact Or.inr (by linarith)
  unfold sellOne at h
  rw [cosi_eq V] at h
  simp only [ok_bind] at h
  split at h
  · simp only [bind_ok] at h
    obtain ⟨⟨m1, b⟩, k1, k2⟩ := h
    simp only [pure_eq_ok, Except.ok.injEq, Prod.mk.injEq] at k2
    obtain ⟨rfl, rfl⟩ := k2
    obtain ⟨a1, a2, a3, a4⟩ := take_covers I.fill he k1 h1 (by linarith)
    exact ⟨a1, Or.inr (by simp only; linarith), cov a2 h2, cov a2 h3, by simp only; linarith⟩
  · split at h
    · simp only [bind_ok] at h
      obtain ⟨⟨m1, b⟩, k1, k2⟩ := h
      simp only [pure_eq_ok, Except.ok.injEq, Prod.mk.injEq] at k2
      obtain ⟨rfl, rfl⟩ := k2
      obtain ⟨a1, a2, a3, a4⟩ := take_covers I.fiss he k1 h2 (by linarith)
      exact ⟨a1, cov a2 h1, Or.inr (by simp only; linarith), cov a2 h3, by simp only; linarith⟩
    · split at h
      · simp only [bind_ok] at h
        obtain ⟨f, k1, g, k2, x, k3, y, k4, ⟨m1, b⟩, k5, ⟨m2, b'⟩, k6, k7⟩ := h
        simp only [pure_eq_ok, Except.ok.injEq, Prod.mk.injEq] at k7
        obtain ⟨rfl, rfl⟩ := k7
        obtain ⟨v1, v2, rfl⟩ := highFrac_ok k1
        rw [lowFrac_eq v1 v2] at k2
        simp only [Except.ok.injEq] at k2
        subst k2
        obtain ⟨hx, -⟩ := peek_ok I.fiss k3
        obtain ⟨hy, -⟩ := peek_ok I.fill k4
        obtain ⟨r1, r2⟩ := frac_range (e := c.near) v1 v2
        obtain ⟨g1, g2⟩ := atomToMass_range V hx hy r1 r2
        rw [atomToMass_compl V hx hy r1 r2] at k6
        generalize atomToMass c.atomMass (frac c.near wl _ wf) x y = A at *
        have hm1 := (take_single I.fiss he k5).2.2.1
        have hle := (take_single I.fiss he k5).2.2.2.2.2.1
        have hamt : 0 < t.amt := by
          have := hm1.1
          by_contra hneg
          push Not at hneg
          nlinarith
        obtain ⟨a1, a2, a3, a4⟩ := take_covers I.fiss he k5 h2 (by nlinarith)
        have hfl : t.amt + q ≤ s.fill.quantity := h1.resolve_left (peek_ne k4)
        obtain ⟨b1, b2⟩ := addFrom_covers I.fill hm1 he (by linarith) k6 hfl (by nlinarith)
        refine ⟨by rw [b1, a1]; ring, Or.inr ?_, Or.inr ?_, cov hamt h3, ?_⟩
        · simp only; rw [b2]; nlinarith
        · simp only; rw [a3]; nlinarith
        · simp only; rw [a3, b2]; ring
      · simp only [bind_ok] at h
        obtain ⟨f, k1, x, k3, y, k4, ⟨m1, b⟩, k5, ⟨m2, b'⟩, k6, k7⟩ := h
        simp only [pure_eq_ok, Except.ok.injEq, Prod.mk.injEq] at k7
        obtain ⟨rfl, rfl⟩ := k7
        obtain ⟨v1, v2, rfl⟩ := highFrac_ok k1
        obtain ⟨hx, -⟩ := peek_ok I.topup k3
        obtain ⟨hy, -⟩ := peek_ok I.fiss k4
        obtain ⟨r1, r2⟩ := frac_range (e := c.near) v1 v2
        obtain ⟨g1, g2⟩ := atomToMass_range V hx hy r1 r2
        rw [atomToMass_compl V hx hy r1 r2] at k5
        generalize atomToMass c.atomMass (frac c.near wf _ wt) x y = A at *
        have hm1 := (take_single I.fiss he k5).2.2.1
        have hle := (take_single I.fiss he k5).2.2.2.2.2.1
        have hamt : 0 < t.amt := by
          have := hm1.1
          by_contra hneg
          push Not at hneg
          nlinarith
        obtain ⟨a1, a2, a3, a4⟩ := take_covers I.fiss he k5 h2 (by nlinarith)
        have hfl : t.amt + q ≤ s.topup.quantity := h3.resolve_left (peek_ne k3)
        obtain ⟨b1, b2⟩ := addFrom_covers I.topup hm1 he g1 k6 hfl (by nlinarith)
        refine ⟨by rw [b1, a1]; ring, cov hamt h1, Or.inr ?_, Or.inr ?_, ?_⟩
        · simp only; rw [a3]; nlinarith
        · simp only; rw [b2]; nlinarith
        · simp only; rw [a3, b2]; ring

theorem sellLoop_exact {c : Cfg} (V : Valid c) {wl wf wt : ℚ} {ts : List Trade} {tot : ℚ}
    {s s' : State} {l : List NMat} (I : Inv c s)
    (h : sellLoop c wl wf wt tot ts s = .ok (l, s')) (h0 : ∀ t ∈ ts, 0 ≤ t.amt)
    (h1 : Covers s.fill (ts.map Trade.amt).sum) (h2 : Covers s.fiss (ts.map Trade.amt).sum)
    (h3 : Covers s.topup (ts.map Trade.amt).sum) :
    List.Forall₂ (fun t m => qty m = t.amt) ts l ∧
      totalQty (contents s') = totalQty (contents s) - (ts.map Trade.amt).sum := by
  induction ts generalizing tot s l with
  | nil =>
    simp only [sellLoop, Except.ok.injEq, Prod.mk.injEq] at h
    obtain ⟨rfl, rfl⟩ := h
    exact ⟨.nil, by simp⟩
  | cons t ts ih =>
    simp only [sellLoop] at h
    split at h
    · cases h
    · simp only [bind_ok] at h
      obtain ⟨⟨m, s1⟩, k1, ⟨l', s2⟩, k2, k3⟩ := h
      simp only [pure_eq_ok, Except.ok.injEq, Prod.mk.injEq] at k3
      obtain ⟨rfl, rfl⟩ := k3
      have hq : 0 ≤ (ts.map Trade.amt).sum := by
        apply List.sum_nonneg
        simp only [List.mem_map]
        rintro x ⟨y, hy, rfl⟩
        exact h0 y (by simp [hy])
      rw [List.map_cons, List.sum_cons] at h1 h2 h3
      obtain ⟨a1, a2, a3, a4, a5⟩ := sellOne_exact V I k1 hq h1 h2 h3
      obtain ⟨b1, b2⟩ := ih (sellOne_inv V I k1).inv k2 (fun x hx => h0 x (by simp [hx])) a2 a3 a4
      refine ⟨.cons a1 b1, ?_⟩
      rw [List.map_cons, List.sum_cons, b2, a5]; ring

/-! ## Sales of one stream -/

/-- Trades that need only filler, without fissile material in stock. -/
theorem sellLoop_filler {c : Cfg} (V : Valid c) {y : NMat} (hy : Solid y) {a b d q tot : ℚ}
    {ts : List Trade} {s : State} (hf : s.fiss.items = []) (hs : s.fill.items = stock y q)
    (h : ∀ t ∈ ts, 0 < t.amt ∧ c.lo ≤ t.amt) (hq : (ts.map Trade.amt).sum ≤ q)
    (hcap : tot + (ts.map Trade.amt).sum ≤ c.throughput + c.eps) :
    ∃ l s', sellLoop c a b d tot ts s = .ok (l, s') ∧
      List.Forall₂ (fun t m => m = ofComp t.amt y) ts l := by
  have he := V.eps
  induction ts generalizing s q tot with
  | nil => exact ⟨[], s, rfl, .nil⟩
  | cons t ts ih =>
    have hnn : 0 ≤ (ts.map Trade.amt).sum := by
      apply List.sum_nonneg
      simp only [List.mem_map]
      rintro x ⟨y, hy, rfl⟩
      exact le_of_lt (h y (by simp [hy])).1
    rw [List.map_cons, List.sum_cons] at hq hcap
    obtain ⟨t0, t1⟩ := h t (by simp)
    obtain ⟨l, s', e1, e2⟩ := ih (s := { s with fill := { s.fill with items := stock y (q - t.amt) } })
      (q := q - t.amt) (tot := tot + t.amt) hf rfl (fun x hx => h x (by simp [hx])) (by linarith)
      (by linarith)
    refine ⟨ofComp t.amt y :: l, s', ?_, .cons rfl e2⟩
    simp only [sellLoop]
    rw [if_neg (by push Not; linarith)]
    have hc : s.fiss.count = 0 := by unfold Buf.count; rw [hf]; rfl
    simp only [sellOne, cosi_eq V, ok_bind, hc, if_true,
      take_ok hy hs he t0 (by linarith) (Or.inl t1), pure_eq_ok, e1]

/-- Trades that need only fissile material, without filler in stock. -/
theorem sellLoop_fissile {c : Cfg} (V : Valid c) {x : NMat} (hx : Solid x) {b d q tot : ℚ}
    {ts : List Trade} {s : State} (hf : s.fill.items = []) (hs : s.fiss.items = stock x q)
    (h : ∀ t ∈ ts, 0 < t.amt ∧ c.lo ≤ t.amt ∧ 0 ≤ wt c t.target ∧ wt c t.target ≤ b)
    (hq : (ts.map Trade.amt).sum ≤ q)
    (hcap : tot + (ts.map Trade.amt).sum ≤ c.throughput + c.eps) :
    ∃ l s', sellLoop c 0 b d tot ts s = .ok (l, s') ∧
      List.Forall₂ (fun t m => m = ofComp t.amt x) ts l := by
  have he := V.eps
  induction ts generalizing s q tot with
  | nil => exact ⟨[], s, rfl, .nil⟩
  | cons t ts ih =>
    have hnn : 0 ≤ (ts.map Trade.amt).sum := by
      apply List.sum_nonneg
      simp only [List.mem_map]
      rintro x ⟨y, hy, rfl⟩
      exact le_of_lt (h y (by simp [hy])).1
    rw [List.map_cons, List.sum_cons] at hq hcap
    obtain ⟨t0, t1, t2, t3⟩ := h t (by simp)
    obtain ⟨l, s', e1, e2⟩ := ih (s := { s with fiss := { s.fiss with items := stock x (q - t.amt) } })
      (q := q - t.amt) (tot := tot + t.amt) hf rfl (fun x hx => h x (by simp [hx])) (by linarith)
      (by linarith)
    refine ⟨ofComp t.amt x :: l, s', ?_, .cons rfl e2⟩
    simp only [sellLoop]
    rw [if_neg (by push Not; linarith)]
    have hc : s.fill.count = 0 := by unfold Buf.count; rw [hf]; rfl
    have hc' : ¬ s.fiss.count = 0 := by
      intro h0; have := (count_stock hs).1 h0; linarith
    have hv : validWeights 0 (wt c t.target) b = true := validWeights_iff.2 ⟨t2, t3⟩
    simp only [sellOne, cosi_eq V, ok_bind, hc, hc', hv, and_self, if_true, if_false,
      take_ok hx hs he t0 (by linarith) (Or.inl t1), pure_eq_ok, e1]

/-- What a trade that takes nothing of one stream is offered. -/
theorem plan_filler {c : Cfg} (V : Valid c) {x y z : NMat} (hx : Solid x) (hy : Solid y)
    (hz : Solid z) {a b d nf nl nt : ℚ} {t : Trade} (P : Plan c x y z a b d t nf nl nt)
    (ht : 0 < t.amt) (ht' : t.amt ≤ qty t.offer) (h1 : nf = 0) (h2 : nt = 0) :
    Delivered c t (ofComp t.amt y) := by
  have hsum := P.amount
  rcases P with ⟨f, v1, v2, hf, ho, e1, e2, rfl⟩ | ⟨f, hv, v1, v2, hf, ho, e1, rfl, e2⟩
  · have ho' := ho
    rw [hf] at ho'
    obtain ⟨s1, s2, s3, s4⟩ := offer_solid V hx hy v1 v2 ho' ht ht'
    obtain ⟨r1, r2⟩ := frac_range (e := c.near) v1 v2
    rw [← hf] at r1 r2 s4
    have hA : atomToMass c.atomMass f x y = 0 := by
      rw [h1] at e1
      exact (mul_eq_zero.1 e1.symm).resolve_right (ne_of_gt ht)
    have hf0 := (atomToMass_zero_iff V hx hy r1 r2).1 hA
    refine ⟨ofComp_qty (ne_of_gt hy.1) _, ?_, ?_⟩
    · rw [ofComp_weight hy (ne_of_gt ht), s4, hf0]; ring
    · intro n
      rw [cut_mass V hx hy r1 r2 (ne_of_gt s3) ho, hA]; simp only [mass_ofComp]; ring
  · exfalso; linarith

theorem plan_fissile {c : Cfg} (V : Valid c) {x y z : NMat} (hx : Solid x) (hy : Solid y)
    (hz : Solid z) {a b d nf nl nt : ℚ} {t : Trade} (P : Plan c x y z a b d t nf nl nt)
    (ht : 0 < t.amt) (ht' : t.amt ≤ qty t.offer) (h1 : nl = 0) (h2 : nt = 0) :
    Delivered c t (ofComp t.amt x) := by
  rcases P with ⟨f, v1, v2, hf, ho, e1, e2, rfl⟩ | ⟨f, hv, v1, v2, hf, ho, e1, rfl, e2⟩
  · have ho' := ho
    rw [hf] at ho'
    obtain ⟨s1, s2, s3, s4⟩ := offer_solid V hx hy v1 v2 ho' ht ht'
    obtain ⟨r1, r2⟩ := frac_range (e := c.near) v1 v2
    rw [← hf] at r1 r2 s4
    have hA : 1 - atomToMass c.atomMass f x y = 0 := by
      rw [h1] at e2
      exact (mul_eq_zero.1 e2.symm).resolve_right (ne_of_gt ht)
    have hf1 : f = 1 := by
      have h3 := atomToMass_compl V hx hy r1 r2
      rw [hA, atomToMass_zero_iff V hy hx (by linarith) (by linarith)] at h3
      linarith
    have hA' : atomToMass c.atomMass f x y = 1 := by linarith
    refine ⟨ofComp_qty (ne_of_gt hx.1) _, ?_, ?_⟩
    · rw [ofComp_weight hx (ne_of_gt ht), s4, hf1]; ring
    · intro n
      rw [cut_mass V hx hy r1 r2 (ne_of_gt s3) ho, hA']; simp only [mass_ofComp]; ring
  · have ho' := ho
    rw [hf] at ho'
    obtain ⟨s1, s2, s3, s4⟩ := offer_solid V hz hx v1 v2 ho' ht ht'
    obtain ⟨r1, r2⟩ := frac_range (e := c.near) v1 v2
    rw [← hf] at r1 r2 s4
    have hA : atomToMass c.atomMass f z x = 0 := by
      rw [h2] at e2
      exact (mul_eq_zero.1 e2.symm).resolve_right (ne_of_gt ht)
    have hf0 := (atomToMass_zero_iff V hz hx r1 r2).1 hA
    refine ⟨ofComp_qty (ne_of_gt hx.1) _, ?_, ?_⟩
    · rw [ofComp_weight hx (ne_of_gt ht), s4, hf0]; ring
    · intro n
      rw [cut_mass V hz hx r1 r2 (ne_of_gt s3) ho, hA]; simp only [mass_ofComp]; ring

end Cyc.FuelFab
