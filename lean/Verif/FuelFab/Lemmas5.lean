import Verif.FuelFab.Lemmas4

/-!
# Honest sales succeed
-/

namespace Cyc.FuelFab

open Mat (massOf)

/-- The streams hold given amounts of given compositions. -/
structure Holds (s : State) (x y z : NMat) (qf ql qt : ℚ) : Prop where
  fiss : s.fiss.items = stock x qf
  fill : s.fill.items = stock y ql
  topup : s.topup.items = stock z qt

theorem peek_stock {b : Buf NMat} {x : NMat} {q : ℚ} (h : b.items = stock x q) (hq : q ≠ 0) :
    peek b = .ok (ofComp q x) := by
  unfold peek; rw [h, stock, if_neg hq]

theorem count_stock {b : Buf NMat} {x : NMat} {q : ℚ} (h : b.items = stock x q) :
    b.count = 0 ↔ q = 0 := by
  unfold Buf.count; rw [h, stock]; split <;> simp [*]

theorem addFrom_ok {c : Cfg} {b : Buf NMat} {m x : NMat} {q f a : ℚ} (hx : Solid x)
    (hb : b.items = stock x q) (he : 0 < c.eps) (ha : 0 < a) (hf : 0 ≤ f) (hn : f * a ≤ q)
    (hlo : f * a = 0 ∨ c.lo ≤ f * a) :
    ∃ m', addFrom c m b f a = .ok (m', { b with items := stock x (q - f * a) }) ∧
      ((f = 0 ∧ m' = m) ∨ (0 < f ∧ m' = m.absorb (ofComp (f * a) x))) := by
  unfold addFrom
  by_cases h0 : f = 0
  · rw [if_neg (by rw [h0]; exact lt_irrefl _)]
    refine ⟨m, ?_, Or.inl ⟨h0, rfl⟩⟩
    rw [h0, zero_mul, sub_zero, ← hb]
  · have hp : 0 < f := lt_of_le_of_ne hf (Ne.symm h0)
    have hpa := mul_pos hp ha
    rw [if_pos hp, take_ok hx hb he hpa hn (Or.inl (hlo.resolve_left (ne_of_gt hpa)))]
    exact ⟨_, rfl, Or.inr ⟨hp, rfl⟩⟩

/-- The mixture a trade was offered, cut to the traded amount. -/
theorem cut_mass {c : Cfg} (V : Valid c) {x y : NMat} (hx : Solid x) (hy : Solid y) {t : Trade}
    {f : ℚ} (r1 : 0 ≤ f) (r2 : f ≤ 1) (hq : qty t.target ≠ 0)
    (h : t.offer = mixture c (qty t.target) f x y) (n : Nat) :
    (cut t).mass n = (ofComp (atomToMass c.atomMass f x y * t.amt) x).mass n +
      (ofComp ((1 - atomToMass c.atomMass f x y) * t.amt) y).mass n := by
  have h1 : qty t.offer = qty t.target := by rw [h, mixture_qty V hx hy r1 r2]
  unfold cut
  rw [Mat.mass_scale, h1, h, mixture_eq V hx hy r1 r2, Mat.mass_absorb]
  simp only [mass_ofComp]
  field_simp

theorem ofComp_weight {c : Cfg} {x : NMat} (hx : Solid x) {q : ℚ} (hq : q ≠ 0) :
    weight c (ofComp q x) = weight c x :=
  weight_scale (div_ne_zero hq (ne_of_gt hx.1))

/-- The weight of the delivered mixture. -/
theorem mixed_weight {c : Cfg} (V : Valid c) {x y : NMat} (hx : Solid x) (hy : Solid y)
    {f q : ℚ} (r1 : 0 ≤ f) (r2 : f ≤ 1) (hq : 0 < q) :
    weight c ((ofComp (atomToMass c.atomMass f x y * q) x).absorb
      (ofComp ((1 - atomToMass c.atomMass f x y) * q) y)) =
      f * weight c x + (1 - f) * weight c y := by
  rw [← mixture_eq V hx hy r1 r2, mixture_weight V hx hy r1 r2 hq]

theorem weight_comm (c : Cfg) (a b : NMat) : weight c (a.absorb b) = weight c (b.absorb a) := by
  have h := atomSum_absorb c (nuclideWeight c) a b
  have h' := atomSum_absorb c (nuclideWeight c) b a
  unfold atomSum at h h'
  unfold weight
  rw [h, h', atoms_absorb, atoms_absorb]
  ring_nf

/-- A sale that the stock covers is carried out. -/
theorem sellOne_ok {c : Cfg} (V : Valid c) {x y z : NMat} (hx : Solid x) (hy : Solid y)
    (hz : Solid z) {a b d qf ql qt nf nl nt : ℚ} {t : Trade} {s : State}
    (H : Holds s x y z qf ql qt)
    (P : Plan c x y z a b d t nf nl nt) (ht : 0 < t.amt) (ht' : t.amt ≤ qty t.offer)
    (f0 : 0 < nf) (f1 : c.lo ≤ nf) (f2 : nf ≤ qf) (l1 : nl = 0 ∨ c.lo ≤ nl) (l2 : nl ≤ ql)
    (t1 : nt = 0 ∨ c.lo ≤ nt) (t2 : nt ≤ qt)
    (top : (a ≤ wt c t.target ∧ wt c t.target ≤ b) ∨ 0 < nt) :
    ∃ m s', sellOne c a b d t s = .ok (m, s') ∧ Holds s' x y z (qf - nf) (ql - nl) (qt - nt) ∧
      Delivered c t m := by
  have he := V.eps
  obtain ⟨n0, n1, n2⟩ := P.nonneg V hx hy hz (le_of_lt ht)
  have qf0 : qf ≠ 0 := by linarith
  have qfp : 0 < qf := by linarith
  have hc1 : ¬ s.fiss.count = 0 := fun h => qf0 ((count_stock H.fiss).1 h)
  unfold sellOne
  simp only [cosi_eq V, ok_bind, hc1, if_false]
  rcases P with ⟨f, h1, h2, hf, ho, e1, e2, rfl⟩ | ⟨f, hv, h1, h2, hf, ho, e1, rfl, e2⟩
  · have hval : validWeights a (wt c t.target) b = true := validWeights_iff.2 ⟨h1, h2⟩
    obtain ⟨r1, r2⟩ := frac_range (e := c.near) h1 h2
    have ho' := ho
    rw [hf] at ho'
    obtain ⟨s1, s2, s3, s4⟩ := offer_solid V hx hy h1 h2 ho' ht ht'
    rw [← hf] at r1 r2 s4
    obtain ⟨g1, g2⟩ := atomToMass_range V hx hy r1 r2
    have hm := cut_mass V hx hy r1 r2 (ne_of_gt s3) ho
    by_cases hl : ql = 0
    · -- no filler: the trade needs none
      have hc2 : s.fill.count = 0 := (count_stock H.fill).2 hl
      have hnl : nl = 0 := by linarith
      have hg : atomToMass c.atomMass f x y = 1 := by
        rw [hnl] at e2
        rcases mul_eq_zero.1 e2.symm with h | h <;> linarith
      have hnf : nf = t.amt := by rw [e1, hg, one_mul]
      have hf1 : f = 1 := by
        have h3 := atomToMass_compl V hx hy r1 r2
        rw [hg, sub_self, atomToMass_zero_iff V hy hx (by linarith) (by linarith)] at h3
        linarith
      simp only [hc2, hval, true_and, if_true]
      rw [take_ok hx H.fiss he ht (by linarith) (Or.inl (by linarith))]
      refine ⟨_, _, rfl, ⟨?_, ?_, ?_⟩, ?_, ?_, ?_⟩
      · simp only [hnf]
      · rw [hnl, sub_zero]; exact H.fill
      · rw [sub_zero]; exact H.topup
      · exact ofComp_qty (ne_of_gt hx.1) _
      · rw [ofComp_weight hx (ne_of_gt ht), s4, hf1]; ring
      · intro n; rw [hm, hg]; simp only [mass_ofComp]; ring
    · have hlp : 0 < ql := lt_of_le_of_ne (by linarith) (Ne.symm hl)
      have hc2 : ¬ s.fill.count = 0 := fun h => hl ((count_stock H.fill).1 h)
      have hxq : 0 < qf / qty x := div_pos qfp hx.1
      have hyq : 0 < ql / qty y := div_pos hlp hy.1
      have hat : atomToMass c.atomMass f (ofComp qf x) (ofComp ql y) =
          atomToMass c.atomMass f x y := atomToMass_scale V hx hy hxq hyq f
      have hat' : atomToMass c.atomMass (1 - f) (ofComp ql y) (ofComp qf x) =
          1 - atomToMass c.atomMass f x y := by
        rw [← atomToMass_compl V hx hy r1 r2]; exact atomToMass_scale V hy hx hyq hxq _
      simp only [hc2, hval, false_and, if_false, if_true, highFrac_eq h1 h2, lowFrac_eq h1 h2,
        ok_bind, peek_stock H.fiss qf0, peek_stock H.fill hl, ← hf, hat, hat']
      rw [← e1, take_ok hx H.fiss he f0 f2 (Or.inl f1)]
      simp only [ok_bind]
      obtain ⟨m', k1, k2⟩ := addFrom_ok (c := c) (m := ofComp nf x) hy H.fill he ht
        (f := 1 - atomToMass c.atomMass f x y) (by linarith) (by rw [← e2]; exact l2)
        (by rw [← e2]; exact l1)
      rw [k1]
      refine ⟨_, _, rfl, ⟨rfl, ?_, ?_⟩, ?_⟩
      · simp only [e2]
      · rw [sub_zero]; exact H.topup
      · rcases k2 with ⟨g0, rfl⟩ | ⟨g0, rfl⟩
        · have hg : atomToMass c.atomMass f x y = 1 := by linarith
          have hnf : nf = t.amt := by rw [e1, hg, one_mul]
          have hf1 : f = 1 := by
            have h3 := atomToMass_compl V hx hy r1 r2
            rw [hg, sub_self, atomToMass_zero_iff V hy hx (by linarith) (by linarith)] at h3
            linarith
          refine ⟨by rw [ofComp_qty (ne_of_gt hx.1), hnf], ?_, ?_⟩
          · rw [ofComp_weight hx (by linarith), s4, hf1]; ring
          · intro n; rw [hm, hg, hnf]; simp only [mass_ofComp]; ring
        · refine ⟨?_, ?_, ?_⟩
          · rw [Mat.qty_absorb, ofComp_qty (ne_of_gt hx.1), ofComp_qty (ne_of_gt hy.1), e1]; ring
          · rw [e1, mixed_weight V hx hy r1 r2 ht, s4]
          · intro n; rw [Mat.mass_absorb, hm, e1]
  · have hval : ¬ validWeights a (wt c t.target) b = true := fun h => hv (validWeights_iff.1 h)
    have ntp : 0 < nt := top.resolve_left hv
    obtain ⟨r1, r2⟩ := frac_range (e := c.near) h1 h2
    have ho' := ho
    rw [hf] at ho'
    obtain ⟨s1, s2, s3, s4⟩ := offer_solid V hz hx h1 h2 ho' ht ht'
    rw [← hf] at r1 r2 s4
    obtain ⟨g1, g2⟩ := atomToMass_range V hz hx r1 r2
    have hm := cut_mass V hz hx r1 r2 (ne_of_gt s3) ho
    have qt0 : qt ≠ 0 := by linarith
    have qtp : 0 < qt := by linarith
    have hxq : 0 < qf / qty x := div_pos qfp hx.1
    have hzq : 0 < qt / qty z := div_pos qtp hz.1
    have hat : atomToMass c.atomMass f (ofComp qt z) (ofComp qf x) =
        atomToMass c.atomMass f z x := atomToMass_scale V hz hx hzq hxq f
    have hat' : atomToMass c.atomMass (1 - f) (ofComp qf x) (ofComp qt z) =
        1 - atomToMass c.atomMass f z x := by
      rw [← atomToMass_compl V hz hx r1 r2]; exact atomToMass_scale V hx hz hxq hzq _
    simp only [hval, and_false, if_false, highFrac_eq h1 h2, Bool.false_eq_true,
      ok_bind, peek_stock H.fiss qf0, peek_stock H.topup qt0, ← hf, hat, hat']
    rw [← e1, take_ok hx H.fiss he f0 f2 (Or.inl f1)]
    simp only [ok_bind]
    obtain ⟨m', k1, k2⟩ := addFrom_ok (c := c) (m := ofComp nf x) hz H.topup he ht
      (f := atomToMass c.atomMass f z x) g1 (by rw [← e2]; exact t2) (by rw [← e2]; exact t1)
    rw [k1]
    refine ⟨_, _, rfl, ⟨rfl, ?_, ?_⟩, ?_⟩
    · rw [sub_zero]; exact H.fill
    · simp only [e2]
    · rcases k2 with ⟨g0, rfl⟩ | ⟨g0, rfl⟩
      · rw [g0, zero_mul] at e2; exact absurd ntp (by rw [e2]; exact lt_irrefl _)
      · refine ⟨?_, ?_, ?_⟩
        · rw [Mat.qty_absorb, ofComp_qty (ne_of_gt hx.1), ofComp_qty (ne_of_gt hz.1), e1]; ring
        · rw [e1, weight_comm, mixed_weight V hz hx r1 r2 ht, s4]
        · intro n; rw [Mat.mass_absorb, hm, e1]; ring

/-- A list of sales that the stock covers is carried out. -/
theorem sellLoop_ok {c : Cfg} (V : Valid c) {x y z : NMat} (hx : Solid x) (hy : Solid y)
    (hz : Solid z) {a b d : ℚ}
    {ts : List Trade} {ns : List (ℚ × ℚ × ℚ)} {qf ql qt tot : ℚ}
    {s : State} (H : Holds s x y z qf ql qt)
    (P : List.Forall₂ (fun t n => Plan c x y z a b d t n.1 n.2.1 n.2.2 ∧ 0 < t.amt ∧
      t.amt ≤ qty t.offer ∧ 0 < n.1 ∧ c.lo ≤ n.1 ∧ (n.2.1 = 0 ∨ c.lo ≤ n.2.1) ∧
      (n.2.2 = 0 ∨ c.lo ≤ n.2.2) ∧
      ((a ≤ wt c t.target ∧ wt c t.target ≤ b) ∨ 0 < n.2.2)) ts ns)
    (hf : (ns.map Prod.fst).sum ≤ qf) (hl : (ns.map fun n => n.2.1).sum ≤ ql)
    (ht : (ns.map fun n => n.2.2).sum ≤ qt)
    (hcap : tot + (ts.map Trade.amt).sum ≤ c.throughput + c.eps) :
    ∃ l s', sellLoop c a b d tot ts s = .ok (l, s') ∧
      Holds s' x y z (qf - (ns.map Prod.fst).sum) (ql - (ns.map fun n => n.2.1).sum)
        (qt - (ns.map fun n => n.2.2).sum) ∧
      List.Forall₂ (Delivered c) ts l := by
  have nn : ∀ {ts : List Trade} {ns : List (ℚ × ℚ × ℚ)},
      List.Forall₂ (fun t n => Plan c x y z a b d t n.1 n.2.1 n.2.2 ∧ 0 < t.amt ∧
      t.amt ≤ qty t.offer ∧ 0 < n.1 ∧ c.lo ≤ n.1 ∧ (n.2.1 = 0 ∨ c.lo ≤ n.2.1) ∧
      (n.2.2 = 0 ∨ c.lo ≤ n.2.2) ∧
      ((a ≤ wt c t.target ∧ wt c t.target ≤ b) ∨ 0 < n.2.2)) ts ns →
      0 ≤ (ns.map Prod.fst).sum ∧ 0 ≤ (ns.map fun n => n.2.1).sum ∧
        0 ≤ (ns.map fun n => n.2.2).sum ∧ 0 ≤ (ts.map Trade.amt).sum := by
    intro ts ns h
    induction h with
    | nil => simp
    | cons h _ ih =>
      obtain ⟨p1, p2, p3⟩ := h.1.nonneg V hx hy hz (le_of_lt h.2.1)
      have := h.2.1
      simp only [List.map_cons, List.sum_cons]
      refine ⟨?_, ?_, ?_, ?_⟩ <;> linarith [ih.1, ih.2.1, ih.2.2.1, ih.2.2.2]
  induction P generalizing s qf ql qt tot with
  | nil => exact ⟨[], s, rfl, by simpa using H, .nil⟩
  | @cons t n ts ns h hs ih =>
    obtain ⟨k1, k2, k3, k4⟩ := nn hs
    simp only [List.map_cons, List.sum_cons] at hf hl ht hcap
    obtain ⟨p1, p2, p3, p4, p5, p6, p7, p9⟩ := h
    obtain ⟨m, s1, e1, e2, e3⟩ := sellOne_ok V hx hy hz H p1 p2 p3 p4 p5 (by linarith) p6
      (by linarith) p7 (by linarith) p9
    obtain ⟨l, s2, e4, e5, e6⟩ := ih e2 (by linarith) (by linarith) (by linarith)
      (tot := tot + t.amt) (by linarith)
    refine ⟨m :: l, s2, ?_, ?_, .cons e3 e6⟩
    · simp only [sellLoop]
      rw [if_neg (by push Not; linarith)]
      simp only [e1, e4, ok_bind, pure_eq_ok]
    · simp only [List.map_cons, List.sum_cons]
      have r1 : qf - (n.1 + (ns.map Prod.fst).sum) = qf - n.1 - (ns.map Prod.fst).sum := by ring
      have r2 : ql - (n.2.1 + (ns.map fun n => n.2.1).sum) =
          ql - n.2.1 - (ns.map fun n => n.2.1).sum := by ring
      have r3 : qt - (n.2.2 + (ns.map fun n => n.2.2).sum) =
          qt - n.2.2 - (ns.map fun n => n.2.2).sum := by ring
      rw [r1, r2, r3]
      exact e5

end Cyc.FuelFab
