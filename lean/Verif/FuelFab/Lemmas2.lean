import Verif.FuelFab.Lemmas

/-!
# Lemmas about the streams and single trades
-/

namespace Cyc.FuelFab

open Mat (massOf)

/-! ## A stream that holds one material -/

/-- `q` kg of the composition `x`, as the content of a stream. -/
def stock (x : NMat) (q : ℚ) : List NMat := if q = 0 then [] else [ofComp q x]

theorem stock_self {x : NMat} (h : Solid x) : stock x (qty x) = [x] := by
  unfold stock ofComp
  rw [if_neg (ne_of_gt h.1), div_self (ne_of_gt h.1), Mat.scale_one]

@[simp] theorem stock_zero (x : NMat) : stock x 0 = [] := by simp [stock]

theorem totalQty_stock {x : NMat} (h : Solid x) (q : ℚ) : totalQty (stock x q) = q := by
  unfold stock
  split
  · rename_i h0; simp [h0]
  · simp [ofComp_qty (ne_of_gt h.1)]

theorem massOf_stock {x : NMat} (q : ℚ) (n : Nat) :
    massOf (stock x q) n = (ofComp q x).mass n := by
  unfold stock
  split
  · rename_i h0; simp [h0, ofComp]
  · simp

theorem mass_ofComp (x : NMat) (q : ℚ) (n : Nat) : (ofComp q x).mass n = q / qty x * x.mass n := by
  simp [ofComp]

theorem ofComp_ofComp {x : NMat} (h : qty x ≠ 0) {p : ℚ} (hp : p ≠ 0) (q : ℚ) :
    ofComp q (ofComp p x) = ofComp q x := by
  have h1 : qty (ofComp p x) = p := ofComp_qty h p
  conv_lhs => unfold ofComp
  rw [show (Mat.scale (p / qty x) x) = ofComp p x from rfl, h1]
  unfold ofComp
  rw [Mat.scale_scale]
  congr 1
  field_simp

theorem squash_one (x : NMat) : Mat.squash [x] = x := by
  cases x; simp [Mat.squash]

theorem ofComp_solid {x : NMat} (h : Solid x) {q : ℚ} (hq : 0 < q) : Solid (ofComp q x) :=
  h.scale (div_pos hq h.1)

theorem ofComp_all {x : NMat} (h : qty x ≠ 0) : ofComp (qty x) x = x := by
  unfold ofComp; rw [div_self h, Mat.scale_one]

theorem quantity_stock {b : Buf NMat} {x : NMat} {q : ℚ} (hx : Solid x)
    (hb : b.items = stock x q) : b.quantity = q := by
  unfold Buf.quantity; rw [hb, totalQty_stock hx]

theorem popEps_stock {b : Buf NMat} {lo eps : ℚ} {x : NMat} {q n : ℚ} (hx : Solid x)
    (hb : b.items = stock x q) (he : 0 ≤ eps) (h0 : 0 < n) (hn : n ≤ q) (hlo : lo ≤ n ∨ n = q) :
    b.popEps lo eps n = .ok (ofComp n x, { b with items := stock x (q - n) }) := by
  have hq := quantity_stock hx hb
  have q0 : q ≠ 0 := by linarith
  have qx := ne_of_gt hx.1
  have hit : b.items = [ofComp q x] := by rw [hb, stock, if_neg q0]
  unfold Buf.popEps
  rw [hq, if_neg (by push Not; linarith)]
  by_cases hall : q ≤ n
  · have : n = q := le_antisymm hn hall
    rw [if_pos hall, if_neg (by rw [hit]; simp), hit, squash_one, this, sub_self, stock_zero]
  · push Not at hall
    have hlo' : lo ≤ n := hlo.resolve_right (by intro h; linarith)
    rw [if_neg (by push Not; exact hall)]
    unfold Buf.popQty
    rw [hq, if_neg (by push Not; exact ⟨hn, h0, hlo'⟩), hit]
    have hqq : qty (ofComp q x) = q := ofComp_qty qx q
    unfold popLoop
    rw [if_neg (by push Not; exact h0), if_pos (by rw [hqq]; exact hall)]
    simp only [ok_bind, pure_eq_ok, Except.ok.injEq, Prod.mk.injEq]
    constructor
    · rw [squash_one, Mat.split]
      exact ofComp_ofComp qx q0 n
    · rw [Mat.split, hqq]
      simp only [stock, if_neg (show q - n ≠ 0 by linarith)]
      congr 2
      unfold ofComp
      rw [Mat.scale_scale]
      congr 1
      field_simp

theorem round_le {c : Cfg} {b : Buf NMat} {n : ℚ} (h : n ≤ b.quantity) : round c b n = n := by
  unfold round; split
  · exact min_eq_right h
  · rfl

theorem take_ok {c : Cfg} {b : Buf NMat} {x : NMat} {q n : ℚ} (hx : Solid x)
    (hb : b.items = stock x q) (he : 0 < c.eps) (h0 : 0 < n) (hn : n ≤ q)
    (hlo : c.lo ≤ n ∨ n = q) :
    take c b n = .ok (ofComp n x, { b with items := stock x (q - n) }) := by
  unfold take
  rw [round_le (by rw [quantity_stock hx hb]; exact hn)]
  exact popEps_stock hx hb (le_of_lt he) h0 hn hlo

/-- What a successful removal gives, whatever was asked for. -/
theorem take_inv {c : Cfg} {b b' : Buf NMat} {m x : NMat} {q n : ℚ} (hx : Solid x)
    (hb : b.items = stock x q) (hq : 0 ≤ q) (he : 0 < c.eps) (h : take c b n = .ok (m, b')) :
    ∃ k, m = ofComp k x ∧ b' = { b with items := stock x (q - k) } ∧ 0 < k ∧ k ≤ q ∧ k ≤ n ∧
      n - c.eps ≤ k ∧ (n ≤ q → k = n) := by
  have hQ := quantity_stock hx hb
  unfold take at h
  by_cases q0 : q = 0
  · exfalso
    rw [q0, stock_zero] at hb
    rw [q0] at hQ
    unfold Buf.popEps at h
    split at h
    · cases h
    · split at h
      · cases h
      · rename_i h1
        unfold Buf.popQty at h
        rw [hQ] at h1 h
        rw [if_pos (Or.inr (Or.inl (by linarith)))] at h
        cases h
  have qp : 0 < q := lt_of_le_of_ne hq (Ne.symm q0)
  have hr : round c b n ≤ n ∧ (n ≤ q → round c b n = n) ∧
      (q < n → round c b n = q ∨ round c b n = n) := by
    unfold round
    rw [hQ]
    split
    · refine ⟨min_le_right _ _, fun h => min_eq_right h, fun h => Or.inl (min_eq_left (le_of_lt h))⟩
    · exact ⟨le_refl _, fun _ => rfl, fun _ => Or.inr rfl⟩
  by_cases hall : q ≤ round c b n
  · have h' := h
    unfold Buf.popEps at h'
    rw [hQ] at h'
    split at h'
    · cases h'
    · rename_i hle
      push Not at hle
      have hit : b.items = [ofComp q x] := by rw [hb, stock, if_neg q0]
      rw [if_neg (by rw [hit]; simp), hit, squash_one] at h'
      simp only [Except.ok.injEq, Prod.mk.injEq] at h'
      obtain ⟨rfl, rfl⟩ := h'
      have hqn : q ≤ n := hall.trans hr.1
      refine ⟨q, rfl, by rw [sub_self, stock_zero], qp, le_refl _, hqn, ?_, fun h => by linarith⟩
      rcases lt_or_eq_of_le hqn with h1 | h1
      · unfold round at hle
        rw [hQ] at hle
        split at hle
        · rename_i habs
          rw [abs_lt] at habs
          linarith
        · linarith
      · linarith
  · push Not at hall
    have hnq : n ≤ q := by
      by_contra hc
      push Not at hc
      rcases hr.2.2 hc with h1 | h1 <;> linarith
    rw [hr.2.1 hnq] at h hall
    have hpos : 0 < n ∧ c.lo ≤ n := by
      unfold Buf.popEps at h
      rw [hQ, if_neg (by push Not; linarith), if_neg (by push Not; exact hall)] at h
      unfold Buf.popQty at h
      split at h
      · cases h
      · rename_i hc; push Not at hc; exact hc.2
    rw [popEps_stock hx hb (le_of_lt he) hpos.1 hnq (Or.inl hpos.2)] at h
    simp only [Except.ok.injEq, Prod.mk.injEq] at h
    obtain ⟨rfl, rfl⟩ := h
    exact ⟨n, rfl, rfl, hpos.1, hnq, le_refl _, by linarith, fun _ => rfl⟩

/-! ## The invariant -/

/-- A stream holds at most one material, which has mass. -/
def Single (b : Buf NMat) : Prop := b.items = [] ∨ ∃ x, Solid x ∧ b.items = [x]

theorem Single.stock {b : Buf NMat} (h : Single b) :
    ∃ x q, Solid x ∧ 0 ≤ q ∧ b.items = stock x q := by
  rcases h with h | ⟨x, hx, h⟩
  · refine ⟨⟨[(0, 1)]⟩, 0, ⟨by norm_num [Mat.qty_def], ?_⟩, le_refl _, by rw [h, stock_zero]⟩
    intro e he; simp at he; subst he; norm_num
  · exact ⟨x, qty x, hx, le_of_lt hx.1, by rw [h, stock_self hx]⟩

theorem single_stock {b : Buf NMat} {x : NMat} {q : ℚ} (hx : Solid x) (hq : 0 ≤ q)
    (h : b.items = FuelFab.stock x q) : Single b := by
  unfold FuelFab.stock at h
  split at h
  · exact Or.inl h
  · rename_i h0
    exact Or.inr ⟨_, ofComp_solid hx (lt_of_le_of_ne hq (Ne.symm h0)), h⟩

/-- What holds in every reachable state. -/
structure Inv (c : Cfg) (s : State) : Prop where
  fill : Single s.fill
  fiss : Single s.fiss
  topup : Single s.topup
  fillCap : s.fill.cap = some c.fillSize
  fissCap : s.fiss.cap = some c.fissSize
  topupCap : s.topup.cap = some c.topupSize
  fillPrefs : s.fillPrefs.length = c.fillCommods.length
  fissPrefs : s.fissPrefs.length = c.fissCommods.length

/-- The buffers and preferences of two states agree. -/
def SameStock (s s' : State) : Prop :=
  s'.fill = s.fill ∧ s'.fiss = s.fiss ∧ s'.topup = s.topup ∧ s'.fillPrefs = s.fillPrefs ∧
    s'.fissPrefs = s.fissPrefs

theorem Inv.same {c : Cfg} {s s' : State} (I : Inv c s) (h : SameStock s s') : Inv c s' := by
  obtain ⟨h1, h2, h3, h4, h5⟩ := h
  constructor <;> simp only [h1, h2, h3, h4, h5]
  exacts [I.fill, I.fiss, I.topup, I.fillCap, I.fissCap, I.topupCap, I.fillPrefs, I.fissPrefs]

theorem Single.quantity_nonneg {b : Buf NMat} (h : Single b) : 0 ≤ b.quantity := by
  obtain ⟨x, q, hx, hq, hb⟩ := h.stock
  rw [quantity_stock hx hb]; exact hq

/-- A removal from a stream with at most one material. -/
theorem take_single {c : Cfg} {b b' : Buf NMat} {m : NMat} {n : ℚ} (hb : Single b) (he : 0 < c.eps)
    (h : take c b n = .ok (m, b')) :
    Single b' ∧ b'.cap = b.cap ∧ Solid m ∧ (∀ k, massOf b.items k = m.mass k + massOf b'.items k) ∧
      b.quantity = qty m + b'.quantity ∧ qty m ≤ n ∧ n - c.eps ≤ qty m ∧
      (n ≤ b.quantity → qty m = n) := by
  obtain ⟨x, q, hx, hq, hb⟩ := hb.stock
  obtain ⟨k, rfl, rfl, h0, h1, h2, h3, h4⟩ := take_inv hx hb hq he h
  have hk := ofComp_qty (ne_of_gt hx.1) k
  refine ⟨single_stock hx (by linarith) rfl, rfl, ofComp_solid hx h0, ?_, ?_, by rw [hk]; exact h2,
    by rw [hk]; exact h3, by rw [hk, quantity_stock hx hb]; exact h4⟩
  · intro n
    rw [hb, massOf_stock, massOf_stock, mass_ofComp, mass_ofComp, mass_ofComp]; ring
  · rw [quantity_stock hx hb, hk,
      quantity_stock (b := { b with items := stock x (q - k) }) hx rfl]; ring

theorem addFrom_single {c : Cfg} {b b' : Buf NMat} {m m' : NMat} {f q : ℚ} (hb : Single b)
    (hm : Solid m) (he : 0 < c.eps) (hf : 0 ≤ f) (h : addFrom c m b f q = .ok (m', b')) :
    Single b' ∧ b'.cap = b.cap ∧ Solid m' ∧
      (∀ k, m.mass k + massOf b.items k = m'.mass k + massOf b'.items k) ∧
      qty m + b.quantity = qty m' + b'.quantity ∧ qty m' ≤ qty m + f * q ∧
      qty m + f * q - c.eps ≤ qty m' ∧ (f * q ≤ b.quantity → qty m' = qty m + f * q) := by
  unfold addFrom at h
  split at h
  · simp only [bind_ok] at h
    obtain ⟨⟨x, b1⟩, h1, h2⟩ := h
    simp only [pure_eq_ok, Except.ok.injEq, Prod.mk.injEq] at h2
    obtain ⟨rfl, rfl⟩ := h2
    obtain ⟨a1, a2, a3, a4, a5, a6, a7, a8⟩ := take_single hb he h1
    refine ⟨a1, a2, ⟨by rw [Mat.qty_absorb]; have := hm.1; have := a3.1; linarith,
      Nonneg.absorb hm.2 a3.2⟩, ?_, ?_, ?_, ?_, ?_⟩
    · intro k; rw [Mat.mass_absorb, a4]; ring
    · rw [Mat.qty_absorb, a5]; ring
    · rw [Mat.qty_absorb]; linarith
    · rw [Mat.qty_absorb]; linarith
    · intro hh; rw [Mat.qty_absorb, a8 hh]
  · rename_i hf'
    have hf0 : f = 0 := le_antisymm (not_lt.1 hf') hf
    simp only [Except.ok.injEq, Prod.mk.injEq] at h
    obtain ⟨rfl, rfl⟩ := h
    refine ⟨hb, rfl, hm, fun _ => rfl, rfl, ?_, ?_, ?_⟩
    · rw [hf0]; linarith
    · rw [hf0]; linarith
    · intro _; rw [hf0]; ring

theorem peek_ok {b : Buf NMat} {x : NMat} (hb : Single b) (h : peek b = .ok x) :
    Solid x ∧ b.items = [x] := by
  rcases hb with hb | ⟨y, hy, hb⟩
  · simp [peek, hb] at h
  · simp only [peek, hb, Except.ok.injEq] at h
    subst h; exact ⟨hy, hb⟩

theorem highFrac_ok {e l t h f : ℚ} (hf : highFrac e l t h = .ok f) :
    l ≤ t ∧ t ≤ h ∧ f = frac e l t h := by
  have hv : validWeights l t h = true := by
    by_contra hv
    rw [Bool.not_eq_true] at hv
    simp [highFrac, hv] at hf
  obtain ⟨h1, h2⟩ := validWeights_iff.1 hv
  rw [highFrac_eq h1 h2] at hf
  exact ⟨h1, h2, by simpa using hf.symm⟩

/-- The stock of two states, compared. -/
structure Sold (c : Cfg) (s s' : State) (m : NMat) (q : ℚ) : Prop where
  inv : Inv c s'
  reqInv : s'.reqInv = s.reqInv
  solid : Solid m
  mass : ∀ n, massOf (contents s) n = m.mass n + massOf (contents s') n
  le : qty m ≤ q
  ge : q - 2 * c.eps ≤ qty m

theorem sellOne_inv {c : Cfg} (V : Valid c) {wl wf wt : ℚ} {t : Trade} {s s' : State} {m : NMat}
    (I : Inv c s) (h : sellOne c wl wf wt t s = .ok (m, s')) : Sold c s s' m t.amt := by
  unfold sellOne at h
  rw [cosi_eq V] at h
  simp only [ok_bind] at h
  have he := V.eps
  split at h
  · simp only [bind_ok] at h
    obtain ⟨⟨m1, b⟩, h1, h2⟩ := h
    simp only [pure_eq_ok, Except.ok.injEq, Prod.mk.injEq] at h2
    obtain ⟨rfl, rfl⟩ := h2
    obtain ⟨a1, a2, a3, a4, a5, a6, a7, a8⟩ := take_single I.fill he h1
    refine ⟨⟨a1, I.fiss, I.topup, a2.trans I.fillCap, I.fissCap, I.topupCap, I.fillPrefs,
      I.fissPrefs⟩, rfl, a3, ?_, a6, by linarith⟩
    intro n; simp only [contents, Mat.massOf_append]; rw [a4]; ring
  · split at h
    · simp only [bind_ok] at h
      obtain ⟨⟨m1, b⟩, h1, h2⟩ := h
      simp only [pure_eq_ok, Except.ok.injEq, Prod.mk.injEq] at h2
      obtain ⟨rfl, rfl⟩ := h2
      obtain ⟨a1, a2, a3, a4, a5, a6, a7, a8⟩ := take_single I.fiss he h1
      refine ⟨⟨I.fill, a1, I.topup, I.fillCap, a2.trans I.fissCap, I.topupCap, I.fillPrefs,
        I.fissPrefs⟩, rfl, a3, ?_, a6, by linarith⟩
      intro n; simp only [contents, Mat.massOf_append]; rw [a4]; ring
    · split at h
      · simp only [bind_ok] at h
        obtain ⟨f, hf, g, hg, x, hx, y, hy, ⟨m1, b1⟩, h1, ⟨m2, b2⟩, h2, h3⟩ := h
        simp only [pure_eq_ok, Except.ok.injEq, Prod.mk.injEq] at h3
        obtain ⟨rfl, rfl⟩ := h3
        obtain ⟨l1, l2, rfl⟩ := highFrac_ok hf
        rw [lowFrac_eq l1 l2, Except.ok.injEq] at hg
        subst hg
        obtain ⟨sx, -⟩ := peek_ok I.fiss hx
        obtain ⟨sy, -⟩ := peek_ok I.fill hy
        obtain ⟨r1, r2⟩ := frac_range (e := c.near) l1 l2
        rw [atomToMass_compl V sx sy r1 r2] at h2
        obtain ⟨g0, g1⟩ := atomToMass_range V sx sy r1 r2
        obtain ⟨a1, a2, a3, a4, a5, a6, a7, a8⟩ := take_single I.fiss he h1
        obtain ⟨d1, d2, d3, d4, d5, d6, d7, d8⟩ := addFrom_single I.fill a3 he (by linarith) h2
        refine ⟨⟨d1, a1, I.topup, d2.trans I.fillCap, a2.trans I.fissCap, I.topupCap, I.fillPrefs,
          I.fissPrefs⟩, rfl, d3, ?_, ?_, ?_⟩
        · intro n
          simp only [contents, Mat.massOf_append]
          have := a4 n; have := d4 n; linarith
        · nlinarith
        · nlinarith
      · simp only [bind_ok] at h
        obtain ⟨f, hf, x, hx, y, hy, ⟨m1, b1⟩, h1, ⟨m2, b2⟩, h2, h3⟩ := h
        simp only [pure_eq_ok, Except.ok.injEq, Prod.mk.injEq] at h3
        obtain ⟨rfl, rfl⟩ := h3
        obtain ⟨l1, l2, rfl⟩ := highFrac_ok hf
        obtain ⟨sx, -⟩ := peek_ok I.topup hx
        obtain ⟨sy, -⟩ := peek_ok I.fiss hy
        obtain ⟨r1, r2⟩ := frac_range (e := c.near) l1 l2
        rw [atomToMass_compl V sx sy r1 r2] at h1
        obtain ⟨g0, g1⟩ := atomToMass_range V sx sy r1 r2
        obtain ⟨a1, a2, a3, a4, a5, a6, a7, a8⟩ := take_single I.fiss he h1
        obtain ⟨d1, d2, d3, d4, d5, d6, d7, d8⟩ := addFrom_single I.topup a3 he g0 h2
        refine ⟨⟨I.fill, a1, d1, I.fillCap, a2.trans I.fissCap, d2.trans I.topupCap, I.fillPrefs,
          I.fissPrefs⟩, rfl, d3, ?_, ?_, ?_⟩
        · intro n
          simp only [contents, Mat.massOf_append]
          have := a4 n; have := d4 n; linarith
        · nlinarith
        · nlinarith

/-- What a list of sales does. -/
theorem sellLoop_inv {c : Cfg} (V : Valid c) {wl wf wt : ℚ} {ts : List Trade} {tot : ℚ}
    {s s' : State} {l : List NMat} (I : Inv c s)
    (h : sellLoop c wl wf wt tot ts s = .ok (l, s')) :
    Inv c s' ∧ s'.reqInv = s.reqInv ∧
      (∀ n, massOf (contents s) n = massOf l n + massOf (contents s') n) ∧
      List.Forall₂ (fun t m => Solid m ∧ qty m ≤ t.amt ∧ t.amt - 2 * c.eps ≤ qty m) ts l ∧
      (ts ≠ [] → tot + (ts.map Trade.amt).sum ≤ c.throughput + c.eps) := by
  induction ts generalizing tot s l with
  | nil =>
    simp only [sellLoop, Except.ok.injEq, Prod.mk.injEq] at h
    obtain ⟨rfl, rfl⟩ := h
    exact ⟨I, rfl, fun n => by simp, .nil, fun h => absurd rfl h⟩
  | cons t ts ih =>
    simp only [sellLoop] at h
    split at h
    · cases h
    · rename_i hle
      simp only [bind_ok] at h
      obtain ⟨⟨m, s1⟩, h1, ⟨l', s2⟩, h2, h3⟩ := h
      simp only [pure_eq_ok, Except.ok.injEq, Prod.mk.injEq] at h3
      obtain ⟨rfl, rfl⟩ := h3
      have S := sellOne_inv V I h1
      obtain ⟨a1, a2, a3, a4, a5⟩ := ih S.inv h2
      refine ⟨a1, a2.trans S.reqInv, ?_, .cons ⟨S.solid, S.le, S.ge⟩ a4, ?_⟩
      · intro n; rw [S.mass, a3, Mat.massOf_cons]; ring
      · intro _
        simp only [List.map_cons, List.sum_cons]
        by_cases hts : ts = []
        · subst hts; simp; linarith
        · have := a5 hts; linarith

theorem stockWeight_ok {c : Cfg} (V : Valid c) (b : Buf NMat) : ∃ w, stockWeight c b = .ok w := by
  unfold stockWeight
  split
  · exact ⟨_, cosi_eq V _⟩
  · exact ⟨0, rfl⟩

theorem sell_inv {c : Cfg} {ts : List Trade} {s s' : State} {l : List NMat}
    (h : sell c ts s = .ok (l, s')) :
    ∃ wl wf wt, sellLoop c wl wf wt 0 ts s = .ok (l, s') := by
  simp only [sell, bind_ok] at h
  obtain ⟨wl, -, wt, -, wf, -, h⟩ := h
  exact ⟨wl, wf, wt, h⟩

end Cyc.FuelFab
