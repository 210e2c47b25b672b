import Verif.Order.Props
import Verif.Enrichment.Props3

/-!
# The order of the trades: C119 for `Enrichment`
-/

namespace Cyc

open Mat (massOf)

namespace Enrichment

/-- What is left of a feed of quantity `q` when the product sales `ts` need the feed `n`: nothing if
that is within the tolerance. -/
def leftFeed (c : Cfg) (ts : List Trade) (q n : ℚ) : ℚ :=
  if productTrades c ts = [] then q else if q - n < c.eps then 0 else q - n

/-- What was handed over for the trades of product. -/
def productOf (c : Cfg) (ts : List Trade) (ms : List NMat) : List NMat :=
  ((ts.zip ms).filter fun p => p.1.commod ≠ c.tailsCommod).map Prod.snd

/-- What was handed over for the trades of tails. -/
def tailsOf (c : Cfg) (ts : List Trade) (ms : List NMat) : List NMat :=
  ((ts.zip ms).filter fun p => p.1.commod = c.tailsCommod).map Prod.snd

/-- What can be told of the sales of a step, independently of their order: the product and the records
are those of the trades, the tails come from the front of the old tails, and what is left of the feed
follows from what the sales need. -/
structure Served (c : Cfg) (B : NMat) (T : List NMat) (ts : List Trade) (s : State)
    (l : List (NMat × Option Enr)) (s' : State) : Prop where
  product : productOf c ts (l.map Prod.fst) = (productTrades c ts).map cut
  records : l.filterMap Prod.snd =
    (productTrades c ts).map fun t => ⟨need c B t.offer t.amt, work c B t.offer t.amt⟩
  amounts : (tailsOf c ts (l.map Prod.fst)).map qty = (tailsTrades c ts).map Trade.amt
  tails : ∀ n, massOf (tailsOf c ts (l.map Prod.fst)) n =
    massOf (upto ((tailsTrades c ts).map Trade.amt).sum T) n
  feed : s'.inventory.quantity = leftFeed c ts s.inventory.quantity (needs c B ts)
  blend : Blend B s'.inventory.items

theorem sellLoop_served {c : Cfg} (V : Valid c) {B : NMat} {T N : List NMat} {ts : List Trade}
    {s s' : State} {l : List (NMat × Option Enr)} (I : Inv c s) (hb : Blend B s.inventory.items)
    (hT : solid s.tails.items = T ++ N)
    (hp : ∀ t ∈ productTrades c ts, c.eps ≤ need c B t.offer t.amt)
    (ht : ∀ t ∈ tailsTrades c ts, 0 < t.amt)
    (hn : needs c B ts ≤ s.inventory.quantity)
    (htq : ((tailsTrades c ts).map Trade.amt).sum ≤ totalQty T)
    (h : sellLoop c ts s = .ok (l, s')) : Served c B T ts s l s' := by
  have he := le_of_lt V.eps
  induction ts generalizing s l T N with
  | nil =>
    simp only [sellLoop, Except.ok.injEq, Prod.mk.injEq] at h
    obtain ⟨rfl, rfl⟩ := h
    have hTp : AllPos T := (AllPos.append.1 (hT ▸ I.tnn.solid_pos)).1
    have hTn : AllNonneg T := by
      intro m hm
      have : m ∈ solid s.tails.items := by rw [hT]; simp [hm]
      exact I.tnn m (List.mem_filter.1 this).1
    refine ⟨rfl, rfl, rfl, fun n => ?_, by simp [leftFeed, productTrades], hb⟩
    have : massOf (upto 0 T) n = 0 := massOf_upto_zero hTn n
    simpa [tailsTrades, tailsOf] using this.symm
  | cons t ts ih =>
    simp only [sellLoop, bind_ok] at h
    obtain ⟨⟨m, e, s1⟩, h1, ⟨l1, s2⟩, h2, h3⟩ := h
    simp only [pure_eq_ok, Except.ok.injEq, Prod.mk.injEq] at h3
    obtain ⟨rfl, rfl⟩ := h3
    have I1 := (sellOne_pres he I h1).1
    obtain ⟨hb1, -, -⟩ := blend_step he I hb h1
    have hTall : AllPos (T ++ N) := hT ▸ I.tnn.solid_pos
    have hTp : AllPos T := (AllPos.append.1 hTall).1
    rcases sellOne_inv he I h1 with ⟨hc, rfl, b, h4, rfl⟩ | ⟨hc, hne, x, k, rfl, E⟩
    · have e1 : productTrades c (t :: ts) = productTrades c ts := by simp [productTrades, hc]
      have e2 : tailsTrades c (t :: ts) = t :: tailsTrades c ts := by simp [tailsTrades, hc]
      have e3 : needs c B (t :: ts) = needs c B ts := by simp [needs, e1]
      rw [e1] at hp
      rw [e2] at ht htq
      rw [e3] at hn
      rw [List.map_cons, List.sum_cons] at htq
      have hr : 0 ≤ ((tailsTrades c ts).map Trade.amt).sum := by
        apply List.sum_nonneg
        intro x hx
        obtain ⟨t', ht', rfl⟩ := List.mem_map.1 hx
        exact le_of_lt (ht t' (by simp [ht']))
      have a1 := ht t (by simp)
      have hNn : 0 ≤ totalQty N := (AllPos.append.1 hTall).2.total_nonneg
      have hTq : s.tails.quantity = totalQty T + totalQty N := by
        rw [Buf.quantity, ← totalQty_solid, hT, totalQty_append]
      have hmin : min t.amt s.tails.quantity = t.amt := min_eq_left (by linarith)
      rw [hmin] at h4
      obtain ⟨-, p2, p3, p4, p5, p6, p7, p8, p9⟩ := popEps_invNN I.tnn he (by linarith) h4
      have p10 := popEps_solid I.tnn he (by linarith) h4
      rw [hT, after_append hTall (le_of_lt a1) (by linarith)] at p10
      have S := ih (T := after t.amt T) (N := N) I1 hb1 p10 hp (fun x hx => ht x (by simp [hx])) hn
        (by rw [totalQty_after hTp (le_of_lt a1) (by linarith)]; linarith) h2
      have f1 : productOf c (t :: ts) (m :: l1.map Prod.fst) = productOf c ts (l1.map Prod.fst) := by
        simp [productOf, hc]
      have f2 : tailsOf c (t :: ts) (m :: l1.map Prod.fst) = m :: tailsOf c ts (l1.map Prod.fst) := by
        simp [tailsOf, hc]
      refine ⟨?_, ?_, ?_, ?_, ?_, S.blend⟩
      · rw [e1, List.map_cons, f1]; exact S.product
      · rw [e1]; simpa using S.records
      · rw [e2, List.map_cons, f2, List.map_cons, List.map_cons, S.amounts, p2]
      · intro n
        have := S.tails n
        rw [e2, List.map_cons, f2]
        simp only [List.map_cons, List.sum_cons, Mat.massOf_cons]
        rw [this, massOf_upto_add hTp (le_of_lt a1) hr, p4,
          ← massOf_upto_solid I.tnn (le_of_lt a1), hT,
          massOf_upto_append hTall (le_of_lt a1) (by linarith)]
      · rw [S.feed]; simp [leftFeed, e1, e3]
    · have e1 : productTrades c (t :: ts) = t :: productTrades c ts := by simp [productTrades, hc]
      have e2 : tailsTrades c (t :: ts) = tailsTrades c ts := by simp [tailsTrades, hc]
      have e3 : needs c B (t :: ts) = need c B t.offer t.amt + needs c B ts := by
        simp [needs, e1]
      rw [e1] at hp
      rw [e2] at ht htq
      rw [e3] at hn
      have hp' : ∀ t ∈ productTrades c ts, c.eps ≤ need c B t.offer t.amt :=
        fun x hx => hp x (by simp [hx])
      have hn0 : 0 ≤ needs c B ts := by
        apply List.sum_nonneg
        intro x hx
        obtain ⟨t', ht', rfl⟩ := List.mem_map.1 hx
        linarith [hp' t' ht']
      have hn1 : productTrades c ts ≠ [] → c.eps ≤ needs c B ts := by
        intro hne
        unfold needs
        cases hpt : productTrades c ts with
        | nil => exact absurd hpt hne
        | cons t' l' =>
          rw [List.map_cons, List.sum_cons]
          have h5 := hp' t' (by rw [hpt]; simp)
          have : 0 ≤ (l'.map fun t => need c B t.offer t.amt).sum := by
            apply List.sum_nonneg
            intro x hx
            obtain ⟨u, hu', rfl⟩ := List.mem_map.1 hx
            linarith [hp' u (by rw [hpt]; simp [hu'])]
          linarith
      rcases hb with hb | ⟨k', hk', hb⟩
      · exact absurd hb hne
      have hk0 := ne_of_gt hk'
      have hsq : Mat.squash s.inventory.items = B.scale k' := by rw [hb, squash_singleton]
      rw [hsq] at E
      have hQ : s.inventory.quantity = qty (B.scale k') := by simp [Buf.quantity, hb]
      have hfeed : x.feed = need c B t.offer t.amt := by rw [E.feed, need_scale hk0]
      have hwork : x.swu = work c B t.offer t.amt := by rw [E.swu, work_scale hk0]
      -- what is left of the feed after this sale
      have hleft : s1.inventory.quantity = leftFeed c [t] s.inventory.quantity
          (need c B t.offer t.amt) := by
        have e4 : productTrades c [t] ≠ [] := by simp [productTrades, hc]
        rw [leftFeed, if_neg e4]
        have hfull := E.full
        rw [hfeed, ← hQ] at hfull
        have hamt := E.amount
        rw [hfeed, ← hQ] at hamt
        split
        · rename_i hlt
          have : |need c B t.offer t.amt - s.inventory.quantity| < c.eps := by
            rw [abs_lt]; constructor <;> linarith [V.eps]
          have hk := hfull this
          rcases E.inv with ⟨-, h'⟩ | ⟨h', -⟩
          · rw [h']; rfl
          · exact absurd hk (ne_of_lt h')
        · rename_i hge
          have hmul : k * s.inventory.quantity = need c B t.offer t.amt := by
            rcases hamt with h | ⟨rfl, h6, h7⟩
            · exact h
            · rw [one_mul]
              rcases h7 with h7 | h7
              · rw [abs_lt] at h7; linarith [h7.1]
              · linarith
          rcases E.inv with ⟨rfl, h'⟩ | ⟨-, h'⟩
          · rw [h']
            show (0 : ℚ) = _
            linarith
          · rw [h']
            have : qty ((B.scale k').scale (1 - k)) =
                s.inventory.quantity - k * s.inventory.quantity := by
              rw [Mat.qty_scale, ← hQ]; ring
            show totalQty [(B.scale k').scale (1 - k)] = _
            rw [totalQty_cons, totalQty_nil, add_zero, this, hmul]
      have e4 : productTrades c [t] ≠ [] := by simp [productTrades, hc]
      rw [leftFeed, if_neg e4] at hleft
      have hmore : productTrades c ts ≠ [] →
          s1.inventory.quantity = s.inventory.quantity - need c B t.offer t.amt := by
        intro h5
        rw [hleft, if_neg (by linarith [hn1 h5])]
      have hn' : needs c B ts ≤ s1.inventory.quantity := by
        by_cases h5 : productTrades c ts = []
        · have : needs c B ts = 0 := by simp [needs, h5]
          rw [this]; exact I1.pos.total_nonneg
        · rw [hmore h5]; linarith
      have S := ih (T := T) (N := N ++ solid [(((B.scale k').scale k).sub m)]) I1 hb1
        (by rw [E.tails]; simp only [solid_append, hT, List.append_assoc]) hp' ht hn' htq h2
      have f1 : productOf c (t :: ts) (m :: l1.map Prod.fst) =
          m :: productOf c ts (l1.map Prod.fst) := by
        simp [productOf, hc]
      have f2 : tailsOf c (t :: ts) (m :: l1.map Prod.fst) = tailsOf c ts (l1.map Prod.fst) := by
        simp [tailsOf, hc]
      refine ⟨?_, ?_, ?_, ?_, ?_, S.blend⟩
      · rw [e1, List.map_cons, List.map_cons, f1, ← S.product, E.response]; rfl
      · rw [e1, List.map_cons, ← S.records, ← hfeed, ← hwork]; rfl
      · rw [e2, List.map_cons, f2]; exact S.amounts
      · intro n; rw [e2, List.map_cons, f2]; exact S.tails n
      · rw [S.feed]
        unfold leftFeed
        rw [e1, e3, if_neg (List.cons_ne_nil t (productTrades c ts))]
        by_cases h5 : productTrades c ts = []
        · have h6 : needs c B ts = 0 := by simp [needs, h5]
          rw [if_pos h5, hleft, h6, add_zero]
        · rw [if_neg h5, hmore h5]
          have : s.inventory.quantity - need c B t.offer t.amt - needs c B ts =
            s.inventory.quantity - (need c B t.offer t.amt + needs c B ts) := by ring
          rw [this]

private theorem blend_eq {B : NMat} (hB : 0 < qty B) {a b : List NMat} (ha : Blend B a)
    (hb : Blend B b) (h : totalQty a = totalQty b) : a = b := by
  rcases ha with rfl | ⟨k, hk, rfl⟩ <;> rcases hb with rfl | ⟨k', hk', rfl⟩
  · rfl
  · simp only [totalQty_nil, totalQty_cons, Mat.qty_scale, add_zero] at h
    have := mul_pos hk' hB; linarith
  · simp only [totalQty_nil, totalQty_cons, Mat.qty_scale, add_zero] at h
    have := mul_pos hk hB; linarith
  · simp only [totalQty_nil, totalQty_cons, Mat.qty_scale, add_zero] at h
    rw [mul_right_cancel₀ (ne_of_gt hB) h]

theorem Within.perm {conv : NMat → Option ℚ} {a b : List Trade} {cap : ℚ} (h : a.Perm b)
    (hw : Within conv a cap) : Within conv b cap := by
  obtain ⟨vs, h1, h2⟩ := hw
  have hall : ∀ x ∈ b.map (fun t => conv (cut t)), ∃ v, x = some v := by
    intro x hx
    have := ((h.map fun t => conv (cut t)).mem_iff).2 hx
    rw [h1] at this
    obtain ⟨v, -, rfl⟩ := List.mem_map.1 this
    exact ⟨v, rfl⟩
  have key : ∀ l : List (Option ℚ), (∀ x ∈ l, ∃ v, x = some v) →
      l = (l.map fun x => x.getD 0).map some := by
    intro l hl
    induction l with
    | nil => rfl
    | cons x l ih =>
      obtain ⟨v, rfl⟩ := hl x (by simp)
      simp only [List.map_cons, Option.getD_some, List.cons.injEq, true_and]
      exact ih fun x hx => hl x (by simp [hx])
  refine ⟨_, key _ hall, ?_⟩
  have := (h.map fun t => conv (cut t)).map fun x => x.getD 0
  rw [← sum_perm this, h1, List.map_map]
  simpa [Function.comp_def] using h2

theorem HonestSales.perm {c : Cfg} {p : Ports} {a b : List Trade} (h : a.Perm b)
    (H : HonestSales c p a) : HonestSales c p b where
  amt t ht := H.amt t (h.mem_iff.2 ht)
  tails t ht := H.tails t ((h.filter _).mem_iff.2 ht)
  tailsCap tp htp := by
    rw [tailsTrades, ← sum_perm ((h.filter _).map _)]; exact H.tailsCap tp htp
  product t ht := H.product t ((h.filter _).mem_iff.2 ht)
  swu pp hpp := (H.swu pp hpp).perm (h.filter _)
  natu pp hpp := (H.natu pp hpp).perm (h.filter _)

/-- Two lists of the same sales in different order. -/
theorem sellLoop_perm {c : Cfg} (V : Valid c) {B : NMat} (hB : 0 < qty B) {ts ts' : List Trade}
    {s s₁ s₂ : State} {l l' : List (NMat × Option Enr)} (I : Inv c s)
    (hb : Blend B s.inventory.items)
    (hp : ∀ t ∈ productTrades c ts, c.eps ≤ need c B t.offer t.amt)
    (ht : ∀ t ∈ tailsTrades c ts, 0 < t.amt)
    (hn : needs c B ts ≤ s.inventory.quantity)
    (htq : ((tailsTrades c ts).map Trade.amt).sum ≤ s.tails.quantity)
    (h : sellLoop c ts s = .ok (l, s₁)) (h' : sellLoop c ts' s = .ok (l', s₂)) (hl : ts.Perm ts') :
    s₂.inventory = s₁.inventory ∧ (∀ n, massOf s₂.tails.items n = massOf s₁.tails.items n) ∧
      s₂.swu = s₁.swu ∧ s₂.intra = s₁.intra ∧
      (productOf c ts (l.map Prod.fst)).Perm (productOf c ts' (l'.map Prod.fst)) ∧
      (l.filterMap Prod.snd).Perm (l'.filterMap Prod.snd) ∧
      (tailsOf c ts (l.map Prod.fst)).map qty = (tailsTrades c ts).map Trade.amt ∧
      (tailsOf c ts' (l'.map Prod.fst)).map qty = (tailsTrades c ts').map Trade.amt ∧
      (∀ n, massOf (tailsOf c ts' (l'.map Prod.fst)) n = massOf (tailsOf c ts (l.map Prod.fst)) n) := by
  have he := le_of_lt V.eps
  have hlp : (productTrades c ts).Perm (productTrades c ts') := hl.filter _
  have hlt : (tailsTrades c ts).Perm (tailsTrades c ts') := hl.filter _
  have hnn : needs c B ts' = needs c B ts := (sum_perm (hlp.map _)).symm
  have hss := sum_perm (hlt.map Trade.amt)
  have S := sellLoop_served V (N := []) I hb (List.append_nil _).symm hp ht hn
    (by rw [totalQty_solid]; exact htq) h
  have S' := sellLoop_served V (N := []) I hb (List.append_nil _).symm
    (fun t ht => hp t (hlp.mem_iff.2 ht)) (fun t h => ht t (hlt.mem_iff.2 h)) (by rw [hnn]; exact hn)
    (by rw [totalQty_solid, ← hss]; exact htq) h'
  obtain ⟨I1, a1, -, a3, a4⟩ := sellLoop_pres he I h
  obtain ⟨I2, b1, -, b3, b4⟩ := sellLoop_pres he I h'
  have hlen : ∀ {ts : List Trade} {l : List (NMat × Option Enr)} {s s' : State},
      sellLoop c ts s = .ok (l, s') → l.length = ts.length := by
    intro ts
    induction ts with
    | nil =>
      intro l s s' h
      simp only [sellLoop, Except.ok.injEq, Prod.mk.injEq] at h
      rw [← h.1]; rfl
    | cons t ts ih =>
      intro l s s' h
      simp only [sellLoop, bind_ok] at h
      obtain ⟨⟨m, e, s1⟩, -, ⟨l1, s2⟩, h2, h3⟩ := h
      simp only [pure_eq_ok, Except.ok.injEq, Prod.mk.injEq] at h3
      rw [← h3.1, List.length_cons, List.length_cons, ih h2]
  have hsplit : ∀ (ts : List Trade) (ms : List NMat), ms.length = ts.length → ∀ n,
      massOf ms n = massOf (productOf c ts ms) n + massOf (tailsOf c ts ms) n := by
    intro ts
    induction ts with
    | nil => intro ms h n; simp [List.eq_nil_of_length_eq_zero h, productOf, tailsOf]
    | cons t ts ih =>
      intro ms h n
      cases ms with
      | nil => simp at h
      | cons m ms =>
        have := ih ms (by simpa using h) n
        unfold productOf tailsOf at this ⊢
        by_cases hc : t.commod = c.tailsCommod <;> simp [hc] at this ⊢ <;> linarith
  have hfeed : s₂.inventory.quantity = s₁.inventory.quantity := by
    rw [S.feed, S'.feed, hnn]
    unfold leftFeed
    have : productTrades c ts' = [] ↔ productTrades c ts = [] := by
      constructor
      · intro h; rw [h] at hlp; exact hlp.eq_nil
      · intro h; rw [h] at hlp; exact hlp.symm.eq_nil
    simp only [this]
  have hinv : s₂.inventory = s₁.inventory := by
    have := blend_eq hB S'.blend S.blend hfeed
    have c1 := I1.cap
    have c2 := I2.cap
    cases e1 : s₁.inventory
    cases e2 : s₂.inventory
    rw [e1] at c1 this
    rw [e2] at c2 this
    simp only at c1 c2 this
    rw [c1, c2, this]
  have hrec : (l.filterMap Prod.snd).Perm (l'.filterMap Prod.snd) := by
    rw [S.records, S'.records]; exact hlp.map _
  have hprod : (productOf c ts (l.map Prod.fst)).Perm (productOf c ts' (l'.map Prod.fst)) := by
    rw [S.product, S'.product]; exact hlp.map _
  have hswu : swuSum l' = swuSum l := (sum_perm (hrec.map Enr.swu)).symm
  have hfd : feedSum l' = feedSum l := (sum_perm (hrec.map Enr.feed)).symm
  have htails : ∀ n, massOf (tailsOf c ts' (l'.map Prod.fst)) n =
      massOf (tailsOf c ts (l.map Prod.fst)) n := by
    intro n; rw [S.tails, S'.tails, hss]
  refine ⟨hinv, fun n => ?_, by rw [a3, b3, hswu], by rw [a4, b4, hswu, hfd], hprod, hrec, S.amounts,
    S'.amounts, htails⟩
  have x1 := a1 n
  have x2 := b1 n
  rw [hsplit ts (l.map Prod.fst) (by rw [List.length_map]; exact hlen h)] at x1
  rw [hsplit ts' (l'.map Prod.fst) (by rw [List.length_map]; exact hlen h')] at x2
  have x3 : massOf (productOf c ts' (l'.map Prod.fst)) n = massOf (productOf c ts (l.map Prod.fst)) n :=
    (sum_perm (hprod.map _)).symm
  have x4 := htails n
  simp only [contents, Mat.massOf_append] at x1 x2
  rw [hinv] at x2
  linarith

/-- Sales of tails do not look at the feed. -/
theorem sellLoop_noProduct {c : Cfg} {ts : List Trade} (hp : productTrades c ts = []) {s s' : State}
    {l : List (NMat × Option Enr)} (b : Buf NMat) (h : sellLoop c ts s = .ok (l, s')) :
    sellLoop c ts { s with inventory := b } = .ok (l, { s' with inventory := b }) ∧
      s'.inventory = s.inventory := by
  induction ts generalizing s l with
  | nil =>
    simp only [sellLoop, Except.ok.injEq, Prod.mk.injEq] at h
    obtain ⟨rfl, rfl⟩ := h
    exact ⟨rfl, rfl⟩
  | cons t ts ih =>
    have hc : t.commod = c.tailsCommod := by
      by_contra hc; simp [productTrades, hc] at hp
    have hp' : productTrades c ts = [] := by simpa [productTrades, hc] using hp
    simp only [sellLoop, bind_ok] at h
    obtain ⟨⟨m, e, s1⟩, h1, ⟨l1, s2⟩, h2, h3⟩ := h
    simp only [pure_eq_ok, Except.ok.injEq, Prod.mk.injEq] at h3
    obtain ⟨rfl, rfl⟩ := h3
    simp only [sellOne, hc, if_true, bind_ok] at h1
    obtain ⟨⟨m', b'⟩, h4, h5⟩ := h1
    simp only [pure_eq_ok, Except.ok.injEq, Prod.mk.injEq] at h5
    obtain ⟨rfl, rfl, rfl⟩ := h5
    obtain ⟨i1, i2⟩ := ih hp' h2
    refine ⟨?_, i2⟩
    simp only [sellLoop, sellOne, hc, if_true, h4, ok_bind, pure_eq_ok]
    simp only at i1
    rw [i1]
    rfl

private theorem sellAll_loop {c : Cfg} {ts : List Trade} {s s' : State}
    {l : List (NMat × Option Enr)} (hne : ts ≠ []) (h : sellAll c ts s = .ok (l, s')) :
    sellLoop c ts { s with intra := some (0, 0) } = .ok (l, s') := by
  cases ts with
  | nil => exact absurd rfl hne
  | cons t ts => exact (sell_inv h).1

private theorem accept_inventory {c : Cfg} {l : List NMat} {s s' : State}
    (h : accept c l s = .ok s') : s' = { s with inventory := s'.inventory } ∧
      ∀ t : State, t.inventory = s.inventory →
        accept c l t = .ok { t with inventory := s'.inventory } := by
  induction l generalizing s with
  | nil =>
    simp only [accept, Except.ok.injEq] at h
    subst h
    exact ⟨rfl, fun t e => by rw [← e]; rfl⟩
  | cons m l ih =>
    simp only [accept, addMat, bind_ok] at h
    obtain ⟨s1, ⟨b, h1, h2⟩, h3⟩ := h
    simp only [pure_eq_ok, Except.ok.injEq] at h2
    subst h2
    obtain ⟨i1, i2⟩ := ih h3
    refine ⟨by rw [i1], fun t e => ?_⟩
    simp only [accept, addMat, e, h1, ok_bind, pure_eq_ok]
    exact i2 { t with inventory := b } rfl

/-- C119, for the feed and the products of `C37_delivers_partial`: a step with honest sales and the
same step with the sales in any other order both succeed. The feed that is left is the same, and so
are the tails, nuclide by nuclide; the same products and the same tails, nuclide by nuclide, were
handed over, each trade of tails was answered with its amount, and the records and the time series
are the same. What is missing: the feed and the products for which sales fail (C37). -/
theorem C119_enrichment_partial {c : Cfg} (V : Valid c) {is : List In} {os : List Out} {s : State}
    (h : HonestHistory c is os s) {i : In} (hi : Honest c s i) (hp : Pure s.inventory.items)
    (hz : ∀ p s₁, bids c i.reqs (tick c s) = .ok (p, s₁) → Sizeable c p i.sells)
    (hr : ∀ t ∈ productTrades c i.sells, ∀ x, HasAssay x s.inventory.items →
      c.tailsAssay < x ∧ x * uranium [t.offer] ≤ t.offer.mass u235)
    {l : List Trade} (hl : i.sells.Perm l) :
    ∃ o s' o' s'', step c s i = .ok (o, s') ∧ step c s { i with sells := l } = .ok (o', s'') ∧
      s''.inventory = s'.inventory ∧ (∀ n, massOf s''.tails.items n = massOf s'.tails.items n) ∧
      (productOf c i.sells o.sold).Perm (productOf c l o'.sold) ∧
      (tailsOf c i.sells o.sold).map qty = (tailsTrades c i.sells).map Trade.amt ∧
      (tailsOf c l o'.sold).map qty = (tailsTrades c l).map Trade.amt ∧
      (∀ n, massOf (tailsOf c l o'.sold) n = massOf (tailsOf c i.sells o.sold) n) ∧
      o.enrichments.Perm o'.enrichments ∧
      o' = { o with sold := o'.sold, enrichments := o'.enrichments } := by
  have he := le_of_lt V.eps
  have hi' : Honest c s { i with sells := l } := ⟨hi.buys, hi.reqs, fun p s₁ h => (hi.sells p s₁ h).perm hl⟩
  have hlp : (productTrades c i.sells).Perm (productTrades c l) := hl.filter _
  obtain ⟨o, s', hs⟩ := C37_delivers_partial V h hi hp hz hr
  obtain ⟨o', s'', hs'⟩ := C37_delivers_partial (i := { i with sells := l }) V h hi' hp
    (fun p s₁ hb => ⟨fun t ht => (hz p s₁ hb).1 t (hl.mem_iff.2 ht), fun pp hpp t ht =>
      (hz p s₁ hb).2 pp hpp t (hlp.mem_iff.2 ht)⟩)
    (fun t ht => hr t (hlp.mem_iff.2 ht))
  refine ⟨o, s', o', s'', hs, hs', ?_⟩
  obtain ⟨I, hf⟩ := honest_history V h
  simp only [step, bind_ok] at hs hs'
  obtain ⟨⟨p, s1⟩, hb, ⟨r, s2⟩, h2, s3, h3, h4⟩ := hs
  obtain ⟨⟨p', s1'⟩, hb', ⟨r', s2'⟩, h2', s3', h3', h4'⟩ := hs'
  rw [hb] at hb'
  simp only [Except.ok.injEq, Prod.mk.injEq] at hb'
  obtain ⟨rfl, rfl⟩ := hb'
  simp only [pure_eq_ok, Except.ok.injEq, Prod.mk.injEq] at h2 h3 h4 h2' h3' h4'
  obtain ⟨rfl, rfl⟩ := h4
  obtain ⟨rfl, rfl⟩ := h4'
  -- it is enough to compare the sales
  suffices H : s2'.inventory = s2.inventory ∧ (∀ n, massOf s2'.tails.items n = massOf s2.tails.items n) ∧
      s2'.swu = s2.swu ∧ s2'.intra = s2.intra ∧
      (productOf c i.sells (r.map Prod.fst)).Perm (productOf c l (r'.map Prod.fst)) ∧
      (r.filterMap Prod.snd).Perm (r'.filterMap Prod.snd) ∧
      (tailsOf c i.sells (r.map Prod.fst)).map qty = (tailsTrades c i.sells).map Trade.amt ∧
      (tailsOf c l (r'.map Prod.fst)).map qty = (tailsTrades c l).map Trade.amt ∧
      (∀ n, massOf (tailsOf c l (r'.map Prod.fst)) n =
        massOf (tailsOf c i.sells (r.map Prod.fst)) n) by
    obtain ⟨x1, x2, x3, x4, x5, x6, x7, x8, x9⟩ := H
    obtain ⟨y1, y2⟩ := accept_inventory h3
    rw [y2 s2' x1, Except.ok.injEq] at h3'
    subst h3'
    refine ⟨rfl, fun n => ?_, x5, x7, x8, x9, x6, ?_⟩
    · rw [y1]; exact x2 n
    · rw [y1]; simp only [x4]
  by_cases hne : i.sells = []
  · have hne' : l = [] := by rw [hne] at hl; exact hl.symm.eq_nil
    rw [hne] at h2 ⊢
    rw [hne'] at h2' ⊢
    simp only [sellAll, Except.ok.injEq, Prod.mk.injEq] at h2 h2'
    obtain ⟨rfl, rfl⟩ := h2
    obtain ⟨rfl, rfl⟩ := h2'
    exact ⟨rfl, fun _ => rfl, rfl, rfl, List.Perm.refl _, List.Perm.refl _, rfl, rfl, fun _ => rfl⟩
  have hne' : l ≠ [] := by rintro rfl; exact hne hl.eq_nil
  have g := sellAll_loop hne h2
  have g' := sellAll_loop hne' h2'
  have hS := hi.sells p s1 hb
  obtain ⟨z1, z2⟩ := hz p s1 hb
  obtain ⟨I1, a1, a2, a3, a4, a5⟩ := bids_pres he (I.swu _) hb
  have htt : ∀ t ∈ tailsTrades c i.sells, 0 < t.amt := fun t ht =>
    (hS.amt t (List.mem_filter.1 ht).1).1
  have htq : ((tailsTrades c i.sells).map Trade.amt).sum ≤ s1.tails.quantity := by
    rw [a1]
    change _ ≤ s.tails.quantity
    cases hn : tailsTrades c i.sells with
    | nil => simp only [List.map_nil, List.sum_nil]; exact I.tnn.total_nonneg
    | cons t l =>
      obtain ⟨tp, htp⟩ := hS.tails t (by rw [hn]; simp)
      rw [← hn]
      refine le_trans (hS.tailsCap tp htp) ?_
      have := (bids_inv he hb).1
      rw [htp] at this
      unfold tailsBids at this
      split at this
      · cases this
      · split at this
        · rw [Option.some.inj this]; exact le_rfl
        · cases this
  by_cases hpt : productTrades c i.sells = []
  · have hpt' : productTrades c l = [] := by rw [hpt] at hlp; exact hlp.symm.eq_nil
    obtain ⟨k1, k2⟩ := sellLoop_noProduct hpt ⟨some c.maxFeed, []⟩ g
    obtain ⟨k1', k2'⟩ := sellLoop_noProduct hpt' ⟨some c.maxFeed, []⟩ g'
    have := sellLoop_perm V (B := ⟨[(u235, 1)]⟩) (by decide +kernel)
      (s := { s1 with intra := some (0, 0), inventory := ⟨some c.maxFeed, []⟩ })
      ⟨rfl, I1.tailsCap, by simp [AllPos], AllNonneg.nil, I1.tnn⟩ (Or.inl rfl) (by simp [hpt]) htt
      (by simp [needs, hpt, Buf.quantity]) htq k1 k1' hl
    exact ⟨k2'.trans k2.symm, this.2⟩
  · obtain ⟨-, ⟨hnone, -, -⟩ | ⟨rs, hrs, hq0, -, hni, hs1, hpp⟩⟩ := bids_inv he hb
    · exfalso
      obtain ⟨x, hx⟩ := List.exists_mem_of_ne_nil _ hpt
      obtain ⟨-, pp, hpp, -⟩ := hS.product x hx
      rw [hnone] at hpp; cases hpp
    have hni : s.inventory.items ≠ [] := hni
    have hB := I.squash_pos hni
    have hPB := pure_squash hp
    have hs1' : s1.inventory.items = [Mat.squash s.inventory.items] := by rw [hs1]; rfl
    generalize hBB : Mat.squash s.inventory.items = B at *
    have hbl : Blend B s1.inventory.items := Or.inr ⟨1, by norm_num, by rw [hs1']; simp⟩
    have hpp' : p.product = some ⟨(List.range rs.length).flatMap fun j =>
          if served c (rs.getD j ⟨[]⟩) then [(j, offer (rs.getD j ⟨[]⟩))] else [],
        assay B, c.swuCapacity, s.inventory.quantity⟩ := by rw [hpp, ← hBB]; rfl
    have hmass : ∀ n, massOf s.inventory.items n = B.mass n := by intro n; rw [← hBB]; simp
    have hass : HasAssay (assay B) s.inventory.items := by
      simp only [HasAssay, uranium, hmass]
      exact mass_eq_of_assay (by rw [← pure_qty hPB]; exact ne_of_gt hB)
    obtain ⟨vs, hv1, hv2⟩ := hS.natu _ hpp'
    have hserv : ∀ t ∈ productTrades c i.sells, c.eps ≤ need c B t.offer t.amt ∧
        natuConvert (assay B) c.tailsAssay (cut t) = some (need c B t.offer t.amt) := by
      intro t ht
      have hm : t ∈ i.sells := (List.mem_filter.1 ht).1
      obtain ⟨ha1, ha2⟩ := hS.amt t hm
      obtain ⟨hx1, hx2⟩ := hr t ht _ hass
      obtain ⟨-, pp, hpq, j, hj⟩ := hS.product t ht
      rw [hpp'] at hpq
      have := Option.some.inj hpq
      subst this
      obtain ⟨target, hj1, hj2, hj3⟩ := mem_productBids.1 hj
      have hpo : Pure [t.offer] := by rw [hj3]; exact offer_pure _
      have hqo : 0 < qty t.offer := by linarith
      have hn := natuConvert_cut hqo ha1 hpo (ne_of_gt hx1) hPB (ne_of_gt hB)
      exact ⟨(z2 _ hpp' t ht _ hn).2, hn⟩
    have hneeds : needs c B i.sells = vs.sum := by
      unfold needs
      have : ((productTrades c i.sells).map fun t => need c B t.offer t.amt).map some =
          vs.map some := by
        rw [← hv1, List.map_map]
        apply List.map_congr_left
        intro t ht
        simp only [Function.comp]
        exact (hserv t ht).2.symm
      have hinj := List.map_injective_iff.2 (Option.some_injective ℚ) this
      rw [hinj]
    have a4' : s1.inventory.quantity = s.inventory.quantity := a4
    exact sellLoop_perm V hB (I1.intra (some (0, 0))) hbl (fun t ht => (hserv t ht).1) htt
      (by rw [hneeds]; change _ ≤ s1.inventory.quantity; rw [a4']; exact hv2) htq g g' hl

/-! Two sales of product, 5 kg and 2 kg, meet the hypotheses: the feed that is left is the same. -/

private def exTwo : List Trade := [⟨"leu", leu, 5⟩, ⟨"leu", leu, 2⟩]

private def exNew : State := ⟨⟨some 200, [⟨[(u235, 1), (u238, 99)]⟩]⟩, ⟨none, []⟩, 0, none⟩

private theorem exTwo_mem {t : Trade} (h : t ∈ exTwo) : t.offer = leu ∧ t.commod = "leu" ∧
    (t.amt = 5 ∨ t.amt = 2) := by
  simp only [exTwo, List.mem_cons, List.not_mem_nil, or_false] at h
  rcases h with rfl | rfl <;> simp

private theorem exTwo_honest : HonestHistory exCfg [] [] exNew ∧
    Honest exCfg exNew ⟨forProduct [leu], exTwo, []⟩ ∧ Pure exNew.inventory.items ∧
    (∀ p s₁, bids exCfg (forProduct [leu]) (tick exCfg exNew) = .ok (p, s₁) →
      Sizeable exCfg p exTwo) ∧
    (∀ t ∈ productTrades exCfg exTwo, ∀ x, HasAssay x exNew.inventory.items →
      exCfg.tailsAssay < x ∧ x * uranium [t.offer] ≤ t.offer.mass u235) := by
  have hb : build exCfg = .ok exNew := ok_of_toOption (by decide +kernel)
  have hbids : bids exCfg (forProduct [leu]) (tick exCfg exNew) =
      .ok (⟨none, some ⟨[(0, leu)], 1/100, 1, 100⟩⟩,
        ⟨⟨some 200, [⟨[(u235, 1), (u238, 99)]⟩]⟩, ⟨none, []⟩, 1, none⟩) :=
    ok_of_toOption (by decide +kernel)
  have hpt : productTrades exCfg exTwo = exTwo := rfl
  refine ⟨⟨exNew, hb, rfl, trivial⟩, ⟨honest_buys_nil _ _, ?_, ?_⟩, ?_, ?_, ?_⟩
  · exact forProduct_nonneg (nonneg_of_all (by decide +kernel))
  · intro p s₁ h
    rw [hbids] at h
    simp only [Except.ok.injEq, Prod.mk.injEq] at h
    obtain ⟨rfl, rfl⟩ := h
    refine ⟨?_, ?_, ?_, ?_, ?_, ?_⟩
    · intro t ht
      obtain ⟨h1, -, h2⟩ := exTwo_mem ht
      rw [h1]
      rcases h2 with h2 | h2 <;> rw [h2] <;> decide +kernel
    · intro t ht; cases ht
    · intro tp htp; cases htp
    · intro t ht
      obtain ⟨h1, h2, -⟩ := exTwo_mem (hpt ▸ ht)
      exact ⟨h2, _, rfl, 0, by rw [h1]; simp⟩
    · intro pp hpp
      cases hpp
      exact ⟨[9/400, 9/1000], by decide +kernel, by decide +kernel⟩
    · intro pp hpp
      cases hpp
      exact ⟨[25, 10], by decide +kernel, by decide +kernel⟩
  · intro m hm e he
    simp only [exNew, List.mem_singleton] at hm
    subst hm
    simp only [List.mem_cons, List.not_mem_nil, or_false] at he
    rcases he with rfl | rfl <;> simp
  · intro p s₁ h
    rw [hbids] at h
    simp only [Except.ok.injEq, Prod.mk.injEq] at h
    obtain ⟨rfl, rfl⟩ := h
    refine ⟨fun t ht => ?_, fun pp hpp t ht q hq => ?_⟩
    · obtain ⟨-, -, h2⟩ := exTwo_mem ht
      rcases h2 with h2 | h2 <;> rw [h2] <;> decide +kernel
    · cases hpp
      rw [hpt] at ht
      simp only [exTwo, List.mem_cons, List.not_mem_nil, or_false] at ht
      rcases ht with rfl | rfl
      · have : natuConvert (1/100) exCfg.tailsAssay (cut ⟨"leu", leu, 5⟩) = some 25 := by
          decide +kernel
        rw [this] at hq; cases hq
        decide +kernel
      · have : natuConvert (1/100) exCfg.tailsAssay (cut ⟨"leu", leu, 2⟩) = some 10 := by
          decide +kernel
        rw [this] at hq; cases hq
        decide +kernel
  · intro t ht x hx
    have h1 : massOf exNew.inventory.items u235 = 1 := by decide +kernel
    have h2 : uranium exNew.inventory.items = 100 := by decide +kernel
    unfold HasAssay at hx
    rw [h1, h2] at hx
    have hxx : x = 1/100 := by linarith
    rw [(exTwo_mem (hpt ▸ ht)).1]
    subst hxx
    exact ⟨by norm_num [exCfg], by decide +kernel⟩

example : ∃ o s' o' s'', step exCfg exNew ⟨forProduct [leu], exTwo, []⟩ = .ok (o, s') ∧
    step exCfg exNew ⟨forProduct [leu], exTwo.reverse, []⟩ = .ok (o', s'') ∧
    s''.inventory = s'.inventory ∧ o.enrichments.Perm o'.enrichments := by
  obtain ⟨h1, h2, h3, h4, h5⟩ := exTwo_honest
  obtain ⟨o, s', o', s'', e1, e2, e3, -, -, -, -, -, e4, -⟩ :=
    C119_enrichment_partial exCfg_valid h1 h2 h3 h4 h5 (List.reverse_perm exTwo).symm
  exact ⟨o, s', o', s'', e1, e2, e3, e4⟩

end Enrichment

end Cyc
