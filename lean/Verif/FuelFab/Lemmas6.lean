import Verif.FuelFab.Lemmas5

/-!
# Honest markets: sales and deliveries
-/

namespace Cyc.FuelFab

open Mat (massOf)

/-! ## Sales -/

theorem forall₂_fst {α : Type} {P : α → ℚ × ℚ × ℚ → Prop} {conv : α → R ℚ}
    {g : ℚ × ℚ × ℚ → ℚ} {ts : List α} {ns : List (ℚ × ℚ × ℚ)} {vs : List ℚ}
    (h : List.Forall₂ P ts ns) (hc : ∀ t n, P t n → conv t = .ok (g n))
    (hv : List.Forall₂ (fun t v => conv t = .ok v) ts vs) : vs = ns.map g := by
  induction h generalizing vs with
  | nil => cases hv; rfl
  | cons h _ ih =>
    cases hv with
    | cons h1 h2 =>
      rw [hc _ _ h] at h1
      simp only [Except.ok.injEq] at h1
      rw [List.map_cons, ← ih h2, h1]

theorem forall₂_exists {α β : Type} {P : α → β → Prop} {ts : List α}
    (h : ∀ t ∈ ts, ∃ n, P t n) : ∃ ns, List.Forall₂ P ts ns := by
  induction ts with
  | nil => exact ⟨[], .nil⟩
  | cons t ts ih =>
    obtain ⟨n, hn⟩ := h t (by simp)
    obtain ⟨ns, hns⟩ := ih fun x hx => h x (by simp [hx])
    exact ⟨n :: ns, .cons hn hns⟩

theorem forall₂_mem {α β : Type} {P Q : α → β → Prop} {ts : List α} {ns : List β}
    (h : List.Forall₂ P ts ns) (hq : ∀ t ∈ ts, ∀ n, P t n → Q t n) : List.Forall₂ Q ts ns := by
  induction h with
  | nil => exact .nil
  | cons h _ ih =>
    exact .cons (hq _ (by simp) _ h) (ih fun t ht n hn => hq t (by simp [ht]) n hn)

theorem stockWeight_one {c : Cfg} (V : Valid c) {b : Buf NMat} {x : NMat} (hx : Solid x)
    (h : b.items = [x]) : stockWeight c b = .ok (weight c x) := by
  unfold stockWeight; rw [h]; simp only; rw [cosi_eq V, wt_solid V hx]

/-- What a trade needs of each stream, as the converters of the bid portfolio say. -/
structure Needs (c : Cfg) (port : Port) (t : Trade) (nf nl nt : ℚ) : Prop where
  fiss : fissConvert c port (cut t) = .ok nf
  fill : fillConvert c port (cut t) = .ok nl
  topup : topupConvert c port (cut t) = .ok nt

theorem Plan.change {c : Cfg} {x y z : NMat} {a b d d' : ℚ} {t : Trade} {nf nl nt : ℚ}
    (h : Plan c x y z a b d t nf nl nt) (hd : d' = d ∨ (a ≤ wt c t.target ∧ wt c t.target ≤ b)) :
    Plan c x y z a b d' t nf nl nt := by
  rcases hd with rfl | hd
  · exact h
  · rcases h with h | ⟨f, h, -⟩
    · exact Or.inl h
    · exact absurd hd h

/-- Honest sales, the stock at hand and the needs of the trades. -/
theorem honest_plan {c : Cfg} (V : Valid c) {s : State} (I : Inv c s) {reqs : String → List NMat}
    {p : Option Port} (hp : bids c reqs s = .ok p) {ts : List Trade}
    (H : HonestSales c (reqs c.outCommod) p ts) (hne : ts ≠ []) :
    ∃ k port, CompsOk c s k ∧ p = some port ∧ port.fill = k.fill ∧ port.fiss = k.fiss ∧
      port.topup = k.topup ∧ port.fissCap = max s.fiss.quantity c.near ∧
      port.fillCap = max s.fill.quantity c.near ∧ port.topupCap = max s.topup.quantity c.near ∧
      port.cap = c.throughput ∧
      ∀ t ∈ ts, 0 < t.amt ∧ t.amt ≤ qty t.offer ∧ ∃ nf nl nt,
        Plan c k.fiss k.fill k.topup k.wFill k.wFiss k.wTopup t nf nl nt ∧
        (s.topup.items = [] → k.wFill ≤ wt c t.target ∧ wt c t.target ≤ k.wFiss) ∧
        Needs c port t nf nl nt ∧ weight c (cut t) = weight c t.offer := by
  rcases bids_ok V I reqs hp with ⟨rfl, -⟩ | ⟨k, bs, -, K, rfl, hb⟩
  · cases ts with
    | nil => exact absurd rfl hne
    | cons t ts =>
      obtain ⟨port, h, -⟩ := H.bid t (by simp)
      cases h
  · refine ⟨k, _, K, rfl, rfl, rfl, rfl, rfl, rfl, rfl, rfl, ?_⟩
    intro t ht
    obtain ⟨port, hport, j, h1, h2, h3, h4⟩ := H.bid t ht
    simp only [Option.some.injEq] at hport
    subst hport
    obtain ⟨t', h5, h6⟩ := (hb j t.offer).1 h1
    rw [h2] at h5
    simp only [Option.some.injEq] at h5
    subst h5
    obtain ⟨nf, nl, nt, P, htp⟩ := offer_plan V K h6
    obtain ⟨c1, c2, c3, c4⟩ := plan_convert V K (bs := bs) (q1 := max s.fiss.quantity c.near)
      (q2 := max s.fill.quantity c.near) (q3 := max s.topup.quantity c.near) (q4 := c.throughput)
      h3 h4 P htp
    exact ⟨h3, h4, nf, nl, nt, P, htp, ⟨c1, c2, c3⟩, c4⟩

theorem stock_of_items {b : Buf NMat} {x : NMat} (hx : Solid x) (h : b.items = [] ∨ b.items = [x]) :
    b.items = stock x b.quantity := by
  rcases h with h | h
  · unfold Buf.quantity; rw [h, totalQty_nil, stock_zero]
  · unfold Buf.quantity; rw [h, totalQty_cons, totalQty_nil, add_zero, stock_self hx]

theorem quantity_pos_iff {b : Buf NMat} (h : 0 < b.quantity) : b.items ≠ [] := by
  intro h0; rw [Buf.quantity, h0, totalQty_nil] at h; exact lt_irrefl _ h

/-- The sum of the converted amounts of some trades. -/
def taken (conv : NMat → R ℚ) (ts : List Trade) : ℚ :=
  (ts.map fun t => (conv (cut t)).toOption.getD 0).sum

theorem taken_eq {conv : NMat → R ℚ} {ts : List Trade} {vs : List ℚ}
    (h : List.Forall₂ (fun t v => conv (cut t) = .ok v) ts vs) : taken conv ts = vs.sum := by
  unfold taken
  induction h with
  | nil => rfl
  | cons h _ ih =>
    rw [List.map_cons, List.sum_cons, List.sum_cons, ih, h]
    rfl

/-- Honest sales are carried out when fissile and filler material are in stock. -/
theorem sell_ok {c : Cfg} (V : Valid c) {s : State} (I : Inv c s) {reqs : String → List NMat}
    {p : Option Port} (hp : bids c reqs s = .ok p) {ts : List Trade}
    (H : HonestSales c (reqs c.outCommod) p ts) (hfi : c.near ≤ s.fiss.quantity)
    (hfl : c.near ≤ s.fill.quantity) (htp : s.topup.items = [] ∨ c.near ≤ s.topup.quantity)
    (hn : ∀ port, p = some port → ∀ t ∈ ts, ∀ nf nl nt, Needs c port t nf nl nt →
      0 < nf ∧ c.lo ≤ nf ∧ (nl = 0 ∨ c.lo ≤ nl) ∧ (nt = 0 ∨ c.lo ≤ nt) ∧
      ((weight c port.fill ≤ wt c t.target ∧ wt c t.target ≤ weight c port.fiss) ∨ 0 < nt)) :
    ∃ l s', sell c ts s = .ok (l, s') ∧ List.Forall₂ (Delivered c) ts l ∧
      (ts ≠ [] → ∃ port, p = some port ∧ Holds s' port.fiss port.fill port.topup
        (s.fiss.quantity - taken (fissConvert c port) ts)
        (s.fill.quantity - taken (fillConvert c port) ts)
        (s.topup.quantity - taken (topupConvert c port) ts)) := by
  have hnear := V.near
  by_cases hne : ts = []
  · subst hne
    obtain ⟨w1, h1⟩ := stockWeight_ok V s.fill
    obtain ⟨w2, h2⟩ := stockWeight_ok V s.topup
    obtain ⟨w3, h3⟩ := stockWeight_ok V s.fiss
    exact ⟨[], s, by simp only [sell, h1, h2, h3, ok_bind, sellLoop], .nil, fun h => absurd rfl h⟩
  obtain ⟨k, port, K, rfl, e1, e2, e3, e4, e5, e6, e7, hts⟩ := honest_plan V I hp H hne
  have g1 : s.fiss.items = [k.fiss] := K.fissStock (quantity_pos_iff (by linarith))
  have g2 : s.fill.items = [k.fill] := K.fillStock (quantity_pos_iff (by linarith))
  have g3 : s.topup.items = [] ∨ s.topup.items = [k.topup] := by
    rcases htp with h | h
    · exact Or.inl h
    · exact Or.inr (K.topupStock (quantity_pos_iff (by linarith)))
  have hw3 : ∃ d, stockWeight c s.topup = .ok d ∧ (s.topup.items ≠ [] → d = k.wTopup) := by
    rcases g3 with h | h
    · exact ⟨0, by unfold stockWeight; rw [h], fun h' => absurd h h'⟩
    · exact ⟨_, stockWeight_one V K.topup h, fun h' => (K.wTopup h').symm⟩
  obtain ⟨d, hd1, hd2⟩ := hw3
  have hplan : ∀ t ∈ ts, ∃ n : ℚ × ℚ × ℚ,
      (Plan c k.fiss k.fill k.topup k.wFill k.wFiss d t n.1 n.2.1 n.2.2 ∧ 0 < t.amt ∧
      t.amt ≤ qty t.offer ∧ 0 < n.1 ∧ c.lo ≤ n.1 ∧ (n.2.1 = 0 ∨ c.lo ≤ n.2.1) ∧
      (n.2.2 = 0 ∨ c.lo ≤ n.2.2) ∧
      ((k.wFill ≤ wt c t.target ∧ wt c t.target ≤ k.wFiss) ∨ 0 < n.2.2)) ∧
      Needs c port t n.1 n.2.1 n.2.2 ∧ (s.topup.items = [] → n.2.2 = 0) := by
    intro t ht
    obtain ⟨a1, a2, nf, nl, nt, P, htp', N, -⟩ := hts t ht
    obtain ⟨b1, b2, b3, b4, b5⟩ := hn port rfl t ht nf nl nt N
    rw [e1, e2, ← K.wFill, ← K.wFiss] at b5
    have hch : d = k.wTopup ∨ (k.wFill ≤ wt c t.target ∧ wt c t.target ≤ k.wFiss) := by
      by_cases h : s.topup.items = []
      · exact Or.inr (htp' h)
      · exact Or.inl (hd2 h)
    refine ⟨(nf, nl, nt), ⟨P.change hch, a1, a2, b1, b2, b3, b4, b5⟩, N, ?_⟩
    intro h
    rcases P with ⟨f, -, -, -, -, -, -, h0⟩ | ⟨f, h0, -⟩
    · exact h0
    · exact absurd (htp' h) h0
  obtain ⟨ns, hns⟩ := forall₂_exists hplan
  obtain ⟨v1, u1, w1⟩ := H.fiss port rfl
  obtain ⟨v2, u2, w2⟩ := H.fill port rfl
  obtain ⟨v3, u3, w3⟩ := H.topup port rfl
  have x1 := taken_eq u1
  have x2 := taken_eq u2
  have x3 := taken_eq u3
  rw [forall₂_fst hns (conv := fun t => fissConvert c port (cut t)) (g := Prod.fst)
    (fun t n h => h.2.1.fiss) u1] at w1 x1
  rw [e4, max_eq_left hfi] at w1
  rw [forall₂_fst hns (conv := fun t => fillConvert c port (cut t)) (g := fun n => n.2.1)
    (fun t n h => h.2.1.fill) u2] at w2 x2
  rw [e5, max_eq_left hfl] at w2
  rw [forall₂_fst hns (conv := fun t => topupConvert c port (cut t)) (g := fun n => n.2.2)
    (fun t n h => h.2.1.topup) u3] at w3 x3
  rw [e6] at w3
  have w3' : (ns.map fun n => n.2.2).sum ≤ s.topup.quantity := by
    rcases htp with h | h
    · have hq : s.topup.quantity = 0 := by unfold Buf.quantity; rw [h, totalQty_nil]
      have hz : ∀ {ts : List Trade} {ns : List (ℚ × ℚ × ℚ)},
          List.Forall₂ (fun (_ : Trade) n => n.2.2 = 0) ts ns →
          (ns.map fun n => n.2.2).sum = 0 := by
        intro ts ns hh
        induction hh with
        | nil => rfl
        | cons h _ ih => rw [List.map_cons, List.sum_cons, h, ih, add_zero]
      rw [hq, hz (hns.imp fun t n hn => hn.2.2 h)]
    · rw [max_eq_left h] at w3; exact w3
  have hcap := H.cap port rfl
  rw [e7] at hcap
  obtain ⟨l, s', r1, r2, r3⟩ := sellLoop_ok V K.fiss K.fill K.topup
    (H := ⟨stock_of_items K.fiss (Or.inr g1), stock_of_items K.fill (Or.inr g2),
      stock_of_items K.topup g3⟩) (hns.imp fun t n hn => hn.1) w1 w2 w3'
    (tot := 0) (by have := V.eps; linarith)
  refine ⟨l, s', ?_, r3, fun _ => ⟨port, rfl, ?_⟩⟩
  swap
  · rw [e1, e2, e3, x1, x2, x3]; exact r2
  unfold sell
  rw [stockWeight_one V K.fill g2, hd1, stockWeight_one V K.fiss g1]
  simp only [ok_bind]
  rw [← K.wFill, ← K.wFiss]
  exact r1

/-! ## Deliveries -/

theorem answers_eq (p : Option ReqPort) (ds : List (Nat × NMat)) :
    answers p ds = (ds.filter fun d => decide (d.1 ∈ (reqsOf p).map Req.id)).map Prod.snd := by
  cases p <;> simp [answers, reqsOf]

theorem mem_allReqs {a : Asks} {i : Nat} (h : i ∈ (allReqs a).map Req.id) :
    i ∈ (reqsOf a.fiss).map Req.id ∨ i ∈ (reqsOf a.fill).map Req.id ∨
      i ∈ (reqsOf a.topup).map Req.id := by
  rw [allReqs_eq, List.map_append, List.map_append, List.mem_append, List.mem_append] at h
  exact h

/-- The deliveries go where the requests say. -/
theorem routed_answers {c : Cfg} {addr : Nat → Nat} {s s' : State} {a : Asks} (I : Inv c s)
    (h : requests c addr s = .ok (a, s')) (hd : Distinct a) {ds : List (Nat × NMat)}
    (hr : ∀ d ∈ ds, d.1 ∈ (allReqs a).map Req.id) :
    routed s'.reqInv "fiss" ds = answers a.fiss ds ∧
    routed s'.reqInv "fill" ds = answers a.fill ds ∧
    routed s'.reqInv "topup" ds = answers a.topup ds ∧ Known s'.reqInv ds := by
  obtain ⟨r1, r2, r3, -⟩ := requests_route I h hd
  simp only [answers_eq]
  unfold routed
  refine ⟨?_, ?_, ?_, ?_⟩
  · congr 1
    apply List.filter_congr
    intro d hd'
    congr 1
    apply propext
    rcases mem_allReqs (hr d hd') with h | h | h
    · exact ⟨fun _ => h, fun _ => r1 _ h⟩
    · exact ⟨fun h' => by rw [r2 _ h] at h'; exact absurd h' (by decide), fun h' => r1 _ h'⟩
    · exact ⟨fun h' => by rw [r3 _ h] at h'; exact absurd h' (by decide), fun h' => r1 _ h'⟩
  · congr 1
    apply List.filter_congr
    intro d hd'
    congr 1
    apply propext
    rcases mem_allReqs (hr d hd') with h | h | h
    · exact ⟨fun h' => by rw [r1 _ h] at h'; exact absurd h' (by decide), fun h' => r2 _ h'⟩
    · exact ⟨fun _ => h, fun _ => r2 _ h⟩
    · exact ⟨fun h' => by rw [r3 _ h] at h'; exact absurd h' (by decide), fun h' => r2 _ h'⟩
  · congr 1
    apply List.filter_congr
    intro d hd'
    congr 1
    apply propext
    rcases mem_allReqs (hr d hd') with h | h | h
    · exact ⟨fun h' => by rw [r1 _ h] at h'; exact absurd h' (by decide), fun h' => r3 _ h'⟩
    · exact ⟨fun h' => by rw [r2 _ h] at h'; exact absurd h' (by decide), fun h' => r3 _ h'⟩
    · exact ⟨fun _ => h, fun _ => r3 _ h⟩
  · intro d hd'
    rcases mem_allReqs (hr d hd') with h | h | h
    · exact Or.inr (Or.inr (r1 _ h))
    · exact Or.inl (r2 _ h)
    · exact Or.inr (Or.inl (r3 _ h))

/-- There is room for the deliveries. -/
def Room (b : Buf NMat) (l : List NMat) : Prop :=
  l = [] ∨ ∃ k, b.cap = some k ∧ b.quantity + totalQty l ≤ k

theorem push_room {c : Cfg} (he : 0 < c.eps) {b : Buf NMat} {m : NMat} {l : List NMat}
    (hl : ∀ x ∈ l, 0 < qty x) (h : Room b (m :: l)) :
    ∃ b', b.push c.eps m = .ok b' ∧ b' = { b with items := b.items ++ [m] } ∧ Room b' l := by
  rcases h with h | ⟨k, h1, h2⟩
  · cases h
  · rw [totalQty_cons] at h2
    have h0 := AllPos.total_nonneg (l := l) hl
    refine ⟨_, Buf.push_ok.2 ⟨?_, rfl⟩, rfl, Or.inr ⟨k, h1, ?_⟩⟩
    · simp only [Buf.fits, Buf.space, h1, Option.map_some, decide_eq_true_eq]
      have : k - b.quantity ≤ max 0 (k - b.quantity) := le_max_right _ _
      linarith
    · simp only [Buf.quantity, totalQty_append, totalQty_cons, totalQty_nil] at *
      linarith

theorem acceptLoop_ok {c : Cfg} (he : 0 < c.eps) {ds : List (Nat × NMat)} {s : State}
    (hs : ∀ d ∈ ds, Solid d.2) (hk : Known s.reqInv ds)
    (h1 : Room s.fill (routed s.reqInv "fill" ds)) (h2 : Room s.topup (routed s.reqInv "topup" ds))
    (h3 : Room s.fiss (routed s.reqInv "fiss" ds)) :
    ∃ s', ds.foldlM (acceptOne c) s = .ok s' := by
  induction ds generalizing s with
  | nil => exact ⟨s, rfl⟩
  | cons d ds ih =>
    have hs' : ∀ x ∈ ds, Solid x.2 := fun x hx => hs x (by simp [hx])
    have hk' : Known s.reqInv ds := fun x hx => hk x (by simp [hx])
    have hpos : ∀ name, ∀ x ∈ routed s.reqInv name ds, 0 < qty x :=
      fun name x hx => (routed_solid hs' x hx).1
    simp only [List.foldlM_cons, acceptOne]
    rw [show Map.getD s.reqInv d.1 "" = route s.reqInv d.1 from rfl]
    rw [routed_cons] at h1 h2 h3
    rcases hk d (by simp) with h | h | h
    · rw [h] at h1 h2 h3
      rw [if_pos rfl] at h1
      rw [if_neg (by decide)] at h2 h3
      obtain ⟨b, b1, b2, b3⟩ := push_room he (hpos _) h1
      rw [if_pos h, b1]
      simp only [ok_bind, pure_eq_ok]
      exact ih (s := { s with fill := b }) hs' hk' b3 h2 h3
    · rw [h] at h1 h2 h3
      rw [if_pos rfl] at h2
      rw [if_neg (by decide)] at h1 h3
      obtain ⟨b, b1, b2, b3⟩ := push_room he (hpos _) h2
      rw [if_neg (by rw [h]; decide), if_pos h, b1]
      simp only [ok_bind, pure_eq_ok]
      exact ih (s := { s with topup := b }) hs' hk' h1 b3 h3
    · rw [h] at h1 h2 h3
      rw [if_pos rfl] at h3
      rw [if_neg (by decide)] at h1 h2
      obtain ⟨b, b1, b2, b3⟩ := push_room he (hpos _) h3
      rw [if_neg (by rw [h]; decide), if_neg (by rw [h]; decide), if_pos h, b1]
      simp only [ok_bind, pure_eq_ok]
      exact ih (s := { s with fiss := b }) hs' hk' h1 h2 b3

theorem merge_room {c : Cfg} (he : 0 < c.eps) {b : Buf NMat} {l : List NMat} (hb : Single b)
    (h : Room b l) : ∃ b', merge c { b with items := b.items ++ l } = .ok b' := by
  unfold merge Buf.count
  split
  · rename_i hc
    simp only
    have hpop : Buf.popN { b with items := b.items ++ l } (b.items ++ l).length =
        .ok (b.items ++ l, { b with items := [] }) := by
      rw [Buf.popN_ok]; simp
    rw [hpop]
    simp only [ok_bind]
    refine ⟨_, Buf.push_ok.2 ⟨?_, rfl⟩⟩
    rcases h with rfl | ⟨k, h1, h2⟩
    · rcases hb with hb | ⟨x, hx, hb⟩ <;> simp [hb] at hc
    · simp only [Buf.fits, Buf.space, h1, Option.map_some, decide_eq_true_eq, Mat.qty_squash,
        totalQty_append, Buf.quantity, totalQty_nil, sub_zero] at *
      have : k ≤ max 0 k := le_max_right _ _
      linarith
  · exact ⟨_, rfl⟩

theorem accept_ok {c : Cfg} (he : 0 < c.eps) {ds : List (Nat × NMat)} {s : State} (I : Inv c s)
    (hs : ∀ d ∈ ds, Solid d.2) (hk : Known s.reqInv ds)
    (h1 : Room s.fill (routed s.reqInv "fill" ds)) (h2 : Room s.topup (routed s.reqInv "topup" ds))
    (h3 : Room s.fiss (routed s.reqInv "fiss" ds)) :
    ∃ s', acceptAll c ds s = .ok s' := by
  cases ds with
  | nil => exact ⟨s, rfl⟩
  | cons d ds =>
    obtain ⟨s1, e1⟩ := acceptLoop_ok he hs hk h1 h2 h3
    obtain ⟨-, e2⟩ := acceptLoop_inv e1
    obtain ⟨b1, m1⟩ := merge_room (c := c) he I.fill h1
    obtain ⟨b2, m2⟩ := merge_room (c := c) he I.fiss h3
    obtain ⟨b3, m3⟩ := merge_room (c := c) he I.topup h2
    simp only [acceptAll, accept]
    rw [e1, e2]
    simp only [ok_bind, m1, m2, m3, pure_eq_ok]
    exact ⟨_, rfl⟩

/-- The quantities of the streams only fall in a sale. -/
theorem sellOne_le {c : Cfg} (V : Valid c) {wl wf wt : ℚ} {t : Trade} {s s' : State} {m : NMat}
    (I : Inv c s) (h : sellOne c wl wf wt t s = .ok (m, s')) :
    s'.fill.quantity ≤ s.fill.quantity ∧ s'.fiss.quantity ≤ s.fiss.quantity ∧
      s'.topup.quantity ≤ s.topup.quantity := by
  have he := V.eps
  have tk : ∀ {b b' : Buf NMat} {m : NMat} {n : ℚ}, Single b → take c b n = .ok (m, b') →
      b'.quantity ≤ b.quantity := by
    intro b b' m n hb h
    obtain ⟨-, -, h1, -, h2, -⟩ := take_single hb he h
    have := h1.1; linarith
  have af : ∀ {b b' : Buf NMat} {m m' : NMat} {f n : ℚ}, Single b →
      addFrom c m b f n = .ok (m', b') → b'.quantity ≤ b.quantity := by
    intro b b' m m' f n hb h
    unfold addFrom at h
    split at h
    · simp only [bind_ok] at h
      obtain ⟨⟨x, b1⟩, h1, h2⟩ := h
      simp only [pure_eq_ok, Except.ok.injEq, Prod.mk.injEq] at h2
      obtain ⟨-, rfl⟩ := h2
      exact tk hb h1
    · simp only [Except.ok.injEq, Prod.mk.injEq] at h
      rw [h.2]
  unfold sellOne at h
  rw [cosi_eq V] at h
  simp only [ok_bind] at h
  split at h
  · simp only [bind_ok] at h
    obtain ⟨⟨m1, b⟩, h1, h2⟩ := h
    simp only [pure_eq_ok, Except.ok.injEq, Prod.mk.injEq] at h2
    obtain ⟨-, rfl⟩ := h2
    exact ⟨tk I.fill h1, le_refl _, le_refl _⟩
  · split at h
    · simp only [bind_ok] at h
      obtain ⟨⟨m1, b⟩, h1, h2⟩ := h
      simp only [pure_eq_ok, Except.ok.injEq, Prod.mk.injEq] at h2
      obtain ⟨-, rfl⟩ := h2
      exact ⟨le_refl _, tk I.fiss h1, le_refl _⟩
    · split at h
      · simp only [bind_ok] at h
        obtain ⟨f, -, g, -, x, -, y, -, ⟨m1, b⟩, h1, ⟨m2, b'⟩, h2, h3⟩ := h
        simp only [pure_eq_ok, Except.ok.injEq, Prod.mk.injEq] at h3
        obtain ⟨-, rfl⟩ := h3
        exact ⟨af I.fill h2, tk I.fiss h1, le_refl _⟩
      · simp only [bind_ok] at h
        obtain ⟨f, -, x, -, y, -, ⟨m1, b⟩, h1, ⟨m2, b'⟩, h2, h3⟩ := h
        simp only [pure_eq_ok, Except.ok.injEq, Prod.mk.injEq] at h3
        obtain ⟨-, rfl⟩ := h3
        exact ⟨le_refl _, tk I.fiss h1, af I.topup h2⟩

theorem sellLoop_le {c : Cfg} (V : Valid c) {wl wf wt : ℚ} {ts : List Trade} {tot : ℚ}
    {s s' : State} {l : List NMat} (I : Inv c s)
    (h : sellLoop c wl wf wt tot ts s = .ok (l, s')) :
    s'.fill.quantity ≤ s.fill.quantity ∧ s'.fiss.quantity ≤ s.fiss.quantity ∧
      s'.topup.quantity ≤ s.topup.quantity := by
  induction ts generalizing tot s l with
  | nil =>
    simp only [sellLoop, Except.ok.injEq, Prod.mk.injEq] at h
    obtain ⟨-, rfl⟩ := h
    exact ⟨le_refl _, le_refl _, le_refl _⟩
  | cons t ts ih =>
    simp only [sellLoop] at h
    split at h
    · cases h
    · simp only [bind_ok] at h
      obtain ⟨⟨m, s1⟩, h1, ⟨l', s2⟩, h2, h3⟩ := h
      simp only [pure_eq_ok, Except.ok.injEq, Prod.mk.injEq] at h3
      obtain ⟨rfl, rfl⟩ := h3
      obtain ⟨a1, a2, a3⟩ := sellOne_le V I h1
      obtain ⟨b1, b2, b3⟩ := ih (sellOne_inv V I h1).inv h2
      exact ⟨b1.trans a1, b2.trans a2, b3.trans a3⟩

/-- Honest deliveries are accepted. -/
theorem honest_accept {c : Cfg} (V : Valid c) {addr : Nat → Nat} {s s1 s2 : State} {a : Asks}
    (I : Inv c s) (h : requests c addr s = .ok (a, s1)) (hd : Distinct a) (I2 : Inv c s2)
    (hr : s2.reqInv = s1.reqInv)
    (hq : s2.fill.quantity ≤ s.fill.quantity ∧ s2.fiss.quantity ≤ s.fiss.quantity ∧
      s2.topup.quantity ≤ s.topup.quantity) {ds : List (Nat × NMat)} (H : HonestBuys a ds) :
    ∃ s3, acceptAll c ds s2 = .ok s3 := by
  obtain ⟨r1, r2, r3, r4⟩ := routed_answers I h hd H.req
  rw [← hr] at r1 r2 r3 r4
  have ha : a = asksOf c addr s := by
    rw [requests_ok I] at h
    simp only [Except.ok.injEq, Prod.mk.injEq] at h
    exact h.1.symm
  have he := V.eps
  have key : ∀ {b b2 : Buf NMat} {k : ℚ} {n : Nat} {r : Option NMat} {ks : List String}
      {ps : List ℚ} {p : Option ReqPort}, b.cap = some k → b2.cap = some k →
      b2.quantity ≤ b.quantity → p = portFor c addr n b r ks ps →
      totalQty (answers p ds) ≤ amount p → Room b2 (answers p ds) := by
    intro b b2 k n r ks ps p hb hb2 hle hp hans
    unfold portFor at hp
    split at hp
    · rename_i hsp
      right
      refine ⟨k, hb2, ?_⟩
      have hp2 : amount p = space b := by rw [hp]; rfl
      rw [hp2] at hans
      unfold space at hsp hans
      rw [Buf.space, hb] at hsp hans
      simp only [Option.map_some, Option.getD_some] at hsp hans
      have : max 0 (k - b.quantity) = k - b.quantity := by
        rcases le_total (k - b.quantity) 0 with h0 | h0
        · rw [max_eq_left h0] at hsp; linarith
        · exact max_eq_right h0
      rw [this] at hans
      linarith
    · left; rw [hp]; simp [answers]
  apply accept_ok he I2 H.mass r4
  · rw [r2]; exact key I.fillCap I2.fillCap hq.1 (by rw [ha]; rfl) H.fill
  · rw [r3]; exact key I.topupCap I2.topupCap hq.2.2 (by rw [ha]; rfl) H.topup
  · rw [r1]; exact key I.fissCap I2.fissCap hq.2.1 (by rw [ha]; rfl) H.fiss

/-! ## The size of the streams -/

/-- A stream that holds at most one material respects its size. -/
def Lim (e k : ℚ) (b : Buf NMat) : Prop :=
  b.cap = some k ∧ (b.items.length ≤ 1 → b.quantity ≤ max 0 k + e)

theorem push_lim {e k : ℚ} {b b' : Buf NMat} {m : NMat} (hb : Lim e k b)
    (h : b.push e m = .ok b') : Lim e k b' := by
  obtain ⟨h1, rfl⟩ := Buf.push_ok.1 h
  refine ⟨hb.1, fun hl => ?_⟩
  have h0 : b.items = [] := by
    cases hi : b.items with
    | nil => rfl
    | cons x l => simp [hi] at hl
  simp only [Buf.fits, Buf.space, hb.1, Option.map_some, decide_eq_true_eq, Buf.quantity, h0,
    totalQty_nil, sub_zero] at h1
  simp only [Buf.quantity, h0, List.nil_append, totalQty_cons, totalQty_nil]
  linarith

/-- All streams respect their size. -/
def Lims (c : Cfg) (s : State) : Prop :=
  Lim c.eps c.fillSize s.fill ∧ Lim c.eps c.fissSize s.fiss ∧ Lim c.eps c.topupSize s.topup

theorem acceptLoop_lim {c : Cfg} {ds : List (Nat × NMat)} {s s' : State} (L : Lims c s)
    (h : ds.foldlM (acceptOne c) s = .ok s') : Lims c s' := by
  induction ds generalizing s with
  | nil =>
    simp only [List.foldlM_nil, pure_eq_ok, Except.ok.injEq] at h
    subst h; exact L
  | cons d ds ih =>
    simp only [List.foldlM_cons, bind_ok] at h
    obtain ⟨s1, h1, h2⟩ := h
    refine ih ?_ h2
    unfold acceptOne at h1
    split at h1
    · simp only [bind_ok] at h1
      obtain ⟨b, hb, h1⟩ := h1
      simp only [pure_eq_ok, Except.ok.injEq] at h1
      subst h1; exact ⟨push_lim L.1 hb, L.2⟩
    · split at h1
      · simp only [bind_ok] at h1
        obtain ⟨b, hb, h1⟩ := h1
        simp only [pure_eq_ok, Except.ok.injEq] at h1
        subst h1; exact ⟨L.1, L.2.1, push_lim L.2.2 hb⟩
      · split at h1
        · simp only [bind_ok] at h1
          obtain ⟨b, hb, h1⟩ := h1
          simp only [pure_eq_ok, Except.ok.injEq] at h1
          subst h1; exact ⟨L.1, push_lim L.2.1 hb, L.2.2⟩
        · cases h1

theorem merge_lim {c : Cfg} {k : ℚ} {b b' : Buf NMat} (hs : ∀ m ∈ b.items, Solid m)
    (L : Lim c.eps k b) (h : merge c b = .ok b') : Lim c.eps k b' := by
  obtain ⟨-, h2, -, -, h5, h6⟩ := merge_inv hs h
  refine ⟨h2.trans L.1, fun _ => ?_⟩
  by_cases hl : b.items.length ≤ 1
  · rw [h5 hl]; exact L.2 hl
  · exact h6 (by omega) k L.1

theorem step_lim {c : Cfg} (V : Valid c) {s s' : State} {i : In} {o : Out} (I : Inv c s)
    (L : Lims c s) (hs : ∀ d ∈ i.buys, Solid d.2) (h : step c s i = .ok (o, s')) : Lims c s' := by
  obtain ⟨s1, s2, h1, -, h3, h4⟩ := step_inv h
  have hsame := requests_same I h1
  obtain ⟨wl, wf, wt, h3⟩ := sell_inv h3
  have I1 := I.same hsame
  obtain ⟨I2, -, -, -, -⟩ := sellLoop_inv V I1 h3
  obtain ⟨q1, q2, q3⟩ := sellLoop_le V I1 h3
  obtain ⟨e1, e2, e3, -, -⟩ := hsame
  rw [e1] at q1; rw [e2] at q2; rw [e3] at q3
  have len : ∀ {b : Buf NMat}, Single b → b.items.length ≤ 1 := by
    intro b hb; rcases hb with hb | ⟨x, -, hb⟩ <;> simp [hb]
  have L2 : Lims c s2 := ⟨⟨I2.fillCap, fun _ => q1.trans (L.1.2 (len I.fill))⟩,
    ⟨I2.fissCap, fun _ => q2.trans (L.2.1.2 (len I.fiss))⟩,
    ⟨I2.topupCap, fun _ => q3.trans (L.2.2.2 (len I.topup))⟩⟩
  revert h4
  generalize hbuys : i.buys = ds
  rw [hbuys] at hs
  intro h4
  cases ds with
  | nil =>
    simp only [acceptAll, Except.ok.injEq] at h4
    subst h4; exact L2
  | cons d ds =>
    simp only [acceptAll, accept, bind_ok] at h4
    obtain ⟨s3, h5, fill, h6, fiss, h7, topup, h8, h9⟩ := h4
    simp only [pure_eq_ok, Except.ok.injEq] at h9
    subst h9
    have L3 := acceptLoop_lim L2 h5
    obtain ⟨-, rfl⟩ := acceptLoop_inv h5
    have app : ∀ {b : Buf NMat} {name : String}, Single b →
        ∀ m ∈ ({ b with items := b.items ++ routed s2.reqInv name (d :: ds) } : Buf NMat).items,
          Solid m := by
      intro b name hb m hm
      rcases List.mem_append.1 hm with hm | hm
      · exact hb.solid m hm
      · exact routed_solid hs m hm
    exact ⟨merge_lim (app I2.fill) L3.1 h6, merge_lim (app I2.fiss) L3.2.1 h7,
      merge_lim (app I2.topup) L3.2.2 h8⟩

theorem reachable_lim {c : Cfg} (V : Valid c) {s : State} (h : Reachable c s) :
    s.fill.quantity ≤ max 0 c.fillSize + c.eps ∧ s.fiss.quantity ≤ max 0 c.fissSize + c.eps ∧
      s.topup.quantity ≤ max 0 c.topupSize + c.eps := by
  obtain ⟨is, os, hs, s0, h1, h2⟩ := h
  have I0 := (enter_inv h1).1
  have L0 : Lims c s0 := by
    have hc := (enter_inv h1).2.1
    simp only [contents, List.append_eq_nil_iff] at hc
    have he := V.eps
    have z : ∀ k : ℚ, (0 : ℚ) ≤ max 0 k + c.eps := fun k =>
      add_nonneg (le_max_left _ _) (le_of_lt he)
    refine ⟨⟨I0.fillCap, fun _ => ?_⟩, ⟨I0.fissCap, fun _ => ?_⟩, ⟨I0.topupCap, fun _ => ?_⟩⟩
    · simp only [Buf.quantity, hc.1.1, totalQty_nil]; exact z _
    · simp only [Buf.quantity, hc.1.2, totalQty_nil]; exact z _
    · simp only [Buf.quantity, hc.2, totalQty_nil]; exact z _
  have key : ∀ {is : List In} {s0 : State} {os : List Out}, Inv c s0 → Lims c s0 →
      Substantial is → run c s0 is = .ok (os, s) → Inv c s ∧ Lims c s := by
    intro is
    induction is with
    | nil =>
      intro s0 os I L _ h
      simp only [run, Except.ok.injEq, Prod.mk.injEq] at h
      obtain ⟨-, rfl⟩ := h
      exact ⟨I, L⟩
    | cons i is ih =>
      intro s0 os I L hs h
      simp only [run, bind_ok] at h
      obtain ⟨⟨o, s1⟩, h1, ⟨os', s2⟩, h4, h3⟩ := h
      simp only [pure_eq_ok, Except.ok.injEq, Prod.mk.injEq] at h3
      obtain ⟨rfl, rfl⟩ := h3
      exact ih (step_pres V I (hs i (by simp)) h1).1 (step_lim V I L (hs i (by simp)) h1)
        (fun x hx => hs x (by simp [hx])) h4
  obtain ⟨I, L⟩ := key I0 L0 hs h2
  have len : ∀ {b : Buf NMat}, Single b → b.items.length ≤ 1 := by
    intro b hb; rcases hb with hb | ⟨x, -, hb⟩ <;> simp [hb]
  exact ⟨L.1.2 (len I.fill), L.2.1.2 (len I.fiss), L.2.2.2 (len I.topup)⟩

end Cyc.FuelFab
