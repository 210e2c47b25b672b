import Verif.Mixer.Lemmas

/-!
# Lemmas about requests, deliveries, sales and histories of `Mixer`
-/

namespace Cyc.Mixer

open Mat (massOf)

/-! ## Requests -/

/-- The portfolio of one stream. -/
def ask (c : Cfg) (addr : Nat → Nat → Nat) (bufs : List (String × Buf NMat)) (x : Stream × Nat) :
    Option ReqPort :=
  if hasRoom c.eps (getBuf bufs (name x.2)) then
    some ⟨(getBuf bufs (name x.2)).space, mkReqs addr x.2 x.1.commods⟩ else none

theorem ask_touch (c : Cfg) (addr : Nat → Nat → Nat) (bufs : List (String × Buf NMat))
    (k : String) : ask c addr (touch bufs k) = ask c addr bufs := by
  funext x; unfold ask; simp only [getBuf_touch]

theorem getD_note (nm : String) (rs : List Req) (inv : List (Nat × String)) (id : Nat) (d : String) :
    Map.getD (note nm rs inv) id d = if id ∈ rs.map Req.id then nm else Map.getD inv id d := by
  unfold note
  induction rs generalizing inv with
  | nil => simp
  | cons r rs ih =>
    rw [List.foldl_cons, ih]
    by_cases h : id ∈ rs.map Req.id
    · have h2 : id ∈ (r :: rs).map Req.id := by rw [List.map_cons]; exact List.mem_cons_of_mem _ h
      rw [if_pos h, if_pos h2]
    · rw [if_neg h]
      by_cases h' : r.id = id
      · have h2 : id ∈ (r :: rs).map Req.id := by rw [List.map_cons, h']; exact List.mem_cons_self
        rw [if_pos h2, h', Map.getD_set_self]
      · have h2 : id ∉ (r :: rs).map Req.id := by
          rw [List.map_cons, List.mem_cons, not_or]; exact ⟨Ne.symm h', h⟩
        rw [if_neg h2, Map.getD_set_ne h']

theorem requestLoop_spec (c : Cfg) (addr : Nat → Nat → Nat) (i : Nat) (l : List Stream) (s : State) :
    (requestLoop c addr i l s).1 = (l.zipIdx i).map (ask c addr s.bufs) ∧
      (requestLoop c addr i l s).2.bufs = touchLoop i l.length s.bufs ∧
      (requestLoop c addr i l s).2.output = s.output ∧
      (requestLoop c addr i l s).2.ratios = s.ratios ∧
      (∀ id, id ∉ (requestLoop c addr i l s).1.flatMap ids →
        Map.getD (requestLoop c addr i l s).2.reqInv id "" = Map.getD s.reqInv id "") ∧
      (Distinct (requestLoop c addr i l s).1 →
        ∀ k id, id ∈ idsAt (requestLoop c addr i l s).1 k →
          Map.getD (requestLoop c addr i l s).2.reqInv id "" = name (i + k)) := by
  induction l generalizing i s with
  | nil => simp [requestLoop, touchLoop, idsAt, ids]
  | cons x l ih =>
    unfold requestLoop
    simp only
    split
    · rename_i hr
      obtain ⟨h1, h2, h3, h4, h5, h6⟩ := ih (i + 1) { s with
        bufs := touch s.bufs (name i)
        reqInv := note (name i) (mkReqs addr i x.commods) s.reqInv }
      simp only [ask_touch] at h1 h2 h3 h4 h5 h6 ⊢
      refine ⟨?_, ?_, h3, h4, ?_, ?_⟩
      · rw [h1, List.zipIdx_cons, List.map_cons]
        unfold ask
        rw [if_pos hr]
      · rw [h2]; rfl
      · intro id hid
        rw [List.flatMap_cons, List.mem_append, not_or] at hid
        rw [h5 id hid.2, getD_note]; exact if_neg hid.1
      · intro hd k id hk
        unfold Distinct at hd
        rw [List.flatMap_cons, List.nodup_append] at hd
        cases k with
        | zero =>
          have hk' : id ∈ (mkReqs addr i x.commods).map Req.id := hk
          rw [h5 id (fun hx => hd.2.2 id hk' id hx rfl), getD_note, if_pos hk']; rfl
        | succ k =>
          have hk' : id ∈ idsAt (requestLoop c addr (i + 1) l { s with
            bufs := touch s.bufs (name i)
            reqInv := note (name i) (mkReqs addr i x.commods) s.reqInv }).1 k := by
            simpa [idsAt] using hk
          rw [h6 hd.2.1 k id hk', show i + 1 + k = i + (k + 1) by omega]
    · rename_i hr
      obtain ⟨h1, h2, h3, h4, h5, h6⟩ := ih (i + 1) { s with bufs := touch s.bufs (name i) }
      simp only [ask_touch] at h1 h2 h3 h4 h5 h6 ⊢
      refine ⟨?_, ?_, h3, h4, ?_, ?_⟩
      · rw [h1, List.zipIdx_cons, List.map_cons]
        unfold ask
        rw [if_neg hr]
      · rw [h2]; rfl
      · intro id hid
        rw [List.flatMap_cons, List.mem_append, not_or] at hid
        rw [h5 id hid.2]
      · intro hd k id hk
        unfold Distinct at hd
        rw [List.flatMap_cons, List.nodup_append] at hd
        cases k with
        | zero => exact absurd hk (by simp [idsAt, ids])
        | succ k =>
          have hk' : id ∈ idsAt (requestLoop c addr (i + 1) l { s with
            bufs := touch s.bufs (name i) }).1 k := by
            simpa [idsAt] using hk
          rw [h6 hd.2.1 k id hk', show i + 1 + k = i + (k + 1) by omega]

theorem mem_keys_touchLoop {i n : Nat} {bufs : List (String × Buf NMat)} {k : String} :
    k ∈ Map.keys (touchLoop i n bufs) ↔ k ∈ Map.keys bufs ∨ ∃ j, i ≤ j ∧ j < i + n ∧ k = name j := by
  induction n generalizing i bufs with
  | zero =>
    simp only [touchLoop, Nat.add_zero]
    constructor
    · exact Or.inl
    · rintro (h | ⟨j, h1, h2, -⟩)
      · exact h
      · omega
  | succ n ih =>
    rw [touchLoop, ih]
    unfold touch
    rw [Map.mem_keys_set]
    constructor
    · rintro ((rfl | h) | ⟨j, h1, h2, h3⟩)
      · exact Or.inr ⟨i, le_refl _, by omega, rfl⟩
      · exact Or.inl h
      · exact Or.inr ⟨j, by omega, by omega, h3⟩
    · rintro (h | ⟨j, h1, h2, h3⟩)
      · exact Or.inl (Or.inr h)
      · by_cases hj : j = i
        · subst hj; exact Or.inl (Or.inl h3)
        · exact Or.inr ⟨j, by omega, by omega, h3⟩

theorem requests_inv {c : Cfg} {addr : Nat → Nat → Nat} {s : State} (I : Inv c s) :
    Inv c (requests c addr s).2 ∧ (∀ k, held (requests c addr s).2 k = held s k) ∧
      (∀ n, massOf (contents (requests c addr s).2) n = massOf (contents s) n) ∧
      (∀ k, k < c.streams.length → name k ∈ Map.keys (requests c addr s).2.bufs) := by
  obtain ⟨h1, h2, h3, h4, -, -⟩ := requestLoop_spec c addr 0 c.streams s
  unfold requests
  refine ⟨⟨by rw [h4]; exact I.ratios, ?_, ?_, by rw [h3]; exact I.outCap,
    by rw [h3]; exact I.outQty, by rw [h3]; exact I.outSolid⟩, ?_, ?_, ?_⟩
  · rw [h2]; exact I.good.touchLoop (by omega)
  · intro k x hk; rw [h2, getBuf_touchLoop]; exact I.caps k x hk
  · intro k; unfold held; rw [h2, getBuf_touchLoop]
  · intro n
    simp only [contents, Mat.massOf_append, massOf_flatMap]
    rw [h2, h3, stockMass_touchLoop]
  · intro k hk; rw [h2, mem_keys_touchLoop]; exact Or.inr ⟨k, by omega, by omega, rfl⟩

/-! ## Sales -/

theorem sellLoop_inv {c : Cfg} (hε : 0 ≤ c.eps) {qs : List ℚ} {s s' : State} {l : List NMat}
    (I : Inv c s) (h : sellLoop c qs s = .ok (l, s')) :
    Inv c s' ∧ s'.bufs = s.bufs ∧ s'.reqInv = s.reqInv ∧ s'.ratios = s.ratios ∧
      (∀ n, massOf (contents s) n = massOf (contents s') n + massOf l n) ∧
      totalQty s.output.items = totalQty s'.output.items + totalQty l := by
  induction qs generalizing s l with
  | nil =>
    simp only [sellLoop, Except.ok.injEq, Prod.mk.injEq] at h
    obtain ⟨rfl, rfl⟩ := h
    exact ⟨I, rfl, rfl, rfl, by simp, by simp⟩
  | cons q qs ih =>
    simp only [sellLoop, bind_ok] at h
    obtain ⟨⟨m, b⟩, h1, ⟨ms, s₁⟩, h2, h3⟩ := h
    simp only [pure_eq_ok, Except.ok.injEq, Prod.mk.injEq] at h3
    obtain ⟨rfl, rfl⟩ := h3
    obtain ⟨p1, p2, p3, p4, p5, p6⟩ := pop_any I.outSolid hε h1
    have hm := p1.1
    unfold Buf.quantity at p3
    have := I.outQty
    have I' : Inv c { s with output := b } :=
      ⟨I.ratios, I.good, I.caps, by rw [p2]; exact I.outCap, by
        show totalQty b.items ≤ _
        linarith, p6⟩
    obtain ⟨q1, q2, q3, q4, q5, q6⟩ := ih I' h2
    refine ⟨q1, q2, q3, q4, ?_, ?_⟩
    · intro n
      have := q5 n
      simp only [contents, Mat.massOf_append, massOf_flatMap, Mat.massOf_cons] at this ⊢
      rw [p5] at this
      linarith
    · rw [totalQty_cons]
      have h' : totalQty b.items = totalQty s₁.output.items + totalQty ms := q6
      linarith

theorem sellLoop_ok {c : Cfg} (hε : 0 ≤ c.eps) {qs : List ℚ} {s : State} (I : Inv c s)
    (hq : ∀ q ∈ qs, 0 < q ∧ c.lo ≤ q) (ht : qs.sum ≤ totalQty s.output.items) :
    ∃ l s', sellLoop c qs s = .ok (l, s') ∧ l.map qty = qs := by
  induction qs generalizing s with
  | nil => exact ⟨_, _, rfl, rfl⟩
  | cons q qs ih =>
    rw [List.sum_cons] at ht
    obtain ⟨q0, q1⟩ := hq q (by simp)
    have hs : 0 ≤ qs.sum := List.sum_nonneg fun x hx => le_of_lt (hq x (by simp [hx])).1
    obtain ⟨m, h1, h2, -⟩ := popEps_ok (lo := c.lo) (allPos_of_solid I.outSolid) hε q0 (Or.inl q1)
      (show q ≤ s.output.quantity by unfold Buf.quantity; linarith)
    have hqt := totalQty_after (allPos_of_solid I.outSolid) (le_of_lt q0)
      (show q ≤ totalQty s.output.items by linarith)
    have := I.outQty
    obtain ⟨l, s', h3, h4⟩ := ih (s := { s with
        output := { s.output with items := after q s.output.items } })
      ⟨I.ratios, I.good, I.caps, I.outCap, by
        show totalQty (after q s.output.items) ≤ _
        linarith, after_solid I.outSolid (le_of_lt q0)⟩
      (fun x hx => hq x (by simp [hx])) (by
        show qs.sum ≤ totalQty (after q s.output.items)
        linarith)
    exact ⟨m :: l, s', by simp only [sellLoop, h1, ok_bind, h3, pure_eq_ok],
      by rw [List.map_cons, h2, h4]⟩

/-! ## Deliveries -/

/-- The deliveries noted for the stream `k`. -/
def noted (inv : List (Nat × String)) (k : Nat) (ds : List (Nat × NMat)) : List NMat :=
  (ds.filter fun d => Map.getD inv d.1 "" = name k).map Prod.snd

theorem noted_cons (inv : List (Nat × String)) (k : Nat) (d : Nat × NMat) (ds : List (Nat × NMat)) :
    noted inv k (d :: ds) =
      (if Map.getD inv d.1 "" = name k then [d.2] else []) ++ noted inv k ds := by
  unfold noted
  rw [List.filter_cons]
  by_cases h : Map.getD inv d.1 "" = name k
  · simp [h]
  · simp [h]

theorem fold_inv {c : Cfg} {ds : List (Nat × NMat)} {s s' : State} (I : Inv c s)
    (hd : ∀ d ∈ ds, Solid d.2) (h : ds.foldlM (acceptOne c) s = .ok s') :
    Inv c s' ∧ s'.output = s.output ∧ s'.reqInv = s.reqInv ∧ s'.ratios = s.ratios ∧
      (∀ k, held s' k = held s k ++ noted s.reqInv k ds) ∧
      (∀ n, massOf (contents s') n = massOf (contents s) n + massOf (ds.map Prod.snd) n) := by
  induction ds generalizing s with
  | nil =>
    simp only [List.foldlM_nil, pure_eq_ok, Except.ok.injEq] at h
    subst h
    exact ⟨I, rfl, rfl, rfl, by simp [noted], by simp⟩
  | cons d ds ih =>
    simp only [List.foldlM_cons, bind_ok] at h
    obtain ⟨s₁, h1, h2⟩ := h
    unfold acceptOne at h1
    cases hb : Map.get? s.bufs (Map.getD s.reqInv d.1 "") with
    | none => rw [hb] at h1; cases h1
    | some b =>
      rw [hb] at h1
      simp only [bind_ok] at h1
      obtain ⟨b', p1, p2⟩ := h1
      simp only [pure_eq_ok, Except.ok.injEq] at p2
      subst p2
      obtain ⟨-, rfl⟩ := Buf.push_ok.1 p1
      have hg := getBuf_of_get? hb
      obtain ⟨j, hj, hnm⟩ := I.good.keys _ (Map.mem_keys.2 ⟨b, hb⟩)
      have hsol : ∀ m ∈ b.items ++ [d.2], Solid m := by
        intro m hm
        rcases List.mem_append.1 hm with hm | hm
        · rw [← hg] at hm; exact I.good.get _ m hm
        · rw [List.mem_singleton] at hm; subst hm; exact hd d (by simp)
      have I' : Inv c { s with
          bufs := Map.set s.bufs (Map.getD s.reqInv d.1 "") ⟨b.cap, b.items ++ [d.2]⟩ } := by
        refine ⟨I.ratios, ?_, ?_, I.outCap, I.outQty, I.outSolid⟩
        · show Good _ (Map.set s.bufs (Map.getD s.reqInv d.1 "") _)
          rw [hnm]; exact I.good.set hj hsol
        · intro k x hk
          show (getBuf (Map.set s.bufs (Map.getD s.reqInv d.1 "") _) (name k)).cap = _
          rw [getBuf_set]
          split
          · rename_i e
            have := I.caps k x hk
            rw [← e, hg] at this; exact this
          · exact I.caps k x hk
      obtain ⟨q1, q2, q3, q4, q5, q6⟩ := ih I' (fun x hx => hd x (by simp [hx])) h2
      refine ⟨q1, q2, q3, q4, ?_, ?_⟩
      · intro k
        rw [q5, noted_cons, ← List.append_assoc]
        congr 1
        show (getBuf (Map.set s.bufs (Map.getD s.reqInv d.1 "") _) (name k)).items = _
        rw [getBuf_set]
        split
        · rename_i e
          unfold held
          rw [← e, hg]
        · simp [held]
      · intro n
        rw [q6]
        simp only [contents, Mat.massOf_append, massOf_flatMap, stockMass_set, hg, List.map_cons,
          Mat.massOf_cons, Mat.massOf_nil]
        ring

theorem accept_inv {c : Cfg} {ds : List (Nat × NMat)} {s s' : State} (I : Inv c s)
    (hd : ∀ d ∈ ds, Solid d.2) (h : accept c ds s = .ok s') :
    Inv c s' ∧ s'.output = s.output ∧
      (∀ k, held s' k = held s k ++ noted s.reqInv k ds) ∧
      (∀ n, massOf (contents s') n = massOf (contents s) n + massOf (ds.map Prod.snd) n) := by
  cases ds with
  | nil =>
    simp only [accept, Except.ok.injEq] at h
    subst h
    exact ⟨I, rfl, by simp [noted], by simp⟩
  | cons d ds =>
    simp only [accept, bind_ok] at h
    obtain ⟨s₁, h1, h2⟩ := h
    simp only [pure_eq_ok, Except.ok.injEq] at h2
    subst h2
    obtain ⟨q1, q2, q3, q4, q5, q6⟩ := fold_inv I hd h1
    exact ⟨⟨q1.ratios, q1.good, q1.caps, q1.outCap, q1.outQty, q1.outSolid⟩, q2, q5, q6⟩

theorem fold_ok {c : Cfg} (hε : 0 ≤ c.eps) {ds : List (Nat × NMat)} {s : State}
    (hd : ∀ d ∈ ds, 0 ≤ qty d.2)
    (hk : ∀ d ∈ ds, ∃ k, Map.getD s.reqInv d.1 "" = name k ∧ name k ∈ Map.keys s.bufs)
    (hroom : ∀ k x, (getBuf s.bufs (name k)).cap = some x →
      totalQty (held s k) + totalQty (noted s.reqInv k ds) ≤ x) :
    ∃ s', ds.foldlM (acceptOne c) s = .ok s' := by
  induction ds generalizing s with
  | nil => exact ⟨_, rfl⟩
  | cons d ds ih =>
    obtain ⟨j, hj, hmem⟩ := hk d (by simp)
    obtain ⟨b, hb⟩ := Map.mem_keys.1 hmem
    have hg := getBuf_of_get? hb
    have hnn : ∀ k, 0 ≤ totalQty (noted s.reqInv k ds) := by
      intro k
      unfold totalQty
      apply List.sum_nonneg
      intro x hx
      obtain ⟨m, hm, rfl⟩ := List.mem_map.1 hx
      obtain ⟨d', hd', rfl⟩ := List.mem_map.1 hm
      exact hd d' (List.mem_cons_of_mem _ (List.mem_filter.1 hd').1)
    have hfit : b.fits c.eps (qty d.2) = true := by
      unfold Buf.fits Buf.space
      cases hc : b.cap with
      | none => rfl
      | some x =>
        simp only [Option.map_some, decide_eq_true_eq]
        have h1 := hroom j x (by rw [hg]; exact hc)
        rw [noted_cons, if_pos hj, totalQty_append, totalQty_cons, totalQty_nil] at h1
        have h2 := hnn j
        have h3 := le_max_right (0 : ℚ) (x - b.quantity)
        have h4 : totalQty (held s j) = b.quantity := by unfold held Buf.quantity; rw [hg]
        linarith
    have h1 : acceptOne c s d = .ok { s with
        bufs := Map.set s.bufs (name j) { b with items := b.items ++ [d.2] } } := by
      unfold acceptOne
      rw [hj, hb]
      simp only [Buf.push, hfit, if_true, ok_bind, pure_eq_ok]
    obtain ⟨s', h2⟩ := ih (s := { s with
        bufs := Map.set s.bufs (name j) { b with items := b.items ++ [d.2] } })
      (fun x hx => hd x (by simp [hx])) (by
        intro x hx
        obtain ⟨k, e1, e2⟩ := hk x (by simp [hx])
        exact ⟨k, e1, Map.mem_keys_set.2 (Or.inr e2)⟩) (by
        intro k x hx
        simp only [held, getBuf_set] at hx ⊢
        by_cases e : name j = name k
        · simp only [e, if_true] at hx ⊢
          have h' := hroom k x (by rw [← e, hg]; exact hx)
          rw [noted_cons, hj, if_pos e, totalQty_append] at h'
          unfold held at h'
          rw [← e, hg] at h'
          rw [totalQty_append]; rw [name_eq] at e; subst e
          linarith
        · simp only [e, if_false] at hx ⊢
          have h' := hroom k x hx
          rw [noted_cons, hj, if_neg e, List.nil_append] at h'
          exact h')
    exact ⟨s', by simp only [List.foldlM_cons, h1, ok_bind, h2]⟩

theorem accept_ok {c : Cfg} (hε : 0 ≤ c.eps) {ds : List (Nat × NMat)} {s : State}
    (hd : ∀ d ∈ ds, 0 ≤ qty d.2)
    (hk : ∀ d ∈ ds, ∃ k, Map.getD s.reqInv d.1 "" = name k ∧ name k ∈ Map.keys s.bufs)
    (hroom : ∀ k x, (getBuf s.bufs (name k)).cap = some x →
      totalQty (held s k) + totalQty (noted s.reqInv k ds) ≤ x) :
    ∃ s', accept c ds s = .ok s' := by
  cases ds with
  | nil => exact ⟨_, rfl⟩
  | cons d ds =>
    obtain ⟨s', h⟩ := fold_ok hε hd hk hroom
    exact ⟨{ s' with reqInv := [] }, by simp only [accept, h, ok_bind, pure_eq_ok]⟩

/-- Deliveries that answer requests are noted for the stream that asked. -/
theorem noted_eq {asks : List (Option ReqPort)} {inv : List (Nat × String)}
    (hinv : ∀ k id, id ∈ idsAt asks k → Map.getD inv id "" = name k)
    {ds : List (Nat × NMat)} (hd : ∀ d ∈ ds, ∃ k, d.1 ∈ idsAt asks k) (k : Nat) :
    noted inv k ds = answers asks k ds := by
  unfold noted answers
  congr 1
  apply List.filter_congr
  intro d hd'
  obtain ⟨j, hj⟩ := hd d hd'
  have h1 := hinv j d.1 hj
  rw [h1]
  apply Bool.decide_congr
  constructor
  · intro e; rw [name_eq] at e; rw [← e]; exact hj
  · intro hk; rw [← h1, hinv k d.1 hk]

/-! ## Steps and histories -/

/-- The stages of a step. -/
structure Stages (c : Cfg) (s : State) (i : In) (o : Out) (s' s₁ s₂ : State) : Prop where
  tick : tick c s = .ok s₁
  offered : o.offered = s₁.output.items
  demand : o.demand = demand c s₁
  asks : o.asks = (requests c i.addr s₁).1
  sells : sellLoop c i.sells (requests c i.addr s₁).2 = .ok (o.sold, s₂)
  accept : accept c i.buys s₂ = .ok s'

theorem step_stages {c : Cfg} {s s' : State} {i : In} {o : Out} (h : step c s i = .ok (o, s')) :
    ∃ s₁ s₂, Stages c s i o s' s₁ s₂ := by
  simp only [step, bind_ok] at h
  obtain ⟨s₁, h1, h2⟩ := h
  obtain ⟨⟨l, s₂⟩, h2, s₃, h3, h4⟩ := h2
  simp only [pure_eq_ok, Except.ok.injEq, Prod.mk.injEq] at h4
  obtain ⟨rfl, rfl⟩ := h4
  exact ⟨s₁, s₂, h1, rfl, rfl, rfl, h2, h3⟩

theorem step_inv {c : Cfg} (V : Valid c) {s s' : State} {i : In} {o : Out} (I : Inv c s)
    (hd : ∀ d ∈ i.buys, Solid d.2) (h : step c s i = .ok (o, s')) :
    Inv c s' ∧ ∀ n, massOf (contents s) n + massOf (i.buys.map Prod.snd) n =
      massOf (contents s') n + massOf o.sold n := by
  obtain ⟨s₁, s₂, S⟩ := step_stages h
  obtain ⟨t, -, T, I1⟩ := tick_inv V I S.tick
  obtain ⟨I2, -, m2, -⟩ := requests_inv (addr := i.addr) I1
  obtain ⟨I3, -, -, -, m3, -⟩ := sellLoop_inv V.eps I2 S.sells
  obtain ⟨I4, -, -, m4⟩ := accept_inv I3 hd S.accept
  refine ⟨I4, ?_⟩
  intro n
  have a1 := T.stock n
  have a2 := m2 n
  have a3 := m3 n
  have a4 := m4 n
  linarith

theorem run_inv {c : Cfg} (V : Valid c) {is : List In} {s s' : State} {os : List Out} (I : Inv c s)
    (hd : Substantial is) (h : run c s is = .ok (os, s')) :
    Inv c s' ∧ ∀ n, massOf (contents s) n + massOf (received is) n =
      massOf (contents s') n + massOf (sold os) n := by
  induction is generalizing s os with
  | nil =>
    simp only [run, Except.ok.injEq, Prod.mk.injEq] at h
    obtain ⟨rfl, rfl⟩ := h
    exact ⟨I, by simp [received, sold]⟩
  | cons i is ih =>
    simp only [run, bind_ok] at h
    obtain ⟨⟨o, s₁⟩, h1, ⟨os', s₂⟩, h2, h3⟩ := h
    simp only [pure_eq_ok, Except.ok.injEq, Prod.mk.injEq] at h3
    obtain ⟨rfl, rfl⟩ := h3
    obtain ⟨I1, m1⟩ := step_inv V I (hd i (by simp)) h1
    obtain ⟨I2, m2⟩ := ih I1 (fun x hx => hd x (by simp [hx])) h2
    refine ⟨I2, ?_⟩
    intro n
    have a1 := m1 n
    have a2 := m2 n
    simp only [received, sold, List.flatMap_cons, Mat.massOf_append] at a2 ⊢
    linarith

theorem history_inv {c : Cfg} (V : Valid c) {is : List In} {s : State} {os : List Out}
    (hd : Substantial is) (h : History c is os s) : Inv c s :=
  (run_inv V (enter_inv V) hd h).1

theorem contents_enter (c : Cfg) : ∀ n, massOf (contents (enter c)) n = 0 := by
  intro n
  have : ∀ x ∈ (enter c).bufs, (x : String × Buf NMat).2.items = [] := by
    have : ∀ i l bufs, (∀ x ∈ bufs, (x : String × Buf NMat).2.items = []) →
        ∀ x ∈ initBufs i l bufs, x.2.items = [] := by
      intro i l
      induction l generalizing i with
      | nil => intro bufs h; exact h
      | cons y l ih =>
        intro bufs h
        unfold initBufs
        apply ih
        split
        · exact Map.forall_set (p := fun b : Buf NMat => b.items = []) h rfl
        · exact h
    exact this 0 c.streams [] (by simp)
  have h2 : (enter c).bufs.flatMap (fun b => b.2.items) = [] := by
    rw [List.flatMap_eq_nil_iff]; exact this
  unfold contents
  rw [h2]
  simp [enter]

end Cyc.Mixer
