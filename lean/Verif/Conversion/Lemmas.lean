import Verif.Conversion.Spec

/-!
# Lemmas about `Conversion`
-/

namespace Cyc.Conversion

open Mat (massOf)

/-- What holds in every reachable state. -/
structure Inv (c : Cfg) (s : State) : Prop where
  incap : s.input.cap = some c.capacity
  outcap : s.output.cap = none
  input : Single s.input.items
  output : Single s.output.items

theorem enter_inv (c : Cfg) : Inv c (enter c) := ⟨rfl, rfl, Single.nil, Single.nil⟩

/-- What `tick` does when it moves something. -/
structure Moved (c : Cfg) (s s' : State) (t : ℚ) : Prop where
  amount : t = min (feed s) c.throughput
  pos : 0 < t
  lo : c.lo ≤ t
  feed : feed s' = feed s - t
  product : product s' = product s + t
  input : ∀ n, massOf s'.input.items n =
    massOf s.input.items n - t / Conversion.feed s * massOf s.input.items n
  output : ∀ n, massOf s'.output.items n =
    massOf s.output.items n + t / Conversion.feed s * massOf s.input.items n

theorem tick_inv {c : Cfg} {s s' : State} (I : Inv c s) (h : tick c s = .ok s') :
    Inv c s' ∧ ((feed s = 0 ∧ s' = s) ∨ 0 < feed s ∧ ∃ t, Moved c s s' t) := by
  unfold tick at h
  split at h
  · rename_i hq
    simp only [bind_ok] at h
    obtain ⟨⟨m, b⟩, hp, h⟩ := h
    obtain ⟨o, ho, h⟩ := h
    simp only [pure_eq_ok, Except.ok.injEq] at h
    subst h
    obtain ⟨e1, e2, e3, e4, e5, e6, e7, e8, e9, e10⟩ := popQty_single I.input hp
    obtain ⟨-, rfl⟩ := Buf.pushBulk_ok.1 ho
    refine ⟨⟨e1.trans I.incap, I.outcap, e8, I.output.merge (e5 ▸ e2) e6⟩, Or.inr ⟨hq, _, rfl, e2,
      e3, e7, ?_, e10, ?_⟩⟩
    · show totalQty (merge _ _) = _
      rw [totalQty_merge, e5]; rfl
    · intro n
      show massOf (merge _ _) n = _
      rw [massOf_merge, e9]; rfl
  · rename_i hq
    simp only [Except.ok.injEq] at h
    subst h
    exact ⟨I, Or.inl ⟨le_antisymm (not_lt.1 hq) I.input.nonneg, rfl⟩⟩

theorem tick_ok {c : Cfg} {s : State} (I : Inv c s) (h0 : 0 < c.throughput)
    (hlo : c.lo ≤ c.throughput) (hf : 0 < feed s → c.lo ≤ feed s) : ∃ s', tick c s = .ok s' := by
  unfold tick
  split
  · rename_i hq
    obtain ⟨m, b, hp⟩ := popQty_single_ok (lo := c.lo) I.input (lt_min hq h0) (le_min (hf hq) hlo)
      (min_le_left _ _)
    rw [hp, ok_bind]
    simp only [Buf.pushBulk, Buf.fits, Buf.space, I.outcap, Option.map_none, if_true, ok_bind,
      pure_eq_ok]
    exact ⟨_, rfl⟩
  · exact ⟨s, rfl⟩

theorem sell_inv {c : Cfg} {qs : List ℚ} {s s' : State} {l : List NMat} (I : Inv c s)
    (h : sell c qs s = .ok (l, s')) :
    Inv c s' ∧ s'.input = s.input ∧ l.map qty = qs ∧ product s' = product s - qs.sum ∧
      (∀ n, massOf s'.output.items n = massOf s.output.items n - massOf l n) ∧
      ∀ m ∈ l, SameComposition m s.output.items := by
  induction qs generalizing s l with
  | nil =>
    simp only [sell, Except.ok.injEq, Prod.mk.injEq] at h
    obtain ⟨rfl, rfl⟩ := h
    exact ⟨I, rfl, rfl, by simp, by simp, by simp⟩
  | cons q qs ih =>
    simp only [sell, bind_ok] at h
    obtain ⟨⟨m, b⟩, hp, ⟨ms, s₂⟩, hr, h⟩ := h
    simp only [pure_eq_ok, Except.ok.injEq, Prod.mk.injEq] at h
    obtain ⟨rfl, rfl⟩ := h
    obtain ⟨e1, e2, -, e4, e5, e6, e7, e8, e9, e10⟩ := popQty_single I.output hp
    obtain ⟨J, j1, j2, j3, j4, j5⟩ := ih (s := { s with output := b })
      ⟨I.incap, e1.trans I.outcap, I.input, e8⟩ hr
    have hpos : 0 < totalQty s.output.items := lt_of_lt_of_le e2 e4
    refine ⟨J, j1, by rw [List.map_cons, j2, e5], ?_, ?_, ?_⟩
    · rw [j3, List.sum_cons]
      show totalQty b.items - _ = totalQty s.output.items - _
      rw [e7]; ring
    · intro n
      rw [j4, Mat.massOf_cons, e9]
      show massOf b.items n - _ = _
      rw [e10]; ring
    · intro m' hm' n
      rcases List.mem_cons.1 hm' with rfl | hm'
      · rw [e9, e5]; field_simp
      · have hj := j5 m' hm' n
        change m'.mass n * totalQty b.items = qty m' * massOf b.items n at hj
        rw [e7, e10] at hj
        by_cases hq : totalQty s.output.items = q
        · exfalso
          -- nothing is left, so nothing more can be removed
          have hb : totalQty b.items = 0 := by rw [e7, hq, sub_self]
          have hbn : b.items = [] := by
            rcases e8 with h0 | ⟨x, hx, hx0, -⟩
            · exact h0
            · rw [hx] at hb; simp at hb; linarith
          cases qs with
          | nil =>
            simp only [sell, Except.ok.injEq, Prod.mk.injEq] at hr
            rw [← hr.1] at hm'; exact absurd hm' List.not_mem_nil
          | cons q' qs =>
            simp only [sell, bind_ok] at hr
            obtain ⟨⟨m2, b2⟩, hp2, -⟩ := hr
            obtain ⟨-, f2, -, f4, -⟩ := popQty_single (b := b) (hbn ▸ Single.nil) hp2
            rw [hb] at f4; linarith
        · have hd : totalQty s.output.items - q ≠ 0 := fun h0 => hq (by linarith)
          have hne : totalQty s.output.items ≠ 0 := ne_of_gt hpos
          have key : (m'.mass n * totalQty s.output.items - qty m' * massOf s.output.items n) *
              (totalQty s.output.items - q) = 0 := by
            have e : qty m' * (massOf s.output.items n -
                q / totalQty s.output.items * massOf s.output.items n) * totalQty s.output.items =
                qty m' * massOf s.output.items n * (totalQty s.output.items - q) := by
              field_simp
            rw [← hj] at e
            linarith
          rcases mul_eq_zero.1 key with h0 | h0
          · linarith
          · exact absurd h0 hd

theorem sell_ok {c : Cfg} {qs : List ℚ} {s : State} (I : Inv c s)
    (hq : ∀ q ∈ qs, 0 < q ∧ c.lo ≤ q) (ht : qs.sum ≤ product s) : ∃ l s', sell c qs s = .ok (l, s') := by
  induction qs generalizing s with
  | nil => exact ⟨[], s, rfl⟩
  | cons q qs ih =>
    obtain ⟨h0, h1⟩ := hq q (by simp)
    have hs : 0 ≤ qs.sum := List.sum_nonneg fun x hx => le_of_lt (hq x (by simp [hx])).1
    rw [List.sum_cons] at ht
    obtain ⟨m, b, hp⟩ := popQty_single_ok (lo := c.lo) (b := s.output) I.output h0 h1 (by
      unfold product at ht; linarith)
    obtain ⟨e1, -, -, -, -, -, e7, e8, -⟩ := popQty_single I.output hp
    obtain ⟨l, s', hr⟩ := ih (s := { s with output := b })
      ⟨I.incap, e1.trans I.outcap, I.input, e8⟩ (fun x hx => hq x (by simp [hx])) (by
        show _ ≤ totalQty b.items
        rw [e7]; unfold product at ht; linarith)
    exact ⟨m :: l, s', by simp only [sell, hp, ok_bind, hr, pure_eq_ok]⟩

theorem accept_inv {c : Cfg} {ms : List NMat} {s s' : State} (I : Inv c s)
    (hm : ∀ m ∈ ms, Solid m) (h : accept c ms s = .ok s') :
    Inv c s' ∧ s'.output = s.output ∧ feed s' = feed s + totalQty ms ∧
      ∀ n, massOf s'.input.items n = massOf s.input.items n + massOf ms n := by
  induction ms generalizing s with
  | nil =>
    simp only [accept, Except.ok.injEq] at h
    subst h
    exact ⟨I, rfl, by simp, by simp⟩
  | cons m ms ih =>
    simp only [accept, bind_ok] at h
    obtain ⟨b, hb, h⟩ := h
    obtain ⟨-, rfl⟩ := Buf.pushBulk_ok.1 hb
    obtain ⟨h0, h1⟩ := hm m (by simp)
    obtain ⟨J, j1, j2, j3⟩ := ih
      (s := { s with input := { s.input with items := merge s.input.items m } })
      ⟨I.incap, I.outcap, I.input.merge h0 h1, I.output⟩ (fun x hx => hm x (by simp [hx])) h
    refine ⟨J, j1, ?_, ?_⟩
    · rw [j2, totalQty_cons]
      show totalQty (merge _ _) + _ = totalQty s.input.items + _
      rw [totalQty_merge]; ring
    · intro n
      rw [j3, Mat.massOf_cons]
      show massOf (merge _ _) n + _ = massOf s.input.items n + _
      rw [massOf_merge]; ring

theorem accept_ok {c : Cfg} {ms : List NMat} {s : State} (I : Inv c s) (he : 0 ≤ c.eps)
    (hm : ∀ m ∈ ms, Solid m) (ht : feed s + totalQty ms ≤ c.capacity) :
    ∃ s', accept c ms s = .ok s' := by
  induction ms generalizing s with
  | nil => exact ⟨s, rfl⟩
  | cons m ms ih =>
    obtain ⟨h0, h1⟩ := hm m (by simp)
    have hs : 0 ≤ totalQty ms := AllNonneg.total_nonneg fun x hx => (hm x (by simp [hx])).2
    rw [totalQty_cons] at ht
    have hfit : s.input.fits c.eps (qty m) = true := by
      unfold Buf.fits Buf.space
      rw [I.incap]
      simp only [Option.map_some, decide_eq_true_eq]
      have : c.capacity - s.input.quantity ≤ max 0 (c.capacity - s.input.quantity) := le_max_right _ _
      unfold feed at ht; unfold Buf.quantity at this ⊢; linarith
    obtain ⟨s', hr⟩ := ih (s := { s with input := { s.input with items := merge s.input.items m } })
      ⟨I.incap, I.outcap, I.input.merge h0 h1, I.output⟩ (fun x hx => hm x (by simp [hx])) (by
        show totalQty (merge _ _) + _ ≤ _
        rw [totalQty_merge]; unfold feed at ht; linarith)
    exact ⟨s', by simp only [accept, Buf.pushBulk_ok.2 ⟨hfit, rfl⟩, ok_bind, hr]⟩

/-- The bids, computed directly. -/
theorem bidLoop_eq {s : State} {m : NMat} (hp : peek s.output = .ok m) (rs : List Req) :
    bidLoop s rs = .ok ((rs.filter fun r => decide (0 < min (product s) r.qty)).map fun r =>
      ⟨r.id, untracked (min (product s) r.qty) m⟩) := by
  induction rs with
  | nil => rfl
  | cons r rs ih =>
    unfold bidLoop
    rw [ih]
    unfold bidOne
    change ((if min (product s) r.qty > 0 then _ else _) >>= _) = _
    by_cases h : 0 < min (product s) r.qty
    · rw [if_pos h, hp]
      simp only [List.filter_cons, h, decide_true, if_true]
      rfl
    · rw [if_neg h]
      simp only [List.filter_cons, h, decide_false]
      rfl

theorem bids_eq {c : Cfg} {s : State} (I : Inv c s) (rs : List Req) :
    (product s = 0 ∧ bids c rs s = .ok none) ∨
      ∃ m, s.output.items = [m] ∧ 0 < product s ∧ bids c rs s = .ok (some ⟨((rs.filter fun r =>
        decide (r.commod = c.outcommod)).filter fun r => decide (0 < min (product s) r.qty)).map
          fun r => ⟨r.id, untracked (min (product s) r.qty) m⟩, product s⟩) := by
  rcases I.output with h | ⟨m, h, h0, -⟩
  · left
    refine ⟨by unfold product; rw [h]; simp, ?_⟩
    unfold bids
    rw [if_pos]
    unfold Buf.quantity; rw [h]; simp
  · right
    have hq : s.output.quantity = qty m := by unfold Buf.quantity; rw [h]; simp
    refine ⟨m, h, by unfold product; rw [h]; simpa using h0, ?_⟩
    unfold bids
    rw [if_neg (by rw [hq]; exact not_le.2 h0),
      bidLoop_eq (m := m) (by unfold peek; rw [h])]
    rfl

theorem bids_ok {c : Cfg} {s : State} (I : Inv c s) (rs : List Req) : ∃ b, bids c rs s = .ok b := by
  rcases bids_eq I rs with ⟨-, h⟩ | ⟨m, -, -, h⟩ <;> exact ⟨_, h⟩

/-- The stages of a step. -/
structure Stages (c : Cfg) (s : State) (i : In) (o : Out) (s' s₁ s₂ : State) : Prop where
  tick : tick c s = .ok s₁
  asks : o.asks = requests c s₁
  bids : bids c i.reqs s₁ = .ok o.bids
  sell : sell c i.sells s₁ = .ok (o.sold, s₂)
  accept : accept c i.buys s₂ = .ok s'

theorem step_stages {c : Cfg} {s s' : State} {i : In} {o : Out} (h : step c s i = .ok (o, s')) :
    ∃ s₁ s₂, Stages c s i o s' s₁ s₂ := by
  simp only [step, bind_ok] at h
  obtain ⟨s₁, h1, b, h2, ⟨l, s₂⟩, h3, s₃, h4, h⟩ := h
  simp only [pure_eq_ok, Except.ok.injEq, Prod.mk.injEq] at h
  obtain ⟨rfl, rfl⟩ := h
  exact ⟨s₁, s₂, h1, rfl, h2, h3, h4⟩

theorem step_inv {c : Cfg} {s s' : State} {i : In} {o : Out} (I : Inv c s)
    (hm : ∀ m ∈ i.buys, Solid m) (h : step c s i = .ok (o, s')) : Inv c s' := by
  obtain ⟨s₁, s₂, S⟩ := step_stages h
  exact (accept_inv (sell_inv (tick_inv I S.tick).1 S.sell).1 hm S.accept).1

theorem run_inv {c : Cfg} {is : List In} {s s' : State} {os : List Out} (I : Inv c s)
    (hm : Substantial is) (h : run c s is = .ok (os, s')) : Inv c s' := by
  induction is generalizing s os with
  | nil =>
    simp only [run, Except.ok.injEq, Prod.mk.injEq] at h
    exact h.2 ▸ I
  | cons i is ih =>
    simp only [run, bind_ok] at h
    obtain ⟨⟨o, s₁⟩, h1, ⟨os, s₂⟩, h2, h⟩ := h
    simp only [pure_eq_ok, Except.ok.injEq, Prod.mk.injEq] at h
    obtain ⟨rfl, rfl⟩ := h
    exact ih (step_inv I (hm i (by simp)) h1) (fun x hx => hm x (by simp [hx])) h2

theorem history_inv {c : Cfg} {is : List In} {os : List Out} {s : State} (h : History c is os s)
    (hm : Substantial is) : Inv c s := run_inv (enter_inv c) hm h

end Cyc.Conversion
