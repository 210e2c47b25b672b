import Verif.Storage.Spec

/-! # What each operation of a storage facility does -/

namespace Cyc

variable {ν : Type}

theorem popEps_inv {lo ε : ℚ} {b b' : Buf (Mat ν)} {q : ℚ} {m : Mat ν} (hl : AllPos b.items)
    (hε : 0 ≤ ε) (h : b.popEps lo ε q = .ok (m, b')) :
    0 < q ∧ b' = { b with items := after q b.items } ∧ qty m + totalQty b'.items = b.quantity ∧
      (∀ [DecidableEq ν] (n : ν), m.mass n = Mat.massOf (upto q b.items) n) ∧
      (∀ e ∈ m.entries, ∃ m' ∈ b.items, ∃ e' ∈ m'.entries, e'.1 = e.1) := by
  by_cases hle : q ≤ b.quantity
  · have h0 : 0 < q ∧ (lo ≤ q ∨ b.quantity ≤ q) := by
      unfold Buf.popEps at h
      split at h
      · cases h
      · split at h
        · split at h
          · cases h
          · rename_i h1 h2 h3
            have := hl.total_pos h3
            exact ⟨lt_of_lt_of_le this h2, Or.inr h2⟩
        · have := popQty_inv h
          exact ⟨this.1, Or.inl this.2.1⟩
    obtain ⟨m', h1, h2, h3, h4⟩ := popEps_ok hl hε h0.1 h0.2 hle
    rw [h1] at h
    cases h
    refine ⟨h0.1, rfl, ?_, h3, h4⟩
    simp only [totalQty_after hl h0.1.le hle, h2, Buf.quantity]; ring
  · have hlt := not_le.1 hle
    unfold Buf.popEps at h
    split at h
    · cases h
    · rw [if_pos hlt.le] at h
      split at h
      · cases h
      · rename_i hne
        cases h
        have hp : 0 < b.quantity := hl.total_pos hne
        refine ⟨by linarith, ?_, ?_, ?_, ?_⟩
        · rw [after_all hl hlt.le]
        · simp [Buf.quantity]
        · intro _ n; rw [Mat.mass_squash, upto_all hl hlt.le]
        · intro e he
          simp only [Mat.squash, List.mem_flatMap] at he
          obtain ⟨x, hx, he⟩ := he
          exact ⟨x, hx, e, he, rfl⟩

theorem fits_none {ρ : Type} [HasQty ρ] {ε q : ℚ} {b : Buf ρ} (h : b.cap = none) :
    b.fits ε q = true := by
  simp [Buf.fits, Buf.space, h]

namespace Storage

/-- The four buffers have no limit of their own. -/
structure Open (s : State ν) : Prop where
  inventory : s.inventory.cap = none
  processing : s.processing.cap = none
  ready : s.ready.cap = none
  stocks : s.stocks.cap = none

theorem sellLoop_inv {c : Cfg} (hε : 0 ≤ c.eps) {qs : List ℚ} {s s' : State ν}
    {ms : List (Mat ν)} (hp : AllPos s.stocks.items) (h : sellLoop c qs s = .ok (ms, s')) :
    ∃ l, s' = { s with stocks := { s.stocks with items := l } } ∧ AllPos l ∧
      totalQty ms + totalQty l = totalQty s.stocks.items ∧
      (∀ [DecidableEq ν] (n : ν),
        Mat.massOf ms n + Mat.massOf l n = Mat.massOf s.stocks.items n) ∧
      (∀ m ∈ ms ++ l, ∀ e ∈ m.entries, ∃ m' ∈ s.stocks.items, ∃ e' ∈ m'.entries, e'.1 = e.1) := by
  induction qs generalizing s ms with
  | nil =>
    simp only [sellLoop, Except.ok.injEq, Prod.mk.injEq] at h
    obtain ⟨rfl, rfl⟩ := h
    refine ⟨s.stocks.items, rfl, hp, by simp, by simp, ?_⟩
    intro m hm e he
    exact ⟨m, by simpa using hm, e, he, rfl⟩
  | cons q qs ih =>
    simp only [sellLoop, bind_ok] at h
    obtain ⟨⟨m, st⟩, h1, ⟨ms', s''⟩, h2, h3⟩ := h
    simp only [pure_eq_ok, Except.ok.injEq, Prod.mk.injEq] at h3
    obtain ⟨rfl, rfl⟩ := h3
    obtain ⟨p0, rfl, p2, p3, p4⟩ := popEps_inv hp hε h1
    have hp' := allPos_after (q := q) hp p0.le
    obtain ⟨l, e1, e2, e3, e4, e5⟩ := ih hp' h2
    refine ⟨l, e1, e2, ?_, ?_, ?_⟩
    · simp only [Buf.quantity] at p2 e3
      rw [totalQty_cons]; linarith
    · intro _ n
      have h1 := e4 n
      have h2 := p3 n
      have h3 := massOf_after (q := q) (l := s.stocks.items) n
      simp only at h1
      rw [Mat.massOf_cons]; linarith
    · intro x hx e he
      rw [List.cons_append] at hx
      rcases List.mem_cons.1 hx with rfl | hx
      · exact p4 e he
      · obtain ⟨m', hm', e', he', hh⟩ := e5 x hx e he
        obtain ⟨m'', hm'', e'', he'', hh'⟩ := mem_after hm' he'
        exact ⟨m'', hm'', e'', he'', hh'.trans hh⟩

theorem sellLoop_ok {c : Cfg} (hε : 0 ≤ c.eps) {qs : List ℚ} {s : State ν}
    (hp : AllPos s.stocks.items) (hq : ∀ q ∈ qs, 0 < q ∧ c.lo ≤ q)
    (ht : qs.sum ≤ totalQty s.stocks.items) :
    ∃ ms s', sellLoop c qs s = .ok (ms, s') ∧ ms.map qty = qs := by
  induction qs generalizing s with
  | nil => exact ⟨[], s, rfl, rfl⟩
  | cons q qs ih =>
    have h1 := hq q (by simp)
    have hs : 0 ≤ qs.sum := List.sum_nonneg fun x hx => (hq x (by simp [hx])).1.le
    rw [List.sum_cons] at ht
    obtain ⟨m, e1, e2, -, -⟩ := popEps_ok (lo := c.lo) hp hε h1.1 (Or.inl h1.2)
      (show q ≤ s.stocks.quantity by simp only [Buf.quantity]; linarith)
    obtain ⟨ms, s', e3, e4⟩ := ih
      (s := { s with stocks := { s.stocks with items := after q s.stocks.items } })
      (allPos_after hp h1.1.le) (fun x hx => hq x (by simp [hx]))
      (by simp only; rw [totalQty_after hp h1.1.le (by linarith)]; linarith)
    refine ⟨m :: ms, s', ?_, by simp [e2, e4]⟩
    simp [sellLoop, e1, e3]

theorem addMat_fold {c : Cfg} {ms : List (Mat ν)} {s : State ν} (ho : s.inventory.cap = none) :
    ms.foldlM (addMat c) s =
      .ok { s with inventory := { s.inventory with items := s.inventory.items ++ ms } } := by
  induction ms generalizing s with
  | nil => simp
  | cons m ms ih =>
    rw [List.foldlM_cons]
    have : addMat c s m =
        .ok { s with inventory := { s.inventory with items := s.inventory.items ++ [m] } } := by
      simp [addMat, Buf.push, fits_none ho]
    rw [this, ok_bind, ih (by simpa using ho)]
    simp

theorem beginProcessing_eq {c : Cfg} {n : Nat} {s : State ν} (ho : s.processing.cap = none)
    (hn : n = s.inventory.count) : beginProcessing c n s = .ok { s with
      inventory := { s.inventory with items := [] }
      processing := { s.processing with items := s.processing.items ++ s.inventory.items }
      entryTimes := s.entryTimes ++ s.inventory.items.map fun _ => s.time } := by
  subst hn
  obtain ⟨t, ⟨ic, l⟩, p, r, st, et, pr⟩ := s
  simp only [Buf.count] at ho ⊢
  induction l generalizing p et with
  | nil => simp [beginProcessing]
  | cons m l ih =>
    have hp : p.push c.eps m = .ok { p with items := p.items ++ [m] } := by
      simp [Buf.push, fits_none ho]
    simp only [List.length_cons, beginProcessing, Buf.count, gt_iff_lt, Nat.zero_lt_succ, if_true,
      Buf.pop, ok_bind, hp]
    rw [ih (p := { p with items := p.items ++ [m] }) (ho := ho)]
    simp

/-- `readyCount` on a list of times in ascending order. -/
theorem readyCount_eq {α : Type} {t : ℤ} {P : List (Nat × α)}
    (hs : P.Pairwise fun a b => a.1 ≤ b.1) :
    (readyCount t (P.map Prod.fst)).2 = (P.filter fun p => ¬ (p.1 : ℤ) ≤ t).map Prod.fst ∧
    P.take (readyCount t (P.map Prod.fst)).1 = P.filter (fun p => (p.1 : ℤ) ≤ t) ∧
    P.drop (readyCount t (P.map Prod.fst)).1 = P.filter (fun p => ¬ (p.1 : ℤ) ≤ t) ∧
    (readyCount t (P.map Prod.fst)).1 ≤ P.length := by
  induction P with
  | nil => simp [readyCount]
  | cons p P ih =>
    have h1 := List.pairwise_cons.1 hs
    obtain ⟨i1, i2, i3, i4⟩ := ih h1.2
    simp only [List.map_cons, readyCount]
    by_cases hp : (p.1 : ℤ) ≤ t
    · simp only [hp, if_true, List.take_succ_cons, List.drop_succ_cons, List.filter_cons,
        decide_true, not_true_eq_false, decide_false, List.length_cons]
      exact ⟨i1, by rw [i2], i3, by omega⟩
    · have hall : ∀ x ∈ P, ¬ (x.1 : ℤ) ≤ t := fun x hx => by
        have := h1.1 x hx; omega
      have f1 : P.filter (fun p => decide ((p.1 : ℤ) ≤ t)) = [] := by
        rw [List.filter_eq_nil_iff]; intro x hx; simpa using hall x hx
      have f2 : P.filter (fun p => decide (¬ (p.1 : ℤ) ≤ t)) = P := by
        rw [List.filter_eq_self]; intro x hx; simpa using hall x hx
      simp only [hp, if_false, List.take_zero, List.drop_zero, List.filter_cons, decide_false,
        not_false_eq_true, decide_true, if_true, f1, f2, List.map_cons, List.length_cons]
      simp

theorem readyMatl_eq {c : Cfg} {t : ℤ} {s : State ν} {P : List (Nat × Mat ν)}
    (ho : s.ready.cap = none) (hs : P.Pairwise fun a b => a.1 ≤ b.1)
    (hp : s.processing.items = P.map Prod.snd) (he : s.entryTimes = P.map Prod.fst) :
    readyMatl c t s = .ok { s with
      processing := { s.processing with
        items := (P.filter fun p => ¬ (p.1 : ℤ) ≤ t).map Prod.snd }
      ready := { s.ready with
        items := s.ready.items ++ (P.filter fun p => (p.1 : ℤ) ≤ t).map Prod.snd }
      entryTimes := (P.filter fun p => ¬ (p.1 : ℤ) ≤ t).map Prod.fst } := by
  obtain ⟨h1, h2, h3, h4⟩ := readyCount_eq (t := t) hs
  unfold readyMatl
  rw [he]
  have hpop : s.processing.popN (readyCount t (P.map Prod.fst)).1 =
      .ok ((P.filter fun p => (p.1 : ℤ) ≤ t).map Prod.snd,
        { s.processing with items := (P.filter fun p => ¬ (p.1 : ℤ) ≤ t).map Prod.snd }) := by
    unfold Buf.popN
    rw [if_pos (by rw [hp]; simpa using h4), hp, ← List.map_take, ← List.map_drop, h2, h3]
  simp only [hpop, ok_bind, Buf.pushAll, fits_none ho, if_true, pure_eq_ok, h1]

/-- `tockReady` moves what has been held for the residence time. -/
theorem tockReady_eq {c : Cfg} {s : State ν} {P : List (Nat × Mat ν)}
    (ho : s.ready.cap = none) (hs : P.Pairwise fun a b => a.1 ≤ b.1)
    (hp : s.processing.items = P.map Prod.snd) (he : s.entryTimes = P.map Prod.fst) :
    tockReady c s = .ok { s with
      processing := { s.processing with
        items := (P.filter fun p => s.time + 1 ≤ p.1 + c.residence).map Prod.snd }
      ready := { s.ready with
        items := s.ready.items ++
          (P.filter fun p => p.1 + c.residence < s.time + 1).map Prod.snd }
      entryTimes := (P.filter fun p => s.time + 1 ≤ p.1 + c.residence).map Prod.fst } := by
  have f1 : (P.filter fun p => decide ((p.1 : ℤ) ≤ readyTime c s)) =
      P.filter fun p => decide (p.1 + c.residence < s.time + 1) := by
    apply List.filter_congr; intro p _; rw [decide_eq_decide]; simp only [readyTime]; omega
  have f2 : (P.filter fun p => decide (¬ (p.1 : ℤ) ≤ readyTime c s)) =
      P.filter fun p => decide (s.time + 1 ≤ p.1 + c.residence) := by
    apply List.filter_congr; intro p _; rw [decide_eq_decide]; simp only [readyTime]; omega
  unfold tockReady
  split
  · rw [readyMatl_eq ho hs hp he, f1, f2]
  · rename_i hc
    have hlt : readyTime c s < 0 := by
      by_contra hh; exact hc (Or.inl (by omega))
    have g1 : (P.filter fun p => decide (p.1 + c.residence < s.time + 1)) = [] := by
      rw [List.filter_eq_nil_iff]; intro p _; simp only [readyTime] at hlt; simp; omega
    have g2 : (P.filter fun p => decide (s.time + 1 ≤ p.1 + c.residence)) = P := by
      rw [List.filter_eq_self]; intro p _; simp only [readyTime] at hlt; simp; omega
    rw [g1, g2, ← hp, ← he]
    simp

@[simp] theorem headQty_cons (m : Mat ν) (l : List (Mat ν)) : headQty (m :: l) = qty m := rfl

/-- The discrete loop moves the longest prefix that fits. -/
theorem discreteLoop_eq {c : Cfg} {maxPop : ℚ} {n : Nat} {x : ℚ} {s : State ν}
    (ho : s.stocks.cap = none) (hn : s.ready.items.length ≤ n) :
    ∃ k ≤ s.ready.items.length,
      discreteLoop c maxPop n (x + headQty s.ready.items) s =
        .ok { s with
          ready := { s.ready with items := s.ready.items.drop k }
          stocks := { s.stocks with items := s.stocks.items ++ s.ready.items.take k } } ∧
      (0 < k → x + totalQty (s.ready.items.take k) ≤ maxPop) ∧
      (k < s.ready.items.length → maxPop < x + totalQty (s.ready.items.take (k + 1))) := by
  obtain ⟨t, iv, p, ⟨rc, l⟩, st, et, pr⟩ := s
  simp only at ho hn ⊢
  induction n generalizing x l st with
  | zero =>
    have : l = [] := by simpa using hn
    subst this
    exact ⟨0, by simp, by simp [discreteLoop], by simp, by simp⟩
  | succ n ih =>
    cases l with
    | nil => exact ⟨0, by simp, by simp [discreteLoop, Buf.empty], by simp, by simp⟩
    | cons m l =>
      simp only [discreteLoop, Buf.empty, List.isEmpty_cons, headQty_cons]
      by_cases hc : x + qty m ≤ maxPop
      · have hp : st.push c.eps m = .ok { st with items := st.items ++ [m] } := by
          simp [Buf.push, fits_none ho]
        obtain ⟨k, h1, h2, h3, h4⟩ := ih (x := x + qty m) (l := l)
          (st := { st with items := st.items ++ [m] }) ho (by simpa using hn)
        refine ⟨k + 1, by simpa using h1, ?_, ?_, ?_⟩
        · simp only [hc, true_and, if_true, Buf.pop, ok_bind, hp]
          rw [h2]; simp
        · intro _
          rcases Nat.eq_zero_or_pos k with rfl | hk
          · simpa using hc
          · have := h3 hk
            simp only [List.take_succ_cons, totalQty_cons]; linarith
        · intro hk
          have := h4 (by simpa using hk)
          rw [List.take_succ_cons, totalQty_cons]; linarith
      · refine ⟨0, by simp, by simp [hc], by simp, ?_⟩
        intro _
        simpa using not_le.1 hc

theorem after_take {l : List (Mat ν)} (hl : AllPos l) (k : Nat) :
    after (totalQty (l.take k)) l = l.drop k ∧
    (∀ [DecidableEq ν] (n : ν),
      Mat.massOf (upto (totalQty (l.take k)) l) n = Mat.massOf (l.take k) n) := by
  have h1 : l = l.take k ++ l.drop k := (List.take_append_drop k l).symm
  have hp : AllPos (l.take k ++ l.drop k) := by rwa [← h1]
  have h2 := (AllPos.append.1 hp).1
  have e : after (totalQty (l.take k)) l = l.drop k := by
    conv_lhs => rw [h1]
    rw [List.take_append_drop]
    have := after_append (q := totalQty (l.take k)) hp h2.total_nonneg le_rfl
    rw [after_all h2 le_rfl, List.nil_append, List.take_append_drop] at this
    exact this
  refine ⟨e, ?_⟩
  intro _ n
  have h3 := massOf_after (q := totalQty (l.take k)) (l := l) n
  have h4 : Mat.massOf l n = Mat.massOf (l.take k) n + Mat.massOf (l.drop k) n := by
    rw [← Mat.massOf_append, ← h1]
  rw [e] at h3; linarith

/-- What `ProcessMat_` moves from `ready` to `stocks`. -/
structure Moved (c : Cfg) (cap : ℚ) (ready rel : List (Mat ν)) : Prop where
  pos : AllPos rel
  le : totalQty rel ≤ totalQty ready
  mass : ∀ [DecidableEq ν] (n : ν),
    Mat.massOf rel n = Mat.massOf (upto (totalQty rel) ready) n
  label : ∀ m ∈ rel, ∀ e ∈ m.entries, ∃ m' ∈ ready, ∃ e' ∈ m'.entries, e'.1 = e.1
  limit : 0 ≤ cap → totalQty rel ≤ cap
  all : totalQty ready ≤ cap → totalQty rel = totalQty ready
  continuous : c.discrete = false → totalQty rel = max 0 (min cap (totalQty ready))
  discrete : c.discrete = true → ∃ k ≤ ready.length, rel = ready.take k ∧
    after (totalQty rel) ready = ready.drop k ∧
    (k < ready.length → cap < totalQty (ready.take (k + 1)))

theorem moved_nil {c : Cfg} {cap : ℚ} : Moved c cap ([] : List (Mat ν)) [] where
  pos := by simp [AllPos]
  le := le_rfl
  mass := by simp [upto]
  label := by simp
  limit := by simp
  all := by simp
  continuous := by intro _; simp
  discrete := by intro _; exact ⟨0, by simp, by simp, by simp [after], by simp⟩

theorem moved_take {c : Cfg} (hd : c.discrete = true) {cap : ℚ} {l : List (Mat ν)} {k : Nat}
    (hl : AllPos l) (hk : k ≤ l.length) (hcap : 0 < k → totalQty (l.take k) ≤ cap)
    (hmax : k < l.length → cap < totalQty (l.take (k + 1))) : Moved c cap l (l.take k) := by
  have hsplit : totalQty l = totalQty (l.take k) + totalQty (l.drop k) := by
    rw [← totalQty_append, List.take_append_drop]
  have hp2 : AllPos (l.drop k) := fun m hm => hl m (List.mem_of_mem_drop hm)
  refine ⟨fun m hm => hl m (List.mem_of_mem_take hm), ?_, ?_, ?_, ?_, ?_, ?_, ?_⟩
  · have := hp2.total_nonneg; linarith
  · intro _ n; exact ((after_take hl k).2 n).symm
  · intro m hm e he; exact ⟨m, List.mem_of_mem_take hm, e, he, rfl⟩
  · intro h0
    rcases Nat.eq_zero_or_pos k with rfl | hk'
    · simpa using h0
    · exact hcap hk'
  · intro hle
    by_cases hk' : k < l.length
    · have h1 := hmax hk'
      have h3 : totalQty l = totalQty (l.take (k + 1)) + totalQty (l.drop (k + 1)) := by
        rw [← totalQty_append, List.take_append_drop]
      have h4 : AllPos (l.drop (k + 1)) := fun m hm => hl m (List.mem_of_mem_drop hm)
      have := h4.total_nonneg
      linarith
    · have : k = l.length := by omega
      rw [this, List.take_length]
  · intro h; rw [hd] at h; cases h
  · intro _; exact ⟨k, hk, rfl, (after_take hl k).1, hmax⟩

theorem processMat_inv {c : Cfg} {cap : ℚ} {s s' : State ν} (hε : 0 ≤ c.eps)
    (ho : s.stocks.cap = none) (hl : AllPos s.ready.items) (h : processMat c cap s = .ok s') :
    ∃ rel, Moved c cap s.ready.items rel ∧ s' = { s with
      ready := { s.ready with items := after (totalQty rel) s.ready.items }
      stocks := { s.stocks with items := s.stocks.items ++ rel } } := by
  obtain ⟨t, iv, p, ⟨rc, l⟩, st, et, pr⟩ := s
  simp only at ho hl ⊢
  cases l with
  | nil =>
    simp only [processMat, Except.ok.injEq] at h
    subst h
    exact ⟨[], moved_nil, by simp [after]⟩
  | cons m l =>
    simp only [processMat, Buf.quantity] at h
    by_cases hd : c.discrete = true
    · rw [if_pos hd] at h
      have key : ∃ k ≤ (m :: l).length, (.ok s' : R (State ν)) = (.ok ⟨t, iv, p,
            ⟨rc, (m :: l).drop k⟩, ⟨st.cap, st.items ++ (m :: l).take k⟩, et, pr⟩ : R (State ν)) ∧
          (0 < k → totalQty ((m :: l).take k) ≤ cap) ∧
          (k < (m :: l).length → cap < totalQty ((m :: l).take (k + 1))) := by
        by_cases hm : min cap (totalQty (m :: l)) = totalQty (m :: l)
        · simp only [hm, if_true] at h
          refine ⟨(m :: l).length, le_rfl, ?_, ?_, fun h => absurd h (lt_irrefl _)⟩
          · rw [← h]
            simp [Buf.popN, Buf.count, Buf.pushAll, fits_none ho]
          · intro _; rw [List.take_length]; exact min_eq_right_iff.1 hm
        · simp only [hm, if_false] at h
          have hmin : min cap (totalQty (m :: l)) = cap := by
            rcases min_choice cap (totalQty (m :: l)) with h | h
            · exact h
            · exact absurd h hm
          rw [hmin] at h
          obtain ⟨k, h1, h2, h3, h4⟩ := discreteLoop_eq (c := c) (maxPop := cap)
            (n := (m :: l).length) (x := 0)
            (s := ⟨t, iv, p, ⟨rc, m :: l⟩, st, et, pr⟩) ho le_rfl
          simp only [zero_add] at h2 h3 h4
          refine ⟨k, h1, ?_, h3, h4⟩
          rw [← h, ← h2]; rfl
      obtain ⟨k, hk, heq, hcap, hmax⟩ := key
      refine ⟨(m :: l).take k, moved_take hd hl hk hcap hmax, ?_⟩
      rw [(after_take hl k).1]
      simpa using heq
    · have hd' : c.discrete = false := by simpa using hd
      rw [if_neg hd] at h
      simp only [bind_ok] at h
      obtain ⟨⟨x, rd⟩, h1, h⟩ := h
      obtain ⟨p0, p1, p2, p3, p4⟩ := popEps_inv (b := ⟨rc, m :: l⟩) hl hε h1
      have hp : st.push c.eps x = .ok { st with items := st.items ++ [x] } := by
        simp [Buf.push, fits_none ho]
      simp only [hp, pure_eq_ok, Except.ok.injEq] at h
      obtain ⟨_, rfl, rfl⟩ := h
      have hq : qty x = min cap (totalQty (m :: l)) := by
        have := totalQty_after hl p0.le (min_le_right cap (totalQty (m :: l)))
        rw [p1] at p2
        simp only [Buf.quantity] at p2
        linarith
      have ht : totalQty [x] = min cap (totalQty (m :: l)) := by simp [hq]
      refine ⟨[x], ⟨?_, ?_, ?_, ?_, ?_, ?_, ?_, ?_⟩, ?_⟩
      · intro y hy
        rw [List.mem_singleton] at hy; subst hy; rw [hq]; exact p0
      · rw [ht]; exact min_le_right _ _
      · intro _ n
        rw [ht]
        simpa using p3 n
      · intro y hy
        rw [List.mem_singleton] at hy; subst hy; exact p4
      · intro _; rw [ht]; exact min_le_left _ _
      · intro hle; rw [ht]; exact min_eq_right hle
      · intro _; rw [ht, max_eq_right p0.le]
      · intro hh; rw [hd'] at hh; cases hh
      · rw [ht, p1]

theorem processMat_ok {c : Cfg} {cap : ℚ} {s : State ν} (hε : 0 ≤ c.eps)
    (ho : s.stocks.cap = none) (hl : AllPos s.ready.items)
    (hc : c.discrete = true ∨ (0 < cap ∧ c.lo ≤ cap)) : ∃ s', processMat c cap s = .ok s' := by
  obtain ⟨t, iv, p, ⟨rc, l⟩, st, et, pr⟩ := s
  simp only at ho hl ⊢
  cases l with
  | nil => exact ⟨_, rfl⟩
  | cons m l =>
    simp only [processMat, Buf.quantity]
    by_cases hd : c.discrete = true
    · rw [if_pos hd]
      by_cases hm : min cap (totalQty (m :: l)) = totalQty (m :: l)
      · simp only [hm, if_true]
        exact ⟨_, by simp [Buf.popN, Buf.count, Buf.pushAll, fits_none ho]; rfl⟩
      · simp only [hm, if_false]
        obtain ⟨k, h1, h2, -⟩ := discreteLoop_eq (c := c) (maxPop := min cap (totalQty (m :: l)))
            (n := (m :: l).length) (x := 0)
            (s := ⟨t, iv, p, ⟨rc, m :: l⟩, st, et, pr⟩) ho le_rfl
        simp only [zero_add] at h2
        exact ⟨_, h2⟩
    · rw [if_neg hd]
      have hc' : 0 < cap ∧ c.lo ≤ cap := by tauto
      have hpos := hl.total_pos (by simp)
      obtain ⟨x, h1, -⟩ := popEps_ok (lo := c.lo) (b := ⟨rc, m :: l⟩)
        (q := min cap (totalQty (m :: l))) hl hε
        (lt_min hc'.1 hpos)
        (by
          rcases min_choice cap (totalQty (m :: l)) with h | h
          · left; rw [h]; exact hc'.2
          · right; rw [h]; exact le_rfl)
        (min_le_right _ _)
      exact ⟨_, by rw [h1]; simp [Buf.push, fits_none ho]; rfl⟩

end Storage
end Cyc
