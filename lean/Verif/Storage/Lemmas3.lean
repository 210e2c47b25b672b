import Verif.Storage.Lemmas2

/-! # Whole histories of a storage facility -/

namespace Cyc.Storage

variable {ν : Type}

theorem run_snoc {c : Cfg} {s s' : State ν} {is : List (In ν)} {i : In ν} {os' : List (Out ν)} :
    run c s (is ++ [i]) = .ok (os', s') ↔
      ∃ os o s₁, os' = os ++ [o] ∧ run c s is = .ok (os, s₁) ∧ step c s₁ i = .ok (o, s') := by
  induction is generalizing s os' with
  | nil =>
    simp only [List.nil_append, run, bind_ok]
    constructor
    · rintro ⟨⟨o, s1⟩, h1, ⟨os, s2⟩, h2, h3⟩
      simp only [pure_eq_ok, Except.ok.injEq, Prod.mk.injEq] at h2 h3
      obtain ⟨rfl, rfl⟩ := h2
      obtain ⟨rfl, rfl⟩ := h3
      exact ⟨[], o, s, rfl, rfl, h1⟩
    · rintro ⟨os, o, s1, rfl, h1, h2⟩
      simp only [Except.ok.injEq, Prod.mk.injEq] at h1
      obtain ⟨rfl, rfl⟩ := h1
      exact ⟨(o, s'), h2, ([], s'), rfl, rfl⟩
  | cons j is ih =>
    simp only [List.cons_append, run, bind_ok]
    constructor
    · rintro ⟨⟨o, s1⟩, h1, ⟨os, s2⟩, h2, h3⟩
      simp only [pure_eq_ok, Except.ok.injEq, Prod.mk.injEq] at h3
      obtain ⟨rfl, rfl⟩ := h3
      obtain ⟨os1, o1, s3, rfl, h4, h5⟩ := ih.1 h2
      exact ⟨o :: os1, o1, s3, rfl, ⟨(o, s1), h1, (os1, s3), h4, rfl⟩, h5⟩
    · rintro ⟨os, o, s1, rfl, ⟨⟨o1, s2⟩, h1, ⟨os2, s3⟩, h2, h3⟩, h4⟩
      simp only [pure_eq_ok, Except.ok.injEq, Prod.mk.injEq] at h3
      obtain ⟨rfl, rfl⟩ := h3
      exact ⟨(o1, s2), h1, (os2 ++ [o], s'), ih.2 ⟨os2, o, s3, rfl, h2, h4⟩, rfl⟩

theorem history_snoc {c : Cfg} {s' : State ν} {is : List (In ν)} {i : In ν} {os' : List (Out ν)} :
    History c (is ++ [i]) os' s' ↔
      ∃ os o s, os' = os ++ [o] ∧ History c is os s ∧ step c s i = .ok (o, s') := by
  constructor
  · rintro ⟨p, s0, h0, h⟩
    obtain ⟨os, o, s1, rfl, h1, h2⟩ := run_snoc.1 h
    exact ⟨os, o, s1, rfl, ⟨p, s0, h0, h1⟩, h2⟩
  · rintro ⟨os, o, s, rfl, ⟨p, s0, h0, h1⟩, h2⟩
    exact ⟨p, s0, h0, run_snoc.2 ⟨os, o, s, rfl, h1, h2⟩⟩

theorem arrivals_append {t : Nat} {is : List (In ν)} {i : In ν} :
    arrivals t (is ++ [i]) = arrivals t is ++ batch (t + is.length) i.buys := by
  induction is generalizing t with
  | nil => simp [arrivals, batch]
  | cons j is ih =>
    simp only [List.cons_append, arrivals, ih, List.length_cons, List.append_assoc]
    congr 3; omega

theorem mats_arrivals {t : Nat} {is : List (In ν)} : mats (arrivals t is) = received is := by
  induction is generalizing t with
  | nil => rfl
  | cons j is ih =>
    simp only [mats, received] at ih
    simp [mats, arrivals, received, ih, Function.comp_def]

theorem received_append {is : List (In ν)} {i : In ν} :
    received (is ++ [i]) = received is ++ i.buys := by simp [received]

theorem sold_append {os : List (Out ν)} {o : Out ν} : sold (os ++ [o]) = sold os ++ o.sold := by
  simp [sold]

theorem enter_inv [DecidableEq ν] {c : Cfg} {p : Policy} {s : State ν}
    (h : enter c = .ok (p, s)) : Inv c [] [] s ∧ s.time = c.enterTime ∧ s.stocks.items = [] ∧
      s.ready.items = [] := by
  simp only [enter, bind_ok] at h
  obtain ⟨p', h1, u, h2, pr, h3, h4⟩ := h
  split at h4
  · cases h4
  · simp only [pure_eq_ok, Except.ok.injEq, Prod.mk.injEq] at h4
    obtain ⟨-, rfl⟩ := h4
    refine ⟨⟨⟨rfl, rfl, rfl, rfl⟩, rfl, List.Pairwise.nil, by simp, by simp [AllPos], ?_, ?_,
      by simp [AllPos], by simp, by simp [aged], by simp [aged, after], by simp [aged, upto],
      by simp, h3⟩, rfl, rfl, rfl⟩
    · simp [recent]
    · simp [recent]

theorem history_inv [DecidableEq ν] {c : Cfg} (hε : 0 ≤ c.eps) {is : List (In ν)}
    {os : List (Out ν)} {s : State ν} (h : History c is os s) (hs : Substantial is) :
    Inv c (arrivals c.enterTime is) (sold os) s ∧ s.time = c.enterTime + is.length ∧
      lastStock os = s.stocks.items ∧ os.length = is.length := by
  induction is using List.reverseRecOn generalizing os s with
  | nil =>
    obtain ⟨p, s0, h0, h1⟩ := h
    simp only [run, Except.ok.injEq, Prod.mk.injEq] at h1
    obtain ⟨rfl, rfl⟩ := h1
    obtain ⟨e1, e2, e3, -⟩ := enter_inv h0
    exact ⟨e1, e2, by simp [lastStock, e3], rfl⟩
  | append_singleton is i ih =>
    obtain ⟨os, o, s1, rfl, h1, h2⟩ := history_snoc.1 h
    obtain ⟨e1, e2, -, e4⟩ := ih h1 (fun j hj => hs j (by simp [hj]))
    obtain ⟨f1, f2⟩ := step_inv hε e1 (hs i (by simp)) h2
    refine ⟨?_, ?_, ?_, by simp [e4]⟩
    · rw [arrivals_append, sold_append, ← e2]; exact f1
    · rw [f2.time', e2]; simp; omega
    · simp [lastStock, f2.stock]

/-- The last step of a history. -/
theorem history_last [DecidableEq ν] {c : Cfg} (hε : 0 ≤ c.eps) {is : List (In ν)} {i : In ν}
    {os' : List (Out ν)} {s' : State ν} (h : History c (is ++ [i]) os' s')
    (hs : Substantial (is ++ [i])) :
    ∃ os o s, os' = os ++ [o] ∧ History c is os s ∧ Substantial is ∧
      s.time = c.enterTime + is.length ∧ Inv c (arrivals c.enterTime is) (sold os) s ∧
      StepFacts c (arrivals c.enterTime is) s i o s' := by
  obtain ⟨os, o, s1, rfl, h1, h2⟩ := history_snoc.1 h
  have hs' : Substantial is := fun j hj => hs j (by simp [hj])
  obtain ⟨e1, e2, -⟩ := history_inv hε h1 hs'
  exact ⟨os, o, s1, rfl, h1, hs', e2, e1, (step_inv hε e1 (hs i (by simp)) h2).2⟩

/-- Any step of a history. -/
theorem history_at {c : Cfg} {is : List (In ν)}
    {os : List (Out ν)} {s : State ν} (h : History c is os s) {k : Nat} {o : Out ν}
    (ho : os[k]? = some o) : ∃ i s', is[k]? = some i ∧
      History c (is.take k ++ [i]) (os.take k ++ [o]) s' ∧ os.length = is.length := by
  induction is using List.reverseRecOn generalizing os s with
  | nil =>
    obtain ⟨p, s0, h0, h1⟩ := h
    simp only [run, Except.ok.injEq, Prod.mk.injEq] at h1
    obtain ⟨rfl, rfl⟩ := h1
    simp at ho
  | append_singleton is i ih =>
    obtain ⟨os, o1, s1, rfl, h1, h2⟩ := history_snoc.1 h
    have hlen : os.length = is.length := by
      clear ih h ho h2
      induction is using List.reverseRecOn generalizing os s1 with
      | nil =>
        obtain ⟨p, s0, h0, h1⟩ := h1
        simp only [run, Except.ok.injEq, Prod.mk.injEq] at h1
        obtain ⟨rfl, rfl⟩ := h1; rfl
      | append_singleton is i ih =>
        obtain ⟨os, o1, s2, rfl, h3, h4⟩ := history_snoc.1 h1
        simp [ih _ _ h3]
    rcases Nat.lt_or_ge k os.length with hk | hk
    · rw [List.getElem?_append_left hk] at ho
      obtain ⟨i', s', e1, e2, e3⟩ := ih h1 ho
      refine ⟨i', s', ?_, ?_, by simp [hlen]⟩
      · rw [List.getElem?_append_left (by omega)]; exact e1
      · rw [List.take_append_of_le_length (by omega), List.take_append_of_le_length (by omega)]
        exact e2
    · rw [List.getElem?_append_right hk] at ho
      have : k = os.length := by
        by_contra hne
        have : 1 ≤ k - os.length := by omega
        rw [List.getElem?_eq_none (by simpa using this)] at ho
        cases ho
      subst this
      simp only [Nat.sub_self, List.getElem?_cons_zero, Option.some.injEq] at ho
      subst ho
      refine ⟨i, s, ?_, ?_, by simp [hlen]⟩
      · rw [hlen, List.getElem?_append_right le_rfl]; simp
      · rw [List.take_left' rfl, List.take_left' (by rw [hlen])]; exact h

/-- What arrived at least the residence time ago. -/
theorem aged_arrivals {c : Cfg} {t : Nat} {is : List (In ν)} :
    aged c (t + is.length) (arrivals t is) = arrivals t (is.take (is.length - c.residence)) := by
  induction is using List.reverseRecOn with
  | nil => simp [aged, arrivals]
  | append_singleton is i ih =>
    by_cases hr : c.residence = 0
    · rw [hr, Nat.sub_zero, List.take_length]
      unfold aged
      rw [List.filter_eq_self]
      intro p hp
      have : ∀ (js : List (In ν)) (t : Nat), ∀ p ∈ arrivals t js, p.1 < t + js.length := by
        intro js
        induction js with
        | nil => simp [arrivals]
        | cons j js ih =>
          intro t p hp
          simp only [arrivals, List.mem_append, List.mem_map] at hp
          rcases hp with ⟨m, -, rfl⟩ | hp
          · simp
          · have := ih (t + 1) p hp; simp only [List.length_cons]; omega
      have := this _ _ p hp
      simp only [decide_eq_true_eq, hr]; omega
    · rw [arrivals_append, aged, List.filter_append]
      have hb : (batch (t + is.length) i.buys).filter
          (fun p => decide (p.1 + c.residence < t + (is ++ [i]).length)) = [] := by
        rw [List.filter_eq_nil_iff]
        intro p hp
        simp only [batch, List.mem_map] at hp
        obtain ⟨m, -, rfl⟩ := hp
        simp; omega
      rw [hb, List.append_nil]
      have hlen : (is ++ [i]).length - c.residence ≤ is.length := by simp; omega
      rw [List.take_append_of_le_length hlen]
      clear hb ih hlen
      have key : ∀ (js : List (In ν)) (t k : Nat), k ≤ js.length →
          (arrivals t js).filter (fun p => decide (p.1 < t + k)) = arrivals t (js.take k) := by
        intro js
        induction js with
        | nil => simp [arrivals]
        | cons j js ih =>
          intro t k hk
          cases k with
          | zero =>
            simp only [List.take_zero, arrivals]
            rw [List.filter_eq_nil_iff]
            have hge : ∀ (js : List (In ν)) (t : Nat), ∀ p ∈ arrivals t js, t ≤ p.1 := by
              intro js
              induction js with
              | nil => simp [arrivals]
              | cons j js ih =>
                intro t p hp
                simp only [arrivals, List.mem_append, List.mem_map] at hp
                rcases hp with ⟨m, -, rfl⟩ | hp
                · simp
                · have := ih (t + 1) p hp; omega
            intro p hp
            have := hge (j :: js) t p (by simpa [arrivals] using hp)
            simp; omega
          | succ k =>
            simp only [List.take_succ_cons, arrivals, List.filter_append]
            congr 1
            · rw [List.filter_eq_self]
              intro p hp
              simp only [List.mem_map] at hp
              obtain ⟨m, -, rfl⟩ := hp
              simp
            · rw [← ih (t + 1) k (by simpa using hk)]
              apply List.filter_congr; intro p _; rw [decide_eq_decide]; omega
      rw [← key is t _ (by simp; omega)]
      by_cases hle : c.residence ≤ (is ++ [i]).length
      · apply List.filter_congr; intro p _; rw [decide_eq_decide]; omega
      · have h0 : (is ++ [i]).length - c.residence = 0 := by omega
        rw [h0, key is t 0 (Nat.zero_le _)]
        simp only [List.take_zero, arrivals]
        rw [List.filter_eq_nil_iff]
        intro p hp
        have hge : ∀ (js : List (In ν)) (t : Nat), ∀ p ∈ arrivals t js, t ≤ p.1 := by
          intro js
          induction js with
          | nil => simp [arrivals]
          | cons j js ih =>
            intro t p hp
            simp only [arrivals, List.mem_append, List.mem_map] at hp
            rcases hp with ⟨m, -, rfl⟩ | hp
            · simp
            · have := ih (t + 1) p hp; omega
        have := hge is t p hp
        simp only [List.length_append, List.length_singleton] at hle
        simp; omega

theorem mats_aged {c : Cfg} {is : List (In ν)} {t : Nat} (ht : t = c.enterTime + is.length) :
    mats (aged c t (arrivals c.enterTime is)) = received (is.take (is.length - c.residence)) := by
  rw [ht, aged_arrivals, mats_arrivals]

theorem received_take_total {is : List (In ν)} (hs : Substantial is) (k : Nat) :
    totalQty (received (is.take k)) ≤ totalQty (received is) := by
  have h : totalQty (received is) =
      totalQty (received (is.take k)) + totalQty (received (is.drop k)) := by
    rw [← totalQty_append]
    unfold received
    rw [← List.flatMap_append, List.take_append_drop]
  have hp : AllPos (received (is.drop k)) := by
    intro m hm
    simp only [received, List.mem_flatMap] at hm
    obtain ⟨i, hi, hm⟩ := hm
    exact hs i (List.mem_of_mem_drop hi) m hm
  have := hp.total_nonneg
  linarith

theorem allPos_received {is : List (In ν)} (hs : Substantial is) : AllPos (received is) := by
  intro m hm
  simp only [received, List.mem_flatMap] at hm
  obtain ⟨i, hi, hm⟩ := hm
  exact hs i hi m hm

/-- The content of the facility, by total and by label. -/
theorem contents_total [DecidableEq ν] {c : Cfg} {arr : List (Nat × Mat ν)}
    {out : List (Mat ν)} {s : State ν} (H : Inv c arr out s) :
    totalQty (contents s) + totalQty out = totalQty (mats arr) ∧
    (∀ n, Mat.massOf (contents s) n + Mat.massOf out n = Mat.massOf (mats arr) n) ∧
    held s = totalQty (contents s) := by
  have hA0 : 0 ≤ totalQty s.stocks.items + totalQty out :=
    add_nonneg H.stockPos.total_nonneg H.outNonneg
  have hpa : AllPos (mats (aged c s.time arr)) := by
    intro m hm
    simp only [mats, aged, List.mem_map] at hm
    obtain ⟨p, hp, rfl⟩ := hm
    exact H.pos _ (List.mem_map_of_mem (List.mem_filter.1 hp).1)
  have harr : mats arr = mats (aged c s.time arr) ++ mats (recent c s.time arr) := by
    rw [← List.map_append, aged_append_recent H.sorted]
  refine ⟨?_, ?_, ?_⟩
  · rw [harr]
    simp only [contents, totalQty_append, H.inv, totalQty_nil, H.proc, H.ready]
    rw [totalQty_after hpa hA0 H.le]; ring
  · intro n
    rw [harr]
    simp only [contents, Mat.massOf_append, H.inv, Mat.massOf_nil, H.proc, H.ready, massOf_after]
    have := H.mass n
    linarith
  · simp only [held, contents, Buf.quantity, totalQty_append]; ring

end Cyc.Storage
