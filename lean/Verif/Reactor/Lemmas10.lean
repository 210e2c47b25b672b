import Verif.Reactor.Lemmas9

/-!
# Reading off a step of a history
-/

namespace Cyc.Reactor

/-- Step `t` of a history from deployment. -/
structure AtStep (c : Cfg) (is : List In) (os : List Out) (s : State) (t : Nat) (i : In) (o : Out)
    (sa sb : State) : Prop where
  input : is[t]? = some i
  output : os[t]? = some o
  stepped : step c sa i = .ok (o, sb)
  honest : ∀ o' s1, offerPhase c i.reqs sa = .ok (o', s1) → Honest c sa o' i
  invA : Inv c sa
  invB : Inv c sb
  restHonest : HonestRun c sb (is.drop (t + 1))
  rest : run c sb (is.drop (t + 1)) = .ok (os.drop (t + 1), s)
  timeA : sa.time = c.enterTime + t
  time : o.time = c.enterTime + t
  filed : Filed c (is.take t) sa

theorem at_step {c : Cfg} (hw : WellFormed c) {s0 : State} (h0 : enter c = .ok s0) {is : List In}
    (hh : HonestRun c s0 is) {os : List Out} {s : State} (hr : run c s0 is = .ok (os, s))
    {t : Nat} {o : Out} (ho : os[t]? = some o) :
    ∃ i sa sb, run c s0 (is.take t) = .ok (os.take t, sa) ∧ HonestRun c s0 (is.take t) ∧
      AtStep c is os s t i o sa sb := by
  obtain ⟨i, os1, sa, sb, os2, hi, h1, rfl, h2, h3, rfl⟩ := run_split hr ho
  obtain ⟨ha, hb, hc⟩ := honest_split hh hi h1
  have inv := run_inv hw (enter_inv hw h0) ha h1
  obtain ⟨s1, s2, s3, sp⟩ := step_spec hw inv.good hb h2
  have ht : sa.time = c.enterTime + t := by
    rw [run_time hw (enter_inv hw h0) ha h1, (enter_eq h0).1]
    have := (List.getElem?_eq_some_iff.1 hi).1
    simp; omega
  exact ⟨i, sa, sb, h1, ha, hi, ho, h2, hb, inv, sp.inv inv, hc o sb h2, h3, ht,
    sp.time.trans ht, run_filed hw h0 ha h1⟩

theorem late_iff {c : Cfg} {s : State} : retired c s = true ↔ Late c s.time := by
  unfold retired Late
  cases c.exitTime with
  | none => simp
  | some e => simp

theorem not_late_iff {c : Cfg} {s : State} : retired c s = false ↔ ¬ Late c s.time := by
  rw [← late_iff]; simp

theorem AtStep.spec {c : Cfg} (hw : WellFormed c) {is : List In} {os : List Out} {s : State}
    {t : Nat} {i : In} {o : Out} {sa sb : State} (h : AtStep c is os s t i o sa sb) :
    ∃ s1 s2 s3, StepSpec c sa i o sb s1 s2 s3 := step_spec hw h.invA.good h.honest h.stepped

theorem AtStep.op {c : Cfg} (hw : WellFormed c) {is : List In} {os : List Out} {s : State}
    {t : Nat} {i : In} {o : Out} {sa sb : State} (h : AtStep c is os s t i o sa sb)
    (hl : ¬ Late c o.time) : OpFacts c sa i o sb := by
  obtain ⟨s1, s2, s3, sp⟩ := h.spec hw
  refine op_facts hw h.invA ?_ sp
  rw [not_late_iff, h.timeA, ← h.time]; exact hl

theorem AtStep.ret {c : Cfg} (hw : WellFormed c) {is : List In} {os : List Out} {s : State}
    {t : Nat} {i : In} {o : Out} {sa sb : State} (h : AtStep c is os s t i o sa sb)
    (hl : Late c o.time) : RetFacts c sa i o sb := by
  obtain ⟨s1, s2, s3, sp⟩ := h.spec hw
  refine ret_facts hw h.invA ?_ sp
  rw [late_iff, h.timeA, ← h.time]; exact hl

/-- The next step of the same history. -/
theorem AtStep.next {c : Cfg} (hw : WellFormed c) {is : List In} {os : List Out} {s : State}
    {t : Nat} {i : In} {o : Out} {sa sb : State} (h : AtStep c is os s t i o sa sb) {o' : Out}
    (ho : os[t + 1]? = some o') : ∃ i' sb', AtStep c is os s (t + 1) i' o' sb sb' := by
  have e : os.drop (t + 1) = o' :: os.drop (t + 2) := by
    obtain ⟨hlt, rfl⟩ := List.getElem?_eq_some_iff.1 ho
    exact List.drop_eq_getElem_cons hlt
  have hlen : is.drop (t + 1) ≠ [] := by
    intro he
    have := h.rest
    rw [he, e] at this
    simp [run] at this
  obtain ⟨i', is', hi'⟩ := List.exists_cons_of_ne_nil hlen
  have hr := h.rest
  have hh := h.restHonest
  rw [hi', e] at hr
  rw [hi'] at hh
  obtain ⟨o2, sb', os', h1, h2, h3⟩ := run_cons.1 hr
  obtain ⟨rfl, rfl⟩ := List.cons.inj h3
  have hi2 : is[t + 1]? = some i' := by
    have : (is.drop (t + 1))[0]? = some i' := by rw [hi']; rfl
    simpa using this
  have hd : is.drop (t + 2) = is' := by
    have : (is.drop (t + 1)).drop 1 = is' := by rw [hi']; rfl
    rw [List.drop_drop] at this
    exact this
  obtain ⟨s1, s2, s3, sp⟩ := step_spec hw h.invB.good hh.1 h1
  obtain ⟨q1, q2, q3, sp0⟩ := h.spec hw
  have htb : sb.time = c.enterTime + (t + 1) := by
    rw [sp0.final]
    show sa.time + 1 = _
    rw [h.timeA]; omega
  have htake : is.take (t + 1) = is.take t ++ [i] := by
    rw [List.take_succ, h.input]; rfl
  refine ⟨i', sb', hi2, ho, h1, hh.1, h.invB, sp.inv h.invB, ?_, ?_, htb, sp.time.trans htb, ?_⟩
  · rw [hd]; exact hh.2 o' sb' h1
  · rw [hd]; exact h2
  · rw [htake]; exact h.filed.step sp0

/-! ## Bids -/

theorem bidsFor_fst (j : Nat) (q : ℚ) (l : List Assem) : ∀ (tot : ℚ), ∀ b ∈ bidsFor j q l tot,
    b.1 = j := by
  induction l with
  | nil => intro tot b hb; simp [bidsFor] at hb
  | cons m l ih =>
    intro tot b hb
    unfold bidsFor at hb
    simp only [List.mem_cons] at hb
    rcases hb with rfl | hb
    · rfl
    · split at hb
      · simp at hb
      · exact ih _ b hb

/-- The bids for one request are the shortest non-empty prefix that reaches the target, or all. -/
theorem bidsFor_spec (j : Nat) (q : ℚ) (l : List Assem) : ∀ (tot : ℚ), ∃ n ≤ l.length,
    (bidsFor j q l tot).map Prod.snd = l.take n ∧
    (n = l.length ∨ q ≤ tot + totalQty (l.take n)) ∧
    (∀ m, 0 < m → m < n → tot + totalQty (l.take m) < q) ∧ (0 < l.length → 0 < n) := by
  induction l with
  | nil => intro tot; exact ⟨0, le_rfl, rfl, Or.inl rfl, by omega, by simp⟩
  | cons a l ih =>
    intro tot
    unfold bidsFor
    by_cases h : q ≤ tot + a.qty
    · refine ⟨1, by simp, by simp [h], Or.inr ?_, by omega, by omega⟩
      simpa [totalQty, qty, HasQty.qty] using h
    · obtain ⟨n, h0, h1, h2, h3, h4⟩ := ih (tot + a.qty)
      refine ⟨n + 1, by simpa using h0, ?_, ?_, ?_, by omega⟩
      · simp [h, h1]
      · rcases h2 with rfl | h2
        · left; simp
        · right
          simp only [List.take_succ_cons, totalQty_cons]
          have : (qty a : ℚ) = a.qty := rfl
          rw [this]; linarith
      · intro m hm hlt
        obtain ⟨m', rfl⟩ : ∃ m', m = m' + 1 := ⟨m - 1, by omega⟩
        simp only [List.take_succ_cons, totalQty_cons]
        have e : (qty a : ℚ) = a.qty := rfl
        rw [e]
        rcases Nat.eq_zero_or_pos m' with rfl | hm'
        · simp only [List.take_zero, totalQty_nil]; push Not at h; linarith
        · have := h3 m' hm' (by omega); linarith

theorem bidsForAll_mem (mats : List Assem) (qs : List ℚ) : ∀ (j0 : Nat),
    ∀ b ∈ bidsForAll mats qs j0, b.2 ∈ mats ∧ j0 ≤ b.1 ∧ b.1 < j0 + qs.length := by
  induction qs with
  | nil => intro j0 b hb; simp [bidsForAll] at hb
  | cons q qs ih =>
    intro j0 b hb
    unfold bidsForAll at hb
    rcases List.mem_append.1 hb with hb | hb
    · have e := bidsFor_fst _ _ _ _ b hb
      obtain ⟨n, _, h1, _⟩ := bidsFor_spec j0 q mats 0
      have : b.2 ∈ mats.take n := by rw [← h1]; exact List.mem_map_of_mem hb
      exact ⟨List.mem_of_mem_take this, by omega, by simp; omega⟩
    · obtain ⟨a1, a2, a3⟩ := ih (j0 + 1) b hb
      exact ⟨a1, by omega, by simp; omega⟩

theorem bidsForAll_at (mats : List Assem) (qs : List ℚ) : ∀ (j0 j : Nat) (q : ℚ),
    qs[j]? = some q →
    ((bidsForAll mats qs j0).filter (fun b => b.1 = j0 + j)).map Prod.snd =
      (bidsFor (j0 + j) q mats 0).map Prod.snd := by
  induction qs with
  | nil => intro j0 j q h; simp at h
  | cons q0 qs ih =>
    intro j0 j q h
    unfold bidsForAll
    rw [List.filter_append]
    cases j with
    | zero =>
      simp only [List.getElem?_cons_zero, Option.some.injEq] at h
      subst h
      have h1 : (bidsFor j0 q0 mats 0).filter (fun b => b.1 = j0 + 0) = bidsFor j0 q0 mats 0 := by
        rw [List.filter_eq_self]
        intro b hb
        simp [bidsFor_fst _ _ _ _ b hb]
      have h2 : (bidsForAll mats qs (j0 + 1)).filter (fun b => b.1 = j0 + 0) = [] := by
        rw [List.filter_eq_nil_iff]
        intro b hb
        have := (bidsForAll_mem mats qs (j0 + 1) b hb).2.1
        simp; omega
      rw [h1, h2]; simp
    | succ j =>
      simp only [List.getElem?_cons_succ] at h
      have h1 : (bidsFor j0 q0 mats 0).filter (fun b => b.1 = j0 + (j + 1)) = [] := by
        rw [List.filter_eq_nil_iff]
        intro b hb
        simp [bidsFor_fst _ _ _ _ b hb]
      rw [h1]
      have := ih (j0 + 1) j q h
      have e : j0 + (j + 1) = j0 + 1 + j := by omega
      rw [List.nil_append, e]
      exact this

theorem spentOf_filed {c : Cfg} {is : List In} {s : State} (h : Filed c is s) (k : String) :
    spentOf c s k = spentAs c is s k := by
  unfold spentOf spentAs
  apply List.filter_congr
  intro a ha
  obtain ⟨k', e1, e2, e3⟩ := h a (mem_held_spent ha)
  rw [e1]
  simp only [outCommodOf, outCommodFor, Option.map_some, Option.some.injEq, e3]

/-- The value in force is unique. -/
theorem inForceAt_unique {α : Type} {c : Cfg} {es : List (Nat × String × α)} {t : Nat} {init : α}
    {j : Nat} {v v' : α} (h : InForceAt c es t init j v) (h' : InForceAt c es t init j v') :
    v = v' := by
  unfold InForceAt at h h'
  split at h
  · rename_i hp
    rw [if_pos hp] at h'
    rcases h with ⟨i, τ, a1, a2, a3, a4⟩ | ⟨a1, a2⟩ <;>
      rcases h' with ⟨i', τ', b1, b2, b3, b4⟩ | ⟨b1, b2⟩
    · have x := a4 i' τ' v' b1 b2 b3
      have y := b4 i τ v a1 a2 a3
      have : i = i' := by omega
      subst this
      rw [a1] at b1
      simp only [Option.some.injEq, Prod.mk.injEq] at b1
      exact b1.2.2
    · exact absurd ⟨a2, a3⟩ (b2 i τ v a1)
    · exact absurd ⟨b2, b3⟩ (a2 i' τ' v' b1)
    · rw [a1, b1]
  · rename_i hp
    rw [if_neg hp] at h'
    rw [h, h']

/-- An assembly changed by the code is changed as the specification says. -/
theorem burn_transmuted {c : Cfg} {is : List In} {s : State} (g : Good c s)
    (hf : Filed c is s) (hs : Sched c s) {a : Assem} (ha : a ∈ held s) :
    Transmuted c is s.time a (burn c s a) := by
  obtain ⟨k, e1, e2, e3⟩ := hf a ha
  have hlt := position_lt e2
  refine ⟨rfl, k, s.outRecipes.getD (position c k) "", e1, hs.outRecipes _ hlt, ?_⟩
  have hlt' : position c k < s.outRecipes.length := by rw [g.outRecipes]; exact hlt
  have hk := g.knownOut s.outRecipes[position c k] (List.getElem_mem hlt')
  obtain ⟨v, hv⟩ := Option.isSome_iff_exists.1 hk
  simp [burn, outComp, e3, hlt', hv]

end Cyc.Reactor
