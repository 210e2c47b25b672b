import Verif.Order.Props
import Verif.Source.Props

/-!
# The order of the trades: C119 for `Source`
-/

namespace Cyc

namespace Source

/-- What can be told of a response: whether there is one, its quantity and its masses. -/
def told (r : Option NMat) : Option (ℚ × (Nat → ℚ)) := r.map fun m => (qty m, m.mass)

/-- With enough transport units every trade is answered. -/
theorem sellLoop_answers {c : Cfg} {n : Nat} {ts : List Trade} {s s' : State}
    {l : List (Option NMat)} (hn : ts.length ≤ n) (h : sellLoop c n ts s = .ok (l, s')) :
    ∀ r ∈ l, ∃ x, r = some x := by
  induction ts generalizing n s l with
  | nil =>
    cases n <;>
    · simp only [sellLoop, Except.ok.injEq, Prod.mk.injEq] at h
      obtain ⟨rfl, rfl⟩ := h
      simp
  | cons t ts ih =>
    rw [List.length_cons] at hn
    cases n with
    | zero => omega
    | succ n =>
      simp only [sellLoop, bind_ok] at h
      obtain ⟨⟨m, b⟩, h1, ⟨xs, b'⟩, h2, ⟨l', s₁⟩, h3, h⟩ := h
      simp only [pure_eq_ok, Except.ok.injEq, Prod.mk.injEq] at h
      obtain ⟨rfl, rfl⟩ := h
      have := ih (by split <;> omega) h3
      intro r hr
      rcases List.mem_cons.1 hr with rfl | hr
      · exact ⟨_, rfl⟩
      · exact this r hr

private theorem zip_eq {c : Cfg} (V : Valid c) {ts : List Trade} {l : List (Option NMat)}
    (ht : ∀ t ∈ ts, 0 < qty t.target)
    (h : List.Forall₂ (fun t o => ∀ x, o = some x → Good c t x) ts l)
    (ha : ∀ r ∈ l, ∃ x, r = some x) :
    ((ts.zip l).map fun p => (p.1, told p.2)) = (ts.map fun t => (t, some ((c.fill t.amt).headD 0,
        fun n => (c.fill t.amt).headD 0 * (wanted c t).mass n / qty (wanted c t)))) ∧
      ((ts.zip l).map (net c)).sum = (ts.map fun t => t.amt - back c t.amt).sum := by
  induction h with
  | nil => exact ⟨rfl, rfl⟩
  | @cons t o ts l ho _ ih =>
    obtain ⟨x, rfl⟩ := ha o (by simp)
    obtain ⟨i1, i2⟩ := ih (fun t ht' => ht t (by simp [ht'])) (fun r hr => ha r (by simp [hr]))
    have G := ho x rfl
    have hw : 0 < qty (wanted c t) := by
      unfold wanted
      cases hc : c.recipe with
      | none => exact ht t (by simp)
      | some r => exact V.recipe r hc
    simp only [List.zip_cons_cons, List.map_cons, List.sum_cons, i1, i2, net]
    refine ⟨?_, trivial⟩
    congr 1
    simp only [told, Option.map_some, Prod.mk.injEq, true_and, Option.some.injEq]
    refine ⟨G.qty, funext fun n => ?_⟩
    rw [eq_div_iff (ne_of_gt hw), G.comp n, G.qty]

/-- C119, if the transport unit ships all trades of the step: with the same trades in any other order
the step succeeds, the same is left in stock, and each trade gets the same answer, in quantity and
masses. Missing from the full statement: transport units that ship only some of the trades, see
`C119_source_counterexample`. -/
theorem C119_source_partial {c : Cfg} (V : Valid c) {is : List In} {os : List Out} {s s' : State}
    {i : In} {o : Out} (h : History c is os s) (hd : Targets is) (H : Honest c s i)
    (hn : i.trades.length ≤ c.ship i.trades.length) (hs : step c s i = .ok (o, s'))
    {l : List Trade} (hl : i.trades.Perm l) :
    ∃ o' s'', step c s { i with trades := l } = .ok (o', s'') ∧ stock s'' = stock s' ∧
      ((i.trades.zip o.sent).map fun p => (p.1, told p.2)).Perm
        ((l.zip o'.sent).map fun p => (p.1, told p.2)) ∧
      o' = { o with sent := o'.sent } := by
  have I := history_inv V h hd
  have ht := honest_targets H
  have ht' : ∀ t ∈ l, 0 < qty t.target := fun t h => ht t (hl.mem_iff.2 h)
  have hle := (honest_total V I H).trans (show maxQty c s ≤ stock s from min_le_right _ _)
  obtain ⟨e1, e2, e3⟩ := step_eq hs
  obtain ⟨r, s'', f1⟩ := sellLoop_ok (n := c.ship l.length) (ts := l) V I
    (fun t h => H.sizes t (hl.mem_iff.2 h)) (by rw [← sum_perm (hl.map _)]; exact hle)
  obtain ⟨-, e4, e5⟩ := sellLoop_inv V I ht e1
  obtain ⟨-, f4, f5⟩ := sellLoop_inv V I ht' f1
  obtain ⟨z1, z2⟩ := zip_eq V ht e4 (sellLoop_answers hn e1)
  obtain ⟨y1, y2⟩ := zip_eq V ht' f4 (sellLoop_answers (by rw [← hl.length_eq]; exact hn) f1)
  refine ⟨⟨o.supply, o.bids, r⟩, s'', ?_, ?_, ?_, rfl⟩
  · rw [e2, e3]
    simp only [step, sell, f1, ok_bind, pure_eq_ok]
  · rw [e5, f5, z2, y2, sum_perm (hl.map _)]
  · rw [z1, y1]; exact hl.map _

/-- Three facilities ask for uranium. -/
def exReqs3 : List Req := [⟨1, "uranium", natU 1⟩, ⟨2, "uranium", natU 1⟩, ⟨3, "uranium", natU 2⟩]

/-- The trades by which they get it. -/
def exIn3 (ts : List Trade) : In := ⟨exReqs3, ts⟩

private theorem exBids3 : ((bids exC exReqs3 exNew).map fun p =>
    (p.cap, p.bids.map fun b => (b.id, qty b.offer))) = some (5, [(1, 1), (2, 1), (3, 2)]) := by
  decide +kernel

private theorem exHonest3 {ts : List Trade} (h : ts.Perm [⟨natU 1, 1⟩, ⟨natU 1, 1⟩, ⟨natU 2, 2⟩]) :
    Honest exC exNew (exIn3 ts) where
  target r hr := by
    simp only [exIn3, exReqs3, List.mem_cons, List.not_mem_nil, or_false] at hr
    rcases hr with rfl | rfl | rfl <;> decide +kernel
  sizes t ht := by
    have := h.mem_iff.1 ht
    simp only [List.mem_cons, List.not_mem_nil, or_false] at this
    rcases this with rfl | rfl | rfl <;> decide +kernel
  bid t ht := by
    have hm := h.mem_iff.1 ht
    obtain ⟨p, hp⟩ : ∃ p, bids exC exReqs3 exNew = some p :=
      Option.isSome_iff_exists.1 (by decide +kernel)
    have e := exBids3
    rw [hp] at e
    simp only [Option.map_some, Option.some.injEq, Prod.mk.injEq] at e
    refine ⟨p, hp, ?_⟩
    have hb : ∀ x ∈ [(1, (1 : ℚ)), (2, 1), (3, 2)], ∃ b ∈ p.bids, b.id = x.1 ∧ qty b.offer = x.2 := by
      intro x hx
      rw [← e.2, List.mem_map] at hx
      obtain ⟨b, hb, rfl⟩ := hx
      exact ⟨b, hb, rfl, rfl⟩
    simp only [List.mem_cons, List.not_mem_nil, or_false] at hm
    rcases hm with rfl | rfl | rfl
    · obtain ⟨b, hb, h1, h2⟩ := hb (1, 1) (by simp)
      exact ⟨b, hb, by rw [h2], _, List.mem_cons_self, h1.symm, rfl, rfl⟩
    · obtain ⟨b, hb, h1, h2⟩ := hb (1, 1) (by simp)
      exact ⟨b, hb, by rw [h2], _, List.mem_cons_self, h1.symm, rfl, rfl⟩
    · obtain ⟨b, hb, h1, h2⟩ := hb (3, 2) (by simp)
      exact ⟨b, hb, by rw [h2], ⟨3, "uranium", natU 2⟩, by simp [exIn3, exReqs3], h1.symm, rfl, rfl⟩
  total p hp := by
    have e := exBids3
    rw [show bids exC exReqs3 exNew = some p from hp] at e
    simp only [Option.map_some, Option.some.injEq, Prod.mk.injEq] at e
    rw [e.1]
    show (ts.map Trade.amt).sum ≤ 5
    rw [sum_perm (h.map _)]
    decide +kernel

/-- C119: the full property fails for transport units that ship only some of the trades. The order in
which the kernel hands over three honest trades decides which of them is not answered, and with that
how much is left in stock. -/
theorem C119_source_counterexample : ∃ (c : Cfg) (s : State) (i : In) (l : List Trade), Valid c ∧
    History c [] [] s ∧ Honest c s i ∧ i.trades.Perm l ∧ ∃ o s' o' s'', step c s i = .ok (o, s') ∧
      step c s { i with trades := l } = .ok (o', s'') ∧
      o.sent.map (Option.map qty) = [some 1, some 1, none] ∧
      o'.sent.map (Option.map qty) = [some 2, some 1, none] ∧ stock s' = 8 ∧ stock s'' = 7 := by
  obtain ⟨⟨o, s'⟩, h⟩ := exists_of_isOk
    (x := step exC exNew (exIn3 [⟨natU 1, 1⟩, ⟨natU 1, 1⟩, ⟨natU 2, 2⟩])) (by decide +kernel)
  obtain ⟨⟨o', s''⟩, h'⟩ := exists_of_isOk
    (x := step exC exNew (exIn3 [⟨natU 2, 2⟩, ⟨natU 1, 1⟩, ⟨natU 1, 1⟩])) (by decide +kernel)
  have hp : [(⟨natU 1, 1⟩ : Trade), ⟨natU 1, 1⟩, ⟨natU 2, 2⟩].Perm
      [⟨natU 2, 2⟩, ⟨natU 1, 1⟩, ⟨natU 1, 1⟩] := by decide +kernel
  have k : (step exC exNew (exIn3 [⟨natU 1, 1⟩, ⟨natU 1, 1⟩, ⟨natU 2, 2⟩])).toOption.map
      (fun p => (p.1.sent.map (Option.map qty), stock p.2)) =
      some ([some 1, some 1, none], 8) := by decide +kernel
  have k' : (step exC exNew (exIn3 [⟨natU 2, 2⟩, ⟨natU 1, 1⟩, ⟨natU 1, 1⟩])).toOption.map
      (fun p => (p.1.sent.map (Option.map qty), stock p.2)) =
      some ([some 2, some 1, none], 7) := by decide +kernel
  rw [h] at k
  rw [h'] at k'
  simp only [Except.toOption, Option.map_some, Option.some.injEq, Prod.mk.injEq] at k k'
  exact ⟨exC, exNew, exIn3 _, _, exValid, exBuilt, exHonest3 (List.Perm.refl _), hp, o, s', o', s'',
    h, h', k.1, k'.1, k.2, k'.2⟩

/-- Two of the three trades are shipped in any order. -/
example : ∃ o s', step exC exNew exIn = .ok (o, s') ∧ ∃ o' s'',
    step exC exNew { exIn with trades := exIn.trades.reverse } = .ok (o', s'') ∧
      stock s'' = stock s' ∧ ((exIn.trades.zip o.sent).map fun p => (p.1, told p.2)).Perm
        ((exIn.trades.reverse.zip o'.sent).map fun p => (p.1, told p.2)) := by
  obtain ⟨⟨o, s'⟩, h⟩ := exists_of_isOk (x := step exC exNew exIn) (by decide +kernel)
  obtain ⟨o', s'', h1, h2, h3, -⟩ := C119_source_partial exValid exBuilt (by intro i hi; cases hi)
    exHonest.1 (by decide +kernel) h (List.reverse_perm _).symm
  exact ⟨o, s', h, o', s'', h1, h2, h3⟩

end Source

end Cyc
