import Verif.Separations.Props3

/-!
# Separations with a limited leftover inventory keep running while it has room
-/

namespace Cyc.Separations

open Mat (massOf)

theorem run_snoc {c : Cfg} {is : List In} {i : In} {s s' s'' : State} {os : List Out} {o : Out}
    (h : run c s is = .ok (os, s')) (hs : step c s' i = .ok (o, s'')) :
    run c s (is ++ [i]) = .ok (os ++ [o], s'') := by
  induction is generalizing s os with
  | nil =>
    simp only [run, Except.ok.injEq, Prod.mk.injEq] at h
    obtain ⟨rfl, rfl⟩ := h
    simp [run, hs]
  | cons j is ih =>
    simp only [run, bind_ok] at h
    obtain ⟨⟨o1, s1⟩, h1, ⟨os1, s2⟩, h2, h⟩ := h
    simp only [pure_eq_ok, Except.ok.injEq, Prod.mk.injEq] at h
    obtain ⟨rfl, rfl⟩ := h
    simp only [List.cons_append, run, h1, ok_bind, ih h2, pure_eq_ok]

theorem totalQty_congr {l l' : List NMat} (h : ∀ n, massOf l n = massOf l' n) :
    totalQty l = totalQty l' := by
  rw [← Mat.qty_squash l, ← Mat.qty_squash l']
  exact qty_congr fun n => by rw [Mat.mass_squash, Mat.mass_squash, h n]

/-- The feed and the leftover are no more than what was received. -/
theorem conserved_total {c : Cfg} (hε : 0 ≤ c.eps) {is : List In} {os : List Out} {s : State}
    (h : History c is os s) (hs : Substantial is) :
    totalQty s.leftover.items + totalQty s.feed.items ≤ totalQty (received is) := by
  have h1 := (C27_conserved hε h hs).1
  have h2 := (C27_nonneg hε h hs).1
  have h3 : totalQty (received is) = totalQty (contents s ++ sold os) :=
    totalQty_congr fun n => by rw [h1 n, Mat.massOf_append]
  rw [h3, contents, totalQty_append, totalQty_append, totalQty_append]
  have h4 : 0 ≤ totalQty (s.bufs.flatMap fun b => b.2.items) := by
    refine AllNonneg.total_nonneg ?_
    intro m hm
    exact h2 m (by simp only [contents, List.mem_append]; exact Or.inl (Or.inr hm))
  have h5 : 0 ≤ totalQty (sold os) := by
    refine AllNonneg.total_nonneg ?_
    intro m hm
    exact h2 m (by simp only [contents, List.mem_append]; exact Or.inr hm)
  linarith

/-- C70, in part: the same with a leftover inventory that could take all that is ever received.
Missing: as before. -/
theorem C70_large_partial {c : Cfg} (V : Valid c)
    (hn : ∀ s ∈ c.streams, (s.2.effs.map Prod.fst).Nodup) (hc : c.feedCommods ≠ [])
    (hl : c.feedPrefs = [] ∨ c.feedPrefs.length = c.feedCommods.length) :
    ∃ s₀, enter c = .ok s₀ ∧
      ∀ is, HonestRun c s₀ is → Substantial is →
        (∀ x, c.leftoverCap = some x → totalQty (received is) ≤ x) →
        ∃ os s', run c s₀ is = .ok (os, s') := by
  obtain ⟨s0, h0, h⟩ := C70_room_partial V hn hc hl
  refine ⟨s0, h0, fun is H hs hx => h is H ?_⟩
  -- from any point of the history on there is room
  have key : ∀ (js past : List In) (os : List Out) (s : State), run c s0 past = .ok (os, s) →
      past ++ js = is → RoomyRun c s js := by
    intro js
    induction js with
    | nil => intro past os s _ _; trivial
    | cons i js ih =>
      intro past os s hr he
      have hp : Substantial past := fun j hj => hs j (by rw [← he]; exact List.mem_append_left _ hj)
      have hj : Substantial (i :: js) := fun j hj => hs j (by rw [← he]; exact List.mem_append_right _ hj)
      have I := history_inv V ⟨s0, h0, hr⟩ hp
      refine ⟨?_, ?_⟩
      · intro x hcap
        refine le_trans ?_ (hx x hcap)
        rw [← he, received, List.flatMap_append, totalQty_append]
        have h2 : 0 ≤ totalQty ((i :: js).flatMap In.buys) := by
          refine AllNonneg.total_nonneg (l := (i :: js).flatMap In.buys) ?_
          intro m hm
          obtain ⟨k, hk, hm⟩ := List.mem_flatMap.1 hm
          exact (hj k hk m hm).2
        have h3 := conserved_total V.eps ⟨s0, h0, hr⟩ hp
        have h4 := min_le_right c.throughput (totalQty s.feed.items)
        unfold received at h3
        linarith
      · intro o s' hst
        refine ih (past ++ [i]) (os ++ [o]) s' ?_ (by rw [← he]; simp)
        exact run_snoc hr hst
  exact key is [] [] s0 rfl rfl

/-! ## A case that meets the hypotheses -/

/-- `Honest`, decided. -/
def checkIn (c : Cfg) (s : State) (i : In) : Bool :=
  i.buys.all (fun m => decide (0 < qty m) && m.entries.all fun e => decide (0 ≤ e.2)) &&
  (match requests c s with
    | .ok (_, rq) => decide (totalQty i.buys ≤ (rq.map Request.amount).getD 0)
    | .error _ => true) &&
  i.sells.all (fun t => decide (0 < t.2) && decide (c.lo ≤ t.2) &&
    (bids c s i.reqs).any fun p => decide (p.commod = t.1)) &&
  (bids c s i.reqs).all fun p => decide (tradedIn p.commod i.sells ≤ p.cap)

/-- `HonestRun` and `RoomyRun`, decided. -/
def checkRun (c : Cfg) : State → List In → Bool
  | _, [] => true
  | s, i :: is =>
    (match c.leftoverCap with
      | none => true
      | some x => decide (totalQty s.leftover.items +
          min c.throughput (totalQty s.feed.items) ≤ x)) &&
    (match tick c s with
      | .ok (_, s₁) => checkIn c s₁ i
      | .error _ => true) &&
    (match step c s i with
      | .ok (_, s') => checkRun c s' is
      | .error _ => true)

theorem honest_of_check {c : Cfg} {s : State} {i : In} (h : checkIn c s i = true) :
    Honest c s i := by
  simp only [checkIn, Bool.and_eq_true, List.all_eq_true, decide_eq_true_eq, List.any_eq_true] at h
  obtain ⟨⟨⟨h1, h2⟩, h3⟩, h4⟩ := h
  refine ⟨fun m hm => ⟨(h1 m hm).1, (h1 m hm).2⟩, ?_, ?_, h4⟩
  · intro d rq hr
    rw [hr] at h2
    simpa using h2
  · intro t ht
    exact ⟨(h3 t ht).1.1, (h3 t ht).1.2, (h3 t ht).2⟩

theorem run_of_check {c : Cfg} (is : List In) : ∀ {s : State}, checkRun c s is = true →
    HonestRun c s is ∧ RoomyRun c s is := by
  induction is with
  | nil => intro s _; exact ⟨trivial, trivial⟩
  | cons i is ih =>
    intro s h
    simp only [checkRun, Bool.and_eq_true] at h
    obtain ⟨⟨h1, h2⟩, h3⟩ := h
    refine ⟨⟨?_, ?_⟩, ?_, ?_⟩
    · intro r s₁ ht
      rw [ht] at h2
      exact honest_of_check h2
    · intro o s' hs
      rw [hs] at h3
      exact (ih h3).1
    · intro x hx
      rw [hx] at h1
      simpa using h1
    · intro o s' hs
      rw [hs] at h3
      exact (ih h3).2

/-- The example with room for 8 kg of leftover. -/
def exRoomy : Cfg := { exCfg with leftoverCap := some 8 }

/-- Two deliveries of 12 kg each, with sales of all three commodities in between. -/
def exRoomyIn : List In :=
  [⟨fun _ => [], [], [spent]⟩, ⟨fun _ => [1, 100], [("u", 1), ("waste", 1/2)], []⟩,
    ⟨fun _ => [5], [("u", 2), ("pu", 1), ("waste", 1)], [spent]⟩, ⟨fun _ => [5], [("waste", 1)], []⟩,
    ⟨fun _ => [5], [("pu", 1)], []⟩]

/-- In the example there is room at the start of each step, although the inventory of 8 kg is smaller
than the 24 kg received. -/
example : ∃ s₀, enter exRoomy = .ok s₀ ∧ HonestRun exRoomy s₀ exRoomyIn ∧
    RoomyRun exRoomy s₀ exRoomyIn := by
  have h : ((enter exRoomy).toOption.map fun s => checkRun exRoomy s exRoomyIn) = some true := by
    decide +kernel
  cases h0 : enter exRoomy with
  | error e => rw [h0] at h; simp [Except.toOption] at h
  | ok s0 =>
    rw [h0] at h
    simp only [Except.toOption, Option.map_some, Option.some.injEq] at h
    exact ⟨s0, rfl, run_of_check _ h⟩

/-- It has leftover in the end, and sold some. -/
example : ((play exRoomy exRoomyIn).toOption.map fun r =>
    (totalQty (received exRoomyIn), decide (0 < totalQty r.2.leftover.items),
      decide (0 < totalQty (sold r.1)))) = some (24, true, true) := by
  decide +kernel

end Cyc.Separations
