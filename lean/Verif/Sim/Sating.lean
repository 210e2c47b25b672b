import Verif.Sim.Sweeping
import Verif.Sim.Thorough

/-!
# An exchange that leaves nothing alone

It makes deals of exclusive amounts as long as one may be made, and then pours where neither order nor bid is
exclusive and the supplier has no further constraints.
-/

namespace Cyc.Sim

/-- The deal may have any amount, as a check. -/
def looseB (asks : List (List Ask)) (offers : List (List Offer)) (d : Deal) : Bool :=
  ((offers[d.src]?.getD []).all fun o => o.commod != d.commod || (o.limits.isEmpty && o.piece.isNone)) &&
    ((asks[d.dst]?.getD [])[d.port]?.any fun a => !a.whole)

theorem looseB_iff {asks : List (List Ask)} {offers : List (List Offer)} {d : Deal} :
    looseB asks offers d = true ↔ Loose asks offers d := by
  unfold looseB Loose
  rw [Bool.and_eq_true]
  refine and_congr ?_ ?_
  · rw [List.all_eq_true]
    constructor
    · intro h os hos o ho e
      have := h o (by rw [hos]; exact ho)
      simpa [e] using this
    · intro h o ho
      cases hos : offers[d.src]? with
      | none => rw [hos] at ho; cases ho
      | some os =>
        rw [hos] at ho
        by_cases e : o.commod = d.commod
        · obtain ⟨h1, h2⟩ := h os hos o ho e
          simp [h1, h2]
        · simp [e]
  · cases has : asks[d.dst]? with
    | none => simp
    | some as =>
      simp only [Option.getD_some, Option.some.injEq, exists_eq_left']
      cases ha : as[d.port]? with
      | none => simp
      | some a => simp

/-- An exchange that sweeps and then pours. -/
def sating : Exchange := fun asks offers =>
  ((candidates asks offers).filter (looseB asks offers)).foldl
    (fun ds d => pour asks offers d (⌈asked asks d / qty d.target⌉₊ + 1) ds) (sweeping asks offers)

/-- Deals of any amount elsewhere do not make room. -/
theorem Fair.before {asks : List (List Ask)} {offers : List (List Offer)} {ds more : List Deal} {d : Deal}
    (G : Fair asks offers (ds ++ more ++ [d]))
    (hl : ∀ e ∈ more, Loose asks offers e) : Fair asks offers (ds ++ [d]) := by
  have hd : d ∈ ds ++ more ++ [d] := by simp
  have hpos := fun p => dealt_nonneg (ds := more) (fun x hx => (G.pos x (by simp [hx])).1.le) p
  have sub : ∀ {x}, x ∈ ds ++ [d] → x ∈ ds ++ more ++ [d] := by
    intro x hx
    rcases List.mem_append.1 hx with hx | hx
    · simp [hx]
    · exact List.mem_append_right _ hx
  refine ⟨fun x hx => G.pos x (sub hx), fun x hx => G.offered x (sub hx), fun x hx => G.asked x (sub hx),
    ?_, ?_, ?_⟩
  · intro k os hk o ho
    have := G.caps k os hk o ho
    rw [dealt_append, dealt_append] at this
    rw [dealt_append]
    have := hpos fun d => d.src = k ∧ d.commod = o.commod
    linarith
  · intro k os hk o ho L hL
    have := G.limits k os hk o ho L hL
    have e : (more.filter fun d => decide (d.src = k ∧ d.commod = o.commod)) = [] := by
      rw [List.filter_eq_nil_iff]
      intro x hx hp
      obtain ⟨rfl, e⟩ := of_decide_eq_true hp
      have := ((hl x hx).1 os hk o ho e.symm).1
      rw [this] at hL
      cases hL
    rw [List.filter_append, List.filter_append, e, List.append_nil] at this
    rw [List.filter_append]
    exact this
  · intro j as hj p a hp
    have := G.amounts j as hj p a hp
    rw [dealt_append, dealt_append] at this
    rw [dealt_append]
    have := hpos fun d => d.dst = j ∧ d.port = p
    linarith

theorem pour_mem {asks : List (List Ask)} {offers : List (List Offer)} {d : Deal} (n : Nat) :
    ∀ {ds : List Deal}, ∃ more, pour asks offers d n ds = ds ++ more ∧ ∀ e ∈ more,
      (e.src, e.dst, e.port, e.commod) = (d.src, d.dst, d.port, d.commod) := by
  induction n with
  | zero => intro ds; exact ⟨[], by simp [pour], by simp⟩
  | succ n ih =>
    intro ds
    unfold pour
    split
    · obtain ⟨more, e, h⟩ := ih (ds := ds ++ [_])
      refine ⟨_ :: more, e.trans (by rw [List.append_assoc, List.singleton_append]), ?_⟩
      intro x hx
      rcases List.mem_cons.1 hx with rfl | hx
      · rfl
      · exact h x hx
    · exact ⟨[], by simp, by simp⟩

theorem loose_congr {asks : List (List Ask)} {offers : List (List Offer)} {d e : Deal}
    (h : (e.src, e.dst, e.port, e.commod) = (d.src, d.dst, d.port, d.commod)) (hd : Loose asks offers d) :
    Loose asks offers e := by
  simp only [Prod.mk.injEq] at h
  obtain ⟨h1, h2, h3, h4⟩ := h
  unfold Loose
  rw [h1, h2, h3, h4]
  exact hd

theorem pour_fold_mem {asks : List (List Ask)} {offers : List (List Offer)} (l : List Deal) :
    ∀ {ds : List Deal}, ∃ more,
      l.foldl (fun ds d => pour asks offers d (⌈asked asks d / qty d.target⌉₊ + 1) ds) ds = ds ++ more ∧
      ∀ e ∈ more, ∃ d ∈ l, (e.src, e.dst, e.port, e.commod) = (d.src, d.dst, d.port, d.commod) := by
  induction l with
  | nil => intro ds; exact ⟨[], by simp, by simp⟩
  | cons d l ih =>
    intro ds
    rw [List.foldl_cons]
    obtain ⟨m1, e1, h1⟩ := pour_mem (asks := asks) (offers := offers) (d := d)
      (⌈asked asks d / qty d.target⌉₊ + 1) (ds := ds)
    rw [e1]
    obtain ⟨m2, e2, h2⟩ := ih (ds := ds ++ m1)
    refine ⟨m1 ++ m2, e2.trans (List.append_assoc ..), ?_⟩
    intro e he
    rcases List.mem_append.1 he with he | he
    · exact ⟨d, by simp, h1 e he⟩
    · obtain ⟨d', h, h'⟩ := h2 e he
      exact ⟨d', by simp [h], h'⟩

theorem sating_spec {asks : List (List Ask)} {offers : List (List Offer)}
    (h1 : ∀ as ∈ asks, ∀ a ∈ as, 0 ≤ a.amount)
    (h2 : ∀ os ∈ offers, ∀ o ∈ os, 0 ≤ o.cap ∧ ∀ L ∈ o.limits, 0 ≤ L.cap) :
    Fair asks offers (sating asks offers) ∧
    (∀ e, Loose asks offers e → ¬ Fair asks offers (sating asks offers ++ [e])) ∧
    ∀ d, Fair asks offers (sating asks offers ++ [d]) → Fair asks offers (sweeping asks offers ++ [d]) := by
  have S := sweeping_fair asks offers h1 h2
  obtain ⟨more, e, F, hl⟩ := pour_fold ((candidates asks offers).filter (looseB asks offers)) S
  have hm : ∀ d ∈ more, Loose asks offers d := by
    obtain ⟨more', e', h⟩ := pour_fold_mem (asks := asks) (offers := offers)
      ((candidates asks offers).filter (looseB asks offers)) (ds := sweeping asks offers)
    obtain rfl := List.append_cancel_left (e.symm.trans e')
    intro d hd
    obtain ⟨c, hc, h⟩ := h d hd
    exact loose_congr h (looseB_iff.1 (List.mem_filter.1 hc).2)
  change sating asks offers = _ at e
  rw [e]
  refine ⟨F, fun d hd G => hl d hd ?_ G, fun d G => ?_⟩
  · have hmem : d ∈ sweeping asks offers ++ more ++ [d] := by simp
    obtain ⟨os, b1, o, b2, b3, -⟩ := G.offered d hmem
    obtain ⟨as, a1, a, a2, a3, -⟩ := G.asked d hmem
    refine ⟨⟨d.src, d.dst, d.port, d.commod, d.target, a.amount⟩, List.mem_filter.2 ⟨?_,
      looseB_iff.2 (loose_congr rfl hd)⟩, rfl⟩
    refine List.mem_flatMap.2 ⟨(os, d.src), List.mem_zipIdx_iff_getElem?.2 b1, ?_⟩
    refine List.mem_flatMap.2 ⟨o, b2, ?_⟩
    refine List.mem_flatMap.2 ⟨(as, d.dst), List.mem_zipIdx_iff_getElem?.2 a1, ?_⟩
    refine List.mem_flatMap.2 ⟨(a, d.port), List.mem_zipIdx_iff_getElem?.2 a2, ?_⟩
    refine List.mem_flatMap.2 ⟨(d.commod, d.target), a3, ?_⟩
    exact List.mem_map.2 ⟨a.amount, by simp, rfl⟩
  · exact Fair.before G hm

theorem sating_fair : sating.Fair := fun _ _ h1 h2 => (sating_spec h1 h2).1

theorem sating_thorough : sating.Thorough := fun _ _ h1 h2 => (sating_spec h1 h2).2.1

theorem sating_keen : sating.Keen := fun _ _ h1 h2 d hd G =>
  sweeping_keen _ _ h1 h2 d hd ((sating_spec h1 h2).2.2 d G)

end Cyc.Sim
