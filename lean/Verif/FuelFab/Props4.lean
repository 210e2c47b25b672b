import Verif.FuelFab.Lemmas8
import Verif.FuelFab.Props3
import Verif.FuelFab.Restart

/-! # Properties of fuel fabrication facilities: snapshots -/

namespace Cyc.FuelFab

/-- In every step the deliveries have mass and answer requests that the facility made in that step. -/
def Answering (c : Cfg) : State → List In → Prop
  | _, [] => True
  | s, i :: is => (∀ d ∈ i.buys, Solid d.2) ∧
    (∀ a s₁, requests c i.addr s = .ok (a, s₁) → ∀ d ∈ i.buys, d.1 ∈ (allReqs a).map Req.id) ∧
    ∀ o s', step c s i = .ok (o, s') → Answering c s' is

/-- Everything a user can see of a run: the fault, or the observations and what the facility holds at
the end. -/
def visible (r : R (List Out × State)) : Except Fault (List Out × Buf NMat × Buf NMat × Buf NMat) :=
  r.map fun x => (x.1, x.2.fill, x.2.fiss, x.2.topup)

private theorem visible_run {c : Cfg} (V : Valid c) {is : List In} {s : State} (I : Inv c s)
    (inv : List (Nat × String)) (h : Answering c s is) :
    visible (run c (withReq inv s) is) = visible (run c s is) := by
  induction is generalizing s inv with
  | nil => rfl
  | cons i is ih =>
    obtain ⟨h1, h2, h3⟩ := h
    obtain ⟨f, hf, he⟩ := step_withReq I inv (h2 _ _ (requests_ok I))
    simp only [run, he]
    cases hs : step c s i with
    | error e => rfl
    | ok r =>
      obtain ⟨o, s1⟩ := r
      obtain ⟨inv', hi⟩ := hf s1
      simp only [Except.map, ok_bind, hi]
      have := ih (step_pres V I h1 hs).1 inv' (h3 o s1 hs)
      generalize run c (withReq inv' s1) is = x at this
      generalize run c s1 is = y at this
      cases x <;> cases y <;> simp_all [visible, Except.map]

private theorem initPrefs_again {ks : List String} {ps qs : List ℚ} (h : initPrefs ks ps = .ok qs) :
    initPrefs ks qs = .ok qs := by
  have hl := initPrefs_length h
  unfold initPrefs
  split
  · rename_i h0
    subst h0
    rw [List.length_eq_zero_iff.1 hl.symm]; rfl
  · rw [if_neg (not_not.2 hl)]

/-- C113. After any history a snapshot can be taken, taking it changes nothing, and a facility restarted
from it holds the same streams; in any market in which deliveries answer the requests of the step, what
it then does and holds is what the facility would have done and held without the interruption. -/
theorem C113_restart {c : Cfg} (V : Valid c) {is : List In} {os : List Out} {s : State}
    (h : History c is os s) (hs : Substantial is) :
    ∃ x, snapshot c s = .ok (x, s) ∧ ∃ s', restart c x = .ok s' ∧
      (s'.fill, s'.fiss, s'.topup, s'.fillPrefs, s'.fissPrefs) =
        (s.fill, s.fiss, s.topup, s.fillPrefs, s.fissPrefs) ∧
      ∀ more, Answering c s more → visible (run c s' more) = visible (run c s more) := by
  have hr : Reachable c s := ⟨is, os, hs, h⟩
  have I := reachable_inv V hr
  obtain ⟨q1, q2, q3⟩ := C80_size V hr
  obtain ⟨s0, h0, hrun⟩ := h
  obtain ⟨I0, -, -⟩ := enter_inv h0
  obtain ⟨p1, p2⟩ := run_prefs V I0 hs hrun
  have f : ∀ {l : List NMat} {z : ℚ}, totalQty l ≤ max 0 z + c.eps →
      Buf.fits c.eps (⟨some z, []⟩ : Buf NMat) (totalQty l) = true := by
    intro l z hq
    simp only [Buf.fits, Buf.space, Buf.quantity, Option.map_some, totalQty_nil, sub_zero,
      decide_eq_true_eq]
    linarith
  have e1 : s.fill.dump c.eps = .ok (s.fill.items, s.fill) :=
    Buf.dump_eq (by rw [I.fillCap]; exact f q1)
  have e2 : s.fiss.dump c.eps = .ok (s.fiss.items, s.fiss) :=
    Buf.dump_eq (by rw [I.fissCap]; exact f q2)
  have e3 : s.topup.dump c.eps = .ok (s.topup.items, s.topup) :=
    Buf.dump_eq (by rw [I.topupCap]; exact f q3)
  have b1 : (⟨some c.fillSize, s.fill.items⟩ : Buf NMat) = s.fill := by rw [← I.fillCap]
  have b2 : (⟨some c.fissSize, s.fiss.items⟩ : Buf NMat) = s.fiss := by rw [← I.fissCap]
  have b3 : (⟨some c.topupSize, s.topup.items⟩ : Buf NMat) = s.topup := by rw [← I.topupCap]
  have g : initPrefs c.fissCommods s.fissPrefs = .ok s.fissPrefs ∧
      initPrefs c.fillCommods s.fillPrefs = .ok s.fillPrefs := by
    simp only [enter, bind_ok, pure_eq_ok, Except.ok.injEq] at h0
    obtain ⟨x, hx, y, hy, rfl⟩ := h0
    rw [p1, p2]
    exact ⟨initPrefs_again hx, initPrefs_again hy⟩
  refine ⟨⟨s.fill.items, s.fiss.items, s.topup.items, s.fillPrefs, s.fissPrefs⟩, ?_, withReq [] s, ?_,
    rfl, fun more hm => visible_run V I [] hm⟩
  · unfold snapshot
    rw [e1, ok_bind]; dsimp only
    rw [e2, ok_bind]; dsimp only
    rw [e3, ok_bind]; rfl
  · unfold restart enter
    dsimp only
    rw [Buf.restore_eq (f q1), ok_bind, Buf.restore_eq (f q2), ok_bind, Buf.restore_eq (f q3), ok_bind,
      g.1, ok_bind, g.2, ok_bind, b1, b2, b3]
    rfl

/-- The hypotheses are met: a history with three full streams, then a step whose deliveries answer
requests. -/
example : (∃ is os, History exCfg is os exState ∧ Substantial is) ∧
    Answering exCfg exState [⟨id, fun _ => [], [], [(0, puw), (4, puw)]⟩] := by
  obtain ⟨is, os, hs, h⟩ := exState_reachable
  refine ⟨⟨is, os, h, hs⟩, ?_, ?_, fun _ _ _ => trivial⟩
  · intro d hd
    simp only [List.mem_cons, List.not_mem_nil, or_false] at hd
    rcases hd with rfl | rfl <;> exact puw_solid
  · intro a s1 hr
    have I := reachable_inv exCfg_valid exState_reachable
    rw [requests_ok I] at hr
    simp only [Except.ok.injEq, Prod.mk.injEq] at hr
    rw [← hr.1]
    decide +kernel

end Cyc.FuelFab
