import Verif.Reactor.Lemmas7
import Verif.Reactor.Check
import Verif.Reactor.Restart

/-! # Properties of reactors: snapshots -/

namespace Cyc.Reactor

private theorem bufOK_fits {c : Cfg} (hw : WellFormed c) {n : Nat} {b : Buf Assem} (h : BufOK c n b) :
    Buf.fits c.eps (⟨some (n * c.assemSize), []⟩ : Buf Assem) (totalQty b.items) = true := by
  refine Buf.fits_of_le hw.eps ?_
  have h1 := h.quantity
  unfold Buf.quantity at h1
  rw [h1]
  have : (b.items.length : ℚ) ≤ n := by exact_mod_cast h.count
  exact mul_le_mul_of_nonneg_right this hw.assemSize.le

/-- C110. After any history in which the market honours the contract, a snapshot can be taken, taking
it changes nothing, and a reactor that is restarted from it is in the very state it was in; so it goes
on, in any market, as if it had not been interrupted. -/
theorem C110_restart {c : Cfg} (hw : WellFormed c) {is : List In} {os : List Out} {s : State}
    (h : History c is os s) :
    ∃ x, snapshot c s = .ok (x, s) ∧ ∃ s', restart c s.time x = .ok s' ∧ s' = s ∧
      ∀ more, run c s' more = run c s more := by
  obtain ⟨s0, h0, hh, hr⟩ := h
  have inv := run_inv hw (enter_inv hw h0) hh hr
  obtain ⟨g, hl, hy⟩ := inv
  have f1 := bufOK_fits hw g.fresh
  have f2 := bufOK_fits hw g.core
  have f3 := bufOK_fits hw g.spent
  have e1 : s.fresh.dump c.eps = .ok (s.fresh.items, s.fresh) := Buf.dump_eq (by rw [g.fresh.cap]; exact f1)
  have e2 : s.core.dump c.eps = .ok (s.core.items, s.core) := Buf.dump_eq (by rw [g.core.cap]; exact f2)
  have e3 : s.spent.dump c.eps = .ok (s.spent.items, s.spent) := Buf.dump_eq (by rw [g.spent.cap]; exact f3)
  refine ⟨⟨s.fresh.items, s.core.items, s.spent.items, s.cycleStep, s.discharged, s.inRecipes,
    s.outRecipes, s.prefs, s.resIdx, s.hybrid⟩, ?_, s, ?_, rfl, fun _ => rfl⟩
  · unfold snapshot
    rw [e1, ok_bind]; dsimp only
    rw [e2, ok_bind]; dsimp only
    rw [e3, ok_bind]; rfl
  · have hp : s.prefs.length ≠ 0 := by
      rw [g.prefs]
      exact fun h => hw.someFuel (List.length_eq_zero_iff.1 h)
    unfold restart
    dsimp only
    rw [Buf.restore_eq f1, ok_bind, Buf.restore_eq f2, ok_bind, Buf.restore_eq f3, ok_bind]
    unfold enter
    dsimp only
    rw [if_neg (by
      have := hw.recipeChangeCommods; have := hw.recipeChangeIn; have := hw.recipeChangeOut
      have := hw.prefChangeCommods; have := hw.prefChangeValues
      omega), ok_bind, if_neg hp]
    have c1 := g.fresh.cap
    have c2 := g.core.cap
    have c3 := g.spent.cap
    rcases s with ⟨t, ⟨fc, fi⟩, ⟨kc, ki⟩, ⟨pc, pi⟩, cs, d, ir, or, pr, ri, hyb, lg⟩
    simp only at c1 c2 c3 hl hy
    subst c1 c2 c3 hl hy
    simp only [pure_eq_ok, Except.ok.injEq, State.mk.injEq, and_self, true_and, and_true]
    cases c.sideProducts.isEmpty <;> rfl

/-- A concrete case: a reactor with one fresh assembly, a full core and two spent assemblies, after
the preference and recipe changes. -/
example : ∃ os s, History exCfg (exHist.take 9) os s ∧
    (s.fresh.count, s.core.count, s.spent.count) = (1, 3, 2) ∧
    ∃ x, snapshot exCfg s = .ok (x, s) ∧ restart exCfg s.time x = .ok s := by
  obtain ⟨os, s, hp, hh⟩ := history_of (c := exCfg) (is := exHist.take 9) (by decide +kernel)
    (by decide +kernel)
  obtain ⟨x, hx, s', hs, rfl, _⟩ := C110_restart exCfg_wf hh
  refine ⟨os, s', hh, ?_, x, hx, hs⟩
  have : ((play exCfg (exHist.take 9)).toOption.map fun r =>
      (r.2.fresh.count, r.2.core.count, r.2.spent.count)) = some (1, 3, 2) := by
    decide +kernel
  rw [hp] at this
  simpa [Except.toOption] using this

end Cyc.Reactor
