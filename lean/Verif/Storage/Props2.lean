import Verif.Storage.Lemmas5
import Verif.Storage.Props
import Verif.Storage.Restart

/-! # Properties of storage facilities: snapshots -/

namespace Cyc.Storage

variable {ν : Type}

/-- C111. After any history a snapshot can be taken, taking it changes nothing, and a facility
restarted from it chooses the same buy policy and is in the very state it was in; so it goes on, in
any market, as if it had not been interrupted.
Missing: the internal state of the buy policy, which is in cyclus and not modelled, and so the
requests. -/
theorem C111_restart_partial {c : Cfg} {p : Policy} {s₀ : State ν} (h0 : enter c = .ok (p, s₀))
    {is : List (In ν)} {os : List (Out ν)} {s : State ν} (h : run c s₀ is = .ok (os, s)) :
    ∃ x, snapshot c s = .ok (x, s) ∧ ∃ s', restart c s.time x = .ok (p, s') ∧ s' = s ∧
      ∀ more, run c s' more = run c s more := by
  obtain ⟨f0, e1, e2, e3⟩ := enter_fixed h0
  obtain ⟨⟨o1, o2, o3, o4⟩, hp⟩ := run_fixed f0 h
  have d : ∀ {b : Buf (Mat ν)}, b.cap = none → b.dump c.eps = .ok (b.items, b) := fun hb =>
    Buf.dump_eq (by rw [hb]; rfl)
  refine ⟨⟨s.inventory.items, s.stocks.items, s.ready.items, s.processing.items, s.entryTimes,
    s.prefs⟩, ?_, s, ?_, rfl, fun _ => rfl⟩
  · unfold snapshot
    rw [d o1, ok_bind]; dsimp only
    rw [d o4, ok_bind]; dsimp only
    rw [d o3, ok_bind]; dsimp only
    rw [d o2, ok_bind]; rfl
  · have hp' : initPrefs { c with prefs := s.prefs } = .ok s.prefs := by
      unfold initPrefs at hp ⊢
      dsimp only
      have hl : s.prefs.length = c.inCommods.length := by
        split at hp
        · simp only [Except.ok.injEq] at hp
          rw [← hp, List.length_map]
        split at hp
        · exact absurd hp (by simp)
        · rename_i h2
          simp only [Except.ok.injEq] at hp
          rw [← hp]; exact not_not.1 h2
      split
      · rename_i hz
        have h1 : c.inCommods = [] := List.length_eq_zero_iff.1 (hl ▸ hz)
        rw [h1, List.length_eq_zero_iff.1 hz]; rfl
      · rw [if_neg (not_not.2 hl)]
    have e1' : choosePolicy { c with prefs := s.prefs } = .ok p := e1
    have e2' : checkRecipe { c with prefs := s.prefs } = .ok () := e2
    unfold restart enter
    rw [Buf.restore_eq Buf.fits_none, ok_bind, Buf.restore_eq Buf.fits_none, ok_bind,
      Buf.restore_eq Buf.fits_none, ok_bind, Buf.restore_eq Buf.fits_none, ok_bind,
      e1', ok_bind, e2', ok_bind, hp', ok_bind]
    rw [if_neg (not_not.2 e3)]
    rcases s with ⟨t, ⟨c1, i1⟩, ⟨c2, i2⟩, ⟨c3, i3⟩, ⟨c4, i4⟩, et, pr⟩
    simp only at o1 o2 o3 o4
    subst o1 o2 o3 o4
    rfl

/-- A concrete case: in the middle of the example 3 kg are still held, waiting for their residence
time or for throughput, and 4 kg are for sale or sold. -/
example : ∃ p s₀ os, ∃ s : State Nat, enter exCfg = .ok (p, s₀) ∧ run exCfg s₀ (exIn.take 3) = .ok (os, s) ∧
    (totalQty s.processing.items, totalQty s.ready.items, totalQty s.stocks.items) = (3, 1, 3) ∧
    ∃ x, snapshot exCfg s = .ok (x, s) ∧ restart exCfg s.time x = .ok (p, s) := by
  have : ((play exCfg (exIn.take 3)).toOption.map fun r => (totalQty r.2.processing.items,
      totalQty r.2.ready.items, totalQty r.2.stocks.items)) = some (3, 1, 3) := by decide +kernel
  cases h : play exCfg (exIn.take 3) with
  | error e => rw [h] at this; simp [Except.toOption] at this
  | ok r =>
    rw [h] at this
    simp only [Except.toOption, Option.map_some, Option.some.injEq] at this
    obtain ⟨p, s₀, h0, h1⟩ := history_of_play h
    obtain ⟨x, hx, s', hs, rfl, -⟩ := C111_restart_partial h0 h1
    exact ⟨p, s₀, r.1, r.2, h0, h1, this, x, hx, hs⟩

end Cyc.Storage
