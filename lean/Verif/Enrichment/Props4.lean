import Verif.Enrichment.Lemmas8
import Verif.Enrichment.Props3
import Verif.Enrichment.Restart

/-! # Properties of enrichment facilities: snapshots -/

namespace Cyc.Enrichment

/-- An observation without the time series of separative work and feed. -/
def withoutSeries (o : Out) : Out := { o with series := none }

/-- The run of the state `s'` is like that of the state `s`: it fails in the same way; or it makes the
same observations, up to the time series before the first sale, and ends with the same inventories. -/
inductive Alike (is : List In) : R (List Out × State) → R (List Out × State) → Prop
  | failed (e : Fault) : Alike is (.error e) (.error e)
  | ran (os os' : List Out) (t t' : State) (inventory : t'.inventory = t.inventory)
      (tails : t'.tails = t.tails) (seen : os'.map withoutSeries = os.map withoutSeries)
      (series : ∀ j k : Nat, j ≤ k → (∃ i, is[j]? = some i ∧ i.sells ≠ []) → os'[k]? = os[k]?) :
      Alike is (.ok (os, t)) (.ok (os', t'))

private theorem alike_run {c : Cfg} {is : List In} {s : State} (x : Option (ℚ × ℚ)) (y : ℚ) :
    Alike is (run c s is) (run c { s with swu := y, intra := x } is) := by
  induction is generalizing s y with
  | nil => exact .ran [] [] s _ rfl rfl rfl fun _ _ _ _ => rfl
  | cons i is ih =>
    simp only [run]
    rw [step_intra_eq (s := s) x y]
    cases hs : step c s i with
    | error e =>
      simp only [Except.map, ite_self]
      exact .failed e
    | ok r =>
      obtain ⟨o, s1⟩ := r
      split
      · rename_i hn
        simp only [Except.map, ok_bind]
        have h := ih (s := s1) s1.swu
        have e : withIntra x s1 = { s1 with swu := s1.swu, intra := x } := rfl
        rw [e]
        generalize run c s1 is = a at h
        generalize run c { s1 with swu := s1.swu, intra := x } is = b at h
        cases h with
        | failed e => exact .failed e
        | ran os os' t t' h1 h2 h3 h4 =>
          refine .ran _ _ _ _ h1 h2 ?_ ?_
          · simp only [List.map_cons, h3]; rfl
          · rintro j k hjk ⟨i', hj, hne⟩
            cases j with
            | zero =>
              simp only [List.getElem?_cons_zero, Option.some.injEq] at hj
              exact absurd (hj ▸ hn) hne
            | succ j =>
              cases k with
              | zero => omega
              | succ k => exact h4 j k (by omega) ⟨i', by simpa using hj, hne⟩
      · simp only [ok_bind]
        cases run c s1 is with
        | error e => exact .failed e
        | ok r => exact .ran _ _ _ _ rfl rfl rfl fun _ _ _ _ => rfl

/-- C112, in part. After any history with deliveries that are not negligible a snapshot can be taken,
taking it changes nothing, and a facility restarted from it holds the same inventories. In any market it
then does what the facility would have done without the interruption, except that the time series of
separative work and feed may differ until the first sale. What is missing to C112: those series, for
which it fails (`C112_counterexample`). -/
theorem C112_restart_partial {c : Cfg} (V : Valid c) {is : List In} {os : List Out} {s : State}
    (h : History c is os s) (hs : Substantial is) (hm : ∀ i ∈ is, ∀ m ∈ i.buys, c.eps < qty m)
    (junk : ℚ) :
    ∃ x, snapshot c s = .ok (x, s) ∧ ∃ s', restart c junk x = .ok s' ∧
      s'.inventory = s.inventory ∧ s'.tails = s.tails ∧
      ∀ more, Alike more (run c s more) (run c s' more) := by
  have I := history_inv V h hs
  have hq := C76_always V h hs hm
  have f : Buf.fits c.eps (⟨some c.maxFeed, []⟩ : Buf NMat) (totalQty s.inventory.items) = true := by
    simp only [Buf.fits, Buf.space, Buf.quantity, Option.map_some, totalQty_nil, sub_zero,
      decide_eq_true_eq, max_eq_right V.maxFeed]
    linarith
  have e1 : s.inventory.dump c.eps = .ok (s.inventory.items, s.inventory) :=
    Buf.dump_eq (by rw [I.cap]; exact f)
  have e2 : s.tails.dump c.eps = .ok (s.tails.items, s.tails) :=
    Buf.dump_eq (by rw [I.tailsCap]; rfl)
  have b1 : (⟨some c.maxFeed, s.inventory.items⟩ : Buf NMat) = s.inventory := by rw [← I.cap]
  have b2 : (⟨none, s.tails.items⟩ : Buf NMat) = s.tails := by rw [← I.tailsCap]
  refine ⟨⟨s.inventory.items, s.tails.items⟩, ?_, { s with swu := junk, intra := none }, ?_, rfl, rfl,
    fun more => alike_run _ _⟩
  · unfold snapshot
    rw [e1, ok_bind]; dsimp only
    rw [e2, ok_bind]; rfl
  · unfold restart
    rw [Buf.restore_eq f, ok_bind, Buf.restore_eq Buf.fits_none, ok_bind, b1, b2]
    rfl

/-- The hypotheses are met by the example after its first step, with 85 kg of feed and 28 kg of
tails. -/
example : ∃ os s, History exCfg (exIn.take 1) os s ∧ Substantial (exIn.take 1) ∧
    (∀ i ∈ exIn.take 1, ∀ m ∈ i.buys, exCfg.eps < qty m) ∧
    (s.inventory.quantity, s.tails.quantity) = (85, 28) := by
  have : ((play exCfg (exIn.take 1)).toOption.map fun r =>
    (r.2.inventory.quantity, r.2.tails.quantity)) = some (85, 28) := by decide +kernel
  cases hp : play exCfg (exIn.take 1) with
  | error e => rw [hp] at this; simp [Except.toOption] at this
  | ok r =>
    rw [hp] at this
    refine ⟨r.1, r.2, history_of_play hp, fun i hi => exIn_substantial i (List.mem_of_mem_take hi), ?_,
      Option.some.inj this⟩
    intro i hi m hm
    simp only [exIn, List.take_succ_cons, List.take_zero, List.mem_singleton] at hi
    subst hi
    simp only [List.mem_cons, List.not_mem_nil, or_false, or_self] at hm
    subst hm
    norm_num [natu, exCfg, Mat.qty_def]

/-- C112 fails for the time series: after a sale and a step without, the facility would record 25 kg of
feed again; restarted after the sale, it records an indeterminate value. -/
theorem C112_counterexample : ∃ (c : Cfg) (is : List In) (os : List Out) (s : State) (x : Snap),
    Valid c ∧ History c is os s ∧ snapshot c s = .ok (x, s) ∧
    (∃ os' t, run c s [⟨fun _ => none, [], []⟩] = .ok (os', t) ∧
      os'.map (fun o => o.series.map Prod.snd) = [some 25]) ∧
    ∀ junk, ∃ s', restart c junk x = .ok s' ∧
      ∃ os' t, run c s' [⟨fun _ => none, [], []⟩] = .ok (os', t) ∧ os'.map Out.series = [none] := by
  obtain ⟨r, hr⟩ : ∃ r, play exCfg (idleIn.take 1) = .ok r := by
    have : (play exCfg (idleIn.take 1)).toOption.isSome = true := by decide +kernel
    cases hp : play exCfg (idleIn.take 1) with
    | error e => rw [hp] at this; simp [Except.toOption] at this
    | ok r => exact ⟨r, rfl⟩
  have hh := history_of_play hr
  have hb : ∀ i ∈ idleIn.take 1, ∀ m ∈ i.buys, False := by
    intro i hi m hm
    simp only [idleIn, List.take_succ_cons, List.take_zero, List.mem_singleton] at hi
    subst hi
    simp at hm
  have key := fun junk => C112_restart_partial exCfg_valid hh (fun i hi m hm => (hb i hi m hm).elim)
    (fun i hi m hm => (hb i hi m hm).elim) junk
  obtain ⟨x, hx, -⟩ := key 0
  have h2 : ((play exCfg (idleIn.take 1)).toOption.bind fun r =>
      (run exCfg r.2 [⟨fun _ => none, [], []⟩]).toOption.map fun r =>
        r.1.map fun o => o.series.map Prod.snd) = some [some 25] := by decide +kernel
  rw [hr] at h2
  refine ⟨exCfg, idleIn.take 1, r.1, r.2, x, exCfg_valid, hh, hx, ?_, fun junk => ?_⟩
  · cases hq : run exCfg r.2 [⟨fun _ => none, [], []⟩] with
    | error e => simp [Except.toOption, hq] at h2
    | ok q =>
      refine ⟨q.1, q.2, rfl, ?_⟩
      simpa [Except.toOption, hq] using h2
  · obtain ⟨x', hx', s', hs', -, -, ha⟩ := key junk
    have hxx : x' = x := by
      rw [hx] at hx'
      simp only [Except.ok.injEq, Prod.mk.injEq, and_true] at hx'
      exact hx'.symm
    subst hxx
    refine ⟨s', hs', ?_⟩
    have ha := ha [⟨fun _ => none, [], []⟩]
    have hi : s'.intra = none := by
      simp only [restart, bind_ok, pure_eq_ok, Except.ok.injEq] at hs'
      obtain ⟨_, -, _, -, rfl⟩ := hs'
      rfl
    cases hq : run exCfg s' [⟨fun _ => none, [], []⟩] with
    | error e =>
      cases hq2 : run exCfg r.2 [⟨fun _ => none, [], []⟩] with
      | error e => simp [Except.toOption, hq2] at h2
      | ok q => rw [hq, hq2] at ha; cases ha
    | ok q =>
      refine ⟨q.1, q.2, rfl, ?_⟩
      have e : s' = { s' with swu := s'.swu, intra := none } := by rw [← hi]
      have hst := step_intra_eq (c := exCfg) (s := s') (i := ⟨fun _ => none, [], []⟩) none s'.swu
      rw [← e, if_pos rfl] at hst
      simp only [run, bind_ok, pure_eq_ok, Except.ok.injEq, Prod.exists] at hq
      obtain ⟨o, t, h1, os, t', h3, h4⟩ := hq
      simp only [Prod.mk.injEq] at h3
      rw [← h4]
      obtain ⟨rfl, rfl⟩ := h3
      rw [h1] at hst
      simp only [Except.map, Except.ok.injEq, Prod.mk.injEq] at hst
      simp only [List.map_cons, List.map_nil]
      rw [hst.1]

end Cyc.Enrichment
