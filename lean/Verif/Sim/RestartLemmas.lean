import Verif.Conversion.Props
import Verif.Mixer.Props2
import Verif.Sim.Twins

/-!
# Facilities read from a snapshot
-/

namespace Cyc.Sim

namespace OfEnrichment
open Enrichment

theorem resumed {c : Cfg} (V : Valid c) {s₀ s : State} {is : List In} {outs : List Out}
    (b : build c = .ok s₀) (H : HonestRun c s₀ is) (h : run c s₀ is = .ok (outs, s)) (junk : ℚ) :
    ∃ x, snapshot c s = .ok (x, s) ∧ ∃ s', restart c junk x = .ok s' ∧
      s'.inventory = s.inventory ∧ s'.tails = s.tails := by
  obtain ⟨I0, -, -, -, q0⟩ := build_inv V b
  obtain ⟨I, hq, -⟩ := honest_run_room V I0 q0 H h
  have f : Buf.fits c.eps (⟨some c.maxFeed, []⟩ : Buf Enrichment.NMat) (totalQty s.inventory.items) = true := by
    simp only [Buf.fits, Buf.space, Buf.quantity, Option.map_some, totalQty_nil, sub_zero,
      decide_eq_true_eq, max_eq_right V.maxFeed]
    unfold Buf.quantity at hq
    linarith
  have e1 : s.inventory.dump c.eps = .ok (s.inventory.items, s.inventory) :=
    Buf.dump_eq (by rw [I.cap]; exact f)
  have e2 : s.tails.dump c.eps = .ok (s.tails.items, s.tails) :=
    Buf.dump_eq (by rw [I.tailsCap]; rfl)
  have b1 : (⟨some c.maxFeed, s.inventory.items⟩ : Buf Enrichment.NMat) = s.inventory := by rw [← I.cap]
  have b2 : (⟨none, s.tails.items⟩ : Buf Enrichment.NMat) = s.tails := by rw [← I.tailsCap]
  refine ⟨⟨s.inventory.items, s.tails.items⟩, ?_, { s with swu := junk, intra := none }, ?_, rfl, rfl⟩
  · unfold snapshot
    rw [e1, ok_bind]; dsimp only
    rw [e2, ok_bind]; rfl
  · unfold restart
    rw [Buf.restore_eq f, ok_bind, Buf.restore_eq Buf.fits_none, ok_bind, b1, b2]
    rfl

end OfEnrichment

theorem fuelFab_substantial {c : FuelFab.Cfg} {s₀ s : FuelFab.State} {is : List FuelFab.In}
    {outs : List FuelFab.Out} (r : FuelFab.run c s₀ is = .ok (outs, s)) (H : fuelFed c s₀ is) :
    FuelFab.Substantial is := honest_all (step := FuelFab.step c) (run := FuelFab.run c)
    (fun _ => rfl) (fun _ _ _ => rfl) (H := fun s i => ∀ a s₁, FuelFab.requests c i.addr s = .ok (a, s₁) →
      FuelFab.Distinct a ∧ FuelFab.HonestBuys a i.buys ∧ ∀ p, FuelFab.bids c i.reqs s₁ = .ok p →
        FuelFab.HonestSales c (i.reqs c.outCommod) p i.sells) (fun _ _ _ => Iff.rfl)
    (Q := fun i => ∀ d ∈ i.buys, FuelFab.Solid d.2) (by
      intro s i o s' h hs
      simp only [FuelFab.step, bind_ok] at hs
      obtain ⟨⟨a, s₁⟩, e, -⟩ := hs
      exact (h _ _ e).2.1.mass) r H

namespace OfFuelFab
open FuelFab

theorem resumed {c : Cfg} (V : Valid c) {s₀ s : State} {is : List In} {outs : List Out}
    (b : enter c = .ok s₀) (H : fuelFed c s₀ is) (h : run c s₀ is = .ok (outs, s)) :
    ∃ x, snapshot c s = .ok (x, s) ∧ ∃ s', restart c x = .ok s' ∧ ∃ inv, s' = withReq inv s := by
  obtain ⟨x, h1, s', h2, h3, -⟩ := C113_restart V ⟨s₀, b, h⟩ (fuelFab_substantial h H)
  refine ⟨x, h1, s', h2, s'.reqInv, ?_⟩
  simp only [Prod.mk.injEq] at h3
  obtain ⟨e1, e2, e3, e4, e5⟩ := h3
  cases s'; cases s
  simp only at e1 e2 e3 e4 e5
  subst e1 e2 e3 e4 e5
  rfl

end OfFuelFab

namespace OfSink
open Sink

theorem resumed {c : Cfg} (hc : Sensible (.sink c)) {s₀ s : State} {is : List In} {outs : List Out}
    (b : enter c noRng 0 = .ok s₀) (h : run c 0 s₀ is = .ok (outs, s)) (S : AllSound noRng is)
    (H : HonestRun c 0 s₀ is) (t : ℤ) :
    ∃ x, snapshot c s = .ok (x, s) ∧ ∃ s', restart c noRng t x = .ok s' ∧
      s'.inventory = s.inventory ∧ s'.prefs = s.prefs ∧ s.nextBuy = -1 ∧ s'.nextBuy = -1 := by
  obtain ⟨V, -, -, hz, hf⟩ := hc
  have hr : ¬ RandomTime c := by
    unfold RandomTime
    rw [hf]
    decide
  have hn := history_always V ⟨s₀, b, h⟩ S hr
  have hinv := C59_inventory V b h S H
  obtain ⟨I, -⟩ := history_inv V ⟨s₀, b, h⟩ S
  obtain ⟨⟨cap, items⟩, q, n, ps⟩ := s
  have hcap : cap = some c.maxInv := I.cap
  subst hcap
  have hps : ps = prefsOf c := I.prefs
  subst hps
  have hpop : (⟨some c.maxInv, items⟩ : Buf Res).popN items.length =
      .ok (items, ⟨some c.maxInv, []⟩) := by
    unfold Buf.popN; simp
  have hpush : (⟨some c.maxInv, []⟩ : Buf Res).pushAll c.epsRsrc items =
      .ok ⟨some c.maxInv, items⟩ := by
    rw [Buf.pushAll_ok]
    refine ⟨?_, by simp⟩
    unfold Buf.fits Buf.space Buf.quantity
    simp only [Option.map_some, totalQty_nil, sub_zero, decide_eq_true_eq]
    rw [max_eq_right V.maxInv]
    have h1 := V.epsRsrc
    have h2 : totalQty items ≤ c.maxInv := hinv
    linarith
  have hp : setPrefs c (prefsOf c) = .ok (prefsOf c) := by
    unfold setPrefs
    have hl := I.length
    split
    · rename_i h0
      have h1 : c.commods = [] := List.length_eq_zero_iff.1 (hl ▸ h0)
      rw [h1, List.length_eq_zero_iff.1 h0]
      rfl
    · rw [if_neg (not_not.2 hl)]
  refine ⟨(prefsOf c, items), ?_, ⟨⟨some c.maxInv, items⟩,
    spaceAvailable c ⟨⟨some c.maxInv, []⟩, 0, 0, prefsOf c⟩, -1, prefsOf c⟩, ?_, rfl, rfl, hn, rfl⟩
  · simp only [snapshot, Buf.count, hpop, ok_bind, hpush, pure_eq_ok]
  · simp only [restart, enterWith, hp, ok_bind, setRequestAmt, hz, if_true, pure_eq_ok,
      setNextBuyTime, hf, hpush]

end OfSink

theorem since_time {k k' : Kind} {t : Nat} (h : k'.since t = k) :
    (∀ c enc dec, k = .reactor c enc dec → c.enterTime = t) ∧
    ∀ c want, k = .storage c want → c.enterTime = t := by
  subst h
  constructor
  · intro c enc dec h
    cases k' <;> simp only [Kind.since, reduceCtorEq, Kind.reactor.injEq] at h
    obtain ⟨rfl, -, -⟩ := h
    rfl
  · intro c want h
    cases k' <;> simp only [Kind.since, reduceCtorEq, Kind.storage.injEq] at h
    obtain ⟨rfl, -⟩ := h
    rfl

/-- A facility that has lived until time `t` is stored, and read again at that time. -/
theorem resumed {plan : Plan} {t : Nat} {p : Running act} (hk : Sensible p.k) (hp : Kept p.k p.s)
    (ha : Aged plan t p) (junk : ℚ) :
    ∃ x, store p.k p.s = .ok (x, p.s) ∧ ∃ s', resume junk t p.k x = .ok s' ∧ Same p.k p.s s' := by
  obtain ⟨t₀, n, ht, ⟨k₀, -, hk₀⟩, got, gave, L⟩ := ha
  obtain ⟨k, s⟩ := p
  simp only at hk hp hk₀ L ⊢
  cases k with
  | conversion c =>
    obtain ⟨is, os, h, H, -, -, -⟩ := L
    have S : Conversion.Substantial is := honest_all (step := Conversion.step c)
      (run := Conversion.run c) (fun _ => rfl) (fun _ _ _ => rfl) (HR := Conversion.HonestRun c)
      (fun _ _ _ => and_assoc.symm) (Q := fun i => ∀ m ∈ i.buys, Conversion.Solid m) (by
        intro s i o s' h hs
        simp only [Conversion.step, bind_ok] at hs
        obtain ⟨s₁, e, -⟩ := hs
        exact (h.2 s₁ e).solid) h H
    obtain ⟨inv, s', e1, e2, -, e3⟩ := Conversion.C90_restart_partial hk.2.2.1 hk.1 H S h
    exact ⟨inv, e1, s', e2, e3 hp⟩
  | enrichment c =>
    obtain ⟨s₀, is, os, b, r, H, -⟩ := L
    exact OfEnrichment.resumed hk.1 b H r junk
  | fuelFab c =>
    obtain ⟨s₀, is, os, b, r, H, -⟩ := L
    exact OfFuelFab.resumed hk.1 b H r
  | mixer c => exact hp.elim
  | reactor c enc dec =>
    obtain ⟨is, os, h, hn, -⟩ := L
    obtain ⟨x, e1, s', e2, rfl, -⟩ := Reactor.C110_restart hk.1 h
    have e3 : s.1.time = t := by
      obtain ⟨s0, h0, hh, hr⟩ := h
      have h1 := Reactor.run_time hk.1 (Reactor.enter_inv hk.1 h0) hh hr
      have h2 : s0.time = c.enterTime := by
        unfold Reactor.enter at h0
        dsimp only at h0
        split at h0
        · exact absurd h0 (by simp)
        · simp only [Except.ok.injEq] at h0
          rw [← h0]
      have := (since_time hk₀.symm).1 c enc dec rfl
      omega
    rw [e3] at e2
    refine ⟨(x, s.2), ?_, s, ?_, rfl⟩
    · show (Reactor.snapshot c s.1 >>= _) = _
      rw [e1]; rfl
    · show (Reactor.restart c t x >>= _) = _
      rw [e2]; rfl
  | separations c => exact hp.elim
  | sink c =>
    obtain ⟨s₀, is, os, b, r, H, S, -⟩ := L
    obtain ⟨x, e1, s', e2, e3⟩ := OfSink.resumed hk b r S H t
    refine ⟨x, ?_, (t, s'), ?_, e3⟩
    · show (Sink.snapshot c s.2 >>= _) = _
      rw [e1]; rfl
    · show (Sink.restart c noRng t x >>= _) = _
      rw [e2]; rfl
  | source c =>
    obtain ⟨s₀, is, os, b, r, H, -⟩ := L
    have T : Source.Targets is := honest_all (step := Source.step c) (run := Source.run c)
      (fun _ => rfl) (fun _ _ _ => rfl) (H := Source.Honest c) (fun _ _ _ => Iff.rfl)
      (fun _ _ _ _ h _ => Source.honest_targets h) r H
    obtain ⟨x, e1, e2⟩ := Source.C93_restart (OfSource.valid hk) ⟨s₀, b, r⟩ T
    exact ⟨x, e1, s, e2, rfl⟩
  | storage c want =>
    obtain ⟨p, s₀, is, os, b, r, H, -, hn, -⟩ := L
    obtain ⟨x, e1, s', e2, e, -⟩ := Storage.C111_restart_partial b r
    subst e
    have S : Storage.Substantial is := honest_all (step := Storage.step c) (run := Storage.run c)
      (fun _ => rfl) (fun _ _ _ => rfl) (H := Storage.Honest c) (fun _ _ _ => Iff.rfl)
      (fun _ _ _ _ h _ => h.buys) r H
    have e3 : s'.time = t := by
      have := (Storage.history_inv hk.2.1 ⟨p, s₀, b, r⟩ S).2.1
      have := (since_time hk₀.symm).2 c want rfl
      omega
    rw [e3] at e2
    refine ⟨x, e1, s', ?_, rfl⟩
    show (Storage.restart c t x >>= _) = _
    rw [e2]; rfl

/-- A facility that has lived is stored, and nothing changes. -/
theorem stored {p : Running act} (hk : Sensible p.k) {n : Nat} {got gave : List (List NMat)}
    (L : Lived p.k p.s n got gave) : ∃ x, store p.k p.s = .ok (x, p.s) := by
  obtain ⟨k, s⟩ := p
  simp only at hk L ⊢
  cases k with
  | conversion c =>
    obtain ⟨is, os, h, H, -, -, -⟩ := L
    have S : Conversion.Substantial is := honest_all (step := Conversion.step c)
      (run := Conversion.run c) (fun _ => rfl) (fun _ _ _ => rfl) (HR := Conversion.HonestRun c)
      (fun _ _ _ => and_assoc.symm) (Q := fun i => ∀ m ∈ i.buys, Conversion.Solid m) (by
        intro s i o s' h hs
        simp only [Conversion.step, bind_ok] at hs
        obtain ⟨s₁, e, -⟩ := hs
        exact (h.2 s₁ e).solid) h H
    obtain ⟨inv, s', e1, -⟩ := Conversion.C90_restart_partial hk.2.2.1 hk.1 H S h
    exact ⟨inv, e1⟩
  | enrichment c =>
    obtain ⟨s₀, is, os, b, r, H, -⟩ := L
    obtain ⟨x, e, -⟩ := OfEnrichment.resumed hk.1 b H r 0
    exact ⟨x, e⟩
  | fuelFab c =>
    obtain ⟨s₀, is, os, b, r, H, -⟩ := L
    obtain ⟨x, e, -⟩ := OfFuelFab.resumed hk.1 b H r
    exact ⟨x, e⟩
  | mixer c =>
    obtain ⟨is, os, h, H, -⟩ := L
    have S : Mixer.Substantial is := honest_all (step := Mixer.step c) (run := Mixer.run c)
      (fun _ => rfl) (fun _ _ _ => rfl) (HR := Mixer.HonestRun c)
      (fun _ _ _ => and_assoc.symm) (Q := fun i => ∀ d ∈ i.buys, Mixer.Solid d.2) (by
        intro s i o s' h hs
        simp only [Mixer.step, bind_ok] at hs
        obtain ⟨s₁, e, -⟩ := hs
        exact (h.2 s₁ e).solid) h H
    obtain ⟨inv, s', e, -⟩ := Mixer.C52_restart_partial hk.1 h S
      (Mixer.honest_run hk.1 (Mixer.enter_inv hk.1) (Mixer.enter_sizes c) H h)
    refine ⟨inv, ?_⟩
    show (Mixer.snapshot c s >>= _) = _
    rw [e]; rfl
  | reactor c enc dec =>
    obtain ⟨is, os, h, hn, -⟩ := L
    obtain ⟨x, e1, -⟩ := Reactor.C110_restart hk.1 h
    refine ⟨(x, s.2), ?_⟩
    show (Reactor.snapshot c s.1 >>= _) = _
    rw [e1]; rfl
  | separations c => exact ⟨_, rfl⟩
  | sink c =>
    obtain ⟨s₀, is, os, b, r, H, S, -⟩ := L
    obtain ⟨x, e1, -⟩ := OfSink.resumed hk b r S H 0
    refine ⟨x, ?_⟩
    show (Sink.snapshot c s.2 >>= _) = _
    rw [e1]; rfl
  | source c =>
    obtain ⟨s₀, is, os, b, r, H, -⟩ := L
    have T : Source.Targets is := honest_all (step := Source.step c) (run := Source.run c)
      (fun _ => rfl) (fun _ _ _ => rfl) (H := Source.Honest c) (fun _ _ _ => Iff.rfl)
      (fun _ _ _ _ h _ => Source.honest_targets h) r H
    obtain ⟨x, e1, -⟩ := Source.C93_restart (OfSource.valid hk) ⟨s₀, b, r⟩ T
    exact ⟨x, e1⟩
  | storage c want =>
    obtain ⟨p, s₀, is, os, b, r, H, hn, -⟩ := L
    obtain ⟨x, e1, -⟩ := Storage.C111_restart_partial b r
    exact ⟨x, e1⟩

theorem storedAll {ps : List (Running act)} (hk : ∀ p ∈ ps, Sensible p.k)
    (ha : ∀ p ∈ ps, ∃ n got gave, Lived p.k p.s n got gave) : ∃ xs, storeAll ps = .ok (xs, ps) := by
  induction ps with
  | nil => exact ⟨[], rfl⟩
  | cons p ps ih =>
    obtain ⟨xs, e1⟩ := ih (fun q hq => hk q (List.mem_cons_of_mem _ hq))
      fun q hq => ha q (List.mem_cons_of_mem _ hq)
    obtain ⟨n, got, gave, L⟩ := ha p List.mem_cons_self
    obtain ⟨x, e2⟩ := stored (hk p List.mem_cons_self) L
    refine ⟨⟨p.k, x⟩ :: xs, ?_⟩
    simp only [storeAll]
    rw [e2, ok_bind]
    dsimp only
    rw [e1, ok_bind]; rfl

/-- All facilities are stored and read again. -/
theorem resumedAll {plan : Plan} {t : Nat} {ps : List (Running act)} (hk : ∀ p ∈ ps, Sensible p.k)
    (hp : ∀ p ∈ ps, Kept p.k p.s) (ha : ∀ p ∈ ps, Aged plan t p) (junk : ℚ) :
    ∃ xs, storeAll ps = .ok (xs, ps) ∧ ∃ ps', resumeAll junk t xs = .ok ps' ∧
      List.Forall₂ Twin ps ps' := by
  induction ps with
  | nil => exact ⟨[], rfl, [], rfl, .nil⟩
  | cons p ps ih =>
    obtain ⟨xs, e1, ps', e2, T⟩ := ih (fun q hq => hk q (List.mem_cons_of_mem _ hq))
      (fun q hq => hp q (List.mem_cons_of_mem _ hq)) fun q hq => ha q (List.mem_cons_of_mem _ hq)
    obtain ⟨x, e3, s', e4, S⟩ := resumed (hk p List.mem_cons_self) (hp p List.mem_cons_self)
      (ha p List.mem_cons_self) junk
    refine ⟨⟨p.k, x⟩ :: xs, ?_, ⟨p.k, s'⟩ :: ps', ?_, .cons ?_ T⟩
    · simp only [storeAll]
      rw [e3, ok_bind]
      dsimp only
      rw [e1, ok_bind]; rfl
    · simp only [resumeAll]
      rw [e4, ok_bind, e2, ok_bind]; rfl
    · obtain ⟨t₀, n, -, -, got, gave, L⟩ := ha p List.mem_cons_self
      exact ⟨hk p List.mem_cons_self, ⟨n, got, gave, L⟩, S⟩

/-- A facility cannot be told from itself. -/
theorem twin_refl {p : Running act} (hk : Sensible p.k) {n : Nat} {got gave : List (List NMat)}
    (L : Lived p.k p.s n got gave) : Twin p p := by
  obtain ⟨k, s⟩ := p
  refine ⟨hk, ⟨n, got, gave, L⟩, ?_⟩
  cases k with
  | enrichment c => exact ⟨rfl, rfl⟩
  | fuelFab c => exact ⟨s.reqInv, rfl⟩
  | sink c =>
    obtain ⟨s₀, is, os, b, r, H, S, -⟩ := L
    obtain ⟨-, -, -, -, -, -, e, -⟩ := OfSink.resumed hk b r S H 0
    exact ⟨rfl, rfl, e, e⟩
  | _ => rfl

theorem twin_leave {p p' : Running act} (h : Twin p p') :
    p'.k = p.k ∧ mayLeave p'.k p'.s = mayLeave p.k p.s ∧
      (⟨p'.k, holdings p'.k p'.s⟩ : Kind × List NMat) = ⟨p.k, holdings p.k p.s⟩ := by
  obtain ⟨hk, -, S⟩ := h
  rename_i k s s'
  refine ⟨rfl, ?_⟩
  cases k with
  | enrichment c =>
    obtain ⟨h1, h2⟩ := S
    refine ⟨rfl, Prod.ext rfl ?_⟩
    show s'.inventory.items ++ s'.tails.items = s.inventory.items ++ s.tails.items
    rw [h1, h2]
  | fuelFab c =>
    obtain ⟨inv, rfl⟩ := S
    exact ⟨rfl, rfl⟩
  | sink c =>
    refine ⟨rfl, Prod.ext rfl ?_⟩
    show sunk s'.2.inventory.items = sunk s.2.inventory.items
    rw [S.1]
  | _ => rw [show s' = s from S]; exact ⟨rfl, rfl⟩

theorem depart_twin {ps ps' : List (Running act)} (h : List.Forall₂ Twin ps ps') (w : Nat → Bool)
    (i : Nat) : List.Forall₂ Twin (depart w i ps).1 (depart w i ps').1 ∧
      List.Forall₂ Twin (depart w i ps).2 (depart w i ps').2 := by
  induction h generalizing i with
  | nil => exact ⟨.nil, .nil⟩
  | cons h _ ih =>
    obtain ⟨h1, h2⟩ := ih (i + 1)
    simp only [depart, (twin_leave h).2.1]
    split
    · exact ⟨h1, .cons h h2⟩
    · exact ⟨.cons h h1, h2⟩

theorem live_twin {A : Agreement} {plan : Plan} (hb : ∀ t, ∀ k ∈ plan.builds t, Sensible k ∧ Suits A k)
    {ex : Nat → Exchange} (hex : ∀ t, (ex t).Fair) {n : Nat} :
    ∀ {t : Nat} {ps₀ ps₀' : List (Running act)} {l : List (List (Deal × NMat))}
      {gone ps : List (Running act)}, (∀ p ∈ ps₀, Good A qty holdings p) → List.Forall₂ Twin ps₀ ps₀' →
      live ex plan n t ps₀ = .ok (l, gone, ps) →
      ∃ gone' ps', live ex plan n t ps₀' = .ok (l, gone', ps') ∧ List.Forall₂ Twin gone gone' ∧
        List.Forall₂ Twin ps ps' := by
  induction n with
  | zero =>
    intro t ps₀ ps₀' l gone ps _ T h
    simp only [live, Except.ok.injEq, Prod.mk.injEq] at h
    obtain ⟨rfl, rfl, rfl⟩ := h
    exact ⟨[], ps₀', rfl, .nil, T⟩
  | succ n ih =>
    intro t ps₀ ps₀' l gone ps h0 T h
    simp only [live, bind_ok, pure_eq_ok, Except.ok.injEq, Prod.mk.injEq] at h
    obtain ⟨new, d1, ⟨gs, ps₁⟩, r1, ⟨l', gone', ps'⟩, l1, rfl, rfl, rfl⟩ := h
    have hnew : ∀ k ∈ (plan.builds t).map (Kind.since t), Sensible k ∧ Suits A k := by
      intro k hk
      obtain ⟨k', hk', rfl⟩ := List.mem_map.1 hk
      exact ⟨sensible_since t (hb t k' hk').1, suits_since t (hb t k' hk').2⟩
    obtain ⟨d2, d3⟩ := deployAll_k d1 hnew
    have Tn : List.Forall₂ Twin new new := List.forall₂_same.2 fun p hp => by
      have hk := d3 ▸ List.mem_map_of_mem (f := Running.k) hp
      obtain ⟨i, hi⟩ := List.getElem?_of_mem hp
      obtain ⟨k, -, hd⟩ := deployAll_get d1 i p hi
      exact twin_refl (hnew _ hk).1 (lived_start hd)
    have hall : ∀ p ∈ ps₀ ++ new, Good A qty holdings p := fun p hp =>
      (List.mem_append.1 hp).elim (h0 p) (d2 p)
    obtain ⟨-, -, gs', ps₁', -, -, r1', -, r2, -, -⟩ := round_ok (hex t) hall
    rw [r1, Except.ok.injEq, Prod.mk.injEq] at r1'
    obtain ⟨rfl, rfl⟩ := r1'
    obtain ⟨qs', r3, T1⟩ := round_twin (hex t) hall (List.rel_append T Tn) r1
    obtain ⟨T2, T3⟩ := depart_twin T1 (plan.leaves t) 0
    obtain ⟨f1, -⟩ := depart_spec (plan.leaves t) 0 ps₁
    obtain ⟨gone'', ps'', l2, T4, T5⟩ := ih
      (fun p hp => r2 p (f1.mem_iff.1 (List.mem_append_right _ hp))) T2 l1
    refine ⟨_, ps'', ?_, List.rel_append T3 T4, T5⟩
    simp only [live, d1, r3, l2, ok_bind, pure_eq_ok]

theorem seen_twin {ps ps' : List (Running act)} (h : List.Forall₂ Twin ps ps') : seen ps' = seen ps := by
  induction h with
  | nil => rfl
  | cons h _ ih =>
    simp only [seen, List.map_cons] at ih ⊢
    rw [ih, (twin_leave h).2.2]

end Cyc.Sim
