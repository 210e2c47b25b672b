import Verif.Sim.RestartLemmas

/-!
# Restarting a simulation: property C133
-/

namespace Cyc.Sim

variable {A : Agreement}

/-- C133, snapshots. At any time a snapshot of all facilities can be taken, and taking it changes
nothing.

Partial: as C125. -/
theorem C133_snapshot_partial {plan : Plan}
    (hb : ∀ t, ∀ k ∈ plan.builds t, Sensible k ∧ Suits A k) {ex : Nat → Exchange}
    (hex : ∀ t, (ex t).Fair) {n : Nat} {l : List (List (Deal × NMat))} {gone ps : List (Running act)}
    (h : live ex plan n 0 [] = .ok (l, gone, ps)) : ∃ xs, storeAll ps = .ok (xs, ps) := by
  obtain ⟨h1, -⟩ := live_aged hb hex (ps₀ := []) (by simp) h
  refine storedAll (fun p hp => (h1 p hp).2.1) fun p hp => ?_
  obtain ⟨-, -, -, n, -, -, got, gave, L⟩ := h1 p hp
  exact ⟨n, got, gave, L⟩

/-- C133, restarts. A simulation that is read from a snapshot goes on as it would have without the
interruption: the facilities are and have the same, the deals of all later steps are the same, and so is
what is handed over, who leaves, and what all have in the end.

Partial: as C125; and only if no conversion has product, and there are no mixers and no separations
facilities, see `C133_conversion`, `C133_mixer` and `C133_separations`. -/
theorem C133_restart_partial {plan : Plan}
    (hb : ∀ t, ∀ k ∈ plan.builds t, Sensible k ∧ Suits A k) {ex : Nat → Exchange}
    (hex : ∀ t, (ex t).Fair) {n : Nat} {l : List (List (Deal × NMat))} {gone ps : List (Running act)}
    (h : live ex plan n 0 [] = .ok (l, gone, ps)) (hk : ∀ p ∈ ps, Kept p.k p.s) (junk : ℚ) :
    ∃ xs ps', storeAll ps = .ok (xs, ps) ∧ resumeAll junk n xs = .ok ps' ∧ seen ps' = seen ps ∧
      ∀ m, ∃ l' gone₁ ps₁ gone₁' ps₁', live ex plan m n ps = .ok (l', gone₁, ps₁) ∧
        live ex plan m n ps' = .ok (l', gone₁', ps₁') ∧ seen gone₁' = seen gone₁ ∧
        seen ps₁' = seen ps₁ := by
  obtain ⟨h1, -⟩ := live_aged hb hex (ps₀ := []) (by simp) h
  rw [Nat.zero_add] at h1
  obtain ⟨xs, e1, ps', e2, T⟩ := resumedAll (fun p hp => (h1 p hp).2.1) hk
    (fun p hp => (h1 p hp).2.2) junk
  refine ⟨xs, ps', e1, e2, seen_twin T, fun m => ?_⟩
  have H : ∀ k ∈ plan.built n m, Sensible k ∧ Suits A k := built_all hb (fun t k h =>
    ⟨sensible_since t h.1, suits_since t h.2⟩) n m
  obtain ⟨l', gone₁, ps₁, l1, -⟩ := live_ok (A := A) measure_qty hex m n (ps := ps)
    (fun k hk => ⟨keeps_qty k, H k hk⟩) (starts_qty fun k hk => (H k hk).1) fun p hp => (h1 p hp).1
  obtain ⟨gone₁', ps₁', l2, T1, T2⟩ := live_twin hb hex (fun p hp => (h1 p hp).1) T l1
  exact ⟨l', gone₁, ps₁, gone₁', ps₁', l1, l2, seen_twin T1, seen_twin T2⟩

/-! ## What a restart does not keep -/

/-- All facilities are built at the start, and none leaves. -/
def fromStart (ks : List Kind) : Plan := ⟨fun t => if t = 0 then ks else [], fun _ _ => false⟩

/-- A simulation of `n` steps is stored, nothing changing, and read again: what all facilities have
before and after. -/
structure Restarted (ks : List Kind) (n : Nat) (before after : List ℚ) : Prop where
  sensible : ∀ k ∈ ks, Sensible k ∧ Suits anything k
  restarts : ∃ l ps xs ps', live (fun _ => greedy) (fromStart ks) n 0 [] = .ok (l, [], ps) ∧
    storeAll ps = .ok (xs, ps) ∧ resumeAll 0 n xs = .ok ps' ∧
    ps.map (fun p => totalQty (holdings p.k p.s)) = before ∧
    ps'.map (fun p => totalQty (holdings p.k p.s)) = after

theorem restarted {ks : List Kind} {n : Nat} {before after : List ℚ}
    (hs : ∀ k ∈ ks, Sensible k ∧ Suits anything k)
    (h : ((live (fun _ => greedy) (fromStart ks) n 0 [] >>= fun r => do
      let (xs, ps) ← storeAll r.2.2
      let ps' ← resumeAll 0 n xs
      pure (r.2.1.length, ps.map (fun p => totalQty (holdings p.k p.s)),
        ps'.map (fun p => totalQty (holdings p.k p.s)))).toOption) = some (0, before, after)) :
    Restarted ks n before after := by
  refine ⟨hs, ?_⟩
  cases h1 : live (fun _ => greedy) (fromStart ks) n 0 [] with
  | error e => rw [h1] at h; cases h
  | ok r =>
    obtain ⟨l, gone, ps⟩ := r
    obtain ⟨xs, h2⟩ := C133_snapshot_partial (plan := fromStart ks) (A := anything) (fun t k hk => by
      unfold fromStart at hk
      dsimp only at hk
      split at hk
      · exact hs k hk
      · cases hk) (fun _ => greedy_fair) h1
    rw [h1, ok_bind] at h
    simp only [h2, ok_bind] at h
    cases h3 : resumeAll 0 n xs with
    | error e => rw [h3] at h; cases h
    | ok ps' =>
      rw [h3, ok_bind] at h
      simp only [pure_eq_ok, Except.toOption, Option.some.injEq, Prod.mk.injEq,
        List.length_eq_zero_iff] at h
      obtain ⟨rfl, rfl, rfl⟩ := h
      exact ⟨l, ps, xs, ps', rfl, h2, h3, rfl, rfl⟩

/-- C133 fails with a conversion: its product is lost (C90). -/
theorem C133_conversion : Restarted [.source exMine, .conversion exConversion] 2 [200, 300] [200, 180] := by
  refine restarted (fun k hk => ⟨exKinds_sensible k ?_, suits_anything ?_⟩) (by decide +kernel)
  all_goals
    simp only [List.mem_cons, List.not_mem_nil, or_false] at hk
    rcases hk with rfl | rfl <;> simp [exKinds]

/-- C133 fails with a separations facility: 19.35 kg come from nowhere (C33). -/
theorem C133_separations : Restarted [.source exSpent, .separations exSeparations] 2
    [36, 24] [36, 867/20] := by
  refine restarted (fun k hk => ⟨exCold_sensible k ?_, suits_anything ?_⟩) (by decide +kernel)
  all_goals
    simp only [List.mem_cons, List.not_mem_nil, or_false] at hk
    rcases hk with rfl | rfl <;> simp [exCold]

/-- C133 fails with a mixer: its output is lost (C52). -/
theorem C133_mixer : Restarted [.source { exMine with outcommod := "pu" },
    .source { exMine with outcommod := "u" }, .mixer exMixer] 2
    [1480/3, 490, 50/3] [1480/3, 490, 10] := by
  refine restarted (fun k hk => ⟨?_, suits_anything ?_⟩) (by decide +kernel)
  · simp only [List.mem_cons, List.not_mem_nil, or_false] at hk
    obtain ⟨h1, h2, h3, h4, h5, h6⟩ := exKinds_sensible (.source exMine) (by simp [exKinds])
    rcases hk with rfl | rfl | rfl
    · exact ⟨h1, h2, h3, h4, h5, h6⟩
    · exact ⟨h1, h2, h3, h4, h5, h6⟩
    · exact exKinds_sensible _ (by simp [exKinds])
  · simp only [List.mem_cons, List.not_mem_nil, or_false] at hk
    rcases hk with rfl | rfl | rfl <;> simp

/-! ## An example -/

/-- A fuel cycle of facilities that can be restarted: feed, enrichment, a reactor, interim storage and
an end; a mine and a conversion come later. -/
def exLoop : Plan where
  builds t := if t = 0 then [.source { exMine with outcommod := "feed" }, .enrichment exEnrichment,
      .reactor exReactor (fun _ => 1) exDec, .storage { exStorage with inCommods := ["spent"] } fun _ => 30,
      .sink exSink]
    else if t = 6 then [.source exMine, .conversion exConversion] else []
  leaves t i := t = 6 ∧ i = 0

theorem exLoop_sensible : ∀ t, ∀ k ∈ exLoop.builds t, Sensible k ∧ Suits exAgreement k := by
  have base : ∀ k ∈ exKinds, Sensible k ∧ Suits exAgreement k := fun k hk =>
    ⟨exKinds_sensible k hk, exKinds_suit k hk⟩
  intro t k hk
  simp only [exLoop] at hk
  split at hk
  · simp only [List.mem_cons, List.not_mem_nil, or_false] at hk
    rcases hk with rfl | rfl | rfl | rfl | rfl
    · obtain ⟨⟨h1, h2, h3, h4, h5, h6⟩, P, g1, g2, g3, g4⟩ := base (.source exMine) (by simp [exKinds])
      refine ⟨⟨h1, h2, h3, h4, h5, h6⟩, P, g1, g2, fun e => (by cases e), fun m hm hP => ?_⟩
      have := g4 m hm hP
      exact ⟨fun _ => this.1 (Or.inl rfl), fun e => absurd e (by decide)⟩
    · exact base _ (by simp [exKinds])
    · exact base _ (by simp [exKinds])
    · obtain ⟨⟨⟨h1, h2, h3, h4, h5⟩, h6, h7⟩, g1, g2⟩ := base (.storage exStorage fun _ => 4)
        (by simp [exKinds])
      refine ⟨⟨⟨by decide, Or.inl rfl, h3, h4, h5⟩, h6, h7⟩, fun k hk q _ e => ?_, fun k hk => ?_⟩
      · subst e
        exact absurd hk (by decide)
      · refine ⟨fun _ => True, OfSource.blendable_true, fun _ _ _ _ _ => trivial, fun m _ _ => ?_⟩
        simp only [exStorage, List.mem_singleton] at hk
        subst hk
        exact ⟨fun e => by simp at e, fun e => absurd e (by decide)⟩
    · exact base _ (by simp [exKinds])
  · split at hk
    · simp only [List.mem_cons, List.not_mem_nil, or_false] at hk
      rcases hk with rfl | rfl
      · exact base _ (by simp [exKinds])
      · exact base _ (by simp [exKinds])
    · cases hk

/-- After six steps, with fuel in the reactor and spent fuel in storage, the hypotheses of C133 are
met; four steps later the restarted simulation has had the same deals as the other. -/
example : ∃ l gone ps xs ps', live (fun _ => greedy) exLoop 6 0 [] = .ok (l, gone, ps) ∧
    ps.map (fun p => totalQty (holdings p.k p.s)) = [0, 282, 36, 12, 200] ∧
    storeAll ps = .ok (xs, ps) ∧ resumeAll 17 6 xs = .ok ps' ∧
    (live (fun _ => greedy) exLoop 4 6 ps').toOption.map (fun r =>
      r.1.map fun gs => gs.map fun g => (g.1.src, g.1.dst, g.1.commod, qty g.2)) = some
      [[(1, 4, "tails", 40), (1, 2, "fuel", 12), (2, 3, "spent", 12), (3, 4, "old waste", 10),
        (5, 6, "ore", 150)],
      [(0, 3, "tails", 50), (4, 5, "ore", 150), (5, 0, "feed", 80)],
      [(0, 3, "tails", 10), (2, 3, "old waste", 14), (4, 5, "ore", 140)],
      [(0, 1, "fuel", 12), (1, 2, "spent", 12), (4, 5, "ore", 60)]] := by
  obtain ⟨l, gone, ps, h1, -, h2, -⟩ := C129_comings_and_goings_partial exLoop_sensible
    (fun _ => greedy_fair) 6
  have hk : ∀ p ∈ ps, Kept p.k p.s := by
    intro p hp
    have := (h2.mem_iff (a := p.k)).1 (List.mem_map_of_mem (List.mem_append_right _ hp))
    simp only [List.mem_flatMap, List.mem_range, List.mem_map] at this
    obtain ⟨t, ht, k, hk, e⟩ := this
    obtain ⟨k', s⟩ := p
    simp only at e
    subst e
    simp only [exLoop] at hk
    split at hk
    · simp only [List.mem_cons, List.not_mem_nil, or_false] at hk
      rcases hk with rfl | rfl | rfl | rfl | rfl <;> trivial
    · rw [if_neg (by omega)] at hk
      cases hk
  obtain ⟨xs, ps', h3, h4, -, h5⟩ := C133_restart_partial exLoop_sensible (fun _ => greedy_fair) h1 hk 17
  obtain ⟨l', gone₁, ps₁, gone₁', ps₁', h6, h7, -⟩ := h5 4
  have e1 : ((live (fun _ => greedy) exLoop 6 0 []).toOption.map fun r =>
      r.2.2.map fun p => totalQty (holdings p.k p.s)) = some [0, 282, 36, 12, 200] := by decide +kernel
  have e2 : ((live (fun _ => greedy) exLoop 6 0 [] >>= fun r =>
      live (fun _ => greedy) exLoop 4 6 r.2.2).toOption.map fun r =>
        r.1.map fun gs => gs.map fun g => (g.1.src, g.1.dst, g.1.commod, qty g.2)) = some
      [[(1, 4, "tails", 40), (1, 2, "fuel", 12), (2, 3, "spent", 12), (3, 4, "old waste", 10),
        (5, 6, "ore", 150)],
      [(0, 3, "tails", 50), (4, 5, "ore", 150), (5, 0, "feed", 80)],
      [(0, 3, "tails", 10), (2, 3, "old waste", 14), (4, 5, "ore", 140)],
      [(0, 1, "fuel", 12), (1, 2, "spent", 12), (4, 5, "ore", 60)]] := by decide +kernel
  rw [h1] at e1 e2
  rw [ok_bind, h6] at e2
  refine ⟨l, gone, ps, xs, ps', h1, ?_, h3, h4, ?_⟩
  · simpa [Except.toOption] using e1
  · rw [h7]
    exact e2

end Cyc.Sim
