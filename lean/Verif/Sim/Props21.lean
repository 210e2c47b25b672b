import Verif.Sim.Props18

/-!
# The clocks of facilities that come and go: more of C144
-/

namespace Cyc.Separations

theorem finish_time {c : Cfg} {f q : ℚ} {m : NMat} {s s' : State} (h : finish c f q m s = .ok s') :
    s'.time = s.time := by
  unfold finish at h
  split at h
  · exact (pushLeftover_feed h).2.2.1
  · simp only [bind_ok] at h
    obtain ⟨⟨b, m'⟩, -, h⟩ := h
    simp only [bind_ok] at h
    obtain ⟨b', -, h⟩ := h
    exact (pushLeftover_feed h).2.2.1

theorem tick_time {c : Cfg} {s s' : State} {r : Option TickRec} (h : tick c s = .ok (r, s')) :
    s'.time = s.time := by
  unfold tick at h
  split at h
  · simp only [Except.ok.injEq, Prod.mk.injEq] at h
    rw [← h.2]
  · simp only [bind_ok] at h
    obtain ⟨⟨m, b⟩, -, -, -, ⟨rs, m', bs⟩, -, s₁, h1, h2⟩ := h
    simp only [pure_eq_ok, Except.ok.injEq, Prod.mk.injEq] at h2
    obtain ⟨-, rfl⟩ := h2
    rw [finish_time h1]

theorem sellLoop_time {c : Cfg} {ts : List (String × ℚ)} {s s' : State} {ms : List NMat}
    (h : sellLoop c ts s = .ok (ms, s')) : s'.time = s.time := by
  induction ts generalizing s ms with
  | nil =>
    simp only [sellLoop, Except.ok.injEq, Prod.mk.injEq] at h
    rw [← h.2]
  | cons t ts ih =>
    simp only [sellLoop, bind_ok] at h
    obtain ⟨⟨m, s₁⟩, h1, ⟨ms', s₂⟩, h2, h3⟩ := h
    simp only [pure_eq_ok, Except.ok.injEq, Prod.mk.injEq] at h3
    obtain ⟨-, rfl⟩ := h3
    rw [ih h2]
    unfold sellOne at h1
    split at h1
    · simp only [bind_ok] at h1
      obtain ⟨⟨_, _⟩, -, h1⟩ := h1
      simp only [pure_eq_ok, Except.ok.injEq, Prod.mk.injEq] at h1
      rw [← h1.2]
    · split at h1
      · simp only [bind_ok] at h1
        obtain ⟨⟨_, _⟩, -, h1⟩ := h1
        simp only [pure_eq_ok, Except.ok.injEq, Prod.mk.injEq] at h1
        rw [← h1.2]
      · cases h1

theorem run_time {c : Cfg} {is : List In} {s s' : State} {os : List Out}
    (h : run c s is = .ok (os, s')) : s'.time = s.time + is.length := by
  induction is generalizing s os with
  | nil =>
    simp only [run, Except.ok.injEq, Prod.mk.injEq] at h
    rw [← h.2]
    rfl
  | cons i is ih =>
    simp only [run, bind_ok] at h
    obtain ⟨⟨o, s1⟩, h1, ⟨os', s2⟩, h2, h3⟩ := h
    simp only [pure_eq_ok, Except.ok.injEq, Prod.mk.injEq] at h3
    obtain ⟨-, rfl⟩ := h3
    rw [ih h2]
    simp only [step, bind_ok] at h1
    obtain ⟨⟨tr, t1⟩, e1, ⟨d, rq⟩, -, -, -, ⟨sd, t2⟩, e3, t3, e4, e5⟩ := h1
    simp only [pure_eq_ok, Except.ok.injEq, Prod.mk.injEq] at e5
    obtain ⟨-, rfl⟩ := e5
    have := (accept_conserve e4).2.2.2.2.2.1
    have := sellLoop_time e3
    have := tick_time e1
    simp only [List.length_cons] at *
    omega

end Cyc.Separations

namespace Cyc.Sim

variable {A : Agreement}

/-- C144. The clocks of facilities agree with the simulation, whenever they were built: a facility that looks at
the time finds the step in which it was built and the steps it has gone through since, so those that are still
there all find the same.

Partial: as C125. -/
theorem C144_clock_partial {plan : Plan} (hb : ∀ t, ∀ k ∈ plan.builds t, Sensible k ∧ Suits A k)
    {ex : Nat → Exchange} (hex : ∀ t, (ex t).Fair) {n : Nat}
    {G B : List Book} (h : chronicle ex plan n 0 [] = .ok (G, B)) :
    (∀ b ∈ G ++ B, ∀ t, clock b.p.k b.p.s = some t → t = b.since + b.got.length) ∧
    ∀ b ∈ B, ∀ t, clock b.p.k b.p.s = some t → t = n := by
  obtain ⟨-, h2, h3⟩ := chronicle_audited hb hex h
  have key : ∀ t' b, Audited A plan t' b → ∀ t, clock b.p.k b.p.s = some t → t = b.since + b.got.length := by
    intro t' b D t ht
    have hs := D.sensible hb
    have L := D.lived
    obtain ⟨k₀, -, e⟩ := D.built
    obtain ⟨⟨k, s⟩, t₀, got, gave⟩ := b
    simp only at e L hs ht ⊢
    cases k with
    | conversion c => cases ht
    | enrichment c => cases ht
    | fuelFab c => cases ht
    | mixer c => cases ht
    | sink c => cases ht
    | source c => cases ht
    | reactor c enc dec =>
      obtain ⟨is, os, h, hn, -⟩ := L
      have h1 := OfReactor.state_time hs.1 h
      have h2 := Reactor.history_length h
      obtain rfl := Option.some.inj ht
      cases k₀ <;> simp only [Kind.since, reduceCtorEq, Kind.reactor.injEq] at e
      obtain ⟨rfl, -⟩ := e
      simp only at h1 ⊢
      omega
    | separations c =>
      obtain ⟨s₀, is, os, b, r, -, hn, -⟩ := L
      have h1 := Separations.run_time r
      have h2 := (Separations.enter_inv b).2.2.2
      obtain rfl := Option.some.inj ht
      cases k₀ <;> simp only [Kind.since, reduceCtorEq, Kind.separations.injEq] at e
      subst e
      simp only at h1 h2 ⊢
      omega
    | storage c want =>
      obtain ⟨p, s₀, is, os, b, r, H, -, hn, -⟩ := L
      have S : Storage.Substantial is := honest_all (step := Storage.step c) (run := Storage.run c)
        (fun _ => rfl) (fun _ _ _ => rfl) (H := Storage.Honest c) (fun _ _ _ => Iff.rfl)
        (fun _ _ _ _ h _ => h.buys) r H
      have h1 := (Storage.history_inv hs.2.1 ⟨p, s₀, b, r⟩ S).2.1
      obtain rfl := Option.some.inj ht
      cases k₀ <;> simp only [Kind.since, reduceCtorEq, Kind.storage.injEq] at e
      obtain ⟨rfl, -⟩ := e
      simp only at h1 ⊢
      omega
  refine ⟨fun b hb' t ht => ?_, fun b hb' t ht => ?_⟩
  · obtain ⟨t', -, D⟩ := h3 b hb'
    exact key t' b D t ht
  · rw [key n b (h2 b hb') t ht, (h2 b hb').age]

/-- The example of comings and goings meets the hypotheses, and has facilities with clocks that were built at
different times. -/
example : ∃ G B, chronicle (fun _ => greedy) exPlan 9 0 [] = .ok (G, B) ∧
    ∀ b ∈ B, ∀ t, clock b.p.k b.p.s = some t → t = 9 := by
  obtain ⟨l, gone, ps, h, -⟩ := C129_comings_and_goings_partial exPlan_sensible (fun _ => greedy_fair) 9
  obtain ⟨G, B, h1, -⟩ := C144_same_partial exPlan_sensible (fun _ => greedy_fair) h
  exact ⟨G, B, h1, (C144_clock_partial exPlan_sensible (fun _ => greedy_fair) h1).2⟩

/-- When every facility was built and what its clock says; those that have left come first. -/
example : (chronicle (fun _ => greedy) exPlan 9 0 []).toOption.map (fun r => (r.1 ++ r.2).map fun b =>
    (b.since, clock b.p.k b.p.s)) =
    some [(0, none), (0, some 8), (4, some 9), (0, none), (0, none), (4, none), (4, none), (4, some 9)] := by
  decide +kernel

end Cyc.Sim
