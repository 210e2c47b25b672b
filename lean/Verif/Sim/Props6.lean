import Verif.Sim.Props3
import Verif.Sim.LimitsLemmas

/-!
# Facilities keep their limits in closed simulations: property C135
-/

namespace Cyc.Sim

variable {A : Agreement}

/-- The facility at a position, and its life. -/
theorem lived_at {ks : List Kind} (hks : ∀ k ∈ ks, Sensible k ∧ Suits A k)
    {ps : List (Running act)} (h : deployAll ks = .ok ps) {ex : Nat → Exchange}
    (hex : ∀ t, (ex t).Fair) {n : Nat} {l : List (List (Deal × NMat))} {ps' : List (Running act)}
    (hs : simulate ex n 0 ps = .ok (l, ps')) {j : Nat} {k : Kind} (hk : ks[j]? = some k) :
    Sensible k ∧ ∃ s : (act k).S, ps'[j]? = some ⟨k, s⟩ ∧
      Lived k s n (l.map fun gs => givenTo gs j) (l.map fun gs => givenBy gs j) := by
  refine ⟨(hks k (List.mem_of_getElem? hk)).1, ?_⟩
  obtain ⟨h1, h2⟩ := deployAll_k h hks
  have hlen : ps'.length = ks.length := by
    obtain ⟨l', ps'', e1, -, -, e2, -⟩ := simulate_ok (A := A) hex n 0 h1
    rw [hs, Except.ok.injEq, Prod.mk.injEq] at e1
    obtain ⟨rfl, rfl⟩ := e1
    have := congrArg List.length (e2.trans h2)
    simpa using this
  have hj : j < ps'.length := hlen ▸ (List.getElem?_eq_some_iff.1 hk).1
  obtain ⟨e, L⟩ := C132_lives_partial hks h hex hs (List.getElem?_eq_getElem hj)
  generalize hp : ps'[j] = p at e L
  obtain ⟨k', s⟩ := p
  obtain rfl : k' = k := Option.some.inj (e.symm.trans hk)
  exact ⟨s, by rw [List.getElem?_eq_getElem hj, hp], L⟩

/-- C135. At the end of every step of a simulation, the stores of every facility are within the sizes
of its input.

Partial: as C125. -/
theorem C135_room_partial {ks : List Kind} (hks : ∀ k ∈ ks, Sensible k ∧ Suits A k)
    {ps : List (Running act)} (h : deployAll ks = .ok ps) {ex : Nat → Exchange}
    (hex : ∀ t, (ex t).Fair) {n : Nat} {l : List (List (Deal × NMat))} {ps' : List (Running act)}
    (hs : simulate ex n 0 ps = .ok (l, ps')) : ∀ p ∈ ps', Within p.k p.s := by
  intro p hp
  obtain ⟨j, hj⟩ := List.mem_iff_getElem?.1 hp
  obtain ⟨e, L⟩ := C132_lives_partial hks h hex hs hj
  exact lived_within (hks _ (List.mem_of_getElem? e)).1 L

/-- C135 where facilities come and go: for those that are there and for those that have left.

Partial: as C125. -/
theorem C135_comings_and_goings_partial {plan : Plan}
    (hb : ∀ t, ∀ k ∈ plan.builds t, Sensible k ∧ Suits A k) {ex : Nat → Exchange}
    (hex : ∀ t, (ex t).Fair) {n : Nat} {l : List (List (Deal × NMat))} {gone ps : List (Running act)}
    (h : live ex plan n 0 [] = .ok (l, gone, ps)) : ∀ p ∈ gone ++ ps, Within p.k p.s := by
  obtain ⟨h1, h2⟩ := C132_comings_and_goings_partial hb hex h
  intro p hp
  rcases List.mem_append.1 hp with hp | hp
  · obtain ⟨t₀, k, t₁, -, -, hk, e, got, gave, L⟩ := h2 p hp
    exact lived_within (e ▸ sensible_since t₀ (hb t₀ k hk).1) L
  · obtain ⟨t₀, k, -, hk, e, got, gave, L⟩ := h1 p hp
    exact lived_within (e ▸ sensible_since t₀ (hb t₀ k hk).1) L

/-- C135. In `n` steps of a simulation, a facility with a throughput gives no more than `n` times that.

Partial: as C125. -/
theorem C135_pace_partial {ks : List Kind} (hks : ∀ k ∈ ks, Sensible k ∧ Suits A k)
    {ps : List (Running act)} (h : deployAll ks = .ok ps) {ex : Nat → Exchange}
    (hex : ∀ t, (ex t).Fair) {n : Nat} {l : List (List (Deal × NMat))} {ps' : List (Running act)}
    (hs : simulate ex n 0 ps = .ok (l, ps')) {j : Nat} {k : Kind} (hk : ks[j]? = some k) {r : ℚ}
    (hr : pace k = some r) : totalQty (l.flatMap fun gs => givenBy gs j) ≤ n * r := by
  obtain ⟨hc, s, -, L⟩ := lived_at hks h hex hs hk
  rw [List.flatMap_def]
  exact lived_pace hc L hr

/-- C135. In no step of a simulation a source or a fuel fabrication gives more than its throughput,
and in no step a facility is given more than fits into its store for that, or than its capacity to buy.

Partial: as C125. -/
theorem C135_steps_partial {ks : List Kind} (hks : ∀ k ∈ ks, Sensible k ∧ Suits A k)
    {ps : List (Running act)} (h : deployAll ks = .ok ps) {ex : Nat → Exchange}
    (hex : ∀ t, (ex t).Fair) {n : Nat} {l : List (List (Deal × NMat))} {ps' : List (Running act)}
    (hs : simulate ex n 0 ps = .ok (l, ps')) {j : Nat} {k : Kind} (hk : ks[j]? = some k)
    {gs : List (Deal × NMat)} (hg : gs ∈ l) :
    (∀ r, perStep k = some r → totalQty (givenBy gs j) ≤ r) ∧
      ∀ r, intake k = some r → totalQty (givenTo gs j) ≤ r := by
  obtain ⟨hc, s, -, L⟩ := lived_at hks h hex hs hk
  exact ⟨fun r hr => lived_perStep hc L hr _ (List.mem_map.2 ⟨gs, hg, rfl⟩),
    fun r hr => lived_intake hc L hr _ (List.mem_map.2 ⟨gs, hg, rfl⟩)⟩

/-- C135. What a storage facility gives in `n` steps of a simulation, it was given more than its
residence time before the last of them.

Partial: as C125. -/
theorem C135_residence_partial {ks : List Kind} (hks : ∀ k ∈ ks, Sensible k ∧ Suits A k)
    {ps : List (Running act)} (h : deployAll ks = .ok ps) {ex : Nat → Exchange}
    (hex : ∀ t, (ex t).Fair) {n : Nat} {l : List (List (Deal × NMat))} {ps' : List (Running act)}
    (hs : simulate ex n 0 ps = .ok (l, ps')) {j : Nat} {c : Storage.Cfg}
    {want : Storage.State Nat → ℚ} (hk : ks[j]? = some (.storage c want)) :
    totalQty (l.flatMap fun gs => givenBy gs j) ≤
      totalQty ((l.take (n - 1 - c.residence)).flatMap fun gs => givenTo gs j) := by
  obtain ⟨hc, s, -, L⟩ := lived_at hks h hex hs hk
  rw [List.flatMap_def, List.flatMap_def, List.map_take]
  exact lived_residence hc L

/-! ## An example -/

/-- The limits of the example that are reached: in the first step the mine gives 150 kg, its throughput;
in the fourth step the sink is given 50 kg, its capacity. The conversion has given 436 kg of 600 kg
after five steps. The storage facility has given in eight steps what it was given in the first six. -/
example : ((deployAll exKinds >>= simulate (fun _ => greedy) 8 0).toOption.map fun r =>
      (r.1[0]?.map fun gs => totalQty (givenBy gs 0), r.1[3]?.map fun gs => totalQty (givenTo gs 7),
        totalQty ((r.1.take 5).flatMap fun gs => givenBy gs 1),
        totalQty (r.1.flatMap fun gs => givenBy gs 6),
        totalQty ((r.1.take 6).flatMap fun gs => givenTo gs 6))) =
      some (some 150, some 50, 436, 27/20, 27/20) ∧
    [pace (.source exMine), pace (.conversion exConversion), perStep (.source exMine),
      intake (.sink exSink)] = [some 150, some 120, some 150, some 50] := by
  decide +kernel

/-- A buy policy that asks for no more than fits, as a storage facility without one has it. -/
example : Sensible (.storage exStorage fun s => exStorage.maxInv - totalQty (Storage.contents s)) ∧
    0 ≤ exStorage.maxInv := by
  refine ⟨?_, by decide +kernel⟩
  have : Sensible (.storage exStorage fun _ => 4) := exKinds_sensible _ (by simp [exKinds])
  exact this

/-- The example meets the hypotheses. -/
example : ∃ ps l ps', deployAll exKinds = .ok ps ∧
    simulate (fun _ => greedy) 8 0 ps = .ok (l, ps') ∧ ps'.length = 8 ∧ ∀ p ∈ ps', Within p.k p.s := by
  have base : ∀ k ∈ exKinds, Sensible k ∧ Suits exAgreement k := fun k hk =>
    ⟨exKinds_sensible k hk, exKinds_suit k hk⟩
  obtain ⟨ps, h1, h2⟩ := C125_runs_partial base
  obtain ⟨l, ps', h3, -, h4, -⟩ := h2 (fun _ => greedy) (fun _ => greedy_fair) 8
  refine ⟨ps, l, ps', h1, h3, ?_, C135_room_partial base h1 (fun _ => greedy_fair) h3⟩
  have := congrArg List.length h4
  simpa [exKinds] using this

end Cyc.Sim
