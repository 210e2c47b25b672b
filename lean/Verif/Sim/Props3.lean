import Verif.Sim.LivesLemmas
import Verif.Sim.Props2
import Verif.Source.Props
import Verif.Sink.Props

/-!
# Facilities in a simulation: property C132

What the claims about single facilities are about (`Lived`) is what happens in simulations.
-/

namespace Cyc.Sim

variable {A : Agreement} {μ : NMat → ℚ}

theorem noRng_sound : Sink.Sound noRng := by
  constructor <;>
  · intros
    simp only [noRng] at *
    split at * <;> simp_all

theorem lived_start {k : Kind} {p : Running act} (h : deploy k = .ok p) : Lived p.k p.s 0 [] [] := by
  cases k <;> simp only [deploy, bind_ok, pure_eq_ok, Except.ok.injEq] at h
  case conversion c =>
    subst h; exact ⟨[], [], rfl, trivial, rfl, rfl, rfl⟩
  case mixer c =>
    subst h; exact ⟨[], [], rfl, trivial, rfl, rfl, rfl⟩
  case enrichment c =>
    obtain ⟨s, h, rfl⟩ := h
    exact ⟨s, [], [], h, rfl, trivial, rfl, rfl, rfl⟩
  case fuelFab c =>
    obtain ⟨s, h, rfl⟩ := h
    exact ⟨s, [], [], h, rfl, trivial, rfl, rfl, rfl⟩
  case reactor c enc dec =>
    obtain ⟨s, h, rfl⟩ := h
    exact ⟨[], [], ⟨s, h, trivial, rfl⟩, rfl, rfl, rfl, rfl⟩
  case separations c =>
    obtain ⟨s, h, rfl⟩ := h
    exact ⟨s, [], [], h, rfl, trivial, rfl, rfl, rfl⟩
  case sink c =>
    obtain ⟨s, h, rfl⟩ := h
    exact ⟨s, [], [], h, rfl, trivial, ⟨noRng_sound, by simp⟩, rfl, rfl, rfl, by simp, rfl⟩
  case source c =>
    obtain ⟨s, h, rfl⟩ := h
    exact ⟨s, [], [], h, rfl, trivial, rfl, rfl, rfl⟩
  case storage c want =>
    obtain ⟨⟨p, s⟩, h, rfl⟩ := h
    exact ⟨p, s, [], [], h, rfl, trivial, trivial, rfl, rfl, rfl⟩

theorem lived_step {k : Kind} (hk : Sensible k) {rs : List Req} {os : List Offer} {ts : List Sale}
    {l : List NMat} {as : List Ask} {ds : List Delivery} {n : Nat} {got gave : List (List NMat)}
    {s s' : (act k).S} {m : (act k).M} (hrs : ∀ r ∈ rs, Solid r.target) (L : Lived k s n got gave)
    (P : Part (act k) rs s os ts l as ds m s') :
    Lived k s' (n + 1) (got ++ [ds.map Delivery.mat]) (gave ++ [l]) := by
  cases k with
  | conversion c => exact OfConversion.lives hk L P
  | enrichment c => exact OfEnrichment.lives hk hrs L P
  | fuelFab c => exact OfFuelFab.lives hk hrs L P
  | mixer c => exact OfMixer.lives hk L P
  | reactor c enc dec => exact OfReactor.lives hk L P
  | separations c => exact OfSeparations.lives L P
  | sink c => exact OfSink.lives hk L P
  | source c => exact OfSource.lives hk hrs L P
  | storage c want => exact OfStorage.lives hk L P

/-- A time step of a facility: it stays what it is, its life goes on, and what it has changes by what it
is given and what it gives. -/
theorem round_lived {ex : Exchange} (hex : ex.Fair) {ps ps' : List (Running act)}
    {gs : List (Deal × NMat)} (h : ∀ p ∈ ps, Good A μ holdings p) (hk : ∀ p ∈ ps, Sensible p.k)
    (hr : round ex ps = .ok (gs, ps')) :
    ps'.length = ps.length ∧ ∀ j p', ps'[j]? = some p' → ∃ p, ps[j]? = some p ∧ p'.k = p.k ∧
      tot μ (holdings p'.k p'.s) + tot μ (givenBy gs j) =
        tot μ (holdings p.k p.s) + tot μ (givenTo gs j) ∧
      ∀ n got gave, Lived p.k p.s n got gave →
        Lived p'.k p'.s (n + 1) (got ++ [givenTo gs j]) (gave ++ [givenBy gs j]) := by
  obtain ⟨rs, h1, h2, h3⟩ := round_parts hex h hr
  refine ⟨h2, fun j p' hj => ?_⟩
  obtain ⟨p, hp⟩ : ∃ p, ps[j]? = some p := by
    have := (List.getElem?_eq_some_iff.1 hj).1
    exact ⟨ps[j]'(by omega), List.getElem?_eq_getElem _⟩
  obtain ⟨os, ts, l, as, ds, m, s', P, e, rfl, e2, e3⟩ := h3 j p hp
  rw [hj, Option.some.injEq] at e
  subst e
  refine ⟨p, hp, rfl, ?_, fun n got gave L => ?_⟩
  · obtain ⟨I, C, hI⟩ := h p (List.mem_of_getElem? hp)
    obtain ⟨s'', k1, -, k2⟩ := C.settle hI h1 P.offers P.sales P.sell P.asks P.deliveries e3
    obtain rfl := Except.ok.inj (k1.symm.trans P.settle)
    rw [tot_append, tot_append, e2] at k2
    exact k2
  · rw [← e2]
    exact lived_step (hk p (List.mem_of_getElem? hp)) (fun r hr => (h1 r hr).1) L P

theorem simulate_lived {ex : Nat → Exchange} (hex : ∀ t, (ex t).Fair) {n : Nat} :
    ∀ {t : Nat} {ps ps' : List (Running act)} {l : List (List (Deal × NMat))},
    (∀ p ∈ ps, Good A μ holdings p) → (∀ p ∈ ps, Sensible p.k) →
    simulate ex n t ps = .ok (l, ps') → ∀ j p', ps'[j]? = some p' → ∃ p, ps[j]? = some p ∧
      p'.k = p.k ∧
      tot μ (holdings p'.k p'.s) + tot μ (l.flatMap fun gs => givenBy gs j) =
        tot μ (holdings p.k p.s) + tot μ (l.flatMap fun gs => givenTo gs j) ∧
      ∀ n₀ got gave, Lived p.k p.s n₀ got gave → Lived p'.k p'.s (n₀ + n)
        (got ++ l.map fun gs => givenTo gs j) (gave ++ l.map fun gs => givenBy gs j) := by
  induction n with
  | zero =>
    intro t ps ps' l _ _ hs j p' hj
    simp only [simulate, Except.ok.injEq, Prod.mk.injEq] at hs
    obtain ⟨rfl, rfl⟩ := hs
    exact ⟨p', hj, rfl, by simp, fun n₀ got gave L => by simpa using L⟩
  | succ n ih =>
    intro t ps ps' l h hk hs j p' hj
    simp only [simulate, bind_ok, pure_eq_ok, Except.ok.injEq, Prod.mk.injEq] at hs
    obtain ⟨⟨gs, ps₁⟩, h1, ⟨l', ps₂⟩, h2, rfl, rfl⟩ := hs
    obtain ⟨-, -, gs', ps₁', -, -, r1, -, r2, r3, -⟩ := round_ok (hex t) h
    rw [h1, Except.ok.injEq, Prod.mk.injEq] at r1
    obtain ⟨rfl, rfl⟩ := r1
    obtain ⟨-, e2⟩ := round_lived (hex t) h hk h1
    have hk' : ∀ p ∈ ps₁, Sensible p.k := by
      intro p hp
      obtain ⟨i, hi⟩ := List.getElem?_of_mem hp
      obtain ⟨q, hq, e, -⟩ := e2 i p hi
      rw [e]
      exact hk q (List.mem_of_getElem? hq)
    obtain ⟨p₁, f1, f2, f3, f4⟩ := ih r2 hk' h2 j p' hj
    obtain ⟨p, g1, g2, g3, g4⟩ := e2 j p₁ f1
    refine ⟨p, g1, f2.trans g2, ?_, fun n₀ got gave L => ?_⟩
    · simp only [List.flatMap_cons, tot_append]
      linarith
    · have := f4 _ _ _ (g4 _ _ _ L)
      simp only [List.append_assoc, List.singleton_append] at this
      rwa [Nat.add_right_comm, Nat.add_assoc n₀] at this

theorem deployAll_get {ks : List Kind} {ps : List (Running act)} (h : deployAll ks = .ok ps) :
    ∀ (j : Nat) p, ps[j]? = some p → ∃ k, ks[j]? = some k ∧ deploy k = .ok p := by
  induction ks generalizing ps with
  | nil =>
    simp only [deployAll, Except.ok.injEq] at h
    subst h
    simp
  | cons k ks ih =>
    simp only [deployAll, bind_ok, pure_eq_ok, Except.ok.injEq] at h
    obtain ⟨p, h1, ps', h2, rfl⟩ := h
    intro j q hj
    cases j with
    | zero =>
      simp only [List.getElem?_cons_zero, Option.some.injEq] at hj
      subst hj
      exact ⟨k, rfl, h1⟩
    | succ j => exact ih h2 j q (by simpa using hj)

theorem deployAll_k {ks : List Kind} {ps : List (Running act)} (h : deployAll ks = .ok ps)
    (hks : ∀ k ∈ ks, Sensible k ∧ Suits A k) : (∀ p ∈ ps, Good A qty holdings p) ∧
    ps.map Running.k = ks := by
  obtain ⟨ps', h1, h2, h3⟩ := deployAll_ok (A := A) measure_qty (fun k _ => keeps_qty k) hks
  rw [h, Except.ok.injEq] at h1
  subst h1
  exact ⟨h2, h3⟩

theorem OfSource.valid {c : Source.Cfg} (h : Sensible (.source c)) : Source.Valid c := by
  obtain ⟨h1, h2, h3, h4, h5, h6⟩ := h
  refine ⟨h1, h2, h3, fun r hr => (h4 r hr).1, ?_, fun n => (h6 n).le⟩
  have : c.fill = Source.loose := funext h5
  rw [this]
  exact Source.loose_packing

/-! ## C132 -/

/-- C132. The life of every facility in a simulation is a history of its archetype in a market that
respects its requests and offers; what it receives and hands over in each of its steps is what it
receives and hands over in that step of the simulation. So what is claimed of all such histories holds
in simulations.

Partial: as C125. -/
theorem C132_lives_partial {ks : List Kind} (hks : ∀ k ∈ ks, Sensible k ∧ Suits A k)
    {ps : List (Running act)} (h : deployAll ks = .ok ps) {ex : Nat → Exchange}
    (hex : ∀ t, (ex t).Fair) {n : Nat} {l : List (List (Deal × NMat))} {ps' : List (Running act)}
    (hs : simulate ex n 0 ps = .ok (l, ps')) {j : Nat} {p : Running act} (hj : ps'[j]? = some p) :
    ks[j]? = some p.k ∧
    Lived p.k p.s n (l.map fun gs => givenTo gs j) (l.map fun gs => givenBy gs j) := by
  obtain ⟨h1, h2⟩ := deployAll_k h hks
  have hk : ∀ p ∈ ps, Sensible p.k := fun p hp =>
    (hks p.k (h2 ▸ List.mem_map_of_mem hp)).1
  obtain ⟨p₀, e1, e2, -, e3⟩ := simulate_lived hex h1 hk hs j p hj
  obtain ⟨k, f1, f2⟩ := deployAll_get h j p₀ e1
  refine ⟨?_, ?_⟩
  · rw [e2, ← h2, List.getElem?_map, e1]; rfl
  · have := e3 0 [] [] (lived_start f2)
    simpa using this

/-- C132. What a facility has is what it had at the start, and what it was given, without what it gave.

Partial: as C125. -/
theorem C132_balance_partial {ks : List Kind} (hks : ∀ k ∈ ks, Sensible k ∧ Suits A k)
    {ps : List (Running act)} (h : deployAll ks = .ok ps) {ex : Nat → Exchange}
    (hex : ∀ t, (ex t).Fair) {n : Nat} {l : List (List (Deal × NMat))} {ps' : List (Running act)}
    (hs : simulate ex n 0 ps = .ok (l, ps')) {j : Nat} {p : Running act} (hj : ps'[j]? = some p) :
    totalQty (holdings p.k p.s) + totalQty (l.flatMap fun gs => givenBy gs j) =
      startsWith p.k + totalQty (l.flatMap fun gs => givenTo gs j) := by
  obtain ⟨h1, h2⟩ := deployAll_k h hks
  have hk : ∀ p ∈ ps, Sensible p.k := fun p hp =>
    (hks p.k (h2 ▸ List.mem_map_of_mem hp)).1
  obtain ⟨p₀, e1, e2, e3, -⟩ := simulate_lived hex h1 hk hs j p hj
  obtain ⟨k, f1, f2⟩ := deployAll_get h j p₀ e1
  have f3 : k = p₀.k := by
    rw [← h2, List.getElem?_map, e1] at f1
    exact (Option.some.inj f1).symm
  rw [tot_qty, tot_qty, tot_qty, tot_qty] at e3
  rw [e3, deploy_mass (hks k (List.mem_of_getElem? f1)).1 f2, e2, f3]

/-- C132 for single nuclides: as C128, where no reactor transmutes and every source has a recipe.

Partial: as C125. -/
theorem C132_nuclides_partial {ks : List Kind} (hks : ∀ k ∈ ks, Sensible k ∧ Suits A k)
    (hn : ∀ c enc dec, .reactor c enc dec ∉ ks) (hr : ∀ c, .source c ∈ ks → c.recipe ≠ none)
    {ps : List (Running act)} (h : deployAll ks = .ok ps) {ex : Nat → Exchange}
    (hex : ∀ t, (ex t).Fair) {t : Nat} {l : List (List (Deal × NMat))} {ps' : List (Running act)}
    (hs : simulate ex t 0 ps = .ok (l, ps')) {j : Nat} {p : Running act} (hj : ps'[j]? = some p)
    (n : Nat) :
    Mat.massOf (holdings p.k p.s) n + Mat.massOf (l.flatMap fun gs => givenBy gs j) n =
      startsWithOf n p.k + Mat.massOf (l.flatMap fun gs => givenTo gs j) n := by
  have hkeep : ∀ k ∈ ks, Keeps (fun m => m.mass n) k := by
    intro k hk
    cases k with
    | reactor c enc dec => exact absurd hk (hn c enc dec)
    | source c => exact fun e => absurd e (hr c hk)
    | _ => trivial
  obtain ⟨ps₀, h1, h2, h3⟩ := deployAll_ok (A := A) (measure_mass n) hkeep hks
  rw [h, Except.ok.injEq] at h1
  subst h1
  have hk : ∀ p ∈ ps, Sensible p.k := fun p hp =>
    (hks p.k (h3 ▸ List.mem_map_of_mem hp)).1
  obtain ⟨p₀, e1, e2, e3, -⟩ := simulate_lived hex h2 hk hs j p hj
  obtain ⟨k, f1, f2⟩ := deployAll_get h j p₀ e1
  have f3 : k = p₀.k := by
    rw [← h3, List.getElem?_map, e1] at f1
    exact (Option.some.inj f1).symm
  have hm : ∀ l : List NMat, tot (fun m => m.mass n) l = Mat.massOf l n := fun l => rfl
  rw [hm, hm, hm, hm] at e3
  have := deploy_nuclide (hks k (List.mem_of_getElem? f1)).1 (fun c e => hr c (e ▸
    List.mem_of_getElem? f1)) f2 n
  rw [e3, this, e2, f3]

/-- At time `t`, since it was built according to the plan, the facility went through a history of its
archetype, one step of it in every step of the simulation. -/
def Aged (plan : Plan) (t : Nat) (p : Running act) : Prop := ∃ t₀ n, t₀ + n = t ∧
  (∃ k ∈ plan.builds t₀, p.k = k.since t₀) ∧ ∃ got gave, Lived p.k p.s n got gave

theorem live_aged {plan : Plan} (hb : ∀ t, ∀ k ∈ plan.builds t, Sensible k ∧ Suits A k)
    {ex : Nat → Exchange} (hex : ∀ t, (ex t).Fair) {n : Nat} :
    ∀ {t : Nat} {ps₀ : List (Running act)} {l : List (List (Deal × NMat))} {gone ps : List (Running act)},
      (∀ p ∈ ps₀, Good A qty holdings p ∧ Sensible p.k ∧ Aged plan t p) →
      live ex plan n t ps₀ = .ok (l, gone, ps) →
      (∀ p ∈ ps, Good A qty holdings p ∧ Sensible p.k ∧ Aged plan (t + n) p) ∧
        ∀ p ∈ gone, ∃ t', t < t' ∧ t' ≤ t + n ∧ Aged plan t' p := by
  induction n with
  | zero =>
    intro t ps₀ l gone ps h0 h
    simp only [live, Except.ok.injEq, Prod.mk.injEq] at h
    obtain ⟨rfl, rfl, rfl⟩ := h
    exact ⟨h0, by simp⟩
  | succ n ih =>
    intro t ps₀ l gone ps h0 h
    simp only [live, bind_ok, pure_eq_ok, Except.ok.injEq, Prod.mk.injEq] at h
    obtain ⟨new, d1, ⟨gs, ps₁⟩, r1, ⟨l', gone', ps'⟩, l1, rfl, rfl, rfl⟩ := h
    have hnew : ∀ k ∈ (plan.builds t).map (Kind.since t), Sensible k ∧ Suits A k := by
      intro k hk
      obtain ⟨k', hk', rfl⟩ := List.mem_map.1 hk
      exact ⟨sensible_since t (hb t k' hk').1, suits_since t (hb t k' hk').2⟩
    obtain ⟨d2, d3⟩ := deployAll_k d1 hnew
    have hall : ∀ p ∈ ps₀ ++ new, Good A qty holdings p ∧ Sensible p.k ∧ Aged plan t p := by
      intro p hp
      rcases List.mem_append.1 hp with hp | hp
      · exact h0 p hp
      · have hk := d3 ▸ List.mem_map_of_mem (f := Running.k) hp
        obtain ⟨k', hk', e⟩ := List.mem_map.1 hk
        refine ⟨d2 p hp, (hnew _ hk).1, t, 0, rfl, ⟨k', hk', e.symm⟩, [], [], ?_⟩
        obtain ⟨i, hi⟩ := List.getElem?_of_mem hp
        obtain ⟨k, -, hk⟩ := deployAll_get d1 i p hi
        exact lived_start hk
    obtain ⟨-, -, gs', ps₁', -, -, r1', -, r2, -, -⟩ := round_ok (hex t) fun p hp => (hall p hp).1
    rw [r1, Except.ok.injEq, Prod.mk.injEq] at r1'
    obtain ⟨rfl, rfl⟩ := r1'
    obtain ⟨-, e2⟩ := round_lived (hex t) (fun p hp => (hall p hp).1) (fun p hp => (hall p hp).2.1) r1
    have h1 : ∀ p ∈ ps₁, Good A qty holdings p ∧ Sensible p.k ∧ Aged plan (t + 1) p := by
      intro p hp
      obtain ⟨i, hi⟩ := List.getElem?_of_mem hp
      obtain ⟨q, hq, e, -, f⟩ := e2 i p hi
      obtain ⟨-, k1, t₀, n', hn, k2, got, gave, L⟩ := hall q (List.mem_of_getElem? hq)
      exact ⟨r2 p hp, e ▸ k1, t₀, n' + 1, by omega, e ▸ k2, _, _, f _ _ _ L⟩
    obtain ⟨f1, -⟩ := depart_spec (plan.leaves t) 0 ps₁
    have hN : t + 1 + n = t + (n + 1) := by omega
    obtain ⟨g1, g2⟩ := ih (fun p hp => h1 p (f1.mem_iff.1 (List.mem_append_right _ hp))) l1
    rw [hN] at g1 g2
    refine ⟨g1, fun p hp => ?_⟩
    rcases List.mem_append.1 hp with hp | hp
    · exact ⟨t + 1, by omega, by omega, (h1 p (f1.mem_iff.1 (List.mem_append_left _ hp))).2.2⟩
    · obtain ⟨t', k1, k2, k3⟩ := g2 p hp
      exact ⟨t', by omega, k2, k3⟩

/-- C132 where facilities come and go: those that are present went through such a history, from when
they were built until now, and those that have left went through one until they left.

Partial: as C125. -/
theorem C132_comings_and_goings_partial {plan : Plan}
    (hb : ∀ t, ∀ k ∈ plan.builds t, Sensible k ∧ Suits A k) {ex : Nat → Exchange}
    (hex : ∀ t, (ex t).Fair) {n : Nat} {l : List (List (Deal × NMat))} {gone ps : List (Running act)}
    (h : live ex plan n 0 [] = .ok (l, gone, ps)) :
    (∀ p ∈ ps, ∃ t₀ k, t₀ ≤ n ∧ k ∈ plan.builds t₀ ∧ p.k = k.since t₀ ∧
      ∃ got gave, Lived p.k p.s (n - t₀) got gave) ∧
    ∀ p ∈ gone, ∃ t₀ k t₁, t₁ ≤ n ∧ t₀ ≤ t₁ ∧ k ∈ plan.builds t₀ ∧ p.k = k.since t₀ ∧
      ∃ got gave, Lived p.k p.s (t₁ - t₀) got gave := by
  obtain ⟨h1, h2⟩ := live_aged hb hex (ps₀ := []) (by simp) h
  rw [Nat.zero_add] at h1 h2
  constructor
  · intro p hp
    obtain ⟨-, -, t₀, n', e, ⟨k, k1, k2⟩, k3⟩ := h1 p hp
    obtain rfl : n' = n - t₀ := by omega
    exact ⟨t₀, k, by omega, k1, k2, k3⟩
  · intro p hp
    obtain ⟨t₁, -, e1, t₀, n', e, ⟨k, k1, k2⟩, k3⟩ := h2 p hp
    obtain rfl : n' = t₁ - t₀ := by omega
    exact ⟨t₀, k, t₁, e1, by omega, k1, k2, k3⟩

/-- C132 at work: in a simulation a source gives no more than it has to begin with (C56), and a sink
keeps what it is given, and never has more than its maximum (C97, C59).

Partial: as C125. -/
theorem C132_limits_partial {ks : List Kind} (hks : ∀ k ∈ ks, Sensible k ∧ Suits A k)
    {ps : List (Running act)} (h : deployAll ks = .ok ps) {ex : Nat → Exchange}
    (hex : ∀ t, (ex t).Fair) {n : Nat} {l : List (List (Deal × NMat))} {ps' : List (Running act)}
    (hs : simulate ex n 0 ps = .ok (l, ps')) (j : Nat) :
    (∀ c, ks[j]? = some (.source c) → totalQty (l.flatMap fun gs => givenBy gs j) ≤ c.size) ∧
    ∀ c, ks[j]? = some (.sink c) → (l.flatMap fun gs => givenBy gs j) = [] ∧
      totalQty (l.flatMap fun gs => givenTo gs j) ≤ c.maxInv ∧
      ∃ p, ps'[j]? = some p ∧ holdings p.k p.s = l.flatMap fun gs => givenTo gs j := by
  obtain ⟨-, h2⟩ := deployAll_k h hks
  have hlen : ps'.length = ks.length := by
    obtain ⟨h1, -⟩ := deployAll_k h hks
    obtain ⟨l', ps'', e1, -, -, e2, -⟩ := simulate_ok (A := A) hex n 0 h1
    rw [hs, Except.ok.injEq, Prod.mk.injEq] at e1
    obtain ⟨rfl, rfl⟩ := e1
    have := congrArg List.length (e2.trans h2)
    simpa using this
  have get : ∀ k, ks[j]? = some k → ∃ p, ps'[j]? = some p ∧ p.k = k ∧ Lived p.k p.s n
      (l.map fun gs => givenTo gs j) (l.map fun gs => givenBy gs j) := by
    intro k hk
    have hj : j < ps'.length := hlen ▸ (List.getElem?_eq_some_iff.1 hk).1
    obtain ⟨e, L⟩ := C132_lives_partial hks h hex hs (List.getElem?_eq_getElem hj)
    exact ⟨_, List.getElem?_eq_getElem hj, Option.some.inj (e.symm.trans hk), L⟩
  constructor
  · intro c hc
    obtain ⟨⟨k, s⟩, -, rfl, s₀, is, os, b, r, H, -, -, e⟩ := get _ hc
    have V := OfSource.valid (hks _ (List.mem_of_getElem? hc)).1
    have T : Source.Targets is := honest_all (step := Source.step c) (run := Source.run c)
      (fun _ => rfl) (fun _ _ _ => rfl) (H := Source.Honest c) (fun _ _ _ => Iff.rfl)
      (fun _ _ _ _ h _ => Source.honest_targets h) r H
    have := Source.C56_life V ⟨s₀, b, r⟩ T
    have e2 : Source.shipped os = l.flatMap fun gs => givenBy gs j := by
      rw [List.flatMap_def, ← e]; rfl
    rw [← e2]
    linarith
  · intro c hc
    obtain ⟨⟨k, s⟩, hp, rfl, s₀, is, os, b, r, H, S, -, -, e, hz, e'⟩ := get _ hc
    have V := (hks _ (List.mem_of_getElem? hc)).1.1
    have h1 := Sink.C97_keeps V (g := noRng) (t := 0) ⟨s₀, b, r⟩ S
    have h3 := Sink.C59_inventory V b r S H
    have h4 : s.2.inventory.items = (l.flatMap fun gs => givenTo gs j).map Sink.Res.mat := by
      rw [h1, List.flatMap_def (f := fun gs => givenTo gs j), ← e, ← List.flatMap_def,
        List.map_flatMap]
      refine List.flatMap_congr fun i hi => ?_
      rw [hz i hi]; simp
    refine ⟨by rw [List.flatMap_def, e']; simp, ?_, _, hp, ?_⟩
    · unfold Sink.held at h3
      rw [h4] at h3
      refine le_trans (le_of_eq ?_) h3
      unfold totalQty; rw [List.map_map]; rfl
    · have := OfSink.sunk_append [] (l.flatMap fun gs => givenTo gs j)
      rw [List.nil_append] at this
      show sunk s.2.inventory.items = _
      rw [h4, this]; rfl

/-! ## An example -/

/-- The reactor of the example: in eight steps it is given five assemblies and gives two. -/
example : ∃ ps l ps' p, deployAll exKinds = .ok ps ∧
    simulate (fun _ => greedy) 8 0 ps = .ok (l, ps') ∧ ps'[3]? = some p ∧
    ∃ got gave, Lived p.k p.s 8 got gave ∧
      got.map (fun l => l.map qty) = [[], [], [12, 12], [12], [12], [], [], [12]] ∧
      gave.map (fun l => l.map qty) = [[], [], [], [], [12], [], [], [12]] := by
  have base : ∀ k ∈ exKinds, Sensible k ∧ Suits exAgreement k := fun k hk =>
    ⟨exKinds_sensible k hk, exKinds_suit k hk⟩
  obtain ⟨ps, h1, h2⟩ := C125_runs_partial base
  obtain ⟨l, ps', h3, -, h4, -⟩ := h2 (fun _ => greedy) (fun _ => greedy_fair) 8
  have hlen : ps'.length = 8 := by
    have := congrArg List.length h4
    simpa [exKinds] using this
  refine ⟨ps, l, ps', ps'[3], h1, h3, List.getElem?_eq_getElem _, _, _,
    (C132_lives_partial base h1 (fun _ => greedy_fair) h3 (List.getElem?_eq_getElem _)).2, ?_⟩
  have e : ((deployAll exKinds >>= simulate (fun _ => greedy) 8 0).toOption.map fun r =>
      ((r.1.map fun gs => (givenTo gs 3).map qty), r.1.map fun gs => (givenBy gs 3).map qty)) =
      some ([[], [], [12, 12], [12], [12], [], [], [12]], [[], [], [], [], [12], [], [], [12]]) := by
    decide +kernel
  rw [h1, ok_bind, h3] at e
  simpa [Except.toOption, Function.comp_def] using e

end Cyc.Sim
