import Verif.Deploy.Props
import Verif.Sim.Plan
import Verif.Sim.Props

/-!
# Whole simulations in which facilities come and go: properties C129, C130 and C131
-/

namespace Cyc.Sim

variable {A : Agreement} {μ : NMat → ℚ}

theorem sensible_since {k : Kind} (t : Nat) (h : Sensible k) : Sensible (k.since t) := by
  cases k with
  | reactor c enc dec =>
    obtain ⟨⟨h1, h2, h3, h4, h5, h6, h7, h8, h9, h10, h11, h12, h13, h14, h15, h16⟩, h⟩ := h
    exact ⟨⟨h1, h2, h3, h4, h5, h6, h7, h8, h9, h10, h11, h12, h13, h14, h15, h16⟩, h⟩
  | separations c =>
    obtain ⟨⟨h1, h2, h3, h4, h5, h6, h7, h8⟩, h⟩ := h
    exact ⟨⟨h1, h2, h3, h4, h5, h6, h7, h8⟩, h⟩
  | storage c want =>
    obtain ⟨⟨h1, h2, h3, h4, h5⟩, h⟩ := h
    exact ⟨⟨h1, h2, h3, h4, h5⟩, h⟩
  | _ => exact h

theorem sensible_until {k : Kind} (e : Option Nat) (h : Sensible k) : Sensible (k.until e) := by
  cases k with
  | reactor c enc dec =>
    obtain ⟨⟨h1, h2, h3, h4, h5, h6, h7, h8, h9, h10, h11, h12, h13, h14, h15, h16⟩, h⟩ := h
    exact ⟨⟨h1, h2, h3, h4, h5, h6, h7, h8, h9, h10, h11, h12, h13, h14, h15, h16⟩, h⟩
  | separations c =>
    obtain ⟨⟨h1, h2, h3, h4, h5, h6, h7, h8⟩, h⟩ := h
    exact ⟨⟨h1, h2, h3, h4, h5, h6, h7, h8⟩, h⟩
  | _ => exact h

theorem suits_until {k : Kind} (e : Option Nat) (h : Suits A k) : Suits A (k.until e) := by
  cases k <;> exact h

theorem suits_since {k : Kind} (t : Nat) (h : Suits A k) : Suits A (k.since t) := by
  cases k <;> exact h

theorem keeps_since {k : Kind} (t : Nat) (h : Keeps μ k) : Keeps μ (k.since t) := by
  cases k <;> exact h

theorem startsWith_since (t : Nat) (k : Kind) : startsWith (k.since t) = startsWith k := by
  cases k <;> rfl

theorem startsWithOf_since (n t : Nat) (k : Kind) : startsWithOf n (k.since t) = startsWithOf n k := by
  cases k <;> rfl

theorem depart_spec (w : Nat → Bool) (i : Nat) (ps : List (Running act)) :
    ((depart w i ps).2 ++ (depart w i ps).1).Perm ps ∧
    ∀ p ∈ (depart w i ps).2, mayLeave p.k p.s = true := by
  induction ps generalizing i with
  | nil => exact ⟨.nil, by simp [depart]⟩
  | cons p ps ih =>
    obtain ⟨h1, h2⟩ := ih (i + 1)
    rw [depart]
    split
    · rename_i h
      refine ⟨h1.cons p, fun q hq => ?_⟩
      rcases List.mem_cons.1 hq with rfl | hq
      · exact (Bool.and_eq_true _ _ ▸ h).2
      · exact h2 q hq
    · exact ⟨List.perm_middle.trans (h1.cons p), h2⟩

theorem tot_perm {l l' : List NMat} (h : l.Perm l') : tot μ l = tot μ l' := (h.map μ).sum_eq

theorem allOf_append (ps ps' : List (Running act)) :
    allOf holdings (ps ++ ps') = allOf holdings ps ++ allOf holdings ps' := List.flatMap_append

theorem allOf_perm {ps ps' : List (Running act)} (h : ps.Perm ps') :
    (allOf holdings ps).Perm (allOf holdings ps') := h.flatMap_right _

/-- What all facilities start with, as `μ` measures it. -/
def Starts (μ : NMat → ℚ) (start : Kind → ℚ) (ks : List Kind) : Prop :=
  ∀ ks', (∀ k ∈ ks', k ∈ ks) → ∀ ps, deployAll ks' = .ok ps →
    tot μ (allOf holdings ps) = (ks'.map start).sum

theorem live_ok (hμ : Measure μ) {start : Kind → ℚ} {ex : Nat → Exchange} (hex : ∀ t, (ex t).Fair)
    {plan : Plan} (n : Nat) :
    ∀ (t : Nat) {ps : List (Running act)}, (∀ k ∈ plan.built t n, Keeps μ k ∧ Sensible k ∧ Suits A k) →
    Starts μ start (plan.built t n) → (∀ p ∈ ps, Good A μ holdings p) →
    ∃ l gone ps', live ex plan n t ps = .ok (l, gone, ps') ∧ l.length = n ∧
      (∀ p ∈ gone ++ ps', Good A μ holdings p) ∧ (∀ p ∈ gone, mayLeave p.k p.s = true) ∧
      ((gone ++ ps').map Running.k).Perm (ps.map Running.k ++ plan.built t n) ∧
      tot μ (allOf holdings gone) + tot μ (allOf holdings ps') =
        tot μ (allOf holdings ps) + ((plan.built t n).map start).sum ∧
      ∀ gs ∈ l, ∀ g ∈ gs, Matches A g := by
  induction n with
  | zero =>
    intro t ps _ _ h
    exact ⟨[], [], ps, rfl, rfl, by simpa using h, by simp, by simp [Plan.built], by simp [Plan.built, allOf], by simp⟩
  | succ n ih =>
    intro t ps hb hst h
    have hsplit : plan.built t (n + 1) = (plan.builds t).map (Kind.since t) ++ plan.built (t + 1) n := by
      simp [Plan.built, List.range'_succ]
    rw [hsplit] at hb hst ⊢
    obtain ⟨new, d1, d2, d3⟩ := deployAll_ok hμ (ks := (plan.builds t).map (Kind.since t))
      (fun k hk => (hb k (List.mem_append_left _ hk)).1)
      fun k hk => (hb k (List.mem_append_left _ hk)).2
    have d4 := hst _ (fun k hk => List.mem_append_left _ hk) new d1
    have hg : ∀ p ∈ ps ++ new, Good A μ holdings p := fun p hp =>
      (List.mem_append.1 hp).elim (h p) (d2 p)
    obtain ⟨asks, offers, gs, ps₁, -, -, r1, r2, r3, r4, r5⟩ := round_ok (hex t) hg
    obtain ⟨e1, e2⟩ := depart_spec (plan.leaves t) 0 ps₁
    obtain ⟨l, gone, ps', l1, l2, l3, l4, l5, l6, l7⟩ := ih (t + 1)
      (ps := (depart (plan.leaves t) 0 ps₁).1)
      (fun k hk => hb k (List.mem_append_right _ hk))
      (fun ks' hk => hst ks' fun k hk' => List.mem_append_right _ (hk k hk'))
      fun p hp => r3 p (e1.mem_iff.1 (List.mem_append_right _ hp))
    refine ⟨gs :: l, (depart (plan.leaves t) 0 ps₁).2 ++ gone, ps', ?_, by simp [l2], ?_, ?_, ?_, ?_, ?_⟩
    · simp [live, d1, r1, l1, ok_bind, pure_eq_ok]
    · intro p hp
      rw [List.append_assoc] at hp
      exact (List.mem_append.1 hp).elim (fun hp => r3 p (e1.mem_iff.1 (List.mem_append_left _ hp))) (l3 p)
    · intro p hp
      exact (List.mem_append.1 hp).elim (e2 p) (l4 p)
    · have f1 : ((depart (plan.leaves t) 0 ps₁).2.map Running.k ++
          (depart (plan.leaves t) 0 ps₁).1.map Running.k).Perm
          (ps.map Running.k ++ (plan.builds t).map (Kind.since t)) := by
        have := e1.map Running.k
        rw [r4, List.map_append, List.map_append, d3] at this
        exact this
      rw [List.append_assoc, List.map_append]
      refine (l5.append_left _).trans ?_
      rw [← List.append_assoc, ← List.append_assoc]
      exact f1.append_right _
    · have f1 : tot μ (allOf holdings (depart (plan.leaves t) 0 ps₁).2) +
          tot μ (allOf holdings (depart (plan.leaves t) 0 ps₁).1) =
          tot μ (allOf holdings ps) + (((plan.builds t).map (Kind.since t)).map start).sum := by
        rw [← tot_append, ← allOf_append, tot_perm (allOf_perm e1), r5, allOf_append, tot_append, d4]
      rw [allOf_append, tot_append, List.map_append, List.sum_append]
      linarith
    · intro x hx
      rcases List.mem_cons.1 hx with rfl | hx
      · exact r2.2
      · exact l7 x hx

theorem built_all {plan : Plan} {P : Kind → Prop} (h : ∀ t, ∀ k ∈ plan.builds t, P k)
    (hs : ∀ t k, P k → P (k.since t)) (t n : Nat) : ∀ k ∈ plan.built t n, P k := by
  intro k hk
  obtain ⟨t', -, hk⟩ := List.mem_flatMap.1 hk
  obtain ⟨k', hk', rfl⟩ := List.mem_map.1 hk
  exact hs _ _ (h t' k' hk')

theorem starts_qty {ks : List Kind} (h : ∀ k ∈ ks, Sensible k) : Starts qty startsWith ks :=
  fun _ hk _ hd => deployAll_mass (fun k hk' => h k (hk k hk')) hd

theorem starts_mass {ks : List Kind} (h : ∀ k ∈ ks, Sensible k)
    (hr : ∀ c, .source c ∈ ks → c.recipe ≠ none) (n : Nat) :
    Starts (fun m => m.mass n) (startsWithOf n) ks := by
  intro ks' hk ps hd
  rw [massOf_allOf]
  exact deployAll_nuclide (fun k hk' => h k (hk k hk')) (fun c hc => hr c (hk _ hc)) hd n

/-! ## C129 -/

/-- C129. Facilities are built in any step and decommissioned at the end of any step in which they
agree to it. Whatever the exchange does within the requests and offers, no step fails; at any time the
facilities that are present and those that have left are those that were built, and in the next step
those that are due can be built, every facility publishes requests and offers, and every deal is
delivered in the amount agreed.

Partial: as C125. -/
theorem C129_comings_and_goings_partial {plan : Plan}
    (hb : ∀ t, ∀ k ∈ plan.builds t, Sensible k ∧ Suits A k) {ex : Nat → Exchange}
    (hex : ∀ t, (ex t).Fair) (n : Nat) :
    ∃ l gone ps, live ex plan n 0 [] = .ok (l, gone, ps) ∧ l.length = n ∧
      ((gone ++ ps).map Running.k).Perm
        ((List.range n).flatMap fun t => (plan.builds t).map (Kind.since t)) ∧
      (∀ p ∈ gone, mayLeave p.k p.s = true) ∧
      ∃ new asks offers gs ps', deployAll ((plan.builds n).map (Kind.since n)) = .ok new ∧
        new.map Running.k = (plan.builds n).map (Kind.since n) ∧
        askAll (ps ++ new) = .ok asks ∧ offerAll (requestsOf asks) (ps ++ new) = .ok offers ∧
        round (ex n) (ps ++ new) = .ok (gs, ps') ∧ (gs.map Prod.fst).Perm (ex n asks offers) ∧
        ∀ g ∈ gs, qty g.2 = g.1.amt ∧ Mat.Nonneg g.2 := by
  have H : ∀ k ∈ plan.built 0 (n + 1), Sensible k ∧ Suits A k := built_all hb (fun t k h =>
    ⟨sensible_since t h.1, suits_since t h.2⟩) 0 (n + 1)
  have H' : ∀ k ∈ plan.built 0 n, Sensible k ∧ Suits A k := built_all hb (fun t k h =>
    ⟨sensible_since t h.1, suits_since t h.2⟩) 0 n
  have hnew : ∀ k ∈ (plan.builds n).map (Kind.since n), Sensible k ∧ Suits A k := by
    intro k hk
    obtain ⟨k', hk', rfl⟩ := List.mem_map.1 hk
    exact ⟨sensible_since n (hb n k' hk').1, suits_since n (hb n k' hk').2⟩
  obtain ⟨l, gone, ps, l1, l2, l3, l4, l5, -, -⟩ := live_ok (A := A) (ps := []) measure_qty hex n 0
    (fun k hk => ⟨keeps_qty k, H' k hk⟩) (starts_qty fun k hk => (H' k hk).1) (by simp)
  obtain ⟨new, d1, d2, d3⟩ := deployAll_ok measure_qty (fun k _ => keeps_qty k) hnew
  obtain ⟨asks, offers, gs, ps', e1, e2, e3, ⟨e4, e5⟩, -⟩ := round_ok (hex n) (ps := ps ++ new)
    fun p hp => (List.mem_append.1 hp).elim (fun hp => l3 p (List.mem_append_right _ hp)) (d2 p)
  refine ⟨l, gone, ps, l1, l2, ?_, l4, new, asks, offers, gs, ps', d1, d3, e1, e2, e3, e4, fun g hg =>
    ⟨(e5 g hg).1.2, (e5 g hg).1.1.2⟩⟩
  rw [List.range_eq_range']
  simpa [Plan.built] using l5

/-! ## C130 -/

/-- C130. At any time, what the facilities have and what those that left took with them is in total
what all that were built had at their start.

Partial: as C125. -/
theorem C130_total_partial {plan : Plan} (hb : ∀ t, ∀ k ∈ plan.builds t, Sensible k ∧ Suits A k)
    {ex : Nat → Exchange} (hex : ∀ t, (ex t).Fair) {n : Nat} {l : List (List (Deal × NMat))}
    {gone ps : List (Running act)} (h : live ex plan n 0 [] = .ok (l, gone, ps)) :
    (ps.map fun p => totalQty (holdings p.k p.s)).sum +
      (gone.map fun p => totalQty (holdings p.k p.s)).sum =
        ((List.range n).map fun t => ((plan.builds t).map startsWith).sum).sum := by
  have H' : ∀ k ∈ plan.built 0 n, Sensible k ∧ Suits A k := built_all hb (fun t k h =>
    ⟨sensible_since t h.1, suits_since t h.2⟩) 0 n
  obtain ⟨l', gone', ps', l1, -, -, -, -, l6, -⟩ := live_ok (A := A) (ps := []) measure_qty hex n 0
    (fun k hk => ⟨keeps_qty k, H' k hk⟩) (starts_qty fun k hk => (H' k hk).1) (by simp)
  rw [h] at l1
  simp only [Except.ok.injEq, Prod.mk.injEq] at l1
  obtain ⟨-, rfl, rfl⟩ := l1
  have key : ∀ ps : List (Running act), tot qty (allOf holdings ps) =
      (ps.map fun p => totalQty (holdings p.k p.s)).sum := by
    intro ps
    induction ps with
    | nil => rfl
    | cons p ps ih =>
      rw [List.map_cons, List.sum_cons, ← ih]
      simp [allOf, tot_qty]
  rw [← key, ← key, add_comm, l6, List.range_eq_range']
  simp only [Plan.built, allOf, List.flatMap_nil, tot_nil, zero_add, List.map_flatMap, List.map_map,
    Function.comp_def, startsWith_since]
  rw [List.flatMap_def, List.sum_flatten, List.map_map]
  rfl

/-- C130, by nuclide, where there are no reactors: what the facilities have of a nuclide and what
those that left took with them is in total what all that were built had of it at their start.

Partial: as C128. -/
theorem C130_nuclides_partial {plan : Plan} (hb : ∀ t, ∀ k ∈ plan.builds t, Sensible k ∧ Suits A k)
    (hno : ∀ t c enc dec, .reactor c enc dec ∉ plan.builds t)
    (hr : ∀ t c, .source c ∈ plan.builds t → c.recipe ≠ none)
    {ex : Nat → Exchange} (hex : ∀ t, (ex t).Fair) {t : Nat} {l : List (List (Deal × NMat))}
    {gone ps : List (Running act)} (h : live ex plan t 0 [] = .ok (l, gone, ps)) (n : Nat) :
    (ps.map fun p => Mat.massOf (holdings p.k p.s) n).sum +
      (gone.map fun p => Mat.massOf (holdings p.k p.s) n).sum =
        ((List.range t).map fun t => ((plan.builds t).map (startsWithOf n)).sum).sum := by
  have H : ∀ k ∈ plan.built 0 t, (Keeps (fun m => m.mass n) k ∧ Sensible k ∧ Suits A k) ∧
      ∀ c, k = .source c → c.recipe ≠ none := by
    refine built_all (P := fun k => (Keeps (fun m => m.mass n) k ∧ Sensible k ∧ Suits A k) ∧
      ∀ c, k = .source c → c.recipe ≠ none) ?_ ?_ 0 t
    · intro t k hk
      refine ⟨⟨?_, hb t k hk⟩, fun c e => hr t c (e ▸ hk)⟩
      cases k with
      | reactor c enc dec => exact absurd hk (hno t c enc dec)
      | source c => exact fun e => absurd e (hr t c hk)
      | _ => trivial
    · rintro t k ⟨⟨h1, h2, h3⟩, h4⟩
      refine ⟨⟨keeps_since t h1, sensible_since t h2, suits_since t h3⟩, fun c e => ?_⟩
      cases k with
      | source c' => exact h4 c e
      | _ => cases e
  obtain ⟨l', gone', ps', l1, -, -, -, -, l6, -⟩ := live_ok (A := A) (ps := []) (measure_mass n) hex t 0
    (fun k hk => (H k hk).1) (starts_mass (fun k hk => (H k hk).1.2.1)
      (fun c hc => (H _ hc).2 c rfl) n) (by simp)
  rw [h] at l1
  simp only [Except.ok.injEq, Prod.mk.injEq] at l1
  obtain ⟨-, rfl, rfl⟩ := l1
  rw [← massOf_allOf, ← massOf_allOf, add_comm, l6, List.range_eq_range']
  simp only [Plan.built, allOf, List.flatMap_nil, tot_nil, zero_add, List.map_flatMap, List.map_map,
    Function.comp_def, startsWithOf_since]
  rw [List.flatMap_def, List.sum_flatten, List.map_map]
  rfl

/-- C130: what a facility takes with it that looks at its stocks when it is to be decommissioned: a
reactor nothing but fresh fuel, and a separations facility nothing but feed. -/
theorem C130_taken (s : Reactor.State × Nat) (s' : Separations.State) :
    (∀ c enc dec, mayLeave (.reactor c enc dec) s = true →
      holdings (.reactor c enc dec) s = material dec s.1.fresh.items) ∧
    (∀ c, mayLeave (.separations c) s' = true → holdings (.separations c) s' = s'.feed.items) := by
  constructor
  · intro c enc dec h
    have h : Reactor.checkDecommission s.1 = true := h
    simp only [Reactor.checkDecommission, Buf.count, Bool.and_eq_true, beq_iff_eq,
      List.length_eq_zero_iff] at h
    show material dec (Reactor.held s.1) = _
    rw [Reactor.held, h.1, h.2, List.append_nil, List.append_nil]
  · intro c h
    have h : Separations.mayRetire s' = true := h
    unfold Separations.mayRetire at h
    split at h
    · cases h
    · rename_i h0
      have h1 : s'.leftover.items = [] := List.length_eq_zero_iff.1 (Nat.eq_zero_of_not_pos h0)
      have h2 : s'.bufs.flatMap (fun b => b.2.items) = [] := by
        refine List.flatMap_eq_nil_iff.2 fun b hb => ?_
        have := of_decide_eq_true (List.all_eq_true.1 h b hb)
        exact List.length_eq_zero_iff.1 (Nat.eq_zero_of_not_pos this)
      show Separations.contents s' = _
      rw [Separations.contents, h1, h2, List.append_nil, List.append_nil]

/-! ## C131 -/

/-- C131. Institutions with schedules enter; the prototypes stand for archetypes with their input
(`input`), with the lifetime of the schedule. The simulation, which has further facilities (`others`),
never fails, and at any time the facilities that are present and those that have left are the others
and those that the schedules plan up to that time.

Partial: as C125, and as C61 for the names of prototypes. -/
theorem C131_scheduled_partial {ds : List Deploy.Inst} {x x' : Deploy.Ctx} (h0 : x.queue = [])
    (hk : ∀ d ∈ ds, Deploy.Known x.protos d) (hp : Deploy.Plain ds)
    (h : Deploy.deployAll ds x = .ok x') {input : Nat → Kind}
    (hi : ∀ i, Sensible (input i) ∧ Suits A (input i)) {others : Nat → List Kind}
    (ho : ∀ t, ∀ k ∈ others t, Sensible k ∧ Suits A k) {plan : Plan}
    (hplan : ∀ t : Nat, ∃ l, Deploy.doBuild x' t = .ok l ∧ plan.builds t = others t ++
      l.map fun b => (input b.2.kind).until (lastStep t b.2.lifetime))
    {ex : Nat → Exchange} (hex : ∀ t, (ex t).Fair) (n : Nat) :
    ∃ l gone ps, live ex plan n 0 [] = .ok (l, gone, ps) ∧ l.length = n ∧
      ((gone ++ ps).map Running.k).Perm ((List.range n).flatMap fun t => (others t).map (Kind.since t) ++
        (ds.flatMap (Deploy.planned x.protos x.time t)).map fun b =>
          ((input b.2.kind).until (lastStep t b.2.lifetime)).since t) := by
  have key : ∀ t : Nat, plan.builds t = others t ++
      (ds.flatMap (Deploy.planned x.protos x.time t)).map
        fun b => (input b.2.kind).until (lastStep t b.2.lifetime) := by
    intro t
    obtain ⟨l, h1, h2⟩ := hplan t
    rw [Deploy.C61_schedule_partial h0 hk hp h] at h1
    simp only [Except.ok.injEq] at h1
    rw [h1, h2]
  have hb : ∀ t, ∀ k ∈ plan.builds t, Sensible k ∧ Suits A k := by
    intro t k hk
    rw [key] at hk
    rcases List.mem_append.1 hk with hk | hk
    · exact ho t k hk
    · obtain ⟨b, -, rfl⟩ := List.mem_map.1 hk
      exact ⟨sensible_until _ (hi _).1, suits_until _ (hi _).2⟩
  obtain ⟨l, gone, ps, l1, l2, l3, -⟩ := C129_comings_and_goings_partial hb hex n
  refine ⟨l, gone, ps, l1, l2, ?_⟩
  simp only [key, List.map_append, List.map_map] at l3
  rw [List.map_append]
  exact l3

/-! ## Examples -/

/-- A plan: the mine is closed after the third step, the first reactor is to leave as soon as it is
empty, and so is the separations facility that is built for its spent fuel. -/
def exPlan : Plan where
  builds t := if t = 0 then [.source exMine, .conversion exConversion, .enrichment exEnrichment,
      .reactor { exReactor with exitTime := some 5 } (fun _ => 1) exDec]
    else if t = 4 then [.separations exSeparations, .source { exMine with size := 100 },
      .sink { exSink with commods := ["waste", "pu", "u"] }, .reactor exReactor (fun _ => 1) exDec]
    else []
  leaves t i := (t = 2 ∧ i = 0) ∨ (t ≥ 6 ∧ i = 2)

/-- The plan meets the hypotheses of C129 and C130. -/
theorem exPlan_sensible : ∀ t, ∀ k ∈ exPlan.builds t, Sensible k ∧ Suits exAgreement k := by
  have base : ∀ k ∈ exKinds, Sensible k ∧ Suits exAgreement k := fun k hk =>
    ⟨exKinds_sensible k hk, exKinds_suit k hk⟩
  intro t k hk
  simp only [exPlan] at hk
  split at hk
  · simp only [List.mem_cons, List.not_mem_nil, or_false] at hk
    rcases hk with rfl | rfl | rfl | rfl
    · exact base _ (by simp [exKinds])
    · exact base _ (by simp [exKinds])
    · exact base _ (by simp [exKinds])
    · have := base (.reactor exReactor (fun _ => 1) exDec) (by simp [exKinds])
      exact ⟨sensible_until (some 5) this.1, suits_until (some 5) this.2⟩
  · split at hk
    · simp only [List.mem_cons, List.not_mem_nil, or_false] at hk
      rcases hk with rfl | rfl | rfl | rfl
      · exact base _ (by simp [exKinds])
      · obtain ⟨⟨h1, h2, h3, h4, h5, h6⟩, h⟩ := base (.source exMine) (by simp [exKinds])
        exact ⟨⟨by norm_num, h2, h3, h4, h5, h6⟩, h⟩
      · obtain ⟨⟨⟨h1, h2, h3, h4, h5⟩, h6⟩, -⟩ := base (.sink exSink) (by simp [exKinds])
        refine ⟨⟨⟨h1, h2, h3, h4, h5⟩, h6⟩, fun k hk q _ e => ?_⟩
        subst e
        exact absurd hk (by decide)
      · exact base _ (by simp [exKinds])
    · cases hk

/-- After nine steps the mine has left with 60 kg, the reactor with nothing, and the separations
facility with 12 kg of feed. -/
example : (live (fun _ => greedy) exPlan 9 0 []).toOption.map (fun r =>
    (r.2.1.map fun p => totalQty (holdings p.k p.s), r.2.2.map fun p => totalQty (holdings p.k p.s))) =
    some ([60, 0, 12], [0, 486, 0, 24, 48]) := by
  decide +kernel

/-- A schedule with lifetimes: besides the facilities of the example, three mines are built at time 1,
and four reactors at time 3. -/
example : ∃ x' plan, Deploy.deployAll Deploy.exInsts (Deploy.exCtx true) = .ok x' ∧
    (∀ t : Nat, ∃ l, Deploy.doBuild x' t = .ok l ∧ plan.builds t =
      (if t = 0 then exKinds else []) ++ l.map fun b =>
        (if b.2.kind = 1 then Kind.source exMine else .reactor exReactor (fun _ => 1) exDec).until
          (lastStep t b.2.lifetime)) ∧
    ∃ l gone ps, live (fun _ => greedy) plan 4 0 [] = .ok (l, gone, ps) ∧
      (gone ++ ps).length = 8 + 3 + 4 := by
  have base : ∀ k ∈ exKinds, Sensible k ∧ Suits exAgreement k := fun k hk =>
    ⟨exKinds_sensible k hk, exKinds_suit k hk⟩
  obtain ⟨x', h⟩ : ∃ x', Deploy.deployAll Deploy.exInsts (Deploy.exCtx true) = .ok x' := by
    have h : (Deploy.deployAll Deploy.exInsts (Deploy.exCtx true)).toOption.isSome = true := by
      decide +kernel
    cases hd : Deploy.deployAll Deploy.exInsts (Deploy.exCtx true) with
    | error e => rw [hd] at h; simp [Except.toOption] at h
    | ok x' => exact ⟨x', rfl⟩
  have hplan : ∀ t : Nat, ∃ l, Deploy.doBuild x' t = .ok l := fun t =>
    ⟨_, Deploy.C61_schedule_partial rfl (Deploy.exKnown true) Deploy.exPlain h t⟩
  choose b hb using hplan
  obtain ⟨plan, hp⟩ : ∃ plan : Plan, ∀ t, plan.builds t = (if t = 0 then exKinds else []) ++
      (b t).map fun b => (if b.2.kind = 1 then Kind.source exMine
        else .reactor exReactor (fun _ => 1) exDec).until (lastStep t b.2.lifetime) :=
    ⟨⟨_, fun _ _ => false⟩, fun _ => rfl⟩
  refine ⟨x', plan, h, fun t => ⟨b t, hb t, hp t⟩, ?_⟩
  obtain ⟨l, gone, ps, h1, -, h2⟩ := C131_scheduled_partial (A := exAgreement)
    (input := fun i => if i = 1 then .source exMine else .reactor exReactor (fun _ => 1) exDec)
    (others := fun t => if t = 0 then exKinds else []) rfl (Deploy.exKnown true) Deploy.exPlain h
    (fun i => by
      split
      · exact base _ (by simp [exKinds])
      · exact base _ (by simp [exKinds]))
    (fun t k hk => by
      split at hk
      · exact base _ hk
      · cases hk) (fun t => ⟨b t, hb t, hp t⟩) (fun _ => greedy_fair) 4
  refine ⟨l, gone, ps, h1, ?_⟩
  have := h2.length_eq
  rw [List.length_map] at this
  rw [this]
  decide +kernel

end Cyc.Sim
