import Verif.Sim.RankingLemmas
import Verif.Sim.Props10
import Verif.Sim.Props5

/-!
# Enrichment facilities that rank the bids for their feed (C158)
-/

namespace Cyc.Sim

/-! ## Who bids on a request, and how often -/

theorem quantities_one (r : Req) (k : String) :
    quantities [r] k = if r.commod = k then [qty r.target] else [] := by
  unfold quantities
  by_cases h : r.commod = k <;> simp [h]

theorem OfReactor.bidLoop_asked {c : Reactor.Cfg} {reqs : String → List ℚ} {ks : List String}
    {s s' : Reactor.State} {ps : List Reactor.BidPort}
    (h : Reactor.bidLoop c reqs ks s = .ok (ps, s')) : ∀ p ∈ ps, reqs p.commod ≠ [] := by
  induction ks generalizing s s' ps with
  | nil =>
    simp only [Reactor.bidLoop, Except.ok.injEq, Prod.mk.injEq] at h
    obtain ⟨rfl, -⟩ := h
    simp
  | cons k ks ih =>
    unfold Reactor.bidLoop at h
    split at h
    · exact ih h
    · next hk =>
      simp only [bind_ok] at h
      obtain ⟨⟨m, s₁⟩, -, h⟩ := h
      split at h
      · exact ih h
      · split at h
        · cases h
        · simp only [bind_ok, pure_eq_ok, Except.ok.injEq, Prod.mk.injEq] at h
          obtain ⟨⟨ps', s₂⟩, h1, rfl, -⟩ := h
          intro p hp
          rcases List.mem_cons.1 hp with rfl | hp
          · exact hk
          · exact ih h1 p hp

theorem gather_nil {α : Type} {x : R α} {f : α → List NMat} (h : ∀ a, x = .ok a → f a = []) :
    gather x f = [] := by
  cases x with
  | ok a => exact h a rfl
  | error e => rfl

theorem gather_one {α : Type} {x : R α} {f : α → List NMat} (h : ∀ a, x = .ok a → (f a).length ≤ 1) :
    (gather x f).length ≤ 1 := by
  cases x with
  | ok a => exact h a rfl
  | error e => simp [gather]

theorem policyBid_none {out : List String} {l : List NMat} {r : Req} (h : r.commod ∉ out) :
    policyBid out l r = [] := if_neg h

theorem policyBid_one (out : List String) (l : List NMat) (r : Req) : (policyBid out l r).length ≤ 1 := by
  unfold policyBid
  split
  · cases l <;> simp
  · simp

/-- A facility bids only on requests for what its prototype sells. -/
theorem bidsOn_none {r : Req} {k : Kind} {s : (act k).S} (K : Keyed k s) (h : r.commod ∉ sellsOf k) :
    bidsOn r k s = [] := by
  cases k with
  | conversion c =>
    have h' : r.commod ≠ c.outcommod := by simpa [sellsOf] using h
    refine gather_nil fun p hp => ?_
    simp only [bind_ok] at hp
    obtain ⟨s₁, -, hp⟩ := hp
    unfold Conversion.bids at hp
    split at hp
    · cases hp; rfl
    · simp only [conversionReqs, List.zipIdx_cons, List.zipIdx_nil, List.map_cons, List.map_nil,
        List.filter_cons, h', decide_false, Bool.false_eq_true, if_false, List.filter_nil, Conversion.bidLoop,
        ok_bind, pure_eq_ok, Except.ok.injEq] at hp
      subst hp; rfl
  | enrichment c =>
    have h' : r.commod ≠ c.tailsCommod ∧ r.commod ≠ c.productCommod := by simpa [sellsOf] using h
    refine gather_nil fun p hp => ?_
    have e1 : targets [r] c.tailsCommod = none := by simp [targets, h'.1]
    have e2 : targets [r] c.productCommod = none := by simp [targets, h'.2]
    simp only [Enrichment.bids, e1, e2, Enrichment.tailsBids, Enrichment.productBids, ok_bind, pure_eq_ok,
      Except.ok.injEq] at hp
    subst hp; rfl
  | fuelFab c =>
    have h' : r.commod ≠ c.outCommod := by simpa [sellsOf] using h
    refine gather_nil fun p hp => ?_
    simp only [bind_ok] at hp
    obtain ⟨x, -, hp⟩ := hp
    have e1 : (fuelTargets [r] c.outCommod).length = 0 := by simp [fuelTargets, h']
    unfold FuelFab.bids at hp
    simp only [e1, if_true] at hp
    split at hp <;> (cases hp; rfl)
  | mixer c =>
    have h' : r.commod ∉ [c.outCommod] := by simpa [sellsOf] using h
    exact gather_nil fun s₁ _ => policyBid_none h'
  | reactor c enc dec =>
    refine gather_nil fun x hx => ?_
    simp only [Reactor.offerPhase, bind_ok, pure_eq_ok, Except.ok.injEq] at hx
    obtain ⟨s₁, -, ⟨rq, s₂⟩, -, ⟨bd, s₃⟩, h2, rfl⟩ := hx
    have h3 := OfReactor.bidLoop_commods h2
    have h4 := OfReactor.bidLoop_asked h2
    have : bd = [] := by
      refine List.eq_nil_iff_forall_not_mem.2 fun p hp => ?_
      have h5 := h4 p hp
      rw [quantities_one] at h5
      have h6 : r.commod = p.commod := by
        by_contra hne
        rw [if_neg hne] at h5
        exact h5 rfl
      exact h (h6 ▸ Reactor.mem_uniqOutCommods.1 (h3 p hp))
    subst this
    rfl
  | separations c =>
    refine gather_nil fun x hx => ?_
    obtain ⟨tr, s₁⟩ := x
    have hk := OfSeparations.tick_keyed K hx
    have hn : ∀ k b, k ∈ sellsOf (.separations c) → Separations.bidsFor c.eps k b (quantities [r] k) = [] := by
      intro k b hk
      unfold Separations.bidsFor
      have e : r.commod ≠ k := fun e => h (e ▸ hk)
      rw [quantities_one, if_neg e]
      rfl
    have : Separations.bids c s₁ (quantities [r]) = [] := by
      unfold Separations.bids
      rw [hn _ _ (by simp [sellsOf]), List.append_nil, List.flatMap_eq_nil_iff]
      intro b hb
      exact hn _ _ (List.mem_cons_of_mem _ (hk b.1 (List.mem_map_of_mem hb)))
    show List.flatMap _ (Separations.bids c s₁ (quantities [r])) = []
    rw [this]; rfl
  | sink c => rfl
  | source c =>
    have h' : r.commod ≠ c.outcommod := by simpa [sellsOf] using h
    show Option.getD (Option.map _ (Source.bids c (sourceReqs [r]) s)) [] = []
    have : Source.bids c (sourceReqs [r]) s = none := by
      unfold Source.bids
      split
      · rfl
      · rw [if_pos (by simp [sourceReqs, h'])]
    rw [this]; rfl
  | storage c want =>
    exact policyBid_none fun hm => h (List.mem_of_mem_take hm)

/-- Some facilities make no more than one bid on a request. -/
theorem bidsOn_one {r : Req} {k : Kind} {s : (act k).S} (S : Sensible k) (h : OneBid k) :
    (bidsOn r k s).length ≤ 1 := by
  cases k with
  | conversion c =>
    refine gather_one fun p hp => ?_
    simp only [bind_ok] at hp
    obtain ⟨s₁, -, hp⟩ := hp
    unfold Conversion.bids at hp
    split at hp
    · cases hp; simp
    · simp only [bind_ok, pure_eq_ok, Except.ok.injEq] at hp
      obtain ⟨bs, hb, rfl⟩ := hp
      simp only [Option.map_some, Option.getD_some, List.length_map]
      simp only [conversionReqs, List.zipIdx_cons, List.zipIdx_nil, List.map_cons, List.map_nil,
        List.filter_cons, List.filter_nil] at hb
      split at hb
      · simp only [Conversion.bidLoop, bind_ok, pure_eq_ok, Except.ok.injEq] at hb
        obtain ⟨b, -, bs', rfl, rfl⟩ := hb
        cases b <;> simp
      · simp only [Conversion.bidLoop, Except.ok.injEq] at hb
        subst hb; simp
  | enrichment c => exact h.elim
  | fuelFab c =>
    refine gather_one fun p hp => ?_
    simp only [bind_ok] at hp
    obtain ⟨x, -, hp⟩ := hp
    unfold FuelFab.bids at hp
    split at hp
    · cases hp; simp
    · split at hp
      · cases hp; simp
      · simp only [bind_ok] at hp
        obtain ⟨k, -, bs, hb, hp⟩ := hp
        split at hp
        · cases hp
        · simp only [pure_eq_ok, Except.ok.injEq] at hp
          subst hp
          simp only [Option.map_some, Option.getD_some, List.length_map]
          by_cases e : r.commod = c.outCommod
          · simp only [fuelTargets, List.filter_cons, e, decide_true, if_true, List.filter_nil, List.map_cons,
              List.map_nil, FuelFab.bidLoop, bind_ok, pure_eq_ok, Except.ok.injEq] at hb
            obtain ⟨b, -, bs', rfl, rfl⟩ := hb
            cases b <;> simp
          · simp only [fuelTargets, List.filter_cons, e, decide_false, Bool.false_eq_true, if_false, List.filter_nil,
              List.map_nil, FuelFab.bidLoop, Except.ok.injEq] at hb
            subst hb; simp
  | mixer c => exact gather_one fun s₁ _ => policyBid_one _ _ _
  | reactor c enc dec => exact h.elim
  | separations c => exact h.elim
  | sink c => exact Nat.zero_le _
  | source c =>
    obtain ⟨-, -, -, -, hf, -⟩ := S
    show (Option.getD (Option.map _ (Source.bids c (sourceReqs [r]) s)) []).length ≤ 1
    unfold Source.bids
    split
    · simp
    · split
      · simp
      · simp only [Option.map_some, Option.getD_some, List.length_map]
        simp only [sourceReqs, List.zipIdx_cons, List.zipIdx_nil, List.map_cons, List.map_nil, List.filter_cons,
          List.filter_nil]
        split
        · simp only [List.flatMap_cons, List.flatMap_nil, List.append_nil, Source.bidsFor, List.length_map,
            Source.lots, hf, Source.cut]
          split
          · simp
          · simp
        · simp
  | storage c want => exact policyBid_one _ _ _

/-! ## Simulations -/

variable {A : Agreement}

theorem live_keyed {ex : Nat → Exchange} {plan : Plan} (n : Nat) :
    ∀ {t : Nat} {ps gone ps' : List (Running act)} {l : List (List (Deal × NMat))},
    live ex plan n t ps = .ok (l, gone, ps') → (∀ p ∈ ps, Keyed p.k p.s) → ∀ p ∈ ps', Keyed p.k p.s := by
  induction n with
  | zero =>
    intro t ps gone ps' l h hk
    simp only [live, Except.ok.injEq, Prod.mk.injEq] at h
    obtain ⟨-, -, rfl⟩ := h
    exact hk
  | succ n ih =>
    intro t ps gone ps' l h hk
    simp only [live, bind_ok, pure_eq_ok, Except.ok.injEq, Prod.mk.injEq] at h
    obtain ⟨new, h1, ⟨gs, ps₁⟩, h2, ⟨l', gone', ps₂⟩, h3, -, -, rfl⟩ := h
    refine ih h3 fun p hp => ?_
    refine (round_keyed (fun q hq => ?_) h2).2 p (depart_stays p hp)
    rcases List.mem_append.1 hq with hq | hq
    · exact hk q hq
    · exact (deployAll_keyed h1).2 q hq

/-- The facilities that are present before the builds of step `n`, and these. -/
theorem rankedLive_built {ex : Nat → Ranked} {plan : Plan} {n : Nat} {l : List (List (Deal × NMat))}
    {gone ps new : List (Running act)} (h : rankedLive ex plan n 0 [] = .ok (l, gone, ps))
    (h' : deployAll ((plan.builds n).map (Kind.since n)) = .ok new) :
    (∀ p ∈ ps ++ new, Keyed p.k p.s) ∧ ((ps ++ new).map Running.k).Subperm (plan.built 0 (n + 1)) := by
  obtain ⟨ranks, h1⟩ := rankedLive_same n h
  refine ⟨fun p hp => ?_, ?_⟩
  · rcases List.mem_append.1 hp with hp | hp
    · exact live_keyed n h1 (by simp) p hp
    · exact (deployAll_keyed h').2 p hp
  · have h2 := (live_k n h1).1
    have h3 : plan.built 0 (n + 1) = plan.built 0 n ++ (plan.builds n).map (Kind.since n) := by
      simp [Plan.built, ← List.range_eq_range', List.range_succ]
    rw [h3, List.map_append, (deployAll_keyed h').1]
    refine List.Subperm.append ?_ (List.Subperm.refl _)
    rw [List.map_nil, List.nil_append, List.map_append] at h2
    exact (List.sublist_append_right _ _).subperm.trans h2.subperm

/-- What a time step with ranking does to facilities that are in order but for the ranking. -/
theorem rankedRound_plain {ex : Ranked} (hex : ∀ ranks, (ex ranks).Fair) {ps : List (Running act)}
    (h : ∀ p ∈ ps, Good A qty holdings p.plain) :
    (Tied ps ∧ rankedRound ex ps = .error .ub) ∨
      (¬ Tied ps ∧ ∃ gs ps', rankedRound ex ps = .ok (gs, ps') ∧ ∀ p ∈ ps', Good A qty holdings p.plain) := by
  have h' : ∀ p ∈ ps.map Running.plain, Good A qty holdings p := by
    intro p hp
    obtain ⟨q, hq, rfl⟩ := List.mem_map.1 hp
    exact h q hq
  obtain ⟨asks, offers, -, -, e1, e2, -⟩ := round_ok (hex []) h'
  rw [askAll_plain] at e1
  rw [offerAll_plain] at e2
  rcases rankedRound_cases (ex := ex) e1 e2 with h1 | ⟨h1, ranks, h2⟩
  · exact .inl h1
  · right
    refine ⟨h1, ?_⟩
    obtain ⟨-, -, gs, qs, -, -, e3, -, e4, -⟩ := round_ok (hex ranks) h'
    rw [round_plain] at e3
    rw [h2]
    cases hr : round (ex ranks) ps with
    | error e => rw [hr] at e3; cases e3
    | ok x =>
      rw [hr] at e3
      obtain ⟨gs', ps'⟩ := x
      simp only [R.then, Except.ok.injEq, Prod.mk.injEq] at e3
      obtain ⟨-, rfl⟩ := e3
      exact ⟨gs', ps', rfl, fun p hp => e4 _ (List.mem_map_of_mem hp)⟩

theorem rankedLive_exact {plan : Plan}
    (hb : ∀ t, ∀ k ∈ plan.builds t, Sensible k.plain ∧ Suits A k.plain) {ex : Nat → Ranked}
    (hex : ∀ t ranks, (ex t ranks).Fair) (n : Nat) : ∀ {t : Nat} {ps : List (Running act)},
    (∀ p ∈ ps, Good A qty holdings p.plain) →
    ((∃ m < n, ∃ l gone qs new, rankedLive ex plan m t ps = .ok (l, gone, qs) ∧
        deployAll ((plan.builds (t + m)).map (Kind.since (t + m))) = .ok new ∧ Tied (qs ++ new)) ∧
      rankedLive ex plan n t ps = .error .ub) ∨
    ((∀ m < n, ∀ l gone qs new, rankedLive ex plan m t ps = .ok (l, gone, qs) →
        deployAll ((plan.builds (t + m)).map (Kind.since (t + m))) = .ok new → ¬ Tied (qs ++ new)) ∧
      ∃ l gone qs, rankedLive ex plan n t ps = .ok (l, gone, qs)) := by
  induction n with
  | zero => intro t ps _; right; exact ⟨by simp, [], [], ps, rfl⟩
  | succ n ih =>
    intro t ps h
    have hnew : ∀ k ∈ ((plan.builds t).map (Kind.since t)).map Kind.plain, Sensible k ∧ Suits A k := by
      intro k hk
      simp only [List.mem_map] at hk
      obtain ⟨-, ⟨k', hk', rfl⟩, rfl⟩ := hk
      rw [← since_plain]
      exact ⟨sensible_since t (hb t k' hk').1, suits_since t (hb t k' hk').2⟩
    obtain ⟨pnew, d1, d2, -⟩ := deployAll_ok measure_qty (fun k _ => keeps_qty k) hnew
    rw [deployAll_plain] at d1
    obtain ⟨new, d3, d4⟩ : ∃ new, deployAll ((plan.builds t).map (Kind.since t)) = .ok new ∧
        pnew = new.map Running.plain := by
      cases hd : deployAll ((plan.builds t).map (Kind.since t)) with
      | error e => rw [hd] at d1; cases d1
      | ok x => rw [hd] at d1; cases d1; exact ⟨x, rfl, rfl⟩
    subst d4
    have hall : ∀ p ∈ ps ++ new, Good A qty holdings p.plain := by
      intro p hp
      rcases List.mem_append.1 hp with hp | hp
      · exact h p hp
      · exact d2 _ (List.mem_map_of_mem hp)
    rcases rankedRound_plain (hex t) hall with ⟨h1, h2⟩ | ⟨h1, gs, ps', h2, h3⟩
    · left
      refine ⟨⟨0, by omega, [], [], ps, new, rfl, d3, h1⟩, ?_⟩
      simp [rankedLive, d3, h2]
    · have hstep : ∀ m, rankedLive ex plan (m + 1) t ps =
          rankedLive ex plan m (t + 1) (depart (plan.leaves t) 0 ps').1 >>= fun x =>
            .ok (gs :: x.1, (depart (plan.leaves t) 0 ps').2 ++ x.2.1, x.2.2) := by
        intro m
        simp [rankedLive, d3, h2, pure_eq_ok]
      rcases ih (t := t + 1) (ps := (depart (plan.leaves t) 0 ps').1)
          (fun p hp => h3 p (depart_stays p hp)) with
        ⟨⟨m, hm, l, gone, qs, new', e1, e2, e3⟩, e4⟩ | ⟨e1, l, gone, qs, e2⟩
      · left
        refine ⟨⟨m + 1, by omega, gs :: l, (depart (plan.leaves t) 0 ps').2 ++ gone, qs, new', ?_, ?_, e3⟩, ?_⟩
        · rw [hstep, e1]; rfl
        · rw [show t + (m + 1) = t + 1 + m by omega]; exact e2
        · rw [hstep, e4]; rfl
      · right
        refine ⟨fun m hm l' gone' qs' new' f1 f2 => ?_, gs :: l,
          (depart (plan.leaves t) 0 ps').2 ++ gone, qs, by rw [hstep, e2]; rfl⟩
        cases m with
        | zero =>
          simp only [rankedLive, Except.ok.injEq, Prod.mk.injEq] at f1
          obtain ⟨-, -, rfl⟩ := f1
          rw [Nat.add_zero, d3] at f2
          cases f2
          exact h1
        | succ m =>
          rw [hstep] at f1
          simp only [bind_ok, Except.ok.injEq, Prod.mk.injEq] at f1
          obtain ⟨⟨l₁, g₁, q₁⟩, f3, -, -, rfl⟩ := f1
          rw [show t + (m + 1) = t + 1 + m by omega] at f2
          exact e1 m (by omega) _ _ _ _ f3 f2

/-! ## C158 -/

/-- C158. If the prototypes but for their `order_prefs` are as in C129, and the exchange keeps to requests
and offers whatever the preferences, then a simulation runs, unless at some time an enrichment facility with
`order_prefs` has two bids for its feed of the same fraction of uranium-235: in that case the behaviour is
undefined.

Partial: as C125. -/
theorem C158_exact_partial {plan : Plan}
    (hb : ∀ t, ∀ k ∈ plan.builds t, Sensible k.plain ∧ Suits A k.plain) {ex : Nat → Ranked}
    (hex : ∀ t ranks, (ex t ranks).Fair) (n : Nat) :
    (TiedBefore ex plan n → rankedLive ex plan n 0 [] = .error .ub) ∧
    (¬ TiedBefore ex plan n → ∃ l gone ps, rankedLive ex plan n 0 [] = .ok (l, gone, ps)) := by
  rcases rankedLive_exact hb hex n (t := 0) (ps := []) (by simp) with ⟨h1, h2⟩ | ⟨h1, h2⟩
  · refine ⟨fun _ => h2, fun h => absurd ?_ h⟩
    simpa [TiedBefore] using h1
  · refine ⟨?_, fun _ => h2⟩
    rintro ⟨m, hm, l, gone, ps, new, e1, e2, e3⟩
    exact absurd e3 (h1 m hm l gone ps new e1 (by simpa using e2))

/-- C158, what happens if it runs: the same as without `order_prefs`, for an exchange that is as good as any.
So all that is shown of simulations without `order_prefs` holds of those that have it, too. -/
theorem C158_same {plan : Plan} {ex : Nat → Ranked} {n : Nat} {l : List (List (Deal × NMat))}
    {gone ps : List (Running act)} (h : rankedLive ex plan n 0 [] = .ok (l, gone, ps)) :
    ∃ ranks : Nat → List (List Ranks), live (fun t => ex t (ranks t)) (plan.map Kind.plain) n 0 [] =
      .ok (l, gone.map Running.plain, ps.map Running.plain) := by
  obtain ⟨ranks, h1⟩ := rankedLive_same n h
  refine ⟨ranks, ?_⟩
  have := live_plain (fun t => ex t (ranks t)) plan n 0 []
  rw [h1] at this
  exact this

theorem length_flatMap_le_one {α β : Type} {f : α → List β} {P : α → Prop} [DecidablePred P] {l : List α}
    (h1 : ∀ a ∈ l, ¬ P a → f a = []) (h2 : ∀ a ∈ l, P a → (f a).length ≤ 1)
    (h3 : (l.filter fun a => P a).length ≤ 1) : (l.flatMap f).length ≤ 1 := by
  refine le_trans ?_ h3
  clear h3
  induction l with
  | nil => simp
  | cons a l ih =>
    have := ih (fun b hb => h1 b (by simp [hb])) fun b hb => h2 b (by simp [hb])
    rw [List.flatMap_cons, List.length_append]
    by_cases hP : P a
    · have := h2 a (by simp) hP
      rw [List.filter_cons_of_pos (by simpa using hP), List.length_cons]
      omega
    · rw [h1 a (by simp) hP, List.filter_cons_of_neg (by simpa using hP)]
      simpa using this

/-- C158, an enrichment facility whose feed is sold by no more than one facility: if this holds of all that
rank, and the facility that sells makes no more than one bid on a request, the simulation runs.

Partial: as C125, and nothing is said of enrichment facilities with several suppliers, for which see
`C158_exact_partial`. -/
theorem C158_one_seller_partial {plan : Plan}
    (hb : ∀ t, ∀ k ∈ plan.builds t, Sensible k.plain ∧ Suits A k.plain) {ex : Nat → Ranked}
    (hex : ∀ t ranks, (ex t ranks).Fair) {n : Nat}
    (hone : ∀ c, .enrichment c ∈ plan.built 0 n → c.orderPrefs = true →
      ((plan.built 0 n).filter fun k => c.feedCommod ∈ sellsOf k).length ≤ 1 ∧
        ∀ k ∈ plan.built 0 n, c.feedCommod ∈ sellsOf k → OneBid k) :
    ∃ l gone ps, rankedLive ex plan n 0 [] = .ok (l, gone, ps) := by
  refine (C158_exact_partial hb hex n).2 ?_
  rintro ⟨m, hm, l, gone, ps, new, h1, h2, p, hp, c, hc, ho, as, ha, a, haa, x, hx, i, j, hij, m₁, m₂, hi, hj, -⟩
  obtain ⟨hK, hS⟩ := rankedLive_built h1 h2
  have hsub : ((ps ++ new).map Running.k).Subperm (plan.built 0 n) := by
    refine hS.trans (List.Sublist.subperm ?_)
    have : n = (m + 1) + (n - (m + 1)) := by omega
    rw [this]
    simp only [Plan.built, ← List.range_eq_range', List.range_add, List.flatMap_append]
    exact List.sublist_append_left _ _
  have hB : ∀ k ∈ plan.built 0 n, Sensible k.plain := built_all (P := fun k => Sensible k.plain)
    (fun t k hk => (hb t k hk).1) (fun t k h => by rw [← since_plain]; exact sensible_since t h) 0 n
  have hx' : x.1 = c.feedCommod := by
    have := asks_commods ha a haa x hx
    rw [hc] at this
    simpa [buysOf] using this
  obtain ⟨o1, o2⟩ := hone c (hc ▸ hsub.subset (List.mem_map_of_mem hp)) ho
  have hlen : ((ps ++ new).flatMap fun p => bidsOn ⟨x.1, x.2⟩ p.k p.s).length ≤ 1 := by
    refine length_flatMap_le_one (P := fun p => c.feedCommod ∈ sellsOf p.k) ?_ ?_ ?_
    · intro q hq hn
      exact bidsOn_none (hK q hq) (by rw [hx']; exact hn)
    · intro q hq hn
      have hq' := hsub.subset (List.mem_map_of_mem hq)
      have h1b := o2 _ hq' hn
      refine bidsOn_one ?_ h1b
      have := hB _ hq'
      revert this h1b
      cases q.k with
      | enrichment c => exact fun h => h.elim
      | _ => exact fun _ h => h
    · have := (hsub.filter fun k => decide (c.feedCommod ∈ sellsOf k)).length_le
      rw [List.filter_map, List.length_map] at this
      exact this.trans o1
  have hi' : i ∈ (allBids (ps ++ new) ⟨x.1, x.2⟩).map Prod.fst := List.mem_map_of_mem (f := Prod.fst) hi
  have hj' : j ∈ (allBids (ps ++ new) ⟨x.1, x.2⟩).map Prod.fst := List.mem_map_of_mem (f := Prod.fst) hj
  rw [allBids_ids, List.mem_range] at hi' hj'
  omega

theorem content_scale {m : NMat} {x : ℚ} (hx : x ≠ 0) : Enrichment.content (m.scale x) = Enrichment.content m := by
  unfold Enrichment.content
  rw [Mat.mass_scale, Mat.qty_scale, mul_div_mul_left _ _ hx]

/-- A mine bids once at most, what it has. -/
theorem bidsOn_mine {r : Req} {k : Kind} {s : (act k).S} (S : Sensible k) (hm : Mine k) (hr : 0 < qty r.target) :
    bidsOn r k s = [] ∨ ∃ m, bidsOn r k s = [m] ∧ Enrichment.content m = grade k := by
  obtain ⟨c, x, rfl, hx⟩ := hm
  obtain ⟨-, -, he, hS, hf, hn⟩ := S
  show Option.getD (Option.map _ (Source.bids c (sourceReqs [r]) s)) [] = [] ∨ ∃ m,
    Option.getD (Option.map _ (Source.bids c (sourceReqs [r]) s)) [] = [m] ∧ _
  unfold Source.bids
  split
  · exact .inl rfl
  next h =>
  split
  · exact .inl rfl
  · simp only [Option.map_some, Option.getD_some]
    simp only [sourceReqs, List.zipIdx_cons, List.zipIdx_nil, List.map_cons, List.map_nil, List.filter_cons,
      List.filter_nil]
    split
    · right
      simp only [List.flatMap_cons, List.flatMap_nil, List.append_nil, Source.bidsFor, Source.lots, hf, hn,
        Source.cut, List.length_singleton, lt_irrefl, if_false, List.map_cons, List.map_nil, hx,
        Option.getD_some]
      refine ⟨_, rfl, ?_⟩
      have hq : 0 < qty x := (hS x hx).1
      have hpos : 0 < min (qty r.target) (Source.maxQty c s) :=
        lt_min hr (lt_of_lt_of_le he (not_lt.1 h))
      unfold Source.ofComp
      rw [content_scale (ne_of_gt (div_pos hpos hq))]
      simp only [grade, hx, Enrichment.content]
    · exact .inl rfl

theorem contents_sublist {α β : Type} {f : α → List β} {P : α → Prop} [DecidablePred P] {l : List α} {g : β → ℚ}
    {h : α → ℚ} (h1 : ∀ a ∈ l, ¬ P a → f a = []) (h2 : ∀ a ∈ l, P a → f a = [] ∨ ∃ b, f a = [b] ∧ g b = h a) :
    ((l.flatMap f).map g).Sublist ((l.filter fun a => P a).map h) := by
  induction l with
  | nil => simp
  | cons a l ih =>
    have ih := ih (fun b hb => h1 b (by simp [hb])) fun b hb => h2 b (by simp [hb])
    rw [List.flatMap_cons, List.map_append]
    by_cases hP : P a
    · rw [List.filter_cons_of_pos (by simpa using hP), List.map_cons]
      rcases h2 a (by simp) hP with e | ⟨b, e, hb⟩
      · rw [e]; exact ih.cons _
      · rw [e]; simp only [List.map_cons, List.map_nil, List.cons_append, List.nil_append, hb]
        exact ih.cons_cons _
    · rw [h1 a (by simp) hP, List.filter_cons_of_neg (by simpa using hP)]
      exact ih

/-- C158, an enrichment facility whose feed comes from mines: if no two of them sell ore of the same fraction
of uranium-235, the simulation runs.

Partial: as C125, and nothing is said of feed that comes from other facilities than mines, for which see
`C158_one_seller_partial` and `C158_exact_partial`. -/
theorem C158_mines_partial {plan : Plan}
    (hb : ∀ t, ∀ k ∈ plan.builds t, Sensible k.plain ∧ Suits A k.plain) {ex : Nat → Ranked}
    (hex : ∀ t ranks, (ex t ranks).Fair) {n : Nat}
    (hmine : ∀ c, .enrichment c ∈ plan.built 0 n → c.orderPrefs = true →
      (∀ k ∈ plan.built 0 n, c.feedCommod ∈ sellsOf k → Mine k) ∧
        (((plan.built 0 n).filter fun k => c.feedCommod ∈ sellsOf k).map grade).Nodup) :
    ∃ l gone ps, rankedLive ex plan n 0 [] = .ok (l, gone, ps) := by
  refine (C158_exact_partial hb hex n).2 ?_
  rintro ⟨m, hm, l, gone, ps, new, h1, h2, ht⟩
  obtain ⟨p, hp, as, ha, c, hc, ho, r, hr, hd⟩ := (tied_iff _).1 ht
  obtain ⟨hK, hS⟩ := rankedLive_built h1 h2
  have hsub : ((ps ++ new).map Running.k).Subperm (plan.built 0 n) := by
    refine hS.trans (List.Sublist.subperm ?_)
    have : n = (m + 1) + (n - (m + 1)) := by omega
    rw [this]
    simp only [Plan.built, ← List.range_eq_range', List.range_add, List.flatMap_append]
    exact List.sublist_append_left _ _
  have hB : ∀ k ∈ plan.built 0 n, Sensible k.plain := built_all (P := fun k => Sensible k.plain)
    (fun t k hk => (hb t k hk).1) (fun t k h => by rw [← since_plain]; exact sensible_since t h) 0 n
  obtain ⟨o1, o2⟩ := hmine c (hc ▸ hsub.subset (List.mem_map_of_mem hp)) ho
  have hr' : r.commod = c.feedCommod ∧ 0 < qty r.target := by
    have hv := hB _ (hsub.subset (List.mem_map_of_mem hp))
    obtain ⟨k, s⟩ := p
    subst hc
    obtain ⟨V, -⟩ := hv
    simp only [act, enrichment, Except.ok.injEq] at ha
    subst ha
    unfold Enrichment.requests at hr
    split at hr
    · simp [requestsOf] at hr
    · rename_i q e
      split at e
      · rename_i hlt
        simp only [Option.some.injEq] at e
        rw [e] at hlt
        simp only [requestsOf, List.flatten_cons, List.flatten_nil, List.append_nil, List.flatMap_cons,
          List.flatMap_nil, List.map_cons, List.map_nil, List.mem_singleton] at hr
        subst hr
        refine ⟨rfl, ?_⟩
        have hq : 0 < qty c.feedRecipe := V.recipePos
        show 0 < qty (c.feedRecipe.scale (q / qty c.feedRecipe))
        rw [Mat.qty_scale, div_mul_cancel₀ _ (ne_of_gt hq)]
        exact lt_trans V.eps hlt
      · cases e
  refine hd ?_
  unfold Distinct allBids
  rw [List.map_map]
  show (List.map (fun x : NMat × Nat => Enrichment.content x.1) _).Nodup
  have : (List.map (fun x : NMat × Nat => Enrichment.content x.1)
      ((ps ++ new).flatMap fun p => bidsOn r p.k p.s).zipIdx) =
      ((ps ++ new).flatMap fun p => bidsOn r p.k p.s).map Enrichment.content := by
    rw [← List.zipIdx_map_fst (l := (ps ++ new).flatMap fun p => bidsOn r p.k p.s) 0, List.map_map]
    simp only [List.zipIdx_map_fst]
    rfl
  rw [this]
  have key := contents_sublist (l := ps ++ new) (f := fun p => bidsOn r p.k p.s)
    (P := fun p => c.feedCommod ∈ sellsOf p.k) (g := Enrichment.content) (h := fun p => grade p.k)
    (fun q hq hn => bidsOn_none (hK q hq) (by rw [hr'.1]; exact hn)) fun q hq hn => by
      have hq' := hsub.subset (List.mem_map_of_mem hq)
      have hm := o1 _ hq' hn
      have hs := hB _ hq'
      refine bidsOn_mine ?_ hm hr'.2
      obtain ⟨c', -, e, -⟩ := hm
      rw [e] at hs ⊢
      exact hs
  refine key.nodup ?_
  obtain ⟨l₁, h3, h4⟩ := hsub.filter fun k => decide (c.feedCommod ∈ sellsOf k)
  have h5 := (h3.map grade).nodup_iff.1 ((h4.map grade).nodup o2)
  rw [List.filter_map, List.map_map] at h5
  exact h5

/-! ## Two suppliers of the same feed -/

/-- A mine that sells feed. -/
def exFeedMine : Source.Cfg := { exMine with outcommod := "feed" }

/-- Two mines of the same ore, and an enrichment facility that leaves `order_prefs` at its default. -/
def exTwoMines : Plan where
  builds t := if t = 0 then [.source exFeedMine, .source exFeedMine,
    .enrichment { exEnrichment with orderPrefs := true }] else []
  leaves _ _ := false

theorem exTwoMines_fine : ∀ t, ∀ k ∈ exTwoMines.builds t, Sensible k.plain ∧ Suits exAgreement k.plain := by
  intro t k hk
  simp only [exTwoMines] at hk
  split at hk
  · have hs : Sensible (.source exFeedMine) := exKinds_sensible (.source exMine) (by simp [exKinds])
    have hu : Suits exAgreement (.source exFeedMine) := by
      obtain ⟨P, h1, h2, h3, h4⟩ := exKinds_suit (.source exMine) (by simp [exKinds])
      refine ⟨Assayed (1/100) (1/100), OfEnrichment.assayed_blendable _ _, fun r hr => ?_,
        fun h => (by cases h), fun m _ hm => ⟨fun _ => hm, fun e => absurd e (by decide)⟩⟩
      have hq : Solid r := by
        cases hr
        exact ⟨by decide +kernel, (by decide +kernel : ∀ e ∈ (_ : List (Nat × ℚ)), 0 ≤ e.2)⟩
      exact (h4 r hq (h2 r hr)).1 (.inl rfl)
    simp only [List.mem_cons, List.not_mem_nil, or_false] at hk
    rcases hk with rfl | rfl | rfl
    · exact ⟨hs, hu⟩
    · exact ⟨hs, hu⟩
    · exact ⟨exKinds_sensible (.enrichment exEnrichment) (by simp [exKinds]),
        exKinds_suit (.enrichment exEnrichment) (by simp [exKinds])⟩
  · cases hk

/-- All of a time step up to the ranking. -/
def ranksOf (ps : List (Running act)) : R (List (List Ranks)) := do
  let asks ← askAll ps
  let _ ← offerAll (requestsOf asks) ps
  rankAll ps ps asks

theorem rankedRound_of_ranksOf {ex : Ranked} {ps : List (Running act)} {e : Fault} (h : ranksOf ps = .error e) :
    rankedRound ex ps = .error e := by
  unfold ranksOf at h
  unfold rankedRound
  cases h1 : askAll ps with
  | error e' => rw [h1] at h; cases h; rfl
  | ok asks =>
    rw [h1] at h
    simp only [ok_bind] at h ⊢
    cases h2 : offerAll (requestsOf asks) ps with
    | error e' => rw [h2] at h; cases h; rfl
    | ok offers =>
      rw [h2] at h
      simp only [ok_bind] at h ⊢
      rw [h]; rfl

/-- C158, the defect: two mines of the same ore, whose input is as it should be, and an enrichment facility
with the default `order_prefs`. Whatever the exchange, the first step has undefined behaviour. -/
theorem C158_counterexample : ∃ plan : Plan,
    (∀ t, ∀ k ∈ plan.builds t, Sensible k.plain ∧ Suits exAgreement k.plain) ∧
    (∃ c, .enrichment c ∈ plan.builds 0 ∧ c.orderPrefs = true) ∧
    ∀ ex : Nat → Ranked, rankedLive ex plan 1 0 [] = .error .ub := by
  refine ⟨exTwoMines, exTwoMines_fine, ⟨{ exEnrichment with orderPrefs := true }, by simp [exTwoMines], rfl⟩,
    fun ex => ?_⟩
  have key : (match deployAll ((exTwoMines.builds 0).map (Kind.since 0)) with
      | .ok new => (match ranksOf new with | .error .ub => true | _ => false)
      | .error _ => false) = true := by decide +kernel
  cases hd : deployAll ((exTwoMines.builds 0).map (Kind.since 0)) with
  | error e => rw [hd] at key; cases key
  | ok new =>
    rw [hd] at key
    cases hr : ranksOf new with
    | ok x => simp only [hr] at key; cases key
    | error e =>
      cases e with
      | ub => simp [rankedLive, hd, rankedRound_of_ranksOf hr]
      | _ => simp only [hr] at key; cases key

/-! ## Examples -/

/-- The plan of C129, with `order_prefs`, meets the hypotheses of C158. -/
theorem exPlan_ranking : ∀ t, ∀ k ∈ (exPlan.map Kind.ranking).builds t,
    Sensible k.plain ∧ Suits exAgreement k.plain := by
  intro t k hk
  obtain ⟨k', hk', rfl⟩ := List.mem_map.1 hk
  have := exPlan_sensible t k' hk'
  cases k' with
  | enrichment c =>
    have hc : c.orderPrefs = false := this.1.2.2.2
    have : (Kind.enrichment c).ranking.plain = .enrichment c := by
      simp only [Kind.ranking, Kind.plain]; rw [← hc]
    rw [this]; assumption
  | _ => exact this

example : ∃ l gone ps, rankedLive (fun _ _ => greedy) (exPlan.map Kind.ranking) 9 0 [] = .ok (l, gone, ps) := by
  refine C158_one_seller_partial exPlan_ranking (fun _ _ => greedy_fair) fun c hc _ => ?_
  have hf : c.feedCommod = "feed" := by
    simp only [Plan.built, Plan.map, exPlan, List.range'_succ, List.range'_zero, List.flatMap_cons,
      List.flatMap_nil] at hc
    simp [Kind.ranking, Kind.since] at hc
    rw [hc]; rfl
  rw [hf]
  refine ⟨by decide +kernel, fun k hk hs => ?_⟩
  have : ∀ k ∈ (exPlan.map Kind.ranking).built 0 9, "feed" ∈ sellsOf k →
      (match k with | .conversion _ => true | _ => false) = true := by decide +kernel
  have := this k hk hs
  cases k <;> trivial

/-- The facilities of the example with a second mine, of richer ore. -/
def exTwoOres : List Kind :=
  [.source exFeedMine, .source { exFeedMine with recipe := some ⟨[(922350000, 1), (922380000, 49)]⟩ },
    .enrichment { exEnrichment with orderPrefs := true }]

/-- They rank the bids: the richer comes last, which is the better preference. -/
example : ((deployAll exTwoOres >>= ranksOf).toOption : Option (List (List Ranks))) =
    some [[], [], [some [(0, 1), (1, 2)]]] := by
  decide +kernel

/-- They are built at once. -/
def exOrePlan : Plan := ⟨fun t => if t = 0 then exTwoOres else [], fun _ _ => false⟩

/-- Feed is between the two ores, and fuel above them. -/
def exOreAgreement : Agreement where
  target k m := k = "fuel" →
    1/50 * (m.mass Enrichment.u235 + m.mass Enrichment.u238) ≤ m.mass Enrichment.u235
  mat k m := (k = "feed" → Assayed (1/100) (1/50) m) ∧ (k = "fuel" → Enrichment.Pure [m])

/-- The plan meets the hypotheses of `C158_mines_partial`. -/
example : ∃ l gone ps, rankedLive (fun _ _ => greedy) exOrePlan 9 0 [] = .ok (l, gone, ps) := by
  have assayed : ∀ x : NMat, (x = ⟨[(922350000, 1), (922380000, 99)]⟩ ∨ x = ⟨[(922350000, 1), (922380000, 49)]⟩) →
      Assayed (1/100) (1/50) x := by
    rintro x (rfl | rfl) <;>
    · refine ⟨?_, ?_, ?_⟩
      · intro m hm e he
        rw [List.mem_singleton] at hm
        subst hm
        simp only [List.mem_cons, List.not_mem_nil, or_false] at he
        rcases he with rfl | rfl
        · exact Or.inl rfl
        · exact Or.inr rfl
      · decide +kernel
      · decide +kernel
  have mine : ∀ x : NMat, (x = ⟨[(922350000, 1), (922380000, 99)]⟩ ∨ x = ⟨[(922350000, 1), (922380000, 49)]⟩) →
      Sensible (.source { exFeedMine with recipe := some x }) ∧
        Suits exOreAgreement (.source { exFeedMine with recipe := some x }) := by
    intro x hx
    refine ⟨⟨by norm_num [exFeedMine, exMine], by norm_num [exFeedMine, exMine], by norm_num [exFeedMine, exMine],
      fun r hr => ?_, fun _ => rfl, fun _ => rfl⟩, Assayed (1/100) (1/50), OfEnrichment.assayed_blendable _ _,
      fun r hr => ?_, fun h => (by cases h),
      fun m _ hm => ⟨fun _ => hm, fun (e : "feed" = "fuel") => absurd e (by decide)⟩⟩
    · cases hr
      rcases hx with rfl | rfl <;>
        exact ⟨by decide +kernel, (by decide +kernel : ∀ e ∈ (_ : List (Nat × ℚ)), 0 ≤ e.2)⟩
    · cases hr; exact assayed x hx
  refine C158_mines_partial (A := exOreAgreement) (fun t k hk => ?_) (fun _ _ => greedy_fair) fun c hc _ => ?_
  · simp only [exOrePlan] at hk
    split at hk
    · simp only [exTwoOres, List.mem_cons, List.not_mem_nil, or_false] at hk
      rcases hk with rfl | rfl | rfl
      · exact mine _ (.inl rfl)
      · exact mine _ (.inr rfl)
      · refine ⟨exKinds_sensible (.enrichment exEnrichment) (by simp [exKinds]), ?_⟩
        refine ⟨fun q _ e => absurd e (by decide), fun m _ => ⟨fun e => absurd e (by decide),
          fun e => absurd e (by decide)⟩, ?_, 1/100, 1/50, by norm_num [exEnrichment], assayed _ (.inl rfl),
          fun m _ hm => hm.1 rfl, fun m _ hm _ => hm rfl⟩
        intro m q _ _ _ _
        exact ⟨fun e => absurd e (by decide), fun _ => Enrichment.pure_scale (Enrichment.offer_pure m)⟩
    · cases hk
  · have hf : c.feedCommod = "feed" := by
      simp [Plan.built, exOrePlan, List.range'_succ, exTwoOres, Kind.since] at hc
      rw [hc]; rfl
    rw [hf]
    refine ⟨fun k hk hs => ?_, by decide +kernel⟩
    have : ∀ k ∈ exOrePlan.built 0 9, "feed" ∈ sellsOf k →
        (match k with | .source c => c.recipe.isSome | _ => false) = true := by decide +kernel
    have := this k hk hs
    cases k with
    | source c => exact ⟨c, _, rfl, Option.eq_some_of_isSome this⟩
    | _ => cases this

end Cyc.Sim
