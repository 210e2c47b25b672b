import Verif.Sim.Ranking
import Verif.Sim.Props23

/-!
# Lemmas: simulations with ranking
-/

namespace Cyc.Enrichment

theorem sellLoop_plain (c : Cfg) (b : Bool) (ts : List Trade) (s : State) :
    sellLoop { c with orderPrefs := b } ts s = sellLoop c ts s := by
  induction ts generalizing s with
  | nil => rfl
  | cons t ts ih =>
    simp only [sellLoop, ih]
    rfl

theorem sellAll_plain (c : Cfg) (b : Bool) (ts : List Trade) (s : State) :
    sellAll { c with orderPrefs := b } ts s = sellAll c ts s := by
  cases ts with
  | nil => rfl
  | cons t ts =>
    simp only [sellAll, sell, sellLoop_plain]

theorem accept_plain (c : Cfg) (b : Bool) (l : List NMat) (s : State) :
    accept { c with orderPrefs := b } l s = accept c l s := by
  induction l generalizing s with
  | nil => rfl
  | cons m l ih =>
    simp only [accept, ih]
    rfl

end Cyc.Enrichment

namespace Cyc.Sim

/-! ## The same facilities without ranking -/

/-- A facility that has handed over, as one of the prototype without `order_prefs`. -/
def Halfway.plain : Halfway act → Halfway act
  | ⟨.enrichment c, s⟩ => ⟨.enrichment { c with orderPrefs := false }, s⟩
  | p => p

theorem asks_plain (p : Running act) : (act p.plain.k).asks p.plain.s = (act p.k).asks p.s := by
  obtain ⟨k, s⟩ := p
  cases k <;> rfl

theorem offers_plain (rs : List Req) (p : Running act) :
    (act p.plain.k).offers rs p.plain.s = (act p.k).offers rs p.s := by
  obtain ⟨k, s⟩ := p
  cases k <;> rfl

theorem sell_plain (rs : List Req) (ts : List Sale) (p : Running act) :
    R.then (fun x => (x.1, (⟨p.plain.k, x.2⟩ : Halfway act))) ((act p.plain.k).sell rs ts p.plain.s) =
      R.then (fun x => (x.1, Halfway.plain ⟨p.k, x.2⟩)) ((act p.k).sell rs ts p.s) := by
  obtain ⟨k, s⟩ := p
  cases k with
  | enrichment c =>
    have h : (enrichment { c with orderPrefs := false }).sell rs ts s = (enrichment c).sell rs ts s := by
      simp only [enrichment]
      have h2 : enrichmentTrade { c with orderPrefs := false } = enrichmentTrade c := rfl
      rw [h2]
      have h3 : Enrichment.bids { c with orderPrefs := false } (targets rs)
          (Enrichment.tick { c with orderPrefs := false } s) =
          Enrichment.bids c (targets rs) (Enrichment.tick c s) := rfl
      rw [h3]
      congr 1; funext x
      rw [Enrichment.sellAll_plain]
    exact congrArg (R.then fun x => (x.1, (⟨.enrichment { c with orderPrefs := false }, x.2⟩ : Halfway act))) h
  | _ => rfl

theorem settle_plain (ds : List Delivery) (h : Halfway act) :
    R.then (fun x => (⟨h.plain.k, x⟩ : Running act)) ((act h.plain.k).settle ds h.plain.m) =
      R.then (fun x => Running.plain ⟨h.k, x⟩) ((act h.k).settle ds h.m) := by
  obtain ⟨k, s⟩ := h
  cases k with
  | enrichment c =>
    have h : (enrichment { c with orderPrefs := false }).settle ds s = (enrichment c).settle ds s :=
      Enrichment.accept_plain c false _ s
    exact congrArg (R.then fun x => (⟨.enrichment { c with orderPrefs := false }, x⟩ : Running act)) h
  | _ => rfl

theorem mayLeave_plain (p : Running act) : mayLeave p.plain.k p.plain.s = mayLeave p.k p.s := by
  obtain ⟨k, s⟩ := p
  cases k <;> rfl

theorem plain_k (p : Running act) : p.plain.k = p.k.plain := by
  obtain ⟨k, s⟩ := p
  cases k <;> rfl

theorem deploy_plain (k : Kind) : deploy k.plain = R.then Running.plain (deploy k) := by
  cases k with
  | conversion c => rfl
  | mixer c => rfl
  | _ => simp only [deploy, Kind.plain, then_bind]; rfl

theorem deployAll_plain (ks : List Kind) :
    deployAll (ks.map Kind.plain) = R.then (List.map Running.plain) (deployAll ks) := by
  induction ks with
  | nil => rfl
  | cons k ks ih =>
    simp only [List.map_cons, deployAll, deploy_plain, ih, bind_then, then_bind]
    rfl

theorem askAll_plain (ps : List (Running act)) : askAll (ps.map Running.plain) = askAll ps := by
  induction ps with
  | nil => rfl
  | cons p ps ih => simp only [List.map_cons, askAll, asks_plain, ih]

theorem offerAll_plain (rs : List Req) (ps : List (Running act)) :
    offerAll rs (ps.map Running.plain) = offerAll rs ps := by
  induction ps with
  | nil => rfl
  | cons p ps ih => simp only [List.map_cons, offerAll, offers_plain, ih]

theorem sellAll_plain (rs : List Req) (ds : List Deal) (k : Nat) (ps : List (Running act)) :
    sellAll rs ds k (ps.map Running.plain) =
      R.then (fun z => (z.1, z.2.map Halfway.plain)) (sellAll rs ds k ps) := by
  induction ps generalizing k with
  | nil => rfl
  | cons p ps ih =>
    rw [List.map_cons, sellAll_cons, sell_plain, sellAll_cons]
    simp only [bind_then, then_bind, ih]
    rfl

theorem settleAll_plain (gs : List (Deal × NMat)) (k : Nat) (hs : List (Halfway act)) :
    settleAll gs k (hs.map Halfway.plain) = R.then (List.map Running.plain) (settleAll gs k hs) := by
  induction hs generalizing k with
  | nil => rfl
  | cons h hs ih =>
    rw [List.map_cons, settleAll_cons, settle_plain, settleAll_cons]
    simp only [bind_then, then_bind, ih]
    rfl

theorem round_plain (ex : Exchange) (ps : List (Running act)) :
    round ex (ps.map Running.plain) = R.then (fun x => (x.1, x.2.map Running.plain)) (round ex ps) := by
  simp only [round, askAll_plain, offerAll_plain, sellAll_plain, settleAll_plain, bind_then, then_bind]
  rfl

theorem depart_plain (w : Nat → Bool) (i : Nat) (ps : List (Running act)) :
    depart w i (ps.map Running.plain) =
      ((depart w i ps).1.map Running.plain, (depart w i ps).2.map Running.plain) := by
  induction ps generalizing i with
  | nil => rfl
  | cons p ps ih =>
    simp only [List.map_cons, depart, mayLeave_plain, ih]
    split <;> rfl

theorem since_plain (t : Nat) (k : Kind) : k.plain.since t = (k.since t).plain := by cases k <;> rfl

theorem builds_plain (plan : Plan) (t : Nat) : ((plan.map Kind.plain).builds t).map (Kind.since t) =
    ((plan.builds t).map (Kind.since t)).map Kind.plain := by
  simp only [Plan.map, List.map_map]
  exact List.map_congr_left fun k _ => since_plain t k

/-! ## The ranking -/

theorem adjustPrefs_cases (c : Enrichment.Cfg) (bids : List (Nat × NMat)) :
    ((c.orderPrefs = true ∧ ¬ (bids.map fun b => Enrichment.content b.2).Nodup) ∧
      Enrichment.adjustPrefs c bids = .error .ub) ∨
    (¬ (c.orderPrefs = true ∧ ¬ (bids.map fun b => Enrichment.content b.2).Nodup) ∧
      ∃ x, Enrichment.adjustPrefs c bids = .ok x) := by
  unfold Enrichment.adjustPrefs Enrichment.sortVector
  by_cases h : c.orderPrefs = false
  · simp [h]
  · have h' : c.orderPrefs = true := by simpa using h
    by_cases h2 : (bids.map fun b => Enrichment.content b.2).Nodup
    · right
      refine ⟨fun x => x.2 h2, ?_⟩
      simp only [h, if_pos h2]
      exact ⟨_, rfl⟩
    · left
      refine ⟨⟨h', h2⟩, ?_⟩
      simp only [h, if_neg h2]
      rfl

/-- The bids on a request have different contents. -/
def Distinct (ps : List (Running act)) (r : Req) : Prop :=
  ((allBids ps r).map fun b => Enrichment.content b.2).Nodup

theorem allBids_ids (ps : List (Running act)) (r : Req) :
    (allBids ps r).map Prod.fst = List.range (ps.flatMap fun p => bidsOn r p.k p.s).length := by
  unfold allBids
  rw [List.map_map]
  show List.map (fun x : NMat × Nat => x.2) _ = _
  rw [List.zipIdx_map_snd, List.range_eq_range']

theorem allBids_nodup (ps : List (Running act)) (r : Req) : ((allBids ps r).map Prod.fst).Nodup := by
  rw [allBids_ids]; exact List.nodup_range

theorem distinct_iff (ps : List (Running act)) (r : Req) : ¬ Distinct ps r ↔
    ∃ i j : Nat, i ≠ j ∧ ∃ m m', (i, m) ∈ allBids ps r ∧ (j, m') ∈ allBids ps r ∧
      m.mass Enrichment.u235 / qty m = m'.mass Enrichment.u235 / qty m' := by
  have h1 : (allBids ps r).Nodup := List.Nodup.of_map _ (allBids_nodup ps r)
  unfold Distinct
  rw [List.nodup_map_iff_inj_on h1]
  constructor
  · intro h
    by_contra hne
    refine h fun a ha b hb hab => ?_
    by_contra hab'
    have hij : a.1 ≠ b.1 := fun e => hab' (List.inj_on_of_nodup_map (allBids_nodup ps r) ha hb e)
    exact hne ⟨a.1, b.1, hij, a.2, b.2, ha, hb, hab⟩
  · rintro ⟨i, j, hij, m, m', hm, hm', he⟩ h
    exact hij (congrArg Prod.fst (h _ hm _ hm' he))

/-- Two bids on one of the requests are alike. -/
def TiedIn (all : List (Running act)) (k : Kind) (rs : List Req) : Prop :=
  ∃ c, k = .enrichment c ∧ c.orderPrefs = true ∧ ∃ r ∈ rs, ¬ Distinct all r

theorem mapM_cases {α β : Type} {f : α → R β} {P : α → Prop} {e : Fault}
    (h : ∀ a, (P a ∧ f a = .error e) ∨ (¬ P a ∧ ∃ b, f a = .ok b)) (l : List α) :
    ((∃ a ∈ l, P a) ∧ l.mapM f = .error e) ∨ ((∀ a ∈ l, ¬ P a) ∧ ∃ bs, l.mapM f = .ok bs) := by
  induction l with
  | nil => right; exact ⟨by simp, [], rfl⟩
  | cons a l ih =>
    rw [List.mapM_cons]
    rcases h a with ⟨h1, h2⟩ | ⟨h1, b, h2⟩
    · left; rw [h2]; exact ⟨⟨a, by simp, h1⟩, rfl⟩
    · rcases ih with ⟨⟨x, hx, hp⟩, h3⟩ | ⟨hp, bs, h3⟩
      · left; rw [h2, h3]; exact ⟨⟨x, by simp [hx], hp⟩, rfl⟩
      · right; rw [h2, h3]
        refine ⟨fun x hx => ?_, _, rfl⟩
        rcases List.mem_cons.1 hx with rfl | hx
        · exact h1
        · exact hp x hx

theorem rankOf_cases (all : List (Running act)) (k : Kind) (rs : List Req) :
    (TiedIn all k rs ∧ rankOf all k rs = .error .ub) ∨ (¬ TiedIn all k rs ∧ ∃ x, rankOf all k rs = .ok x) := by
  cases k with
  | enrichment c =>
    rcases mapM_cases (fun r => adjustPrefs_cases c (allBids all r)) rs with ⟨⟨r, h1, h2, h3⟩, h4⟩ | ⟨h1, h2⟩
    · exact .inl ⟨⟨c, rfl, h2, r, h1, h3⟩, h4⟩
    · refine .inr ⟨?_, h2⟩
      rintro ⟨c', hc, h3, r, h4, h5⟩
      cases hc
      exact h1 r h4 ⟨h3, h5⟩
  | _ => right; exact ⟨(by rintro ⟨c, hc, -⟩; cases hc), [], rfl⟩

theorem rankAll_cases (all : List (Running act)) {ps : List (Running act)} {asks : List (List Ask)}
    (h : askAll ps = .ok asks) :
    ((∃ p ∈ ps, ∃ as, (act p.k).asks p.s = .ok as ∧ TiedIn all p.k (requestsOf [as])) ∧
      rankAll all ps asks = .error .ub) ∨
    ((∀ p ∈ ps, ∀ as, (act p.k).asks p.s = .ok as → ¬ TiedIn all p.k (requestsOf [as])) ∧
      ∃ x, rankAll all ps asks = .ok x) := by
  induction ps generalizing asks with
  | nil => cases h; right; exact ⟨by simp, [], rfl⟩
  | cons p ps ih =>
    simp only [askAll, bind_ok, pure_eq_ok, Except.ok.injEq] at h
    obtain ⟨as, h1, asks', h2, rfl⟩ := h
    rcases rankOf_cases all p.k (requestsOf [as]) with ⟨h3, h4⟩ | ⟨h3, x, h4⟩
    · left
      refine ⟨⟨p, by simp, as, h1, h3⟩, ?_⟩
      simp [rankAll, h4]
    · rcases ih h2 with ⟨⟨q, hq, as', h5, h6⟩, h7⟩ | ⟨h5, y, h6⟩
      · left
        refine ⟨⟨q, by simp [hq], as', h5, h6⟩, ?_⟩
        simp [rankAll, h4, h7]
      · right
        refine ⟨fun q hq as' ha => ?_, x :: y, by simp [rankAll, h4, h6]⟩
        rcases List.mem_cons.1 hq with rfl | hq
        · rw [h1] at ha; cases ha; exact h3
        · exact h5 q hq as' ha

theorem tied_iff (ps : List (Running act)) :
    Tied ps ↔ ∃ p ∈ ps, ∃ as, (act p.k).asks p.s = .ok as ∧ TiedIn ps p.k (requestsOf [as]) := by
  constructor
  · rintro ⟨p, hp, c, hc, ho, as, h1, a, ha, x, hx, h2⟩
    refine ⟨p, hp, as, h1, c, hc, ho, ⟨x.1, x.2⟩, ?_, (distinct_iff _ _).2 h2⟩
    simp only [requestsOf, List.flatten_cons, List.flatten_nil, List.append_nil, List.mem_flatMap, List.mem_map]
    exact ⟨a, ha, x, hx, rfl⟩
  · rintro ⟨p, hp, as, h1, c, hc, ho, r, hr, h2⟩
    simp only [requestsOf, List.flatten_cons, List.flatten_nil, List.append_nil, List.mem_flatMap, List.mem_map] at hr
    obtain ⟨a, ha, x, hx, rfl⟩ := hr
    exact ⟨p, hp, c, hc, ho, as, h1, a, ha, x, hx, (distinct_iff _ _).1 h2⟩

/-! ## A time step -/

theorem rankedRound_ok {ex : Ranked} {ps : List (Running act)} {x : List (Deal × NMat) × List (Running act)}
    (h : rankedRound ex ps = .ok x) : ¬ Tied ps ∧ ∃ ranks, round (ex ranks) ps = .ok x := by
  simp only [rankedRound, bind_ok, pure_eq_ok, Except.ok.injEq] at h
  obtain ⟨asks, h1, offers, h2, ranks, h3, y, h4, ps', h5, rfl⟩ := h
  refine ⟨?_, ranks, ?_⟩
  · rcases rankAll_cases ps h1 with ⟨-, h6⟩ | ⟨h6, -⟩
    · rw [h6] at h3; cases h3
    · rw [tied_iff]
      rintro ⟨p, hp, as, ha, ht⟩
      exact h6 p hp as ha ht
  · simp only [round, bind_ok, pure_eq_ok, Except.ok.injEq]
    exact ⟨asks, h1, offers, h2, y, h4, ps', h5, rfl⟩

theorem rankedRound_cases {ex : Ranked} {ps : List (Running act)} {asks : List (List Ask)}
    {offers : List (List Offer)} (h1 : askAll ps = .ok asks) (h2 : offerAll (requestsOf asks) ps = .ok offers) :
    (Tied ps ∧ rankedRound ex ps = .error .ub) ∨
      (¬ Tied ps ∧ ∃ ranks, rankedRound ex ps = round (ex ranks) ps) := by
  rcases rankAll_cases ps h1 with ⟨h3, h4⟩ | ⟨h3, ranks, h4⟩
  · left
    exact ⟨(tied_iff _).2 h3, by simp [rankedRound, h1, h2, h4]⟩
  · right
    refine ⟨fun h => ?_, ranks, by simp [rankedRound, round, h1, h2, h4]⟩
    obtain ⟨p, hp, as, ha, ht⟩ := (tied_iff _).1 h
    exact h3 p hp as ha ht

/-! ## Simulations -/

theorem live_agree {ex ex' : Nat → Exchange} (plan : Plan) (n t : Nat) (ps : List (Running act))
    (h : ∀ u, t ≤ u → ex u = ex' u) : live ex plan n t ps = live ex' plan n t ps := by
  induction n generalizing t ps with
  | zero => rfl
  | succ n ih =>
    simp only [live]
    rw [h t (le_refl t)]
    congr 1; funext new
    congr 1; funext x
    rw [ih (t + 1) _ fun u hu => h u (by omega)]

theorem rankedLive_same {ex : Nat → Ranked} {plan : Plan} (n : Nat) :
    ∀ {t : Nat} {ps : List (Running act)} {l : List (List (Deal × NMat))} {gone ps' : List (Running act)},
    rankedLive ex plan n t ps = .ok (l, gone, ps') → ∃ ranks : Nat → List (List Ranks),
      live (fun u => ex u (ranks u)) plan n t ps = .ok (l, gone, ps') := by
  induction n with
  | zero => intro t ps l gone ps' h; exact ⟨fun _ => [], h⟩
  | succ n ih =>
    intro t ps l gone ps' h
    simp only [rankedLive, bind_ok, pure_eq_ok, Except.ok.injEq, Prod.mk.injEq] at h
    obtain ⟨new, h1, ⟨gs, ps₁⟩, h2, ⟨l', gone', ps₂⟩, h3, rfl, rfl, rfl⟩ := h
    obtain ⟨-, r, h4⟩ := rankedRound_ok h2
    obtain ⟨ranks, h5⟩ := ih h3
    refine ⟨fun u => if u = t then r else ranks u, ?_⟩
    simp only [live, bind_ok, pure_eq_ok, Except.ok.injEq, Prod.mk.injEq]
    refine ⟨new, h1, ⟨gs, ps₁⟩, by simpa using h4, ⟨l', gone', ps₂⟩, ?_, rfl, rfl, rfl⟩
    rw [← h5]
    refine live_agree plan n (t + 1) _ fun u hu => ?_
    rw [if_neg (by omega)]

theorem live_plain (ex : Nat → Exchange) (plan : Plan) (n t : Nat) (ps : List (Running act)) :
    live ex (plan.map Kind.plain) n t (ps.map Running.plain) =
      R.then (fun x => (x.1, x.2.1.map Running.plain, x.2.2.map Running.plain)) (live ex plan n t ps) := by
  induction n generalizing t ps with
  | zero => rfl
  | succ n ih =>
    simp only [live, builds_plain, deployAll_plain, bind_then, then_bind]
    congr 1; funext new
    rw [← List.map_append, round_plain, bind_then]
    congr 1; funext x
    simp only [depart_plain]
    rw [show (plan.map Kind.plain).leaves t = plan.leaves t from rfl, ih (t + 1), bind_then]
    congr 1; funext y
    show Except.ok _ = Except.ok _
    simp only [List.map_append]

end Cyc.Sim
