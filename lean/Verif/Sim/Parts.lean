import Verif.Sim.Round

/-!
# A time step, facility by facility
-/

namespace Cyc.Sim

variable {K : Type} {act : K → Actor} {μ : NMat → ℚ} {has : ∀ k, (act k).S → List NMat} {A : Agreement}

/-- What the facility `j` gives. -/
def givenBy (gs : List (Deal × NMat)) (j : Nat) : List NMat :=
  (gs.filter fun g => g.1.src = j).map Prod.snd

/-- The part of one facility in a time step with the requests `rs`: its offers, sales and what it hands
over, its own requests and deliveries. -/
structure Part (F : Actor) (rs : List Req) (s : F.S) (os : List Offer) (ts : List Sale) (l : List NMat)
    (as : List Ask) (ds : List Delivery) (m : F.M) (s' : F.S) : Prop where
  offers : F.offers rs s = .ok os
  sales : WithinOffers rs os ts
  sell : F.sell rs ts s = .ok (l, m)
  asks : F.asks s = .ok as
  deliveries : WithinAsks as ds
  settle : F.settle ds m = .ok s'

theorem sellAll_parts {rs : List Req} {ds : List Deal} {ps : List (Running act)} {k : Nat}
    {gs : List (Deal × NMat)} {hs : List (Halfway act)} (h : sellAll rs ds k ps = .ok (gs, hs)) :
    hs.length = ps.length ∧ (∀ g ∈ gs, k ≤ g.1.src) ∧ ∀ j p, ps[j]? = some p → ∃ l m,
      (act p.k).sell rs ((dealsOf ds (k + j)).map Deal.sale) p.s = .ok (l, m) ∧
      hs[j]? = some ⟨p.k, m⟩ ∧ (l.length = (dealsOf ds (k + j)).length → givenBy gs (k + j) = l) := by
  induction ps generalizing k gs hs with
  | nil =>
    simp only [sellAll, Except.ok.injEq, Prod.mk.injEq] at h
    obtain ⟨rfl, rfl⟩ := h
    exact ⟨rfl, by simp, by simp⟩
  | cons p ps ih =>
    simp only [sellAll, bind_ok, pure_eq_ok, Except.ok.injEq, Prod.mk.injEq] at h
    obtain ⟨⟨l, m⟩, h1, ⟨gs', hs'⟩, h2, rfl, rfl⟩ := h
    obtain ⟨e1, e2, e3⟩ := ih h2
    have hsrc : ∀ g ∈ (dealsOf ds k).zip l, g.1.src = k := by
      intro g hg
      have := (List.mem_filter.1 (List.of_mem_zip hg).1).2
      simpa using this
    refine ⟨by simp [e1], ?_, ?_⟩
    · intro g hg
      rcases List.mem_append.1 hg with hg | hg
      · exact (hsrc g hg).ge
      · exact le_trans (Nat.le_succ k) (e2 g hg)
    · intro j q hq
      cases j with
      | zero =>
        simp only [List.getElem?_cons_zero, Option.some.injEq] at hq
        subst hq
        refine ⟨l, m, h1, rfl, fun hl => ?_⟩
        unfold givenBy
        rw [List.filter_append, List.filter_eq_self.2 (by
          intro g hg; simpa using hsrc g hg), List.filter_eq_nil_iff.2 (by
          intro g hg
          have := e2 g hg
          simp only [decide_eq_true_eq]
          omega), List.append_nil, List.map_snd_zip]
        exact le_of_eq hl
      | succ j =>
        obtain ⟨l', m', f1, f2, f3⟩ := e3 j q (by simpa using hq)
        have ek : k + 1 + j = k + (j + 1) := by omega
        rw [ek] at f1 f3
        refine ⟨l', m', f1, by simpa using f2, fun hl => ?_⟩
        unfold givenBy
        rw [List.filter_append, List.filter_eq_nil_iff.2 (by
          intro g hg
          have := hsrc g hg
          simp only [decide_eq_true_eq]
          omega), List.nil_append]
        exact f3 hl

theorem settleAll_parts {gs : List (Deal × NMat)} {hs : List (Halfway act)} {k : Nat}
    {ps : List (Running act)} (h : settleAll gs k hs = .ok ps) :
    ps.length = hs.length ∧ ∀ j x, hs[j]? = some x → ∃ s,
      (act x.k).settle ((gs.filter fun g => g.1.dst = k + j).map delivery) x.m = .ok s ∧
      ps[j]? = some ⟨x.k, s⟩ := by
  induction hs generalizing k ps with
  | nil =>
    simp only [settleAll, Except.ok.injEq] at h
    subst h
    exact ⟨rfl, by simp⟩
  | cons x hs ih =>
    simp only [settleAll, bind_ok, pure_eq_ok, Except.ok.injEq] at h
    obtain ⟨s, h1, ps', h2, rfl⟩ := h
    obtain ⟨e1, e2⟩ := ih h2
    refine ⟨by simp [e1], ?_⟩
    intro j y hy
    cases j with
    | zero =>
      simp only [List.getElem?_cons_zero, Option.some.injEq] at hy
      subst hy
      exact ⟨s, h1, rfl⟩
    | succ j =>
      obtain ⟨s', f1, f2⟩ := e2 j y (by simpa using hy)
      have ek : k + 1 + j = k + (j + 1) := by omega
      rw [ek] at f1
      exact ⟨s', f1, by simpa using f2⟩

theorem forall₂_get {α β : Type} {R : α → β → Prop} {l : List α} {l' : List β} (h : List.Forall₂ R l l')
    {j : Nat} {a : α} (hj : l[j]? = some a) : ∃ b, l'[j]? = some b ∧ R a b := by
  induction h generalizing j with
  | nil => simp at hj
  | cons h1 _ ih =>
    cases j with
    | zero => simp only [List.getElem?_cons_zero, Option.some.injEq] at hj; subst hj; exact ⟨_, rfl, h1⟩
    | succ j => simpa using ih (by simpa using hj)

/-- A time step is made of the parts of the facilities. -/
theorem round_parts' {ex : Exchange} (hex : ex.Fair) {ps ps' : List (Running act)}
    {gs : List (Deal × NMat)} (h : ∀ p ∈ ps, Good A μ has p) (hr : round ex ps = .ok (gs, ps')) :
    ∃ asks offers hs, askAll ps = .ok asks ∧ offerAll (requestsOf asks) ps = .ok offers ∧
      sellAll (requestsOf asks) (ex asks offers) 0 ps = .ok (gs, hs) ∧ settleAll gs 0 hs = .ok ps' ∧
      (∀ r ∈ requestsOf asks, A.Allows r) ∧ ∀ (j : Nat) p, ps[j]? = some p → ∃ os l as m s',
        Part (act p.k) (requestsOf asks) p.s os ((dealsOf (ex asks offers) j).map Deal.sale) l as
          ((gs.filter fun g => g.1.dst = j).map delivery) m s' ∧ ps'[j]? = some ⟨p.k, s'⟩ ∧
        l = givenBy gs j ∧ ∀ g ∈ gs, A.mat g.1.commod g.2 := by
  obtain ⟨asks, a1, a2, a3, a4⟩ := askAll_ok h
  obtain ⟨offers, o1, o2, o3⟩ := offerAll_ok a3 h
  have F := hex asks offers a4 o3
  obtain ⟨asks', offers', gs', ps'', b1, b2, b3, ⟨b4, b5⟩, -⟩ := round_ok hex h
  rw [a1, Except.ok.injEq] at b1
  subst b1
  rw [o1, Except.ok.injEq] at b2
  subst b2
  rw [hr, Except.ok.injEq, Prod.mk.injEq] at b3
  obtain ⟨rfl, rfl⟩ := b3
  simp only [round, a1, o1, ok_bind, bind_ok, pure_eq_ok, Except.ok.injEq, Prod.mk.injEq] at hr
  obtain ⟨⟨gs', hs⟩, s1, qs, s2, rfl, rfl⟩ := hr
  obtain ⟨c1, -, c2⟩ := sellAll_parts s1
  obtain ⟨d1, d2⟩ := settleAll_parts s2
  refine ⟨asks, offers, hs, a1, o1, s1, s2, a3, ?_⟩
  intro j p hj
  obtain ⟨l, m, e1, e2, e3⟩ := c2 j p hj
  obtain ⟨s', e4, e5⟩ := d2 j _ e2
  obtain ⟨os, f1, f2⟩ := forall₂_get o2 hj
  obtain ⟨as, g1, g2⟩ := forall₂_get a2 hj
  rw [Nat.zero_add] at e1 e3 e4
  have W := F.within f1
  obtain ⟨I, C, hI⟩ := h p (List.mem_of_getElem? hj)
  obtain ⟨l', m', k1, k2⟩ := C.sell hI a3 f2 W
  rw [e1, Except.ok.injEq, Prod.mk.injEq] at k1
  obtain ⟨rfl, rfl⟩ := k1
  refine ⟨os, l, as, m, s', ⟨f2, W, e1, g2, F.delivered b5 b4 g1, e4⟩, e5, ?_, fun g hg => (b5 g hg).2⟩
  refine (e3 ?_).symm
  rw [← k2.length_eq, List.length_map]

theorem round_parts {ex : Exchange} (hex : ex.Fair) {ps ps' : List (Running act)}
    {gs : List (Deal × NMat)} (h : ∀ p ∈ ps, Good A μ has p) (hr : round ex ps = .ok (gs, ps')) :
    ∃ rs, (∀ r ∈ rs, A.Allows r) ∧ ps'.length = ps.length ∧ ∀ j p, ps[j]? = some p →
      ∃ os ts l as ds m s', Part (act p.k) rs p.s os ts l as ds m s' ∧ ps'[j]? = some ⟨p.k, s'⟩ ∧
        l = givenBy gs j ∧ ds.map Delivery.mat = givenTo gs j ∧ ∀ d ∈ ds, A.mat d.commod d.mat := by
  obtain ⟨asks, offers, hs, -, -, s1, s2, a3, P⟩ := round_parts' hex h hr
  refine ⟨_, a3, (settleAll_parts s2).1.trans (sellAll_parts s1).1, fun j p hj => ?_⟩
  obtain ⟨os, l, as, m, s', h1, h2, h3, h4⟩ := P j p hj
  refine ⟨os, _, l, as, _, m, s', h1, h2, h3, ?_, ?_⟩
  · unfold givenTo
    rw [List.map_map]; rfl
  · intro d hd
    obtain ⟨g, h1, rfl⟩ := List.mem_map.1 hd
    exact h4 g (List.mem_filter.1 h1).1

end Cyc.Sim
