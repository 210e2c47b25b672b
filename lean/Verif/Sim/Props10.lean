import Verif.Sim.ApartLemmas
import Verif.Sim.Props8

/-!
# Groups of facilities that share no commodities: properties C137 and C139
-/

namespace Cyc.Sim

/-! ## Who trades with whom -/

theorem deployAll_keyed {ks : List Kind} {ps : List (Running act)} (h : deployAll ks = .ok ps) :
    ps.map Running.k = ks ∧ ∀ p ∈ ps, Keyed p.k p.s := by
  induction ks generalizing ps with
  | nil =>
    simp only [deployAll, Except.ok.injEq] at h
    subst h; simp
  | cons k ks ih =>
    simp only [deployAll, bind_ok, pure_eq_ok, Except.ok.injEq] at h
    obtain ⟨p, h1, ps', h2, rfl⟩ := h
    obtain ⟨i1, i2⟩ := ih h2
    obtain ⟨e, K⟩ := deploy_keyed h1
    refine ⟨by simp [e, i1], ?_⟩
    intro q hq
    rcases List.mem_cons.1 hq with rfl | hq
    · exact K
    · exact i2 q hq

theorem deployAll_append {ks₁ ks₂ : List Kind} {ps : List (Running act)} :
    deployAll (ks₁ ++ ks₂) = .ok ps ↔ ∃ ps₁ ps₂, deployAll ks₁ = .ok ps₁ ∧ deployAll ks₂ = .ok ps₂ ∧
      ps = ps₁ ++ ps₂ := by
  induction ks₁ generalizing ps with
  | nil => simp [deployAll]
  | cons k ks ih =>
    simp only [List.cons_append, deployAll, bind_ok, pure_eq_ok, Except.ok.injEq, ih]
    constructor
    · rintro ⟨p, h1, _, ⟨p₁, p₂, h2, h3, rfl⟩, rfl⟩
      exact ⟨p :: p₁, p₂, ⟨p, h1, p₁, h2, rfl⟩, h3, rfl⟩
    · rintro ⟨_, p₂, ⟨p, h1, p₁, h2, rfl⟩, h3, rfl⟩
      exact ⟨p, h1, _, ⟨p₁, p₂, h2, h3, rfl⟩, rfl⟩

/-- A deal that answers a request and is covered by an offer is in a commodity that its supplier sells
and its receiver buys. -/
theorem covers_commods {ps : List (Running act)} (K : ∀ p ∈ ps, Keyed p.k p.s) {A : List (List Ask)}
    {rs : List Req} {O : List (List Offer)} (hA : askAll ps = .ok A) (hO : offerAll rs ps = .ok O)
    {d : Deal} (h : Covers A O d) : ∃ p q, ps[d.src]? = some p ∧ ps[d.dst]? = some q ∧
      d.commod ∈ sellsOf p.k ∧ d.commod ∈ buysOf q.k := by
  obtain ⟨os, h1, o, h2, h3⟩ := h.offered
  obtain ⟨as, h4, a, h5, h6⟩ := h.asked
  obtain ⟨p, hp, e1⟩ := offerAll_get hO h1
  obtain ⟨q, hq, e2⟩ := askAll_get hA h4
  exact ⟨p, q, hp, hq, h3 ▸ offers_commods (K p (List.mem_of_getElem? hp)) e1 o h2,
    asks_commods e2 a (List.mem_of_getElem? h5) _ h6⟩

theorem round_commodities {ex : Exchange} (hex : ex.Matching) {ps ps' : List (Running act)}
    {gs : List (Deal × NMat)} (K : ∀ p ∈ ps, Keyed p.k p.s) (h : round ex ps = .ok (gs, ps')) :
    ∀ g ∈ gs, ∃ p q, ps[g.1.src]? = some p ∧ ps[g.1.dst]? = some q ∧ g.1.commod ∈ sellsOf p.k ∧
      g.1.commod ∈ buysOf q.k := by
  simp only [round, bind_ok, pure_eq_ok, Except.ok.injEq, Prod.mk.injEq] at h
  obtain ⟨A, hA, O, hO, ⟨g, hs⟩, hg, qs, -, rfl, -⟩ := h
  intro x hx
  exact covers_commods K hA hO (hex A O _ (sellAll_deals hg x hx).1)

theorem simulate_commodities {ex : Nat → Exchange} (hex : ∀ t, (ex t).Matching) (n : Nat) :
    ∀ {t : Nat} {ps ps' : List (Running act)} {l : List (List (Deal × NMat))},
    (∀ p ∈ ps, Keyed p.k p.s) → simulate ex n t ps = .ok (l, ps') → ∀ gs ∈ l, ∀ g ∈ gs, ∃ k k',
      (ps.map Running.k)[g.1.src]? = some k ∧ (ps.map Running.k)[g.1.dst]? = some k' ∧
      g.1.commod ∈ sellsOf k ∧ g.1.commod ∈ buysOf k' := by
  induction n with
  | zero =>
    intro t ps ps' l K h
    simp only [simulate, Except.ok.injEq, Prod.mk.injEq] at h
    obtain ⟨rfl, -⟩ := h
    simp
  | succ n ih =>
    intro t ps ps' l K h gs hg g hgg
    simp only [simulate, bind_ok, pure_eq_ok, Except.ok.injEq, Prod.mk.injEq] at h
    obtain ⟨⟨gs₁, ps₁⟩, h1, ⟨l', ps₂⟩, h2, rfl, rfl⟩ := h
    obtain ⟨k1, k2⟩ := round_keyed K h1
    rcases List.mem_cons.1 hg with rfl | hg
    · obtain ⟨p, q, e1, e2, e3, e4⟩ := round_commodities (hex t) K h1 g hgg
      exact ⟨p.k, q.k, by rw [List.getElem?_map, e1]; rfl, by rw [List.getElem?_map, e2]; rfl, e3, e4⟩
    · rw [← k1]
      exact ih k2 h2 gs hg g hgg

/-- C137. Whatever is handed over in a simulation is handed over in a commodity that the supplier sells
and the receiver buys according to their input: for any input, and for any exchange in which who offers
a commodity hands it over to who asks for it. -/
theorem C137_commodities {ks : List Kind} {ps : List (Running act)} (h : deployAll ks = .ok ps)
    {ex : Nat → Exchange} (hex : ∀ t, (ex t).Matching) {n : Nat} {l : List (List (Deal × NMat))}
    {ps' : List (Running act)} (hs : simulate ex n 0 ps = .ok (l, ps')) : ∀ gs ∈ l, ∀ g ∈ gs,
    ∃ k k', ks[g.1.src]? = some k ∧ ks[g.1.dst]? = some k' ∧ g.1.commod ∈ sellsOf k ∧
      g.1.commod ∈ buysOf k' := by
  obtain ⟨e, K⟩ := deployAll_keyed h
  have := simulate_commodities hex n K hs
  rwa [e] at this

/-- C137. A facility none of whose commodities anybody buys never gives anything: for any input and any
exchange in which who offers a commodity hands it over to who asks for it. -/
theorem C137_no_customers {ks : List Kind} {ps : List (Running act)} (h : deployAll ks = .ok ps)
    {ex : Nat → Exchange} (hex : ∀ t, (ex t).Matching) {n : Nat} {l : List (List (Deal × NMat))}
    {ps' : List (Running act)} (hs : simulate ex n 0 ps = .ok (l, ps')) {j : Nat} {k : Kind}
    (hj : ks[j]? = some k) (hn : ∀ x ∈ sellsOf k, ∀ k' ∈ ks, x ∉ buysOf k') :
    ∀ gs ∈ l, givenBy gs j = [] := by
  intro gs hg
  unfold givenBy
  rw [List.map_eq_nil_iff, List.filter_eq_nil_iff]
  intro g hgg e
  obtain ⟨k1, k2, h1, h2, h3, h4⟩ := C137_commodities h hex hs gs hg g hgg
  rw [of_decide_eq_true e, hj] at h1
  obtain rfl := Option.some.inj h1
  exact hn _ h3 _ (List.mem_of_getElem? h2) h4

/-- C137. A facility none of whose commodities anybody sells is never given anything: for any input and
any exchange in which who offers a commodity hands it over to who asks for it. -/
theorem C137_no_suppliers {ks : List Kind} {ps : List (Running act)} (h : deployAll ks = .ok ps)
    {ex : Nat → Exchange} (hex : ∀ t, (ex t).Matching) {n : Nat} {l : List (List (Deal × NMat))}
    {ps' : List (Running act)} (hs : simulate ex n 0 ps = .ok (l, ps')) {j : Nat} {k : Kind}
    (hj : ks[j]? = some k) (hn : ∀ x ∈ buysOf k, ∀ k' ∈ ks, x ∉ sellsOf k') :
    ∀ gs ∈ l, givenTo gs j = [] := by
  intro gs hg
  unfold givenTo
  rw [List.map_eq_nil_iff, List.filter_eq_nil_iff]
  intro g hgg e
  obtain ⟨k1, k2, h1, h2, h3, h4⟩ := C137_commodities h hex hs gs hg g hgg
  rw [of_decide_eq_true e, hj] at h2
  obtain rfl := Option.some.inj h2
  exact hn _ h4 _ (List.mem_of_getElem? h1) h3

/-! ## Two simulations side by side -/

theorem splits_beside {ex₁ ex₂ : Exchange} (h₁ : ex₁.Matching) {m : Nat} {A₁ A₂ : List (List Ask)}
    {O₁ O₂ : List (List Offer)} (hA : A₁.length = m) (hO : O₁.length = m) :
    Splits m (beside m ex₁ ex₂ (A₁ ++ A₂) (O₁ ++ O₂)) (ex₁ A₁ O₁) (ex₂ A₂ O₂) := by
  have e : beside m ex₁ ex₂ (A₁ ++ A₂) (O₁ ++ O₂) =
      ex₁ A₁ O₁ ++ (ex₂ A₂ O₂).map (Deal.shift m) := by
    unfold beside
    rw [List.take_left' hA, List.take_left' hO, List.drop_left' hA, List.drop_left' hO]
  rw [e]
  have hsrc : ∀ d ∈ ex₁ A₁ O₁, d.src < m := by
    intro d hd
    obtain ⟨os, k, -⟩ := (h₁ _ _ d hd).offered
    exact hO ▸ (List.getElem?_eq_some_iff.1 k).1
  refine ⟨?_, ?_, ?_⟩
  · intro j hj
    unfold dealsOf
    rw [List.filter_append]
    refine (congrArg _ ?_).trans (List.append_nil _)
    rw [List.filter_eq_nil_iff]
    intro d hd e
    obtain ⟨d', -, rfl⟩ := List.mem_map.1 hd
    have := of_decide_eq_true e
    simp only [Deal.shift] at this
    omega
  · intro j
    unfold dealsOf
    rw [List.filter_append, List.filter_map]
    have : ((ex₁ A₁ O₁).filter fun d => d.src = m + j) = [] := by
      rw [List.filter_eq_nil_iff]
      intro d hd e
      have := hsrc d hd
      have := of_decide_eq_true e
      omega
    rw [this, List.nil_append]
    refine congrArg _ (List.filter_congr fun x _ => ?_)
    simp [Deal.shift]
  · intro d hd
    obtain ⟨as, k, -⟩ := (h₁ _ _ d hd).asked
    exact hA ▸ (List.getElem?_eq_some_iff.1 k).1

theorem simulate_beside {ex₁ ex₂ : Nat → Exchange} (hex : ∀ t, (ex₁ t).Matching) {m : Nat} (n : Nat) :
    ∀ {t : Nat} {ps₁ ps₂ ps' : List (Running act)} {l : List (List (Deal × NMat))}, ps₁.length = m →
    (∀ p ∈ ps₁, Keyed p.k p.s) → (∀ p ∈ ps₂, Keyed p.k p.s) →
    Apart (ps₁.map Running.k) (ps₂.map Running.k) →
    (simulate (fun t => beside m (ex₁ t) (ex₂ t)) n t (ps₁ ++ ps₂) = .ok (l, ps') ↔
      ∃ l₁ q₁ l₂ q₂, simulate ex₁ n t ps₁ = .ok (l₁, q₁) ∧ simulate ex₂ n t ps₂ = .ok (l₂, q₂) ∧
        l = List.zipWith (sideBySide m) l₁ l₂ ∧ ps' = q₁ ++ q₂) := by
  induction n with
  | zero =>
    intro t ps₁ ps₂ ps' l hm K₁ K₂ ap
    simp only [simulate, Except.ok.injEq, Prod.mk.injEq]
    constructor
    · rintro ⟨rfl, rfl⟩
      exact ⟨[], ps₁, [], ps₂, ⟨rfl, rfl⟩, ⟨rfl, rfl⟩, rfl, rfl⟩
    · rintro ⟨_, _, _, _, ⟨rfl, rfl⟩, ⟨rfl, rfl⟩, rfl, rfl⟩
      exact ⟨rfl, rfl⟩
  | succ n ih =>
    intro t ps₁ ps₂ ps' l hm K₁ K₂ ap
    have R := fun {gs ps'} => round_apart (ex := beside m (ex₁ t) (ex₂ t)) (ex₁ := ex₁ t) (ex₂ := ex₂ t)
      K₁ K₂ ap (by
        intro A₁ A₂ O₁ O₂ a1 _ o1 _
        rw [hm]
        exact splits_beside (hex t) ((askAll_length a1).trans hm) ((offerAll_length o1).trans hm))
      (gs := gs) (ps' := ps')
    rw [hm] at R
    simp only [simulate, bind_ok, pure_eq_ok, Except.ok.injEq, Prod.mk.injEq]
    constructor
    · rintro ⟨⟨gs, ps⟩, h1, ⟨l', qs⟩, h2, rfl, rfl⟩
      obtain ⟨g₁, q₁, g₂, q₂, r1, r2, rfl, rfl⟩ := R.1 h1
      obtain ⟨k1, k2⟩ := round_keyed K₁ r1
      obtain ⟨k3, k4⟩ := round_keyed K₂ r2
      have hm' : q₁.length = m := by
        have := congrArg List.length k1
        simp only [List.length_map] at this
        omega
      obtain ⟨l₁, u₁, l₂, u₂, e1, e2, rfl, rfl⟩ := (ih hm' k2 k4 (by rw [k1, k3]; exact ap)).1 h2
      exact ⟨g₁ :: l₁, u₁, g₂ :: l₂, u₂, ⟨(g₁, q₁), r1, (l₁, u₁), e1, rfl, rfl⟩,
        ⟨(g₂, q₂), r2, (l₂, u₂), e2, rfl, rfl⟩, rfl, rfl⟩
    · rintro ⟨_, _, _, _, ⟨⟨g₁, q₁⟩, r1, ⟨l₁, u₁⟩, e1, rfl, rfl⟩,
        ⟨⟨g₂, q₂⟩, r2, ⟨l₂, u₂⟩, e2, rfl, rfl⟩, rfl, rfl⟩
      obtain ⟨k1, k2⟩ := round_keyed K₁ r1
      obtain ⟨k3, k4⟩ := round_keyed K₂ r2
      have hm' : q₁.length = m := by
        have := congrArg List.length k1
        simp only [List.length_map] at this
        omega
      exact ⟨(_, _), R.2 ⟨g₁, q₁, g₂, q₂, r1, r2, rfl, rfl⟩, (_, _),
        (ih hm' k2 k4 (by rw [k1, k3]; exact ap)).2 ⟨l₁, u₁, l₂, u₂, e1, e2, rfl, rfl⟩, rfl, rfl⟩

/-- C139. If no prototype of one group sells what a prototype of the other buys, then both groups in one
simulation, when the exchange deals with each as in a simulation of its own, do exactly what they do in
these: the simulation goes well if and only if both do, the deals are those of both, and so are the
states of the facilities in the end. -/
theorem C139_side_by_side {ks₁ ks₂ : List Kind} (ap : Apart ks₁ ks₂) {ps₁ ps₂ : List (Running act)}
    (h₁ : deployAll ks₁ = .ok ps₁) (h₂ : deployAll ks₂ = .ok ps₂) {ex₁ ex₂ : Nat → Exchange}
    (hex : ∀ t, (ex₁ t).Matching) (n : Nat) (l : List (List (Deal × NMat))) (ps' : List (Running act)) :
    deployAll (ks₁ ++ ks₂) = .ok (ps₁ ++ ps₂) ∧
    (simulate (fun t => beside ks₁.length (ex₁ t) (ex₂ t)) n 0 (ps₁ ++ ps₂) = .ok (l, ps') ↔
      ∃ l₁ q₁ l₂ q₂, simulate ex₁ n 0 ps₁ = .ok (l₁, q₁) ∧ simulate ex₂ n 0 ps₂ = .ok (l₂, q₂) ∧
        l = List.zipWith (sideBySide ks₁.length) l₁ l₂ ∧ ps' = q₁ ++ q₂) := by
  obtain ⟨e1, K₁⟩ := deployAll_keyed h₁
  obtain ⟨e2, K₂⟩ := deployAll_keyed h₂
  refine ⟨deployAll_append.2 ⟨ps₁, ps₂, h₁, h₂, rfl⟩, simulate_beside hex n ?_ K₁ K₂ ?_⟩
  · have := congrArg List.length e1
    simpa using this
  · rw [e1, e2]; exact ap

/-! ## One group within a simulation -/

/-- The deals of `D` among the first `m` facilities. -/
def firstOf (m : Nat) (D : List Deal) : List Deal := D.filter fun d => d.src < m

/-- The deals of `D` among the facilities from number `m` on, numbered from 0. -/
def restOf (m : Nat) (D : List Deal) : List Deal :=
  (D.filter fun d => m ≤ d.src).map fun d => { d with src := d.src - m, dst := d.dst - m }

/-- No deal leads from one group to the other. -/
theorem covers_side {ps₁ ps₂ : List (Running act)} (K₁ : ∀ p ∈ ps₁, Keyed p.k p.s)
    (K₂ : ∀ p ∈ ps₂, Keyed p.k p.s) (ap : Apart (ps₁.map Running.k) (ps₂.map Running.k))
    {A₁ A₂ : List (List Ask)} {O₁ O₂ : List (List Offer)} (a1 : askAll ps₁ = .ok A₁)
    (a2 : askAll ps₂ = .ok A₂) (o1 : offerAll (requestsOf A₁) ps₁ = .ok O₁)
    (o2 : offerAll (requestsOf A₂) ps₂ = .ok O₂) {d : Deal} (h : Covers (A₁ ++ A₂) (O₁ ++ O₂) d) :
    d.src < ps₁.length ↔ d.dst < ps₁.length := by
  have o1' := (offerAll_congr K₁ (alike_left (A₁ := A₁) a2 ap)).trans o1
  have o2' := (offerAll_congr K₂ (alike_right (A₂ := A₂) a1 ap)).trans o2
  obtain ⟨p, q, h1, h2, h3, h4⟩ := covers_commods (ps := ps₁ ++ ps₂) (by
    intro p hp
    rcases List.mem_append.1 hp with hp | hp
    · exact K₁ p hp
    · exact K₂ p hp) (askAll_append.2 ⟨A₁, A₂, a1, a2, rfl⟩) (offerAll_append.2 ⟨O₁, O₂, o1', o2', rfl⟩) h
  constructor
  · intro hs
    by_contra hd
    rw [List.getElem?_append_left hs] at h1
    rw [List.getElem?_append_right (by omega)] at h2
    exact ap.there _ (List.mem_map_of_mem (List.mem_of_getElem? h1)) _
      (List.mem_map_of_mem (List.mem_of_getElem? h2)) _ h3 h4
  · intro hd
    by_contra hs
    rw [List.getElem?_append_right (by omega)] at h1
    rw [List.getElem?_append_left hd] at h2
    exact ap.back _ (List.mem_map_of_mem (List.mem_of_getElem? h2)) _
      (List.mem_map_of_mem (List.mem_of_getElem? h1)) _ h4 h3

theorem splits_of {m : Nat} {D : List Deal} (h : ∀ d ∈ D, d.src < m ↔ d.dst < m) :
    Splits m D (firstOf m D) (restOf m D) := by
  refine ⟨?_, ?_, ?_⟩
  · intro j hj
    unfold dealsOf firstOf
    rw [List.filter_filter]
    refine List.filter_congr fun d _ => ?_
    by_cases e : d.src = j <;> simp [e, hj]
  · intro j
    unfold dealsOf restOf
    rw [List.filter_map, List.filter_filter, List.map_map]
    have e1 : (D.filter fun d => d.src = m + j) =
        D.filter fun d => ((fun d : Deal => decide (d.src = j)) ∘
          fun d : Deal => { d with src := d.src - m, dst := d.dst - m }) d && decide (m ≤ d.src) := by
      refine List.filter_congr fun d _ => ?_
      by_cases e : m ≤ d.src
      · by_cases e' : d.src = m + j
        · simp [e']
        · have : ¬ d.src - m = j := by omega
          simp [e', this]
      · have : ¬ d.src = m + j := by omega
        simp [this, e]
    rw [e1]
    conv_lhs => rw [← List.map_id (D.filter _)]
    refine List.map_congr_left fun d hd => ?_
    have hd' := List.mem_filter.1 hd
    simp only [Function.comp, Bool.and_eq_true, decide_eq_true_eq] at hd'
    have h3 := h d hd'.1
    have h4 := hd'.2.2
    have h5 : m ≤ d.dst := by
      by_contra hlt
      have := h3.2 (by omega)
      omega
    obtain ⟨a, b, c, d1, e, f⟩ := d
    simp only [Deal.shift, id, Function.comp, Deal.mk.injEq, and_true] at *
    omega
  · intro d hd
    have := List.mem_filter.1 hd
    exact (h d this.1).1 (of_decide_eq_true this.2)

theorem covers_first {A₁ A₂ : List (List Ask)} {O₁ O₂ : List (List Offer)} {d : Deal}
    (h : Covers (A₁ ++ A₂) (O₁ ++ O₂) d) (hs : d.src < O₁.length) (hd : d.dst < A₁.length) :
    Covers A₁ O₁ d := by
  refine ⟨?_, ?_⟩
  · have := h.offered
    rwa [List.getElem?_append_left hs] at this
  · have := h.asked
    rwa [List.getElem?_append_left hd] at this

theorem covers_rest {A₁ A₂ : List (List Ask)} {O₁ O₂ : List (List Offer)} {d : Deal}
    (h : Covers (A₁ ++ A₂) (O₁ ++ O₂) d) (hs : O₁.length ≤ d.src) (hd : A₁.length ≤ d.dst) :
    Covers A₂ O₂ { d with src := d.src - O₁.length, dst := d.dst - A₁.length } := by
  refine ⟨?_, ?_⟩
  · have := h.offered
    rwa [List.getElem?_append_right hs] at this
  · have := h.asked
    rwa [List.getElem?_append_right hd] at this

theorem simulate_congr {ex ex' : Nat → Exchange} (n : Nat) : ∀ {t : Nat} (ps : List (Running act)),
    (∀ u, t ≤ u → ex u = ex' u) → simulate ex n t ps = simulate ex' n t ps := by
  induction n with
  | zero => intro t ps _; rfl
  | succ n ih =>
    intro t ps h
    have e : ∀ ps, simulate ex n (t + 1) ps = simulate ex' n (t + 1) ps := fun ps =>
      ih ps fun u hu => h u (by omega)
    simp only [simulate, h t le_rfl, e]

/-- If every time step of two groups is a time step of each under exchanges of the kind `P`, a
simulation of both is a simulation of each under such exchanges. -/
theorem simulate_split {P : Exchange → Prop} {I : List (Running act) → List (Running act) → Prop}
    {ex : Nat → Exchange} {m : Nat}
    (step : ∀ t ps₁ ps₂, I ps₁ ps₂ → ∀ gs ps', round (ex t) (ps₁ ++ ps₂) = .ok (gs, ps') →
      ∃ e₁ e₂ g₁ q₁ g₂ q₂, P e₁ ∧ P e₂ ∧ round e₁ ps₁ = .ok (g₁, q₁) ∧ round e₂ ps₂ = .ok (g₂, q₂) ∧
        gs = sideBySide m g₁ g₂ ∧ ps' = q₁ ++ q₂ ∧ I q₁ q₂) (n : Nat) :
    ∀ {t : Nat} {ps₁ ps₂ ps' : List (Running act)} {l : List (List (Deal × NMat))}, I ps₁ ps₂ →
    (∃ e, P e) → simulate ex n t (ps₁ ++ ps₂) = .ok (l, ps') →
    ∃ ex₁ ex₂ : Nat → Exchange, (∀ u, P (ex₁ u) ∧ P (ex₂ u)) ∧ ∃ l₁ q₁ l₂ q₂,
      simulate ex₁ n t ps₁ = .ok (l₁, q₁) ∧ simulate ex₂ n t ps₂ = .ok (l₂, q₂) ∧ l₁.length = n ∧
      l₂.length = n ∧ l = List.zipWith (sideBySide m) l₁ l₂ ∧ ps' = q₁ ++ q₂ := by
  induction n with
  | zero =>
    rintro t ps₁ ps₂ ps' l _ ⟨e, he⟩ h
    simp only [simulate, Except.ok.injEq, Prod.mk.injEq] at h
    obtain ⟨rfl, rfl⟩ := h
    exact ⟨fun _ => e, fun _ => e, fun _ => ⟨he, he⟩, [], ps₁, [], ps₂, rfl, rfl, rfl, rfl, rfl, rfl⟩
  | succ n ih =>
    intro t ps₁ ps₂ ps' l hI he h
    simp only [simulate, bind_ok, pure_eq_ok, Except.ok.injEq, Prod.mk.injEq] at h
    obtain ⟨⟨gs, ps⟩, h1, ⟨l', qs⟩, h2, rfl, rfl⟩ := h
    obtain ⟨e₁, e₂, g₁, q₁, g₂, q₂, p1, p2, r1, r2, rfl, rfl, hI'⟩ := step t ps₁ ps₂ hI _ _ h1
    obtain ⟨x₁, x₂, hx, l₁, u₁, l₂, u₂, s1, s2, n1, n2, rfl, rfl⟩ := ih hI' he h2
    refine ⟨fun u => if u = t then e₁ else x₁ u, fun u => if u = t then e₂ else x₂ u, ?_, g₁ :: l₁, u₁,
      g₂ :: l₂, u₂, ?_, ?_, by simp [n1], by simp [n2], rfl, rfl⟩
    · intro u
      by_cases hu : u = t
      · simp only [hu, if_true]; exact ⟨p1, p2⟩
      · simp only [if_neg hu]; exact hx u
    · simp only [simulate, if_true, r1, ok_bind]
      rw [simulate_congr (ex' := x₁) n q₁ fun u hu => if_neg (by omega), s1]
      rfl
    · simp only [simulate, if_true, r2, ok_bind]
      rw [simulate_congr (ex' := x₂) n q₂ fun u hu => if_neg (by omega), s2]
      rfl

open Classical in
/-- The exchange that makes the deals `D` of certain requests and offers, and none of others. -/
noncomputable def only (A : List (List Ask)) (O : List (List Offer)) (D : List Deal) : Exchange :=
  fun a o => if a = A ∧ o = O then D else []

theorem only_self (A : List (List Ask)) (O : List (List Offer)) (D : List Deal) : only A O D A O = D := by
  simp [only]

theorem only_matching {A : List (List Ask)} {O : List (List Offer)} {D : List Deal}
    (h : ∀ d ∈ D, Covers A O d) : (only A O D).Matching := by
  intro a o d hd
  unfold only at hd
  split at hd
  · rename_i e
    rw [e.1, e.2]
    exact h d hd
  · cases hd

/-- C139. If no prototype of one group sells what a prototype of the other buys, then whatever happens
to a group in a simulation of both can happen to it in a simulation of its own: for any input, and for
any exchange in which who offers a commodity hands it over to who asks for it. There are such exchanges
for the groups, with which the deals of each step together are the deals of the step, and the states of
the facilities together are the states in the end. -/
theorem C139_apart {ks₁ ks₂ : List Kind} (ap : Apart ks₁ ks₂) {ps : List (Running act)}
    (h : deployAll (ks₁ ++ ks₂) = .ok ps) {ex : Nat → Exchange} (hex : ∀ t, (ex t).Matching) {n : Nat}
    {l : List (List (Deal × NMat))} {ps' : List (Running act)}
    (hs : simulate ex n 0 ps = .ok (l, ps')) :
    ∃ ps₁ ps₂, deployAll ks₁ = .ok ps₁ ∧ deployAll ks₂ = .ok ps₂ ∧ ps = ps₁ ++ ps₂ ∧
    ∃ ex₁ ex₂ : Nat → Exchange, (∀ t, (ex₁ t).Matching ∧ (ex₂ t).Matching) ∧ ∃ l₁ q₁ l₂ q₂,
      simulate ex₁ n 0 ps₁ = .ok (l₁, q₁) ∧ simulate ex₂ n 0 ps₂ = .ok (l₂, q₂) ∧ l₁.length = n ∧
      l₂.length = n ∧ l = List.zipWith (sideBySide ks₁.length) l₁ l₂ ∧ ps' = q₁ ++ q₂ := by
  obtain ⟨ps₁, ps₂, h₁, h₂, rfl⟩ := deployAll_append.1 h
  obtain ⟨e1, K₁⟩ := deployAll_keyed h₁
  obtain ⟨e2, K₂⟩ := deployAll_keyed h₂
  refine ⟨ps₁, ps₂, h₁, h₂, rfl, ?_⟩
  refine simulate_split (P := Exchange.Matching) (I := fun q₁ q₂ => q₁.map Running.k = ks₁ ∧
    q₂.map Running.k = ks₂ ∧ (∀ p ∈ q₁, Keyed p.k p.s) ∧ ∀ p ∈ q₂, Keyed p.k p.s) ?_ n
    ⟨e1, e2, K₁, K₂⟩ ⟨fun _ _ => [], fun _ _ => by simp⟩ hs
  rintro t p₁ p₂ ⟨k1, k2, K₁, K₂⟩ gs ps' hr
  have hlen : p₁.length = ks₁.length := by
    have := congrArg List.length k1
    simpa using this
  have ap' : Apart (p₁.map Running.k) (p₂.map Running.k) := by rw [k1, k2]; exact ap
  have hr' := hr
  simp only [round, bind_ok] at hr'
  obtain ⟨A, hA, O, hO, -⟩ := hr'
  obtain ⟨A₁, A₂, a1, a2, rfl⟩ := askAll_append.1 hA
  obtain ⟨O₁, O₂, o1, o2, rfl⟩ := offerAll_append.1 hO
  rw [offerAll_congr K₁ (alike_left (A₁ := A₁) a2 ap')] at o1
  rw [offerAll_congr K₂ (alike_right (A₂ := A₂) a1 ap')] at o2
  have cov := hex t (A₁ ++ A₂) (O₁ ++ O₂)
  have side : ∀ d ∈ ex t (A₁ ++ A₂) (O₁ ++ O₂), d.src < p₁.length ↔ d.dst < p₁.length := fun d hd =>
    covers_side K₁ K₂ ap' a1 a2 o1 o2 (cov d hd)
  obtain ⟨g₁, q₁, g₂, q₂, r1, r2, rfl, rfl⟩ := (round_apart (ex := ex t)
    (ex₁ := only A₁ O₁ (firstOf p₁.length (ex t (A₁ ++ A₂) (O₁ ++ O₂))))
    (ex₂ := only A₂ O₂ (restOf p₁.length (ex t (A₁ ++ A₂) (O₁ ++ O₂)))) K₁ K₂ ap' (by
      intro A₁' A₂' O₁' O₂' a1' a2' o1' o2'
      obtain rfl := Except.ok.inj (a1.symm.trans a1')
      obtain rfl := Except.ok.inj (a2.symm.trans a2')
      obtain rfl := Except.ok.inj (o1.symm.trans o1')
      obtain rfl := Except.ok.inj (o2.symm.trans o2')
      rw [only_self, only_self]
      exact splits_of side)).1 hr
  have la := askAll_length a1
  have lo := offerAll_length o1
  refine ⟨_, _, g₁, q₁, g₂, q₂, only_matching ?_, only_matching ?_, r1, r2, by rw [hlen], rfl, ?_⟩
  · intro d hd
    have := List.mem_filter.1 hd
    have hlt := of_decide_eq_true this.2
    exact covers_first (cov d this.1) (by omega) (by have := (side d this.1).1 hlt; omega)
  · intro d hd
    obtain ⟨d', hd', rfl⟩ := List.mem_map.1 hd
    have := List.mem_filter.1 hd'
    have hle := of_decide_eq_true this.2
    have hdst : p₁.length ≤ d'.dst := by
      by_contra hlt
      have := (side d' this.1).2 (by omega)
      omega
    have := covers_rest (cov d' this.1) (by omega) (by omega)
    rwa [la, lo] at this
  · obtain ⟨i1, i2⟩ := round_keyed K₁ r1
    obtain ⟨i3, i4⟩ := round_keyed K₂ r2
    exact ⟨i1.trans k1, i3.trans k2, i2, i4⟩

/-! ## Influence -/

theorem simulate_length {ex : Nat → Exchange} (n : Nat) : ∀ {t : Nat} {ps ps' : List (Running act)}
    {l : List (List (Deal × NMat))}, simulate ex n t ps = .ok (l, ps') → l.length = n := by
  induction n with
  | zero =>
    intro t ps ps' l h
    simp only [simulate, Except.ok.injEq, Prod.mk.injEq] at h
    obtain ⟨rfl, -⟩ := h
    rfl
  | succ n ih =>
    intro t ps ps' l h
    simp only [simulate, bind_ok, pure_eq_ok, Except.ok.injEq, Prod.mk.injEq] at h
    obtain ⟨⟨gs, ps₁⟩, -, ⟨l', qs⟩, h2, rfl, rfl⟩ := h
    simp [ih h2]

theorem round_src {ex : Exchange} {ps ps' : List (Running act)} {gs : List (Deal × NMat)}
    (h : round ex ps = .ok (gs, ps')) : ∀ g ∈ gs, g.1.src < ps.length := by
  simp only [round, bind_ok, pure_eq_ok, Except.ok.injEq, Prod.mk.injEq] at h
  obtain ⟨A, -, O, -, ⟨g, hs⟩, hg, qs, -, rfl, -⟩ := h
  intro x hx
  have := (sellAll_deals hg x hx).2.2
  omega

theorem simulate_src {ex : Nat → Exchange} (n : Nat) : ∀ {t : Nat} {ps ps' : List (Running act)}
    {l : List (List (Deal × NMat))}, (∀ p ∈ ps, Keyed p.k p.s) → simulate ex n t ps = .ok (l, ps') →
    ps'.length = ps.length ∧ ∀ gs ∈ l, ∀ g ∈ gs, g.1.src < ps.length := by
  induction n with
  | zero =>
    intro t ps ps' l _ h
    simp only [simulate, Except.ok.injEq, Prod.mk.injEq] at h
    obtain ⟨rfl, rfl⟩ := h
    simp
  | succ n ih =>
    intro t ps ps' l K h
    simp only [simulate, bind_ok, pure_eq_ok, Except.ok.injEq, Prod.mk.injEq] at h
    obtain ⟨⟨gs, ps₁⟩, h1, ⟨l', qs⟩, h2, rfl, rfl⟩ := h
    obtain ⟨k1, k2⟩ := round_keyed K h1
    have e := congrArg List.length k1
    simp only [List.length_map] at e
    obtain ⟨i1, i2⟩ := ih k2 h2
    refine ⟨i1.trans e, ?_⟩
    intro gs' hg
    rcases List.mem_cons.1 hg with rfl | hg
    · exact round_src h1
    · intro g hgg
      rw [← e]
      exact i2 gs' hg g hgg

theorem first_sideBySide {m : Nat} : ∀ {l₁ l₂ : List (List (Deal × NMat))}, l₁.length = l₂.length →
    (∀ gs ∈ l₁, ∀ g ∈ gs, g.1.src < m) →
    (List.zipWith (sideBySide m) l₁ l₂).map (fun gs => gs.filter fun g => g.1.src < m) = l₁ := by
  intro l₁
  induction l₁ with
  | nil => intro l₂ _ _; simp
  | cons a l ih =>
    intro l₂ hlen h
    cases l₂ with
    | nil => simp at hlen
    | cons b l₂ =>
      rw [List.zipWith_cons_cons, List.map_cons, ih (by simpa using hlen) fun gs hg => h gs (by simp [hg])]
      congr 1
      unfold sideBySide
      rw [List.filter_append]
      have e1 : (a.filter fun g => decide (g.1.src < m)) = a :=
        List.filter_eq_self.2 fun g hg => decide_eq_true (h a (by simp) g hg)
      have e2 : ((b.map fun g => ((g.1.shift m, g.2) : Deal × NMat)).filter
          fun g => decide (g.1.src < m)) = [] := by
        rw [List.filter_eq_nil_iff]
        intro x hx e
        obtain ⟨y, -, rfl⟩ := List.mem_map.1 hx
        have := of_decide_eq_true e
        simp only [Deal.shift] at this
        omega
      rw [e1, e2, List.append_nil]

/-- C139. Facilities that have nothing to do with each other do not influence each other: whichever
facilities a group shares the simulation with, as long as the exchange deals with the group in the same
way and nothing fails, its deals in every step and the states of its facilities are the same. -/
theorem C139_no_influence {ks ks₂ ks₃ : List Kind} (ap₂ : Apart ks ks₂) (ap₃ : Apart ks ks₃)
    {ps₂ ps₃ : List (Running act)} (h₂ : deployAll (ks ++ ks₂) = .ok ps₂)
    (h₃ : deployAll (ks ++ ks₃) = .ok ps₃) {ex ex₂ ex₃ : Nat → Exchange} (hex : ∀ t, (ex t).Matching)
    {n : Nat} {l₂ l₃ : List (List (Deal × NMat))} {q₂ q₃ : List (Running act)}
    (s₂ : simulate (fun t => beside ks.length (ex t) (ex₂ t)) n 0 ps₂ = .ok (l₂, q₂))
    (s₃ : simulate (fun t => beside ks.length (ex t) (ex₃ t)) n 0 ps₃ = .ok (l₃, q₃)) :
    l₂.map (fun gs => gs.filter fun g => g.1.src < ks.length) =
      l₃.map (fun gs => gs.filter fun g => g.1.src < ks.length) ∧
    q₂.take ks.length = q₃.take ks.length := by
  obtain ⟨a, b, d1, d2, rfl⟩ := deployAll_append.1 h₂
  obtain ⟨a', c, d1', d3, rfl⟩ := deployAll_append.1 h₃
  obtain rfl := Except.ok.inj (d1.symm.trans d1')
  obtain ⟨x₁, u₁, x₂, u₂, e1, e2, rfl, rfl⟩ := (C139_side_by_side ap₂ d1 d2 hex n _ _).2.1 s₂
  obtain ⟨y₁, v₁, y₂, v₂, f1, f2, rfl, rfl⟩ := (C139_side_by_side ap₃ d1 d3 hex n _ _).2.1 s₃
  obtain ⟨rfl, rfl⟩ := Prod.mk.inj (Except.ok.inj (e1.symm.trans f1))
  obtain ⟨k, K⟩ := deployAll_keyed d1
  obtain ⟨i1, i2⟩ := simulate_src n K e1
  have hlen : a.length = ks.length := by
    have := congrArg List.length k
    simpa using this
  rw [hlen] at i1 i2
  rw [first_sideBySide ((simulate_length n e1).trans (simulate_length n e2).symm) i2,
    first_sideBySide ((simulate_length n f1).trans (simulate_length n f2).symm) i2,
    List.take_left' i1, List.take_left' i1]
  exact ⟨rfl, rfl⟩

/-! ## Exchanges that respect requests and offers -/

theorem filter_firstOf {m : Nat} {D : List Deal} {p : Deal → Bool}
    (h : ∀ d ∈ D, p d = true → d.src < m) : (firstOf m D).filter p = D.filter p := by
  unfold firstOf
  rw [List.filter_filter]
  refine List.filter_congr fun d hd => ?_
  cases hp : p d with
  | false => rfl
  | true => simp [h d hd hp]

theorem filter_restOf {m : Nat} {D : List Deal} {p q : Deal → Bool}
    (h : ∀ d ∈ D, (p { d with src := d.src - m, dst := d.dst - m } = true ∧ m ≤ d.src) ↔ q d = true) :
    (restOf m D).filter p =
      (D.filter q).map fun d => { d with src := d.src - m, dst := d.dst - m } := by
  unfold restOf
  rw [List.filter_map, List.filter_filter]
  refine congrArg _ (List.filter_congr fun d hd => ?_)
  rw [Bool.eq_iff_iff, Bool.and_eq_true, decide_eq_true_eq]
  exact h d hd

theorem fair_first {m : Nat} {A₁ A₂ : List (List Ask)} {O₁ O₂ : List (List Offer)} {D : List Deal}
    (F : Fair (A₁ ++ A₂) (O₁ ++ O₂) D) (hA : A₁.length = m) (hO : O₁.length = m)
    (side : ∀ d ∈ D, d.src < m ↔ d.dst < m) : Fair A₁ O₁ (firstOf m D) := by
  have mem : ∀ d ∈ firstOf m D, d ∈ D ∧ d.src < m ∧ d.dst < m := by
    intro d hd
    have := List.mem_filter.1 hd
    exact ⟨this.1, of_decide_eq_true this.2, (side d this.1).1 (of_decide_eq_true this.2)⟩
  have lt : ∀ {α : Type} {l : List α} {k : Nat} {x : α}, l.length = m → l[k]? = some x → k < m :=
    fun hl hk => hl ▸ (List.getElem?_eq_some_iff.1 hk).1
  refine ⟨fun d hd => F.pos d (mem d hd).1, ?_, ?_, ?_, ?_, ?_⟩
  · intro d hd
    obtain ⟨h1, h2, -⟩ := mem d hd
    have := F.offered d h1
    rwa [List.getElem?_append_left (by omega)] at this
  · intro d hd
    obtain ⟨h1, -, h2⟩ := mem d hd
    have := F.asked d h1
    rwa [List.getElem?_append_left (by omega)] at this
  · intro k os hk o ho
    have hlt := lt hO hk
    have := F.caps k os (by rw [List.getElem?_append_left (by omega)]; exact hk) o ho
    unfold dealt at this ⊢
    rwa [filter_firstOf]
    intro d _ e
    have := of_decide_eq_true e
    omega
  · intro k os hk o ho L hL
    have hlt := lt hO hk
    have := F.limits k os (by rw [List.getElem?_append_left (by omega)]; exact hk) o ho L hL
    rwa [filter_firstOf]
    intro d _ e
    have := of_decide_eq_true e
    omega
  · intro j as hj p a ha
    have hlt := lt hA hj
    have := F.amounts j as (by rw [List.getElem?_append_left (by omega)]; exact hj) p a ha
    unfold dealt at this ⊢
    rwa [filter_firstOf]
    intro d hd e
    have := of_decide_eq_true e
    exact (side d hd).2 (by omega)

theorem fair_rest {m : Nat} {A₁ A₂ : List (List Ask)} {O₁ O₂ : List (List Offer)} {D : List Deal}
    (F : Fair (A₁ ++ A₂) (O₁ ++ O₂) D) (hA : A₁.length = m) (hO : O₁.length = m)
    (side : ∀ d ∈ D, d.src < m ↔ d.dst < m) : Fair A₂ O₂ (restOf m D) := by
  have mem : ∀ d ∈ D, m ≤ d.src → m ≤ d.dst := by
    intro d hd h
    by_contra hlt
    have := (side d hd).2 (by omega)
    omega
  have at' : ∀ {α : Type} {l l' : List α} {k : Nat} {x : α}, l.length = m → l'[k]? = some x →
      (l ++ l')[m + k]? = some x := by
    intro α l l' k x hl hk
    rw [List.getElem?_append_right (by omega), show m + k - l.length = k by omega]
    exact hk
  refine ⟨?_, ?_, ?_, ?_, ?_, ?_⟩
  · intro d hd
    obtain ⟨d', hd', rfl⟩ := List.mem_map.1 hd
    exact F.pos d' (List.mem_filter.1 hd').1
  · intro d hd
    obtain ⟨d', hd', rfl⟩ := List.mem_map.1 hd
    have h1 := List.mem_filter.1 hd'
    have h2 := of_decide_eq_true h1.2
    have := F.offered d' h1.1
    rw [List.getElem?_append_right (by omega), hO] at this
    exact this
  · intro d hd
    obtain ⟨d', hd', rfl⟩ := List.mem_map.1 hd
    have h1 := List.mem_filter.1 hd'
    have h2 := mem d' h1.1 (of_decide_eq_true h1.2)
    have := F.asked d' h1.1
    rw [List.getElem?_append_right (by omega), hA] at this
    exact this
  · intro k os hk o ho
    have := F.caps (m + k) os (at' hO hk) o ho
    unfold dealt at this ⊢
    rw [filter_restOf (q := fun d => decide (d.src = m + k ∧ d.commod = o.commod)), List.map_map]
    · exact this
    · intro d _
      simp only [decide_eq_true_eq]
      constructor
      · rintro ⟨⟨e1, e2⟩, e3⟩; exact ⟨by omega, e2⟩
      · rintro ⟨e1, e2⟩; exact ⟨⟨by omega, e2⟩, by omega⟩
  · intro k os hk o ho L hL
    have := F.limits (m + k) os (at' hO hk) o ho L hL
    rw [filter_restOf (q := fun d => decide (d.src = m + k ∧ d.commod = o.commod)), List.map_map]
    · exact this
    · intro d _
      simp only [decide_eq_true_eq]
      constructor
      · rintro ⟨⟨e1, e2⟩, e3⟩; exact ⟨by omega, e2⟩
      · rintro ⟨e1, e2⟩; exact ⟨⟨by omega, e2⟩, by omega⟩
  · intro j as hj p a ha
    have := F.amounts (m + j) as (at' hA hj) p a ha
    unfold dealt at this ⊢
    rw [filter_restOf (q := fun d => decide (d.dst = m + j ∧ d.port = p)), List.map_map]
    · exact this
    · intro d hd
      have h1 := side d hd
      simp only [decide_eq_true_eq]
      constructor
      · rintro ⟨⟨e1, e2⟩, e3⟩
        have := mem d hd e3
        exact ⟨by omega, e2⟩
      · rintro ⟨e1, e2⟩
        have : m ≤ d.src := by
          by_contra hlt
          have := h1.1 (by omega)
          omega
        exact ⟨⟨by omega, e2⟩, this⟩

theorem only_fair {A : List (List Ask)} {O : List (List Offer)} {D : List Deal} (h : Fair A O D) :
    (only A O D).Fair := by
  intro a o h1 h2
  unfold only
  split
  · rename_i e
    rw [e.1, e.2]
    exact h
  · exact fair_nil h1 h2

theorem Fair.covers {A : List (List Ask)} {O : List (List Offer)} {D : List Deal} (h : Fair A O D) :
    ∀ d ∈ D, Covers A O d := by
  intro d hd
  obtain ⟨os, h1, o, h2, h3, -⟩ := h.offered d hd
  obtain ⟨as, h4, a, h5, h6, -⟩ := h.asked d hd
  exact ⟨⟨os, h1, o, h2, h3⟩, as, h4, a, h5, h6⟩

theorem round_fair {A₁ A₂ : Agreement} {ex : Exchange} (hex : ex.Fair) {p₁ p₂ : List (Running act)}
    (K₁ : ∀ p ∈ p₁, Keyed p.k p.s) (K₂ : ∀ p ∈ p₂, Keyed p.k p.s)
    (ap : Apart (p₁.map Running.k) (p₂.map Running.k)) (G₁ : ∀ p ∈ p₁, Good A₁ qty holdings p)
    (G₂ : ∀ p ∈ p₂, Good A₂ qty holdings p) : ∃ e₁ e₂ g₁ q₁ g₂ q₂, e₁.Fair ∧ e₂.Fair ∧
      round e₁ p₁ = .ok (g₁, q₁) ∧ round e₂ p₂ = .ok (g₂, q₂) ∧
      round ex (p₁ ++ p₂) = .ok (sideBySide p₁.length g₁ g₂, q₁ ++ q₂) ∧
      (∀ p ∈ q₁, Good A₁ qty holdings p) ∧ ∀ p ∈ q₂, Good A₂ qty holdings p := by
  obtain ⟨B₁, a1, -, b1, n1⟩ := askAll_ok G₁
  obtain ⟨B₂, a2, -, b2, n2⟩ := askAll_ok G₂
  obtain ⟨O₁, o1, -, m1⟩ := offerAll_ok b1 G₁
  obtain ⟨O₂, o2, -, m2⟩ := offerAll_ok b2 G₂
  have F : Fair (B₁ ++ B₂) (O₁ ++ O₂) (ex (B₁ ++ B₂) (O₁ ++ O₂)) := by
    refine hex _ _ ?_ ?_
    · intro as has
      rcases List.mem_append.1 has with h | h
      · exact n1 as h
      · exact n2 as h
    · intro os hos
      rcases List.mem_append.1 hos with h | h
      · exact m1 os h
      · exact m2 os h
  have side : ∀ d ∈ ex (B₁ ++ B₂) (O₁ ++ O₂), d.src < p₁.length ↔ d.dst < p₁.length := fun d hd =>
    covers_side K₁ K₂ ap a1 a2 o1 o2 (F.covers d hd)
  have F1 := only_fair (fair_first F (askAll_length a1) (offerAll_length o1) side)
  have F2 := only_fair (fair_rest F (askAll_length a1) (offerAll_length o1) side)
  obtain ⟨-, -, g₁, q₁, -, -, r1, -, i1, -⟩ := round_ok F1 G₁
  obtain ⟨-, -, g₂, q₂, -, -, r2, -, i2, -⟩ := round_ok F2 G₂
  refine ⟨_, _, g₁, q₁, g₂, q₂, F1, F2, r1, r2, (round_apart K₁ K₂ ap ?_).2
    ⟨g₁, q₁, g₂, q₂, r1, r2, rfl, rfl⟩, i1, i2⟩
  intro A₁' A₂' O₁' O₂' a1' a2' o1' o2'
  obtain rfl := Except.ok.inj (a1.symm.trans a1')
  obtain rfl := Except.ok.inj (a2.symm.trans a2')
  obtain rfl := Except.ok.inj (o1.symm.trans o1')
  obtain rfl := Except.ok.inj (o2.symm.trans o2')
  rw [only_self, only_self]
  exact splits_of side

/-- C139. If no prototype of one group sells what a prototype of the other buys, the input of each group
is sensible, and each group agrees within itself on what is traded, then in a simulation of both nothing
fails, and whatever happens to a group can happen to it in a simulation of its own, under exchanges that
respect requests and offers. So all that is said of closed simulations can be said of each group, also
where the two groups disagree.

Partial: as C125. -/
theorem C139_fair_partial {A₁ A₂ : Agreement} {ks₁ ks₂ : List Kind} (ap : Apart ks₁ ks₂)
    (hk₁ : ∀ k ∈ ks₁, Sensible k ∧ Suits A₁ k) (hk₂ : ∀ k ∈ ks₂, Sensible k ∧ Suits A₂ k) :
    ∃ ps₁ ps₂, deployAll ks₁ = .ok ps₁ ∧ deployAll ks₂ = .ok ps₂ ∧
    deployAll (ks₁ ++ ks₂) = .ok (ps₁ ++ ps₂) ∧ ∀ ex : Nat → Exchange, (∀ t, (ex t).Fair) → ∀ n,
    ∃ ex₁ ex₂ : Nat → Exchange, (∀ t, (ex₁ t).Fair ∧ (ex₂ t).Fair) ∧ ∃ l₁ q₁ l₂ q₂,
      simulate ex₁ n 0 ps₁ = .ok (l₁, q₁) ∧ simulate ex₂ n 0 ps₂ = .ok (l₂, q₂) ∧ l₁.length = n ∧
      l₂.length = n ∧ simulate ex n 0 (ps₁ ++ ps₂) =
        .ok (List.zipWith (sideBySide ks₁.length) l₁ l₂, q₁ ++ q₂) := by
  obtain ⟨ps₁, h₁, G₁, e1⟩ := deployAll_ok (A := A₁) measure_qty (fun k _ => keeps_qty k) hk₁
  obtain ⟨ps₂, h₂, G₂, e2⟩ := deployAll_ok (A := A₂) measure_qty (fun k _ => keeps_qty k) hk₂
  have K₁ := (deployAll_keyed h₁).2
  have K₂ := (deployAll_keyed h₂).2
  refine ⟨ps₁, ps₂, h₁, h₂, deployAll_append.2 ⟨ps₁, ps₂, h₁, h₂, rfl⟩, ?_⟩
  intro ex hex n
  have step : ∀ t p₁ p₂, (p₁.map Running.k = ks₁ ∧ p₂.map Running.k = ks₂ ∧
      ((∀ p ∈ p₁, Keyed p.k p.s) ∧ ∀ p ∈ p₂, Keyed p.k p.s) ∧ (∀ p ∈ p₁, Good A₁ qty holdings p) ∧
      ∀ p ∈ p₂, Good A₂ qty holdings p) → ∃ e₁ e₂ g₁ q₁ g₂ q₂, e₁.Fair ∧ e₂.Fair ∧
      round e₁ p₁ = .ok (g₁, q₁) ∧ round e₂ p₂ = .ok (g₂, q₂) ∧
      round (ex t) (p₁ ++ p₂) = .ok (sideBySide ks₁.length g₁ g₂, q₁ ++ q₂) ∧
      (q₁.map Running.k = ks₁ ∧ q₂.map Running.k = ks₂ ∧
      ((∀ p ∈ q₁, Keyed p.k p.s) ∧ ∀ p ∈ q₂, Keyed p.k p.s) ∧ (∀ p ∈ q₁, Good A₁ qty holdings p) ∧
      ∀ p ∈ q₂, Good A₂ qty holdings p) := by
    rintro t p₁ p₂ ⟨k1, k2, ⟨K₁, K₂⟩, G₁, G₂⟩
    have hlen : p₁.length = ks₁.length := by
      have := congrArg List.length k1
      simpa using this
    obtain ⟨x₁, x₂, g₁, q₁, g₂, q₂, f1, f2, r1, r2, r3, i1, i2⟩ := round_fair (hex t) K₁ K₂
      (by rw [k1, k2]; exact ap) G₁ G₂
    rw [hlen] at r3
    obtain ⟨j1, j2⟩ := round_keyed K₁ r1
    obtain ⟨j3, j4⟩ := round_keyed K₂ r2
    exact ⟨x₁, x₂, g₁, q₁, g₂, q₂, f1, f2, r1, r2, r3, j1.trans k1, j3.trans k2, ⟨j2, j4⟩, i1, i2⟩
  have runs : ∀ n t p₁ p₂, (p₁.map Running.k = ks₁ ∧ p₂.map Running.k = ks₂ ∧
      ((∀ p ∈ p₁, Keyed p.k p.s) ∧ ∀ p ∈ p₂, Keyed p.k p.s) ∧ (∀ p ∈ p₁, Good A₁ qty holdings p) ∧
      ∀ p ∈ p₂, Good A₂ qty holdings p) → ∃ l ps', simulate ex n t (p₁ ++ p₂) = .ok (l, ps') := by
    intro n
    induction n with
    | zero => intro t p₁ p₂ _; exact ⟨[], _, rfl⟩
    | succ n ih =>
      intro t p₁ p₂ hI
      obtain ⟨x₁, x₂, g₁, q₁, g₂, q₂, -, -, -, -, r3, hI'⟩ := step t p₁ p₂ hI
      obtain ⟨l, ps', e⟩ := ih (t + 1) q₁ q₂ hI'
      exact ⟨_, ps', by simp only [simulate, r3, ok_bind, e]; rfl⟩
  obtain ⟨l, ps', hs⟩ := runs n 0 ps₁ ps₂ ⟨e1, e2, ⟨K₁, K₂⟩, G₁, G₂⟩
  obtain ⟨ex₁, ex₂, hx, l₁, q₁, l₂, q₂, s1, s2, n1, n2, rfl, rfl⟩ := simulate_split (P := Exchange.Fair)
    (I := fun p₁ p₂ => p₁.map Running.k = ks₁ ∧ p₂.map Running.k = ks₂ ∧
      ((∀ p ∈ p₁, Keyed p.k p.s) ∧ ∀ p ∈ p₂, Keyed p.k p.s) ∧ (∀ p ∈ p₁, Good A₁ qty holdings p) ∧
      ∀ p ∈ p₂, Good A₂ qty holdings p) (by
      intro t p₁ p₂ hI gs ps' hr
      obtain ⟨x₁, x₂, g₁, q₁, g₂, q₂, f1, f2, r1, r2, r3, hI'⟩ := step t p₁ p₂ hI
      obtain ⟨rfl, rfl⟩ := Prod.mk.inj (Except.ok.inj (r3.symm.trans hr))
      exact ⟨x₁, x₂, g₁, q₁, g₂, q₂, f1, f2, r1, r2, rfl, rfl, hI'⟩) n
    ⟨e1, e2, ⟨K₁, K₂⟩, G₁, G₂⟩ ⟨greedy, greedy_fair⟩ hs
  exact ⟨ex₁, ex₂, hx, l₁, q₁, l₂, q₂, s1, s2, n1, n2, hs⟩

/-! ## An example -/

theorem greedy_matching : greedy.Matching := by
  intro asks offers
  refine fold_keeps (P := fun ds => ∀ d ∈ ds, Covers asks offers d) ?_ _ (by simp)
  rintro ds ⟨os, k⟩ hd
  refine fold_keeps (P := fun ds => ∀ d ∈ ds, Covers asks offers d) ?_ _ hd
  intro ds o hd
  refine fold_keeps (P := fun ds => ∀ d ∈ ds, Covers asks offers d) ?_ _ hd
  rintro ds ⟨as, j⟩ hd
  refine fold_keeps (P := fun ds => ∀ d ∈ ds, Covers asks offers d) ?_ _ hd
  rintro ds ⟨a, p⟩ hd
  refine fold_keeps (P := fun ds => ∀ d ∈ ds, Covers asks offers d) ?_ _ hd
  intro ds x hd
  unfold addDeal
  dsimp only
  split
  · rename_i h; exact (fair_of_fairB h.2).covers
  · exact hd

/-- A mine and a conversion. -/
def exFront : List Kind := [.source exMine, .conversion exConversion]

/-- A reactor with its source and its sink. -/
def exBack : List Kind := [.source exFuel, .reactor exReactor (fun _ => 1) exDec, .sink exPool]

theorem exFront_apart : Apart exFront exBack := by
  constructor <;> intro k hk k' hk' <;>
    simp only [exFront, exBack, List.mem_cons, List.not_mem_nil, or_false] at hk hk' <;>
    rcases hk with rfl | rfl <;> rcases hk' with rfl | rfl | rfl <;> decide

theorem exFront_sensible : ∀ k ∈ exFront, Sensible k ∧ Suits exOpen k := by
  intro k hk
  simp only [exFront, List.mem_cons, List.not_mem_nil, or_false] at hk
  rcases hk with rfl | rfl <;> exact exApart_sensible _ (by simp [exApart])

theorem exBack_sensible : ∀ k ∈ exBack, Sensible k ∧ Suits exOpen k := by
  intro k hk
  simp only [exBack, List.mem_cons, List.not_mem_nil, or_false] at hk
  rcases hk with rfl | rfl | rfl <;> exact exApart_sensible _ (by simp [exApart])

/-- All goes well in both groups, beside each other and within one exchange. -/
example : ∃ ps₁ ps₂ l l' ps' ps'', deployAll exFront = .ok ps₁ ∧ deployAll exBack = .ok ps₂ ∧
    simulate (fun _ => beside 2 greedy greedy) 5 0 (ps₁ ++ ps₂) = .ok (l, ps') ∧
    simulate (fun _ => greedy) 5 0 (ps₁ ++ ps₂) = .ok (l', ps'') := by
  obtain ⟨ps₁, h1, h2⟩ := C125_runs_partial exFront_sensible
  obtain ⟨ps₂, h3, h4⟩ := C125_runs_partial exBack_sensible
  obtain ⟨l₁, q₁, e1, -⟩ := h2 (fun _ => greedy) (fun _ => greedy_fair) 5
  obtain ⟨l₂, q₂, e2, -⟩ := h4 (fun _ => greedy) (fun _ => greedy_fair) 5
  obtain ⟨p₁, p₂, d1, d2, -, run⟩ := C139_fair_partial exFront_apart exFront_sensible exBack_sensible
  obtain ⟨-, -, -, l₃, q₃, l₄, q₄, -, -, -, -, e3⟩ := run (fun _ => greedy) (fun _ => greedy_fair) 5
  obtain rfl := Except.ok.inj (h1.symm.trans d1)
  obtain rfl := Except.ok.inj (h3.symm.trans d2)
  exact ⟨ps₁, ps₂, _, _, _, _, h1, h3, (C139_side_by_side exFront_apart h1 h3
    (fun _ => greedy_matching) 5 _ _).2.2 ⟨l₁, q₁, l₂, q₂, e1, e2, rfl, rfl⟩, e3⟩

/-- Who gives whom how much in the third step: side by side, in the first group alone and in the second
alone. -/
example : ((deployAll (exFront ++ exBack) >>= simulate (fun _ => beside 2 greedy greedy) 3 0).toOption.map
      fun r => (r.1.drop 2).map fun gs => gs.map fun g => (g.1.src, g.1.dst, qty g.2)) =
      some [[(0, 1, 140), (2, 3, 12), (3, 4, 12)]] ∧
    ((deployAll exFront >>= simulate (fun _ => greedy) 3 0).toOption.map
      fun r => (r.1.drop 2).map fun gs => gs.map fun g => (g.1.src, g.1.dst, qty g.2)) =
      some [[(0, 1, 140)]] ∧
    ((deployAll exBack >>= simulate (fun _ => greedy) 3 0).toOption.map
      fun r => (r.1.drop 2).map fun gs => gs.map fun g => (g.1.src, g.1.dst, qty g.2)) =
      some [[(0, 1, 12), (1, 2, 12)]] := by
  refine ⟨?_, ?_, ?_⟩ <;> decide +kernel

end Cyc.Sim
