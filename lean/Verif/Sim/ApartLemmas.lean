import Verif.Sim.Apart
import Verif.Sim.Commods

/-!
# One time step of two groups of facilities
-/

namespace Cyc.Sim

variable {ps₁ ps₂ : List (Running act)}

/-! ## Lists of facilities -/

theorem askAll_append {A : List (List Ask)} : askAll (ps₁ ++ ps₂) = .ok A ↔
    ∃ A₁ A₂, askAll ps₁ = .ok A₁ ∧ askAll ps₂ = .ok A₂ ∧ A = A₁ ++ A₂ := by
  induction ps₁ generalizing A with
  | nil => simp [askAll]
  | cons p ps ih =>
    simp only [List.cons_append, askAll, bind_ok, pure_eq_ok, Except.ok.injEq, ih]
    constructor
    · rintro ⟨a, h1, _, ⟨A₁, A₂, h2, h3, rfl⟩, rfl⟩
      exact ⟨a :: A₁, A₂, ⟨a, h1, A₁, h2, rfl⟩, h3, rfl⟩
    · rintro ⟨_, A₂, ⟨a, h1, A₁, h2, rfl⟩, h3, rfl⟩
      exact ⟨a, h1, _, ⟨A₁, A₂, h2, h3, rfl⟩, rfl⟩

theorem offerAll_append {rs : List Req} {O : List (List Offer)} : offerAll rs (ps₁ ++ ps₂) = .ok O ↔
    ∃ O₁ O₂, offerAll rs ps₁ = .ok O₁ ∧ offerAll rs ps₂ = .ok O₂ ∧ O = O₁ ++ O₂ := by
  induction ps₁ generalizing O with
  | nil => simp [offerAll]
  | cons p ps ih =>
    simp only [List.cons_append, offerAll, bind_ok, pure_eq_ok, Except.ok.injEq, ih]
    constructor
    · rintro ⟨a, h1, _, ⟨O₁, O₂, h2, h3, rfl⟩, rfl⟩
      exact ⟨a :: O₁, O₂, ⟨a, h1, O₁, h2, rfl⟩, h3, rfl⟩
    · rintro ⟨_, O₂, ⟨a, h1, O₁, h2, rfl⟩, h3, rfl⟩
      exact ⟨a, h1, _, ⟨O₁, O₂, h2, h3, rfl⟩, rfl⟩

theorem sellAll_append {rs : List Req} {D : List Deal} {k : Nat} {gs : List (Deal × NMat)}
    {hs : List (Halfway act)} : sellAll rs D k (ps₁ ++ ps₂) = .ok (gs, hs) ↔
    ∃ g₁ h₁ g₂ h₂, sellAll rs D k ps₁ = .ok (g₁, h₁) ∧
      sellAll rs D (k + ps₁.length) ps₂ = .ok (g₂, h₂) ∧ gs = g₁ ++ g₂ ∧ hs = h₁ ++ h₂ := by
  induction ps₁ generalizing k gs hs with
  | nil =>
    simp only [List.nil_append, sellAll, List.length_nil, Nat.add_zero, Except.ok.injEq]
    constructor
    · exact fun h => ⟨[], [], gs, hs, rfl, h, rfl, rfl⟩
    · rintro ⟨g₁, h₁, g₂, h₂, e, h, rfl, rfl⟩
      obtain ⟨rfl, rfl⟩ := Prod.mk.inj e
      exact h
  | cons p ps ih =>
    have e : k + (p :: ps).length = k + 1 + ps.length := by simp; omega
    simp only [List.cons_append, sellAll, bind_ok, pure_eq_ok, Except.ok.injEq, Prod.mk.injEq, e]
    constructor
    · rintro ⟨⟨l, m⟩, h1, ⟨g, h⟩, h2, rfl, rfl⟩
      obtain ⟨g₁, h₁, g₂, h₂, e1, e2, rfl, rfl⟩ := ih.1 h2
      exact ⟨_, _, g₂, h₂, ⟨(l, m), h1, (g₁, h₁), e1, rfl, rfl⟩, e2, by simp, rfl⟩
    · rintro ⟨_, _, g₂, h₂, ⟨⟨l, m⟩, h1, ⟨g₁, h₁⟩, e1, rfl, rfl⟩, e2, rfl, rfl⟩
      exact ⟨(l, m), h1, (g₁ ++ g₂, h₁ ++ h₂), ih.2 ⟨g₁, h₁, g₂, h₂, e1, e2, rfl, rfl⟩, by simp, rfl⟩

theorem settleAll_append {gs : List (Deal × NMat)} {h₁ h₂ : List (Halfway act)} {k : Nat}
    {ps : List (Running act)} : settleAll gs k (h₁ ++ h₂) = .ok ps ↔
    ∃ q₁ q₂, settleAll gs k h₁ = .ok q₁ ∧ settleAll gs (k + h₁.length) h₂ = .ok q₂ ∧ ps = q₁ ++ q₂ := by
  induction h₁ generalizing k ps with
  | nil => simp [settleAll]
  | cons h hs ih =>
    have e : k + (h :: hs).length = k + 1 + hs.length := by simp; omega
    simp only [List.cons_append, settleAll, bind_ok, pure_eq_ok, Except.ok.injEq, ih, e]
    constructor
    · rintro ⟨s, h1, _, ⟨q₁, q₂, h2, h3, rfl⟩, rfl⟩
      exact ⟨_, q₂, ⟨s, h1, q₁, h2, rfl⟩, h3, rfl⟩
    · rintro ⟨_, q₂, ⟨s, h1, q₁, h2, rfl⟩, h3, rfl⟩
      exact ⟨s, h1, _, ⟨q₁, q₂, h2, h3, rfl⟩, rfl⟩

theorem sellAll_length {rs : List Req} {D : List Deal} {k : Nat} {ps : List (Running act)}
    {gs : List (Deal × NMat)} {hs : List (Halfway act)} (h : sellAll rs D k ps = .ok (gs, hs)) :
    hs.length = ps.length := by
  induction ps generalizing k gs hs with
  | nil =>
    simp only [sellAll, Except.ok.injEq, Prod.mk.injEq] at h
    obtain ⟨-, rfl⟩ := h
    rfl
  | cons p ps ih =>
    simp only [sellAll, bind_ok, pure_eq_ok, Except.ok.injEq, Prod.mk.injEq] at h
    obtain ⟨⟨l, m⟩, -, ⟨g, hh⟩, h2, -, rfl⟩ := h
    simp [ih h2]

theorem sellAll_deals {rs : List Req} {D : List Deal} {k : Nat} {ps : List (Running act)}
    {gs : List (Deal × NMat)} {hs : List (Halfway act)} (h : sellAll rs D k ps = .ok (gs, hs)) :
    ∀ g ∈ gs, g.1 ∈ D ∧ k ≤ g.1.src ∧ g.1.src < k + ps.length := by
  induction ps generalizing k gs hs with
  | nil =>
    simp only [sellAll, Except.ok.injEq, Prod.mk.injEq] at h
    obtain ⟨rfl, -⟩ := h
    simp
  | cons p ps ih =>
    simp only [sellAll, bind_ok, pure_eq_ok, Except.ok.injEq, Prod.mk.injEq] at h
    obtain ⟨⟨l, m⟩, -, ⟨g, hh⟩, h2, rfl, -⟩ := h
    intro x hx
    rcases List.mem_append.1 hx with hx | hx
    · have := (List.of_mem_zip hx).1
      unfold dealsOf at this
      rw [List.mem_filter, decide_eq_true_eq] at this
      refine ⟨this.1, this.2.ge, ?_⟩
      rw [this.2, List.length_cons]; omega
    · obtain ⟨a, b, c⟩ := ih h2 x hx
      refine ⟨a, by omega, ?_⟩
      rw [List.length_cons]; omega

/-! ## Other deals and requests -/

theorem sellAll_congr {rs rs' : List Req} {D D' : List Deal} {k : Nat} {ps : List (Running act)}
    (K : ∀ p ∈ ps, Keyed p.k p.s) (hr : ∀ p ∈ ps, Alike (sellsOf p.k) rs rs')
    (hD : ∀ j, j < ps.length → dealsOf D (k + j) = dealsOf D' (k + j)) :
    sellAll rs D k ps = sellAll rs' D' k ps := by
  induction ps generalizing k with
  | nil => rfl
  | cons p ps ih =>
    have e := ih (k := k + 1) (fun q hq => K q (by simp [hq])) (fun q hq => hr q (by simp [hq])) (by
      intro j hj
      have := hD (j + 1) (by simpa using hj)
      rwa [show k + 1 + j = k + (j + 1) by omega])
    have e0 := hD 0 (by simp)
    rw [Nat.add_zero] at e0
    simp only [sellAll, sell_alike (K p (by simp)) _ (hr p (by simp)), e, e0]

theorem offerAll_congr {rs rs' : List Req} {ps : List (Running act)}
    (K : ∀ p ∈ ps, Keyed p.k p.s) (hr : ∀ p ∈ ps, Alike (sellsOf p.k) rs rs') :
    offerAll rs ps = offerAll rs' ps := by
  induction ps with
  | nil => rfl
  | cons p ps ih =>
    simp only [offerAll, offers_alike (K p (by simp)) (hr p (by simp)),
      ih (fun q hq => K q (by simp [hq])) fun q hq => hr q (by simp [hq])]

theorem settleAll_congr {gs gs' : List (Deal × NMat)} {k : Nat} {hs : List (Halfway act)}
    (h : ∀ j, j < hs.length → gs.filter (fun g => g.1.dst = k + j) = gs'.filter fun g => g.1.dst = k + j) :
    settleAll gs k hs = settleAll gs' k hs := by
  induction hs generalizing k with
  | nil => rfl
  | cons x hs ih =>
    have e := ih (k := k + 1) (by
      intro j hj
      have := h (j + 1) (by simpa using hj)
      rwa [show k + 1 + j = k + (j + 1) by omega])
    have e0 := h 0 (by simp)
    rw [Nat.add_zero] at e0
    simp only [settleAll, e, e0]

/-! ## Renumbering -/

theorem sellAll_shift {rs : List Req} {D D' : List Deal} {m k : Nat} {ps : List (Running act)}
    (hD : ∀ j, dealsOf D (m + j) = (dealsOf D' j).map (Deal.shift m)) {gs : List (Deal × NMat)}
    {hs : List (Halfway act)} : sellAll rs D (m + k) ps = .ok (gs, hs) ↔
      ∃ gs', sellAll rs D' k ps = .ok (gs', hs) ∧ gs = gs'.map fun g => (g.1.shift m, g.2) := by
  induction ps generalizing k gs hs with
  | nil =>
    simp only [sellAll, Except.ok.injEq, Prod.mk.injEq]
    constructor
    · rintro ⟨rfl, rfl⟩
      exact ⟨[], ⟨rfl, rfl⟩, rfl⟩
    · rintro ⟨_, ⟨rfl, rfl⟩, rfl⟩
      exact ⟨rfl, rfl⟩
  | cons p ps ih =>
    have es : ((dealsOf D' k).map (Deal.shift m)).map Deal.sale = (dealsOf D' k).map Deal.sale := by
      rw [List.map_map]; rfl
    have ez : ∀ l : List NMat, ((dealsOf D' k).map (Deal.shift m)).zip l =
        ((dealsOf D' k).zip l).map fun g => (g.1.shift m, g.2) := by
      intro l
      rw [List.zip_map_left]
      rfl
    simp only [sellAll, hD k, es, ez, bind_ok, pure_eq_ok, Except.ok.injEq, Prod.mk.injEq,
      show m + k + 1 = m + (k + 1) by omega]
    constructor
    · rintro ⟨⟨l, s⟩, h1, ⟨g, h⟩, h2, rfl, rfl⟩
      obtain ⟨g', h3, rfl⟩ := ih.1 h2
      exact ⟨_, ⟨(l, s), h1, (g', h), h3, rfl, rfl⟩, by simp⟩
    · rintro ⟨_, ⟨⟨l, s⟩, h1, ⟨g', h⟩, h3, rfl, rfl⟩, rfl⟩
      exact ⟨(l, s), h1, (_, h), ih.2 ⟨g', h3, rfl⟩, by simp, rfl⟩

theorem settleAll_shift {gs gs' : List (Deal × NMat)} {m k : Nat} {hs : List (Halfway act)}
    (h : ∀ j, (gs.filter fun g => g.1.dst = m + j) =
      (gs'.filter fun g => g.1.dst = j).map fun g => (g.1.shift m, g.2)) :
    settleAll gs (m + k) hs = settleAll gs' k hs := by
  induction hs generalizing k with
  | nil => rfl
  | cons x hs ih =>
    have ed : ((gs'.filter fun g => g.1.dst = k).map fun g => ((g.1.shift m, g.2) : Deal × NMat)).map
        delivery = (gs'.filter fun g => g.1.dst = k).map delivery := by
      rw [List.map_map]; rfl
    simp only [settleAll, h k, ed, show m + k + 1 = m + (k + 1) by omega, ih]

/-! ## One time step -/

theorem askAll_length {ps : List (Running act)} {A : List (List Ask)} (h : askAll ps = .ok A) :
    A.length = ps.length := by
  induction ps generalizing A with
  | nil =>
    simp only [askAll, Except.ok.injEq] at h
    subst h; rfl
  | cons p ps ih =>
    simp only [askAll, bind_ok, pure_eq_ok, Except.ok.injEq] at h
    obtain ⟨a, -, as, h1, rfl⟩ := h
    simp [ih h1]

theorem offerAll_length {rs : List Req} {ps : List (Running act)} {O : List (List Offer)}
    (h : offerAll rs ps = .ok O) : O.length = ps.length := by
  induction ps generalizing O with
  | nil =>
    simp only [offerAll, Except.ok.injEq] at h
    subst h; rfl
  | cons p ps ih =>
    simp only [offerAll, bind_ok, pure_eq_ok, Except.ok.injEq] at h
    obtain ⟨a, -, as, h1, rfl⟩ := h
    simp [ih h1]

theorem askAll_get {ps : List (Running act)} {A : List (List Ask)} (h : askAll ps = .ok A) {j : Nat}
    {as : List Ask} (hj : A[j]? = some as) : ∃ p, ps[j]? = some p ∧ (act p.k).asks p.s = .ok as := by
  induction ps generalizing A j with
  | nil =>
    simp only [askAll, Except.ok.injEq] at h
    subst h; simp at hj
  | cons p ps ih =>
    simp only [askAll, bind_ok, pure_eq_ok, Except.ok.injEq] at h
    obtain ⟨a, h1, as', h2, rfl⟩ := h
    cases j with
    | zero =>
      simp only [List.getElem?_cons_zero, Option.some.injEq] at hj
      subst hj
      exact ⟨p, rfl, h1⟩
    | succ j =>
      rw [List.getElem?_cons_succ] at hj ⊢
      exact ih h2 hj

theorem offerAll_get {rs : List Req} {ps : List (Running act)} {O : List (List Offer)}
    (h : offerAll rs ps = .ok O) {j : Nat} {os : List Offer} (hj : O[j]? = some os) :
    ∃ p, ps[j]? = some p ∧ (act p.k).offers rs p.s = .ok os := by
  induction ps generalizing O j with
  | nil =>
    simp only [offerAll, Except.ok.injEq] at h
    subst h; simp at hj
  | cons p ps ih =>
    simp only [offerAll, bind_ok, pure_eq_ok, Except.ok.injEq] at h
    obtain ⟨a, h1, as', h2, rfl⟩ := h
    cases j with
    | zero =>
      simp only [List.getElem?_cons_zero, Option.some.injEq] at hj
      subst hj
      exact ⟨p, rfl, h1⟩
    | succ j =>
      rw [List.getElem?_cons_succ] at hj ⊢
      exact ih h2 hj

theorem requests_commods {ps : List (Running act)} {A : List (List Ask)} (h : askAll ps = .ok A) :
    ∀ r ∈ requestsOf A, ∃ p ∈ ps, r.commod ∈ buysOf p.k := by
  intro r hr
  obtain ⟨a, ha, hr⟩ := List.mem_flatMap.1 hr
  obtain ⟨x, hx, rfl⟩ := List.mem_map.1 hr
  obtain ⟨as, has, ha⟩ := List.mem_flatten.1 ha
  obtain ⟨j, hj⟩ := List.mem_iff_getElem?.1 has
  obtain ⟨p, hp, e⟩ := askAll_get h hj
  exact ⟨p, List.mem_of_getElem? hp, asks_commods e a ha x hx⟩

/-- The deals `D` are the deals `D₁` among the first `m` facilities and the deals `D₂` among the
others. -/
structure Splits (m : Nat) (D D₁ D₂ : List Deal) : Prop where
  first : ∀ j, j < m → dealsOf D j = dealsOf D₁ j
  second : ∀ j, dealsOf D (m + j) = (dealsOf D₂ j).map (Deal.shift m)
  within : ∀ d ∈ D₁, d.dst < m

theorem alike_left {A₁ A₂ : List (List Ask)} (h₂ : askAll ps₂ = .ok A₂)
    (ap : Apart (ps₁.map Running.k) (ps₂.map Running.k)) :
    ∀ p ∈ ps₁, Alike (sellsOf p.k) (requestsOf (A₁ ++ A₂)) (requestsOf A₁) := by
  intro p hp x hx
  unfold requestsOf
  rw [List.flatten_append, List.flatMap_append, List.filter_append]
  refine (congrArg _ ?_).trans (List.append_nil _)
  rw [List.filter_eq_nil_iff]
  intro r hr e
  obtain ⟨q, hq, hb⟩ := requests_commods h₂ r hr
  rw [decide_eq_true_eq] at e
  exact ap.there _ (List.mem_map_of_mem hp) _ (List.mem_map_of_mem hq) x hx (e ▸ hb)

theorem alike_right {A₁ A₂ : List (List Ask)} (h₁ : askAll ps₁ = .ok A₁)
    (ap : Apart (ps₁.map Running.k) (ps₂.map Running.k)) :
    ∀ p ∈ ps₂, Alike (sellsOf p.k) (requestsOf (A₁ ++ A₂)) (requestsOf A₂) := by
  intro p hp x hx
  unfold requestsOf
  rw [List.flatten_append, List.flatMap_append, List.filter_append]
  have : ((A₁.flatten.flatMap fun a => a.alts.map fun x => (⟨x.1, x.2⟩ : Req)).filter
      fun r => r.commod = x) = [] := by
    rw [List.filter_eq_nil_iff]
    intro r hr e
    obtain ⟨q, hq, hb⟩ := requests_commods h₁ r hr
    rw [decide_eq_true_eq] at e
    exact ap.back _ (List.mem_map_of_mem hq) _ (List.mem_map_of_mem hp) _ hb (e ▸ hx)
  rw [this, List.nil_append]

/-- A time step of two groups of facilities that are apart is a time step of each. -/
theorem round_apart {ex ex₁ ex₂ : Exchange} (K₁ : ∀ p ∈ ps₁, Keyed p.k p.s)
    (K₂ : ∀ p ∈ ps₂, Keyed p.k p.s) (ap : Apart (ps₁.map Running.k) (ps₂.map Running.k))
    (H : ∀ A₁ A₂ O₁ O₂, askAll ps₁ = .ok A₁ → askAll ps₂ = .ok A₂ →
      offerAll (requestsOf A₁) ps₁ = .ok O₁ → offerAll (requestsOf A₂) ps₂ = .ok O₂ →
      Splits ps₁.length (ex (A₁ ++ A₂) (O₁ ++ O₂)) (ex₁ A₁ O₁) (ex₂ A₂ O₂))
    {gs : List (Deal × NMat)} {ps' : List (Running act)} :
    round ex (ps₁ ++ ps₂) = .ok (gs, ps') ↔ ∃ g₁ q₁ g₂ q₂, round ex₁ ps₁ = .ok (g₁, q₁) ∧
      round ex₂ ps₂ = .ok (g₂, q₂) ∧ gs = sideBySide ps₁.length g₁ g₂ ∧ ps' = q₁ ++ q₂ := by
  simp only [round, bind_ok, pure_eq_ok, Except.ok.injEq, Prod.mk.injEq]
  constructor
  · rintro ⟨A, hA, O, hO, ⟨g, hs⟩, hg, qs, hq, rfl, rfl⟩
    obtain ⟨A₁, A₂, a1, a2, rfl⟩ := askAll_append.1 hA
    obtain ⟨O₁, O₂, o1, o2, rfl⟩ := offerAll_append.1 hO
    have L := alike_left (A₁ := A₁) a2 ap
    have R := alike_right (A₂ := A₂) a1 ap
    rw [offerAll_congr K₁ L] at o1
    rw [offerAll_congr K₂ R] at o2
    have S := H A₁ A₂ O₁ O₂ a1 a2 o1 o2
    obtain ⟨g₁, h₁, g₂, h₂, s1, s2, rfl, rfl⟩ := sellAll_append.1 hg
    rw [sellAll_congr K₁ L (D' := ex₁ A₁ O₁) (fun j hj => by
      rw [Nat.zero_add]; exact S.first j hj)] at s1
    rw [sellAll_congr K₂ R (fun _ _ => rfl), Nat.zero_add] at s2
    obtain ⟨g₂', s2', rfl⟩ := (sellAll_shift (k := 0) S.second).1 s2
    obtain ⟨q₁, q₂, t1, t2, rfl⟩ := settleAll_append.1 hq
    have w := fun g hg => S.within g.1 (sellAll_deals s1 g hg).1
    rw [sellAll_length s1, Nat.zero_add] at t2
    refine ⟨g₁, q₁, g₂', q₂, ⟨A₁, a1, O₁, o1, (g₁, h₁), s1, q₁, ?_, rfl, rfl⟩,
      ⟨A₂, a2, O₂, o2, (g₂', h₂), s2', q₂, ?_, rfl, rfl⟩, rfl, rfl⟩
    · rw [← t1]
      refine (settleAll_congr fun j hj => ?_).symm
      rw [sellAll_length s1] at hj
      rw [List.filter_append]
      refine (congrArg _ ?_).trans (List.append_nil _)
      rw [List.filter_eq_nil_iff]
      intro x hx e
      obtain ⟨y, hy, rfl⟩ := List.mem_map.1 hx
      have := of_decide_eq_true e
      simp only [Deal.shift] at this
      omega
    · rw [← t2]
      refine (settleAll_shift (k := 0) fun j => ?_).symm
      rw [List.filter_append, List.filter_map]
      have : (g₁.filter fun g => g.1.dst = ps₁.length + j) = [] := by
        rw [List.filter_eq_nil_iff]
        intro x hx e
        have := w x hx
        simp only [decide_eq_true_eq] at e
        omega
      rw [this, List.nil_append]
      refine congrArg _ (List.filter_congr fun x _ => ?_)
      simp [Deal.shift]
  · rintro ⟨g₁, q₁, g₂, q₂, ⟨A₁, a1, O₁, o1, ⟨g₁', h₁⟩, s1, q₁', t1, rfl, rfl⟩,
      ⟨A₂, a2, O₂, o2, ⟨g₂', h₂⟩, s2, q₂', t2, rfl, rfl⟩, rfl, rfl⟩
    have L := alike_left (A₁ := A₁) a2 ap
    have R := alike_right (A₂ := A₂) a1 ap
    have S := H A₁ A₂ O₁ O₂ a1 a2 o1 o2
    have w := fun g hg => S.within g.1 (sellAll_deals s1 g hg).1
    have l1 := sellAll_length s1
    refine ⟨A₁ ++ A₂, askAll_append.2 ⟨A₁, A₂, a1, a2, rfl⟩, O₁ ++ O₂, offerAll_append.2
      ⟨O₁, O₂, by rw [offerAll_congr K₁ L, o1], by rw [offerAll_congr K₂ R, o2], rfl⟩,
      (sideBySide ps₁.length g₁' g₂', h₁ ++ h₂), sellAll_append.2 ⟨g₁', h₁, _, h₂, ?_, ?_, rfl, rfl⟩,
      q₁' ++ q₂', settleAll_append.2 ⟨q₁', q₂', ?_, ?_, rfl⟩, rfl, rfl⟩
    · rw [← s1]
      exact sellAll_congr K₁ L fun j hj => by rw [Nat.zero_add]; exact S.first j hj
    · rw [sellAll_congr K₂ R (fun _ _ => rfl), Nat.zero_add]
      exact (sellAll_shift (k := 0) S.second).2 ⟨g₂', s2, rfl⟩
    · rw [← t1]
      refine settleAll_congr fun j hj => ?_
      rw [l1] at hj
      unfold sideBySide
      rw [List.filter_append]
      refine (congrArg _ ?_).trans (List.append_nil _)
      rw [List.filter_eq_nil_iff]
      intro x hx e
      obtain ⟨y, hy, rfl⟩ := List.mem_map.1 hx
      have := of_decide_eq_true e
      simp only [Deal.shift] at this
      omega
    · rw [← t2, l1, Nat.zero_add]
      refine settleAll_shift (k := 0) fun j => ?_
      unfold sideBySide
      rw [List.filter_append, List.filter_map]
      have : (g₁'.filter fun g => g.1.dst = ps₁.length + j) = [] := by
        rw [List.filter_eq_nil_iff]
        intro x hx e
        have := w x hx
        simp only [decide_eq_true_eq] at e
        omega
      rw [this, List.nil_append]
      refine congrArg _ (List.filter_congr fun x _ => ?_)
      simp [Deal.shift]

/-- Afterwards the facilities are of the same prototypes and still in order. -/
theorem round_keyed {ex : Exchange} {ps ps' : List (Running act)} {gs : List (Deal × NMat)}
    (K : ∀ p ∈ ps, Keyed p.k p.s) (h : round ex ps = .ok (gs, ps')) :
    ps'.map Running.k = ps.map Running.k ∧ ∀ p ∈ ps', Keyed p.k p.s := by
  simp only [round, bind_ok, pure_eq_ok, Except.ok.injEq, Prod.mk.injEq] at h
  obtain ⟨A, -, O, -, ⟨g, hs⟩, hg, qs, hq, rfl, rfl⟩ := h
  simp only at hq
  revert hq hg
  generalize ex A O = D
  generalize requestsOf A = rs
  generalize hF : g = G
  have : ∀ (k : Nat) (ps : List (Running act)) (g' : List (Deal × NMat)) (hs : List (Halfway act))
      (qs : List (Running act)), (∀ p ∈ ps, Keyed p.k p.s) → sellAll rs D k ps = .ok (g', hs) →
      settleAll G k hs = .ok qs → qs.map Running.k = ps.map Running.k ∧ ∀ p ∈ qs, Keyed p.k p.s := by
    intro k ps
    induction ps generalizing k with
    | nil =>
      intro g' hs qs _ h1 h2
      simp only [sellAll, Except.ok.injEq, Prod.mk.injEq] at h1
      obtain ⟨-, rfl⟩ := h1
      simp only [settleAll, Except.ok.injEq] at h2
      subst h2
      simp
    | cons p ps ih =>
      intro g' hs qs K h1 h2
      simp only [sellAll, bind_ok, pure_eq_ok, Except.ok.injEq, Prod.mk.injEq] at h1
      obtain ⟨⟨l, m⟩, e1, ⟨g₂, hs₂⟩, e2, -, rfl⟩ := h1
      simp only [settleAll, bind_ok, pure_eq_ok, Except.ok.injEq] at h2
      obtain ⟨s, e3, qs₂, e4, rfl⟩ := h2
      obtain ⟨i1, i2⟩ := ih (k + 1) g₂ hs₂ qs₂ (fun q hq => K q (by simp [hq])) e2 e4
      refine ⟨by simp [i1], ?_⟩
      intro q hq
      rcases List.mem_cons.1 hq with rfl | hq
      · exact step_keyed (K p (by simp)) e1 e3
      · exact i2 q hq
  intro hg hq
  exact this 0 ps G hs qs K hg hq

end Cyc.Sim
