import Verif.Sim.Market

/-!
# What a facility owes the exchange, and what it is owed

If every facility keeps the contract, then so does the simulation: no time step fails.
-/

namespace Cyc.Sim

/-- What materials amount to, as `μ` measures them. -/
def tot (μ : NMat → ℚ) (l : List NMat) : ℚ := (l.map μ).sum

@[simp] theorem tot_nil (μ : NMat → ℚ) : tot μ [] = 0 := rfl

@[simp] theorem tot_cons (μ : NMat → ℚ) (m : NMat) (l : List NMat) : tot μ (m :: l) = μ m + tot μ l := by
  simp [tot]

@[simp] theorem tot_append (μ : NMat → ℚ) (l l' : List NMat) : tot μ (l ++ l') = tot μ l + tot μ l' := by
  simp [tot]

theorem tot_qty (l : List NMat) : tot qty l = totalQty l := rfl

/-- Materials with the same nuclides in all measure the same. -/
def Measure (μ : NMat → ℚ) : Prop := ∀ l l' : List NMat,
  (∀ n, Mat.massOf l n = Mat.massOf l' n) → tot μ l = tot μ l'

/-- The sales are within the offers. -/
structure WithinOffers (rs : List Req) (os : List Offer) (ts : List Sale) : Prop where
  asked : ∀ t ∈ ts, ⟨t.commod, t.target⟩ ∈ rs
  pos : ∀ t ∈ ts, 0 < t.amt ∧ t.amt ≤ qty t.target
  offered : ∀ t ∈ ts, ∃ o ∈ os, o.commod = t.commod ∧ o.least ≤ t.amt ∧
    (∀ u, o.piece = some u → t.amt = u) ∧ o.serves t.target = true
  caps : ∀ o ∈ os, ((ts.filter fun t => t.commod = o.commod).map Sale.amt).sum ≤ o.cap
  limits : ∀ o ∈ os, ∀ L ∈ o.limits, ∃ vs : List ℚ,
    (ts.filter fun t => t.commod = o.commod).map (fun t => L.weigh t.target t.amt) =
      vs.map some ∧ vs.sum ≤ L.cap

/-- The deliveries are within the requests. -/
structure WithinAsks (as : List Ask) (ds : List Delivery) : Prop where
  solid : ∀ d ∈ ds, Solid d.mat
  asked : ∀ d ∈ ds, ∃ a, as[d.port]? = some a ∧ d.commod ∈ a.alts.map Prod.fst ∧
    (a.whole = true → qty d.mat = a.amount)
  amounts : ∀ p a, as[p]? = some a →
    ((ds.filter fun d => d.port = p).map fun d => qty d.mat).sum ≤ a.amount

/-- A facility keeps the contract, by virtue of the invariant `Inv`: it can always publish, what it
requests is material of positive quantity, and no amount is negative; it hands over exactly what was
dealt within its offers, and accepts what is delivered within its requests; what it has (`has`)
changes by what it is given and what it gives, as `μ` measures it, and has no negative parts. -/
structure Contract (A : Actor) (μ : NMat → ℚ) (has : A.S → List NMat) (Inv : A.S → Prop) : Prop where
  asks : ∀ {s}, Inv s → ∃ as, A.asks s = .ok as ∧
    ∀ a ∈ as, 0 ≤ a.amount ∧ ∀ x ∈ a.alts, Solid x.2
  offers : ∀ {s} rs, Inv s → (∀ r ∈ rs, Solid r.target) → ∃ os, A.offers rs s = .ok os ∧
    ∀ o ∈ os, 0 ≤ o.cap
  sell : ∀ {s rs os ts}, Inv s → (∀ r ∈ rs, Solid r.target) → A.offers rs s = .ok os →
    WithinOffers rs os ts →
    ∃ l m, A.sell rs ts s = .ok (l, m) ∧ List.Forall₂ (fun t x => Solid x ∧ qty x = t.amt) ts l
  settle : ∀ {s rs os ts l m as ds}, Inv s → (∀ r ∈ rs, Solid r.target) → A.offers rs s = .ok os →
    WithinOffers rs os ts → A.sell rs ts s = .ok (l, m) → A.asks s = .ok as → WithinAsks as ds →
    ∃ s', A.settle ds m = .ok s' ∧ Inv s' ∧
      tot μ (has s' ++ l) = tot μ (has s ++ ds.map Delivery.mat)
  nonneg : ∀ {s}, Inv s → ∀ m ∈ has s, Mat.Nonneg m

/-- A request for material of positive quantity that the agreement allows. -/
def Agreement.Allows (A : Agreement) (r : Req) : Prop := Solid r.target ∧ A.target r.commod r.target

/-- A facility keeps the contract and the agreement: as `Contract`, if all requests and all deliveries
are as agreed, and then its own are. -/
structure Pledge (A : Agreement) (F : Actor) (μ : NMat → ℚ) (has : F.S → List NMat)
    (Inv : F.S → Prop) : Prop where
  asks : ∀ {s}, Inv s → ∃ as, F.asks s = .ok as ∧
    ∀ a ∈ as, 0 ≤ a.amount ∧ ∀ x ∈ a.alts, A.Allows ⟨x.1, x.2⟩
  offers : ∀ {s} rs, Inv s → (∀ r ∈ rs, A.Allows r) → ∃ os, F.offers rs s = .ok os ∧
    ∀ o ∈ os, 0 ≤ o.cap ∧ ∀ L ∈ o.limits, 0 ≤ L.cap
  sell : ∀ {s rs os ts}, Inv s → (∀ r ∈ rs, A.Allows r) → F.offers rs s = .ok os →
    WithinOffers rs os ts → ∃ l m, F.sell rs ts s = .ok (l, m) ∧
      List.Forall₂ (fun t x => (Solid x ∧ qty x = t.amt) ∧ A.mat t.commod x) ts l
  settle : ∀ {s rs os ts l m as ds}, Inv s → (∀ r ∈ rs, A.Allows r) → F.offers rs s = .ok os →
    WithinOffers rs os ts → F.sell rs ts s = .ok (l, m) → F.asks s = .ok as → WithinAsks as ds →
    (∀ d ∈ ds, A.mat d.commod d.mat) → ∃ s', F.settle ds m = .ok s' ∧ Inv s' ∧
      tot μ (has s' ++ l) = tot μ (has s ++ ds.map Delivery.mat)
  nonneg : ∀ {s}, Inv s → ∀ m ∈ has s, Mat.Nonneg m

/-- From the contract to the pledge: what the facility requests and delivers is as agreed, by virtue
of a further invariant. -/
theorem Contract.pledge {A : Agreement} {F : Actor} {μ : NMat → ℚ} {has : F.S → List NMat}
    {Inv Inv' : F.S → Prop} (C : Contract F μ has Inv)
    (limits : ∀ {s rs os}, Inv s → F.offers rs s = .ok os → ∀ o ∈ os, o.limits = [])
    (asks : ∀ {s as}, Inv s → F.asks s = .ok as → ∀ a ∈ as, ∀ x ∈ a.alts, Solid x.2 →
      A.target x.1 x.2)
    (sell : ∀ {s rs os ts l m}, Inv s → Inv' s → (∀ r ∈ rs, A.Allows r) → F.offers rs s = .ok os →
      WithinOffers rs os ts → F.sell rs ts s = .ok (l, m) →
      List.Forall₂ (fun t x => Solid x ∧ qty x = t.amt) ts l →
      List.Forall₂ (fun t x => A.mat t.commod x) ts l)
    (settle : ∀ {s rs os ts l m as ds s'}, Inv s → Inv' s → (∀ r ∈ rs, A.Allows r) →
      F.offers rs s = .ok os → WithinOffers rs os ts → F.sell rs ts s = .ok (l, m) →
      F.asks s = .ok as → WithinAsks as ds → (∀ d ∈ ds, A.mat d.commod d.mat) →
      F.settle ds m = .ok s' → Inv' s') :
    Pledge A F μ has fun s => Inv s ∧ Inv' s := by
  constructor
  · rintro s ⟨h, -⟩
    obtain ⟨as, e1, e2⟩ := C.asks h
    exact ⟨as, e1, fun a ha => ⟨(e2 a ha).1, fun x hx => ⟨(e2 a ha).2 x hx,
      asks h e1 a ha x hx ((e2 a ha).2 x hx)⟩⟩⟩
  · rintro s rs ⟨h, -⟩ hrs
    obtain ⟨os, e1, e2⟩ := C.offers rs h fun r hr => (hrs r hr).1
    refine ⟨os, e1, fun o ho => ⟨e2 o ho, ?_⟩⟩
    rw [limits h e1 o ho]; simp
  · rintro s rs os ts ⟨h, h'⟩ hrs ho W
    obtain ⟨l, m, e1, e2⟩ := C.sell h (fun r hr => (hrs r hr).1) ho W
    have e3 := sell h h' hrs ho W e1 e2
    refine ⟨l, m, e1, ?_⟩
    clear e1 W sell
    induction e2 with
    | nil => exact .nil
    | cons x _ ih =>
      cases e3 with
      | cons y z => exact .cons ⟨x, y⟩ (ih z)
  · rintro s rs os ts l m as ds ⟨h, h'⟩ hrs ho W hs ha WA hd
    obtain ⟨s', e1, e2, e3⟩ := C.settle h (fun r hr => (hrs r hr).1) ho W hs ha WA
    exact ⟨s', e1, ⟨e2, settle h h' hrs ho W hs ha WA hd e1⟩, e3⟩
  · rintro s ⟨h, -⟩
    exact C.nonneg h

variable {K : Type} {act : K → Actor} {μ : NMat → ℚ} {has : ∀ k, (act k).S → List NMat} {A : Agreement}

/-- A facility in a good state. -/
def Good (A : Agreement) (μ : NMat → ℚ) (has : ∀ k, (act k).S → List NMat) (p : Running act) : Prop :=
  ∃ Inv, Pledge A (act p.k) μ (has p.k) Inv ∧ Inv p.s

theorem Good.nonneg {p : Running act} (h : Good A μ has p) : ∀ m ∈ has p.k p.s, Mat.Nonneg m := by
  obtain ⟨Inv, P, h⟩ := h
  exact P.nonneg h

/-- What all facilities have. -/
def allOf (has : ∀ k, (act k).S → List NMat) (ps : List (Running act)) : List NMat :=
  ps.flatMap fun p => has p.k p.s

theorem askAll_ok {ps : List (Running act)} (h : ∀ p ∈ ps, Good A μ has p) :
    ∃ asks, askAll ps = .ok asks ∧ List.Forall₂ (fun (p : Running act) a => (act p.k).asks p.s = .ok a) ps asks ∧
      (∀ r ∈ requestsOf asks, A.Allows r) ∧ ∀ as ∈ asks, ∀ a ∈ as, 0 ≤ a.amount := by
  induction ps with
  | nil => exact ⟨[], rfl, .nil, by simp [requestsOf], by simp⟩
  | cons p ps ih =>
    obtain ⟨I, C, hI⟩ := h p (by simp)
    obtain ⟨as, h1, h2⟩ := C.asks hI
    obtain ⟨asks, h3, h4, h5, h6⟩ := ih fun x hx => h x (by simp [hx])
    refine ⟨as :: asks, by simp [askAll, h1, h3, ok_bind, pure_eq_ok], .cons h1 h4, ?_, ?_⟩
    · intro r hr
      simp only [requestsOf, List.flatten_cons, List.flatMap_append, List.mem_append] at hr
      rcases hr with hr | hr
      · obtain ⟨a, ha, hr⟩ := List.mem_flatMap.1 hr
        obtain ⟨x, hx, rfl⟩ := List.mem_map.1 hr
        exact (h2 a ha).2 x hx
      · exact h5 r hr
    · intro bs hbs a ha
      rcases List.mem_cons.1 hbs with rfl | hbs
      · exact (h2 a ha).1
      · exact h6 bs hbs a ha

theorem offerAll_ok {rs : List Req} (hrs : ∀ r ∈ rs, A.Allows r) {ps : List (Running act)}
    (h : ∀ p ∈ ps, Good A μ has p) :
    ∃ offers, offerAll rs ps = .ok offers ∧
      List.Forall₂ (fun (p : Running act) o => (act p.k).offers rs p.s = .ok o) ps offers ∧
      ∀ os ∈ offers, ∀ o ∈ os, 0 ≤ o.cap ∧ ∀ L ∈ o.limits, 0 ≤ L.cap := by
  induction ps with
  | nil => exact ⟨[], rfl, .nil, by simp⟩
  | cons p ps ih =>
    obtain ⟨I, C, hI⟩ := h p (by simp)
    obtain ⟨os, h1, h2⟩ := C.offers rs hI hrs
    obtain ⟨offers, h3, h4, h5⟩ := ih fun x hx => h x (by simp [hx])
    refine ⟨os :: offers, by simp [offerAll, h1, h3, ok_bind, pure_eq_ok], .cons h1 h4, ?_⟩
    intro bs hbs o ho
    rcases List.mem_cons.1 hbs with rfl | hbs
    · exact h2 o ho
    · exact h5 bs hbs o ho

/-- The deals of one supplier are within its offers. -/
theorem Fair.within {asks : List (List Ask)} {offers : List (List Offer)} {ds : List Deal}
    (F : Fair asks offers ds) {k : Nat} {os : List Offer} (h : offers[k]? = some os) :
    WithinOffers (requestsOf asks) os ((dealsOf ds k).map Deal.sale) := by
  constructor
  · intro t ht
    obtain ⟨d, hd, rfl⟩ := List.mem_map.1 ht
    obtain ⟨as, h1, a, h2, h3, -⟩ := F.asked d (List.mem_filter.1 hd).1
    refine List.mem_flatMap.2 ⟨a, List.mem_flatten.2 ⟨as, List.mem_of_getElem? h1,
      List.mem_of_getElem? h2⟩, List.mem_map.2 ⟨_, h3, rfl⟩⟩
  · intro t ht
    obtain ⟨d, hd, rfl⟩ := List.mem_map.1 ht
    exact F.pos d (List.mem_filter.1 hd).1
  · intro t ht
    obtain ⟨d, hd, rfl⟩ := List.mem_map.1 ht
    obtain ⟨hd, hk⟩ := List.mem_filter.1 hd
    simp only [decide_eq_true_eq] at hk
    obtain ⟨os', h1, o, h2⟩ := F.offered d hd
    rw [hk, h] at h1
    cases h1
    exact ⟨o, h2⟩
  · intro o ho
    have := F.caps k os h o ho
    unfold dealt at this
    refine le_of_eq_of_le ?_ this
    unfold dealsOf
    rw [List.filter_map, List.map_map, List.filter_filter]
    congr 1
    congr 1
    · apply List.filter_congr
      intro d _
      rw [Bool.eq_iff_iff]; simp [Deal.sale, and_comm]
      exact fun _ => ⟨of_decide_eq_true, decide_eq_true⟩
  · intro o ho L hL
    obtain ⟨vs, h1, h2⟩ := F.limits k os h o ho L hL
    refine ⟨vs, ?_, h2⟩
    rw [← h1]
    unfold dealsOf
    rw [List.filter_map, List.map_map, List.filter_filter]
    congr 1
    apply List.filter_congr
    intro d _
    rw [Bool.eq_iff_iff]; simp [Deal.sale, and_comm]
    exact fun _ => ⟨of_decide_eq_true, decide_eq_true⟩

/-- What was handed over matches the deals. -/
def Matches (A : Agreement) (g : Deal × NMat) : Prop :=
  (Solid g.2 ∧ qty g.2 = g.1.amt) ∧ A.mat g.1.commod g.2

theorem zip_of_forall₂ {ds : List Deal} {l : List NMat}
    (h : List.Forall₂ (fun t x => (Solid x ∧ qty x = Sale.amt t) ∧ A.mat (Sale.commod t) x)
      (ds.map Deal.sale) l) :
    (ds.zip l).map Prod.fst = ds ∧ (ds.zip l).map Prod.snd = l ∧ ∀ g ∈ ds.zip l, Matches A g := by
  induction ds generalizing l with
  | nil => cases h; simp
  | cons d ds ih =>
    cases h with
    | cons h1 h2 =>
      obtain ⟨e1, e3, e2⟩ := ih h2
      refine ⟨by simp [e1], by simp [e3], ?_⟩
      intro g hg
      simp only [List.zip_cons_cons, List.mem_cons] at hg
      rcases hg with rfl | hg
      · exact h1
      · exact e2 g hg

/-- The deals of the suppliers from `k` on, of which there are `n`. -/
theorem sellAll_ok {asks : List (List Ask)} {offers : List (List Offer)} {ds : List Deal}
    (hrs : ∀ r ∈ requestsOf asks, A.Allows r) (F : Fair asks offers ds) {ps : List (Running act)}
    (h : ∀ p ∈ ps, Good A μ has p) :
    ∀ (k : Nat) (os : List (List Offer)), offers.drop k = os →
      List.Forall₂ (fun (p : Running act) o => (act p.k).offers (requestsOf asks) p.s = .ok o) ps os →
      ∃ gs hs, sellAll (requestsOf asks) ds k ps = .ok (gs, hs.map Prod.fst) ∧
        (∀ g ∈ gs, Matches A g) ∧
        gs.map Prod.fst = (List.range' k ps.length).flatMap (dealsOf ds) ∧
        gs.map Prod.snd = hs.flatMap Prod.snd ∧
        List.Forall₂ (fun (p : Running act) (h : Halfway act × List NMat) => ∃ k' o m,
          offers[k']? = some o ∧ (act p.k).offers (requestsOf asks) p.s = .ok o ∧
          (act p.k).sell (requestsOf asks) ((dealsOf ds k').map Deal.sale) p.s = .ok (h.2, m) ∧
          h.1 = ⟨p.k, m⟩) ps hs := by
  induction ps with
  | nil =>
    intro k os _ _
    exact ⟨[], [], rfl, by simp, by simp, by simp, .nil⟩
  | cons p ps ih =>
    intro k os hk hf
    cases hf with
    | @cons _ o _ os' h1 h2 =>
      have hko : offers[k]? = some o := by
        have := congrArg (fun l => l[0]?) hk
        simpa using this
      have hd : offers.drop (k + 1) = os' := by
        rw [← List.drop_drop, hk]; rfl
      obtain ⟨I, C, hI⟩ := h p (by simp)
      obtain ⟨l, m, s1, s2⟩ := C.sell hI hrs h1 (F.within hko)
      obtain ⟨gs, hs, s3, s4, s5, s7, s6⟩ := ih (fun x hx => h x (by simp [hx])) (k + 1) os' hd h2
      obtain ⟨z1, z3, z2⟩ := zip_of_forall₂ s2
      refine ⟨(dealsOf ds k).zip l ++ gs, (⟨p.k, m⟩, l) :: hs,
        by simp [sellAll, s1, s3, ok_bind, pure_eq_ok], ?_, ?_, ?_,
        .cons ⟨k, o, m, hko, h1, s1, rfl⟩ s6⟩
      · intro g hg
        rcases List.mem_append.1 hg with hg | hg
        · exact z2 g hg
        · exact s4 g hg
      · rw [List.map_append, z1, s5, List.length_cons, List.range'_succ, List.flatMap_cons]
      · rw [List.map_append, z3, s7, List.flatMap_cons]

theorem dealsOf_perm {ds : List Deal} {n : Nat} (h : ∀ d ∈ ds, d.src < n) :
    ((List.range' 0 n).flatMap (dealsOf ds)).Perm ds := by
  induction ds with
  | nil => simp [dealsOf]
  | cons d ds ih =>
    replace ih := ih fun x hx => h x (by simp [hx])
    have hd := h d (by simp)
    refine List.Perm.trans ?_ (List.Perm.cons d ih)
    rw [List.perm_iff_count]
    intro x
    simp only [List.count_flatMap, List.count_cons, dealsOf, Function.comp_def, List.filter_cons]
    rw [← List.range_eq_range']
    clear ih h
    induction n with
    | zero => omega
    | succ n ihn =>
      rw [List.range_succ, List.map_append, List.map_append, List.sum_append, List.sum_append]
      simp only [List.map_cons, List.map_nil, List.sum_cons, List.sum_nil, decide_eq_true_eq]
      by_cases e : d.src = n
      · rw [if_pos e, List.count_cons]
        have : (List.range n).map (fun k => List.count x
            (if d.src = k then d :: ds.filter (fun d => decide (d.src = k))
              else ds.filter fun d => decide (d.src = k))) =
            (List.range n).map (fun k => List.count x (ds.filter fun d => decide (d.src = k))) := by
          apply List.map_congr_left
          intro k hk
          rw [if_neg]
          have := List.mem_range.1 hk
          omega
        rw [this]; omega
      · rw [if_neg e]
        have := ihn (by omega)
        simp only [decide_eq_true_eq] at this
        omega

theorem dealt_perm {ds ds' : List Deal} (h : ds.Perm ds') (p : Deal → Bool) :
    dealt ds p = dealt ds' p := ((h.filter p).map _).sum_eq

/-- What one receiver is given is within its requests. -/
theorem Fair.delivered {asks : List (List Ask)} {offers : List (List Offer)} {ds : List Deal}
    (F : Fair asks offers ds) {gs : List (Deal × NMat)} (hg : ∀ g ∈ gs, Matches A g)
    (hp : (gs.map Prod.fst).Perm ds) {j : Nat} {as : List Ask} (h : asks[j]? = some as) :
    WithinAsks as ((gs.filter fun g => g.1.dst = j).map delivery) := by
  have hm : ∀ g ∈ gs, g.1 ∈ ds := fun g hg => hp.mem_iff.1 (List.mem_map_of_mem hg)
  constructor
  · intro d hd
    obtain ⟨g, h1, rfl⟩ := List.mem_map.1 hd
    exact (hg g (List.mem_filter.1 h1).1).1.1
  · intro d hd
    obtain ⟨g, h1, rfl⟩ := List.mem_map.1 hd
    obtain ⟨h1, h2⟩ := List.mem_filter.1 h1
    simp only [decide_eq_true_eq] at h2
    obtain ⟨as', k1, a, k2, k3, k4⟩ := F.asked g.1 (hm g h1)
    rw [h2, h] at k1
    cases k1
    refine ⟨a, k2, List.mem_map.2 ⟨_, k3, rfl⟩, fun w => ?_⟩
    rw [← k4 w]; exact (hg g h1).1.2
  · intro p a ha
    refine le_of_eq_of_le ?_ (F.amounts j as h p a ha)
    rw [← dealt_perm hp]
    unfold dealt
    rw [List.filter_map, List.filter_map, List.map_map, List.map_map, List.filter_filter]
    have : (gs.filter fun g => ((fun d : Delivery => decide (d.port = p)) ∘ delivery) g &&
        decide (g.1.dst = j)) =
        gs.filter ((fun d : Deal => decide (d.dst = j ∧ d.port = p)) ∘ Prod.fst) := by
      apply List.filter_congr
      intro g _
      rw [Bool.eq_iff_iff]; simp [delivery, and_comm]
      exact fun _ => ⟨of_decide_eq_true, decide_eq_true⟩
    rw [this]
    congr 1
    apply List.map_congr_left
    intro g hgm
    exact (hg g (List.mem_filter.1 hgm).1).1.2

/-- What the facility `j` is given. -/
def givenTo (gs : List (Deal × NMat)) (j : Nat) : List NMat :=
  (gs.filter fun g => g.1.dst = j).map Prod.snd

theorem givenTo_total {gs : List (Deal × NMat)} {n : Nat} (h : ∀ g ∈ gs, g.1.dst < n) :
    ((List.range' 0 n).map fun j => tot μ (givenTo gs j)).sum = tot μ (gs.map Prod.snd) := by
  induction gs with
  | nil => simp [givenTo]
  | cons g gs ih =>
    replace ih := ih fun x hx => h x (by simp [hx])
    have hg := h g (by simp)
    rw [List.map_cons, tot_cons, ← ih]
    rw [← List.range_eq_range']
    clear ih h
    induction n with
    | zero => omega
    | succ n ihn =>
      rw [List.range_succ, List.map_append, List.map_append, List.sum_append, List.sum_append]
      simp only [List.map_cons, List.map_nil, List.sum_cons, List.sum_nil]
      by_cases e : g.1.dst = n
      · have e1 : (List.range n).map (fun j => tot μ (givenTo (g :: gs) j)) =
            (List.range n).map fun j => tot μ (givenTo gs j) := by
          apply List.map_congr_left
          intro j hj
          have : ¬ g.1.dst = j := by have := List.mem_range.1 hj; omega
          simp [givenTo, List.filter_cons, this]
        have e2 : tot μ (givenTo (g :: gs) n) = μ g.2 + tot μ (givenTo gs n) := by
          simp [givenTo, List.filter_cons, e]
        rw [e1, e2]; ring
      · have e2 : tot μ (givenTo (g :: gs) n) = tot μ (givenTo gs n) := by
          simp [givenTo, List.filter_cons, e]
        rw [e2, ihn (by omega)]; ring

theorem settleAll_ok {asks : List (List Ask)} {offers : List (List Offer)} {ds : List Deal}
    (hrs : ∀ r ∈ requestsOf asks, A.Allows r) (F : Fair asks offers ds)
    {gs : List (Deal × NMat)} (hg : ∀ g ∈ gs, Matches A g) (hp : (gs.map Prod.fst).Perm ds)
    {ps : List (Running act)} (h : ∀ p ∈ ps, Good A μ has p) :
    ∀ (k : Nat) (as : List (List Ask)) (hs : List (Halfway act × List NMat)), asks.drop k = as →
      List.Forall₂ (fun (p : Running act) a => (act p.k).asks p.s = .ok a) ps as →
      List.Forall₂ (fun (p : Running act) (h : Halfway act × List NMat) => ∃ k' o m,
          offers[k']? = some o ∧ (act p.k).offers (requestsOf asks) p.s = .ok o ∧
          (act p.k).sell (requestsOf asks) ((dealsOf ds k').map Deal.sale) p.s = .ok (h.2, m) ∧
          h.1 = ⟨p.k, m⟩) ps hs →
      ∃ ps', settleAll gs k (hs.map Prod.fst) = .ok ps' ∧ (∀ p ∈ ps', Good A μ has p) ∧
        ps'.map Running.k = ps.map Running.k ∧
        tot μ (allOf has ps') + tot μ (hs.flatMap Prod.snd) = tot μ (allOf has ps) +
          ((List.range' k ps.length).map fun j => tot μ (givenTo gs j)).sum := by
  induction ps with
  | nil =>
    intro k as hs _ _ hf
    cases hf
    exact ⟨[], rfl, by simp, rfl, by simp [allOf]⟩
  | cons p ps ih =>
    intro k as hs hk ha hf
    cases ha with
    | @cons _ a _ as' a1 a2 =>
      cases hf with
      | @cons _ hw _ hs' f1 f2 =>
        obtain ⟨hw, l⟩ := hw
        obtain ⟨k', o, m, e1, e2, e3, rfl⟩ := f1
        have hka : asks[k]? = some a := by
          have := congrArg (fun l => l[0]?) hk
          simpa using this
        have hd : asks.drop (k + 1) = as' := by
          rw [← List.drop_drop, hk]; rfl
        obtain ⟨I, C, hI⟩ := h p (by simp)
        obtain ⟨s', s1, s2, s6⟩ := C.settle hI hrs e2 (F.within e1) e3 a1
          (F.delivered hg hp hka) (by
            intro d hd
            obtain ⟨g, h1, rfl⟩ := List.mem_map.1 hd
            exact (hg g (List.mem_filter.1 h1).1).2)
        obtain ⟨ps', s3, s4, s5, s7⟩ := ih (fun x hx => h x (by simp [hx])) (k + 1) as' hs' hd a2 f2
        refine ⟨⟨p.k, s'⟩ :: ps', by simp [settleAll, s1, s3, ok_bind, pure_eq_ok], ?_, by simp [s5],
          ?_⟩
        · intro q hq
          rcases List.mem_cons.1 hq with rfl | hq
          · exact ⟨I, C, s2⟩
          · exact s4 q hq
        · have e : (List.map delivery (List.filter (fun g => decide (g.1.dst = k)) gs)).map
              Delivery.mat = givenTo gs k := by
            unfold givenTo; rw [List.map_map]; rfl
          rw [e, tot_append, tot_append] at s6
          simp only [allOf, List.map_cons, List.sum_cons, List.flatMap_cons, tot_append,
            List.length_cons, List.range'_succ] at s7 ⊢
          linarith

/-- What a time step with the exchange `ex` is to achieve: every deal is delivered, in the amount that
was agreed. -/
def Delivered (A : Agreement) (ds : List Deal) (gs : List (Deal × NMat)) : Prop :=
  (gs.map Prod.fst).Perm ds ∧ ∀ g ∈ gs, Matches A g

theorem round_ok {ex : Exchange} (hex : ex.Fair) {ps : List (Running act)} (h : ∀ p ∈ ps, Good A μ has p) :
    ∃ asks offers gs ps', askAll ps = .ok asks ∧ offerAll (requestsOf asks) ps = .ok offers ∧
      round ex ps = .ok (gs, ps') ∧ Delivered A (ex asks offers) gs ∧ (∀ p ∈ ps', Good A μ has p) ∧
      ps'.map Running.k = ps.map Running.k ∧ tot μ (allOf has ps') = tot μ (allOf has ps) := by
  obtain ⟨asks, a1, a2, a3, a4⟩ := askAll_ok h
  obtain ⟨offers, o1, o2, o3⟩ := offerAll_ok a3 h
  have F := hex asks offers a4 o3
  obtain ⟨gs, hs, s1, s2, s3, s5, s4⟩ := sellAll_ok a3 F h 0 offers (by simp) o2
  have hlt : ∀ d ∈ ex asks offers, d.src < ps.length := by
    intro d hd
    obtain ⟨os, k, -⟩ := F.offered d hd
    rw [o2.length_eq]
    exact (List.getElem?_eq_some_iff.1 k).1
  have hp : (gs.map Prod.fst).Perm (ex asks offers) := by rw [s3]; exact dealsOf_perm hlt
  obtain ⟨ps', t1, t2, t3, t4⟩ := settleAll_ok a3 F s2 hp h 0 asks hs (by simp) a2 s4
  refine ⟨asks, offers, gs, ps', a1, o1, ?_, ⟨hp, s2⟩, t2, t3, ?_⟩
  · simp [round, a1, o1, s1, t1, ok_bind, pure_eq_ok]
  · rw [givenTo_total, s5] at t4
    · linarith
    · intro g hg
      obtain ⟨as, k, -⟩ := F.asked g.1 (hp.mem_iff.1 (List.mem_map_of_mem hg))
      rw [a2.length_eq]
      exact (List.getElem?_eq_some_iff.1 k).1

end Cyc.Sim
