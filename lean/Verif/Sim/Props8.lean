import Verif.Sim.Props7

/-!
# Who trades with whom in closed simulations: property C137
-/

namespace Cyc.Sim

variable {A : Agreement}

theorem round_commods {ex : Exchange} (hex : ex.Fair) {ps ps' : List (Running act)}
    {gs : List (Deal × NMat)} (h : ∀ p ∈ ps, Good A qty holdings p)
    (hL : ∀ p ∈ ps, Sensible p.k ∧ ∃ t got gave, Lived p.k p.s t got gave)
    (hr : round ex ps = .ok (gs, ps')) : ∀ g ∈ gs, ∃ p q, ps[g.1.src]? = some p ∧
      ps[g.1.dst]? = some q ∧ g.1.commod ∈ sellsOf p.k ∧ g.1.commod ∈ buysOf q.k := by
  obtain ⟨asks, offers, gs', ps'', a1, o1, b3, ⟨b4, -⟩, -⟩ := round_ok hex h
  obtain ⟨rfl, rfl⟩ := Prod.mk.inj (Except.ok.inj (b3.symm.trans hr))
  obtain ⟨asks', a1', a2, a3, a4⟩ := askAll_ok h
  obtain rfl := Except.ok.inj (a1.symm.trans a1')
  obtain ⟨offers', o1', o2, o3⟩ := offerAll_ok a3 h
  obtain rfl := Except.ok.inj (o1.symm.trans o1')
  have F := hex _ _ a4 o3
  intro g hg
  have hd : g.1 ∈ ex asks offers := b4.subset (List.mem_map_of_mem hg)
  obtain ⟨os, h1, o, h2, h3, -⟩ := F.offered _ hd
  obtain ⟨as, h4, a, h5, h6, -⟩ := F.asked _ hd
  have l1 : asks.length = ps.length := a2.length_eq.symm
  have l2 : offers.length = ps.length := o2.length_eq.symm
  have hs : g.1.src < ps.length := l2 ▸ (List.getElem?_eq_some_iff.1 h1).1
  have ht : g.1.dst < ps.length := l1 ▸ (List.getElem?_eq_some_iff.1 h4).1
  obtain ⟨os', e1, e2⟩ := forall₂_get o2 (List.getElem?_eq_getElem hs)
  obtain ⟨as', e3, e4⟩ := forall₂_get a2 (List.getElem?_eq_getElem ht)
  obtain rfl := Option.some.inj (e1.symm.trans h1)
  obtain rfl := Option.some.inj (e3.symm.trans h4)
  obtain ⟨c1, _, got, gave, L⟩ := hL _ (List.getElem_mem hs)
  obtain ⟨c2, _, got', gave', L'⟩ := hL _ (List.getElem_mem ht)
  exact ⟨_, _, List.getElem?_eq_getElem hs, List.getElem?_eq_getElem ht,
    h3 ▸ offered_commods c1 L e2 o h2, asked_commods c2 L' e4 a (List.mem_of_getElem? h5) _ h6⟩

/-- C137. Whatever is handed over in a simulation is handed over in a commodity that the supplier sells
and the receiver buys according to their input.

Partial: as C125. -/
theorem C137_commodities_partial {ks : List Kind} (hks : ∀ k ∈ ks, Sensible k ∧ Suits A k)
    {ps : List (Running act)} (h : deployAll ks = .ok ps) {ex : Nat → Exchange}
    (hex : ∀ t, (ex t).Fair) : ∀ {n : Nat} {l : List (List (Deal × NMat))} {ps' : List (Running act)},
    simulate ex n 0 ps = .ok (l, ps') → ∀ gs ∈ l, ∀ g ∈ gs, ∃ k k', ks[g.1.src]? = some k ∧
      ks[g.1.dst]? = some k' ∧ g.1.commod ∈ sellsOf k ∧ g.1.commod ∈ buysOf k' := by
  obtain ⟨g0, kinds⟩ := deployAll_k h hks
  intro n
  induction n with
  | zero =>
    intro l ps' hs
    simp only [simulate, Except.ok.injEq, Prod.mk.injEq] at hs
    obtain ⟨rfl, rfl⟩ := hs
    simp
  | succ n ih =>
    intro l ps' hs gs hg g hgg
    obtain ⟨l₁, ps₁, gs', e1, e2, rfl⟩ := simulate_snoc hs
    rcases List.mem_append.1 hg with hg | hg
    · exact ih e1 gs hg g hgg
    · obtain rfl := List.mem_singleton.1 hg
      obtain ⟨l', ps'', r1, -, r2, r3, -⟩ := simulate_ok (A := A) hex n 0 g0
      obtain ⟨rfl, rfl⟩ := Prod.mk.inj (Except.ok.inj (r1.symm.trans e1))
      obtain ⟨p, q, h1, h2, h3, h4⟩ := round_commods (hex _) r2 (by
        intro p hp
        obtain ⟨x, hx⟩ := List.mem_iff_getElem?.1 hp
        obtain ⟨e, L⟩ := C132_lives_partial hks h hex e1 hx
        exact ⟨(hks _ (List.mem_of_getElem? e)).1, _, _, _, L⟩) e2 g hgg
      refine ⟨p.k, q.k, ?_, ?_, h3, h4⟩
      · rw [← kinds, ← r3, List.getElem?_map, h1]; rfl
      · rw [← kinds, ← r3, List.getElem?_map, h2]; rfl

/-- C137. A facility none of whose commodities anybody buys never gives anything.

Partial: as C125. -/
theorem C137_no_customers_partial {ks : List Kind} (hks : ∀ k ∈ ks, Sensible k ∧ Suits A k)
    {ps : List (Running act)} (h : deployAll ks = .ok ps) {ex : Nat → Exchange}
    (hex : ∀ t, (ex t).Fair) {n : Nat} {l : List (List (Deal × NMat))} {ps' : List (Running act)}
    (hs : simulate ex n 0 ps = .ok (l, ps')) {j : Nat} {k : Kind} (hj : ks[j]? = some k)
    (hn : ∀ x ∈ sellsOf k, ∀ k' ∈ ks, x ∉ buysOf k') : ∀ gs ∈ l, givenBy gs j = [] := by
  intro gs hg
  unfold givenBy
  rw [List.map_eq_nil_iff, List.filter_eq_nil_iff]
  intro g hgg e
  obtain ⟨k1, k2, h1, h2, h3, h4⟩ := C137_commodities_partial hks h hex hs gs hg g hgg
  rw [of_decide_eq_true e, hj] at h1
  obtain rfl := Option.some.inj h1
  exact hn _ h3 _ (List.mem_of_getElem? h2) h4

/-- C137. A facility none of whose commodities anybody sells is never given anything.

Partial: as C125. -/
theorem C137_no_suppliers_partial {ks : List Kind} (hks : ∀ k ∈ ks, Sensible k ∧ Suits A k)
    {ps : List (Running act)} (h : deployAll ks = .ok ps) {ex : Nat → Exchange}
    (hex : ∀ t, (ex t).Fair) {n : Nat} {l : List (List (Deal × NMat))} {ps' : List (Running act)}
    (hs : simulate ex n 0 ps = .ok (l, ps')) {j : Nat} {k : Kind} (hj : ks[j]? = some k)
    (hn : ∀ x ∈ buysOf k, ∀ k' ∈ ks, x ∉ sellsOf k') : ∀ gs ∈ l, givenTo gs j = [] := by
  intro gs hg
  unfold givenTo
  rw [List.map_eq_nil_iff, List.filter_eq_nil_iff]
  intro g hgg e
  obtain ⟨k1, k2, h1, h2, h3, h4⟩ := C137_commodities_partial hks h hex hs gs hg g hgg
  rw [of_decide_eq_true e, hj] at h2
  obtain rfl := Option.some.inj h2
  exact hn _ h4 _ (List.mem_of_getElem? h1) h3

/-- What the facilities at the positions of `G` have. -/
def heldBy (ps : List (Running act)) (G : Nat → Bool) : ℚ :=
  ((ps.zipIdx.filter fun x => G x.2).map fun x => totalQty (holdings x.1.k x.1.s)).sum

/-- What the prototypes at the positions of `G` start with. -/
def startBy (ks : List Kind) (G : Nat → Bool) : ℚ :=
  ((ks.zipIdx.filter fun x => G x.2).map fun x => startsWith x.1).sum

theorem sum_zipIdx {α : Type} (G : Nat → Bool) (f : α → ℚ) (l : List α) :
    ((l.zipIdx.filter fun x => G x.2).map fun x => f x.1).sum =
      (((List.range l.length).filter G).map fun j => (l[j]?.map f).getD 0).sum := by
  induction l using List.reverseRecOn with
  | nil => rfl
  | append_singleton l a ih =>
    rw [List.zipIdx_append, List.filter_append, List.map_append, List.sum_append, ih,
      List.length_append, List.length_singleton, List.range_succ, List.filter_append, List.map_append,
      List.sum_append]
    congr 1
    · refine congrArg List.sum (List.map_congr_left fun j hj => ?_)
      have := List.mem_range.1 (List.mem_of_mem_filter hj)
      rw [List.getElem?_append_left this]
    · by_cases h : G l.length <;> simp [h]

theorem sum_parts {α : Type} (G : Nat → Bool) (f : α → Nat) (v : α → ℚ) {n : Nat} (l : List α)
    (h : ∀ x ∈ l, f x < n) :
    (((List.range n).filter G).map fun j => ((l.filter fun x => f x = j).map v).sum).sum =
      ((l.filter fun x => G (f x)).map v).sum := by
  induction l with
  | nil => simp
  | cons a l ih =>
    have ha := h a (by simp)
    have e : ∀ j, ((((a :: l).filter fun x => f x = j).map v).sum : ℚ) =
        (if j = f a then v a else 0) + ((l.filter fun x => f x = j).map v).sum := by
      intro j
      by_cases hj : f a = j
      · simp [List.filter_cons, hj]
      · simp [hj, Ne.symm hj]
    simp only [e]
    rw [List.sum_map_add, ih fun x hx => h x (by simp [hx])]
    have e2 : (((List.range n).filter G).map fun j => if j = f a then v a else 0).sum =
        if G (f a) then v a else 0 := by
      clear e ih h
      induction n with
      | zero => omega
      | succ n ihn =>
        rw [List.range_succ, List.filter_append, List.map_append, List.sum_append]
        by_cases hn : f a = n
        · have : ((List.range n).filter G).map (fun j => if j = f a then v a else 0) =
              ((List.range n).filter G).map fun _ => (0 : ℚ) := by
            refine List.map_congr_left fun j hj => ?_
            have := List.mem_range.1 (List.mem_of_mem_filter hj)
            rw [if_neg (by omega)]
          rw [this, hn]
          by_cases hg : G n <;> simp [hg]
        · rw [ihn (by omega)]
          by_cases hg : G n <;> simp [hg, Ne.symm hn]
    rw [e2]
    by_cases hg : G (f a) <;> simp [hg]

/-- C137. If a group of facilities neither sells what others buy nor buys what others sell, it keeps its
total mass whatever happens elsewhere.

Partial: as C125. -/
theorem C137_separate_partial {ks : List Kind} (hks : ∀ k ∈ ks, Sensible k ∧ Suits A k)
    {ps : List (Running act)} (h : deployAll ks = .ok ps) {ex : Nat → Exchange}
    (hex : ∀ t, (ex t).Fair) {n : Nat} {l : List (List (Deal × NMat))} {ps' : List (Running act)}
    (hs : simulate ex n 0 ps = .ok (l, ps')) {G : Nat → Bool}
    (hG : ∀ (i j : Nat) k k', ks[i]? = some k → ks[j]? = some k' →
      (∃ x ∈ sellsOf k, x ∈ buysOf k') → G i = G j) : heldBy ps' G = startBy ks G := by
  have hlen : ps'.length = ks.length := by
    obtain ⟨g0, kinds⟩ := deployAll_k h hks
    obtain ⟨l', ps'', e1, -, -, e2, -⟩ := simulate_ok (A := A) hex n 0 g0
    obtain ⟨rfl, rfl⟩ := Prod.mk.inj (Except.ok.inj (e1.symm.trans hs))
    have := congrArg List.length (e2.trans kinds)
    simpa using this
  unfold heldBy startBy
  rw [sum_zipIdx G (fun p : Running act => totalQty (holdings p.k p.s)), sum_zipIdx G startsWith, hlen]
  have flat : ∀ (f : Deal × NMat → Nat) (j : Nat),
      totalQty (l.flatMap fun gs => (gs.filter fun g => f g = j).map Prod.snd) =
      ((l.flatten.filter fun g => f g = j).map fun g => qty g.2).sum := by
    intro f j
    unfold totalQty
    clear hs
    induction l with
    | nil => rfl
    | cons a l ih =>
      simp only [List.flatMap_cons, List.map_append, List.sum_append, ih, List.flatten_cons,
        List.filter_append, List.map_map]
      rfl
  have bal : ∀ j ∈ (List.range ks.length).filter G,
      (ps'[j]?.map fun p : Running act => totalQty (holdings p.k p.s)).getD 0 +
        ((l.flatten.filter fun g => g.1.src = j).map fun g => qty g.2).sum =
      (ks[j]?.map startsWith).getD 0 +
        ((l.flatten.filter fun g => g.1.dst = j).map fun g => qty g.2).sum := by
    intro j hj
    have hj := List.mem_range.1 (List.mem_of_mem_filter hj)
    have e1 : ks[j]? = some ks[j] := List.getElem?_eq_getElem hj
    obtain ⟨-, s, e2, -⟩ := lived_at hks h hex hs e1
    have := C132_balance_partial hks h hex hs e2
    rw [e1, e2]
    unfold givenBy givenTo at this
    rw [flat fun g => g.1.src, flat fun g => g.1.dst] at this
    exact this
  have trades : ∀ g ∈ l.flatten, g.1.src < ks.length ∧ g.1.dst < ks.length ∧ G g.1.src = G g.1.dst := by
    intro g hg
    obtain ⟨gs, h1, h2⟩ := List.mem_flatten.1 hg
    obtain ⟨k, k', h3, h4, h5, h6⟩ := C137_commodities_partial hks h hex hs gs h1 g h2
    exact ⟨(List.getElem?_eq_some_iff.1 h3).1, (List.getElem?_eq_some_iff.1 h4).1,
      hG _ _ k k' h3 h4 ⟨_, h5, h6⟩⟩
  have := congrArg List.sum (List.map_congr_left bal)
  rw [List.sum_map_add, List.sum_map_add,
    sum_parts G (fun g : Deal × NMat => g.1.src) (fun g => qty g.2) _ fun g hg => (trades g hg).1,
    sum_parts G (fun g : Deal × NMat => g.1.dst) (fun g => qty g.2) _ fun g hg => (trades g hg).2.1] at this
  have e : (l.flatten.filter fun g => G g.1.src) = l.flatten.filter fun g => G g.1.dst :=
    List.filter_congr fun g hg => (trades g hg).2.2
  rw [e] at this
  linarith

/-! ## An example -/

/-- A mine and a conversion beside a reactor with its source and its sink. -/
def exApart : List Kind :=
  [.source exMine, .conversion exConversion, .source exFuel, .reactor exReactor (fun _ => 1) exDec,
    .sink exPool]

theorem exApart_sensible : ∀ k ∈ exApart, Sensible k ∧ Suits exOpen k := by
  intro k hk
  simp only [exApart, List.mem_cons, List.not_mem_nil, or_false] at hk
  rcases hk with rfl | rfl | rfl | rfl | rfl
  · exact ⟨exKinds_sensible _ (by simp [exKinds]), fun _ => True, OfSource.blendable_true,
      fun _ _ => trivial, fun _ _ _ _ => trivial, fun _ _ _ => trivial⟩
  · exact ⟨exKinds_sensible _ (by simp [exKinds]), fun _ _ _ _ => trivial, fun _ => True,
      OfSource.blendable_true, fun _ _ _ _ _ => trivial, fun _ _ _ => trivial⟩
  · exact exFleet_sensible _ (by simp [exFleet])
  · exact exFleet_sensible _ (by simp [exFleet])
  · exact exFleet_sensible _ (by simp [exFleet])

/-- Nobody buys what the conversion sells, and mine and conversion keep their 500 kg. -/
example : ∃ ps l ps', deployAll exApart = .ok ps ∧ simulate (fun _ => greedy) 5 0 ps = .ok (l, ps') ∧
    (∀ gs ∈ l, givenBy gs 1 = []) ∧ heldBy ps' (fun j => decide (j < 2)) = 500 := by
  obtain ⟨ps, h1, h2⟩ := C125_runs_partial exApart_sensible
  obtain ⟨l, ps', h3, -⟩ := h2 (fun _ => greedy) (fun _ => greedy_fair) 5
  refine ⟨ps, l, ps', h1, h3, ?_, ?_⟩
  · exact C137_no_customers_partial exApart_sensible h1 (fun _ => greedy_fair) h3 (j := 1) rfl (by
      intro x hx k hk
      simp only [sellsOf, exConversion, List.mem_singleton] at hx
      subst hx
      simp only [exApart, List.mem_cons, List.not_mem_nil, or_false] at hk
      rcases hk with rfl | rfl | rfl | rfl | rfl <;> decide)
  · rw [C137_separate_partial exApart_sensible h1 (fun _ => greedy_fair) h3]
    · decide +kernel
    · intro i j k k' hi hj
      rcases i with _ | _ | _ | _ | _ | i <;> rcases j with _ | _ | _ | _ | _ | j <;>
        simp only [exApart, List.getElem?_cons_zero, List.getElem?_cons_succ, List.getElem?_nil,
          Option.some.injEq, reduceCtorEq] at hi hj <;>
        (subst hi hj; decide)

/-- All goes on in both parts: who gives whom how much in the second and the third step. -/
example : ((deployAll exApart >>= simulate (fun _ => greedy) 3 0).toOption.map fun r =>
      (r.1.drop 1).map fun gs => gs.map fun g => (g.1.src, g.1.dst, qty g.2)) =
    some [[(0, 1, 150)], [(0, 1, 140), (2, 3, 12), (3, 4, 12)]] := by
  decide +kernel

end Cyc.Sim
