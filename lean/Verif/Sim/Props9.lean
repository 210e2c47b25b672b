import Verif.Sim.FlowLemmas

/-!
# All that can be traded is traded: property C138
-/

namespace Cyc.Sim

variable {A : Agreement}

theorem simulate_at {ex : Nat → Exchange} {ps : List (Running act)} : ∀ {n : Nat}
    {l : List (List (Deal × NMat))} {ps' : List (Running act)}, simulate ex n 0 ps = .ok (l, ps') →
    l.length = n ∧ ∀ (t : Nat) gs, l[t]? = some gs → ∃ ps₁ ps₂,
      simulate ex t 0 ps = .ok (l.take t, ps₁) ∧ round (ex t) ps₁ = .ok (gs, ps₂) := by
  intro n
  induction n with
  | zero =>
    intro l ps' hs
    simp only [simulate, Except.ok.injEq, Prod.mk.injEq] at hs
    obtain ⟨rfl, rfl⟩ := hs
    simp
  | succ n ih =>
    intro l ps' hs
    obtain ⟨l₁, ps₁, gs', e1, e2, rfl⟩ := simulate_snoc hs
    obtain ⟨h1, h2⟩ := ih e1
    refine ⟨by simp [h1], fun t gs ht => ?_⟩
    rcases Nat.lt_trichotomy t n with hlt | rfl | hgt
    · rw [List.getElem?_append_left (by omega)] at ht
      rw [List.take_append_of_le_length (by omega)]
      exact h2 t gs ht
    · rw [List.getElem?_append_right (by omega), h1] at ht
      simp only [Nat.sub_self, List.getElem?_cons_zero, Option.some.injEq] at ht
      subst ht
      rw [List.take_append_of_le_length (by omega), List.take_of_length_le (by omega)]
      rw [Nat.zero_add] at e2
      exact ⟨_, _, e1, e2⟩
    · rw [List.getElem?_eq_none (by simp; omega)] at ht
      cases ht

theorem source_stock {ks : List Kind} (hks : ∀ k ∈ ks, Sensible k ∧ Suits A k)
    {ps : List (Running act)} (h : deployAll ks = .ok ps) {ex : Nat → Exchange}
    (hex : ∀ t, (ex t).Fair) {n : Nat} {l : List (List (Deal × NMat))} {ps' : List (Running act)}
    (hs : simulate ex n 0 ps = .ok (l, ps')) {i : Nat} {f : Source.Cfg}
    (hi : ks[i]? = some (.source f)) : ∃ s : Source.State, ps'[i]? = some ⟨.source f, s⟩ ∧
      Source.stock s = f.size - sent l i := by
  obtain ⟨hc, s, h1, L⟩ := lived_at hks h hex hs hi
  have hb := C132_balance_partial hks h hex hs h1
  refine ⟨s, h1, ?_⟩
  have hr : totalQty (l.flatMap fun gs => givenTo gs i) = 0 := by
    obtain ⟨-, -, -, -, -, -, -, hg, -⟩ := L
    rw [List.flatMap_def, hg]
    simp [totalQty]
  rw [hr, add_zero] at hb
  change totalQty s.inventory.items + sent l i = f.size at hb
  change totalQty s.inventory.items = _
  linarith

/-- A step of a simulation: what sources give and sinks are given, and that none of them could do more. -/
theorem step_flow {ks : List Kind} (hks : ∀ k ∈ ks, Sensible k ∧ Suits A k)
    {ps : List (Running act)} (h : deployAll ks = .ok ps) {ex : Nat → Exchange}
    (hex : ∀ t, (ex t).Fair) (hth : ∀ t, (ex t).Thorough) {n : Nat} {l : List (List (Deal × NMat))}
    {ps' : List (Running act)} (hs : simulate ex n 0 ps = .ok (l, ps')) {t : Nat}
    {gs : List (Deal × NMat)} (ht : l[t]? = some gs) :
    (∀ (i : Nat) f, ks[i]? = some (.source f) → totalQty (givenBy gs i) ≤ left f (sent (l.take t) i)) ∧
    (∀ (j : Nat) w, ks[j]? = some (.sink w) →
      totalQty (givenTo gs j) ≤ wanted w (received (l.take t) j)) ∧
    ∀ (i j : Nat) f w, ks[i]? = some (.source f) → ks[j]? = some (.sink w) → f.lo ≤ 0 →
      f.outcommod ∈ w.commods → left f (sent (l.take t) i) ≤ totalQty (givenBy gs i) ∨
        wanted w (received (l.take t) j) ≤ totalQty (givenTo gs j) := by
  obtain ⟨g0, kinds⟩ := deployAll_k h hks
  obtain ⟨-, at'⟩ := simulate_at hs
  obtain ⟨ps₁, ps₂, e1, e2⟩ := at' t gs ht
  obtain ⟨l', ps'', r1, -, r2, -⟩ := simulate_ok (A := A) hex t 0 g0
  obtain ⟨-, e3⟩ := Prod.mk.inj (Except.ok.inj (r1.symm.trans e1))
  rw [e3] at r2
  obtain ⟨k1, k2, k3⟩ := round_flow (t := t) (hex t) (hth t) r2 e2
  have src : ∀ {i : Nat} {f}, ks[i]? = some (.source f) → Sensible (.source f) ∧
      ∃ s : Source.State, ps₁[i]? = some ⟨.source f, s⟩ ∧
        Source.stock s = f.size - sent (l.take t) i :=
    fun hi => ⟨(hks _ (List.mem_of_getElem? hi)).1, source_stock hks h hex e1 hi⟩
  have snk : ∀ {j : Nat} {w}, ks[j]? = some (.sink w) → Sensible (.sink w) ∧
      ∃ (s : ℤ × Sink.State) (got gave : List (List NMat)), ps₁[j]? = some ⟨.sink w, s⟩ ∧
        Lived (.sink w) s t got gave ∧ totalQty got.flatten = received (l.take t) j := by
    intro j w hj
    obtain ⟨c1, s, c2, c3⟩ := lived_at hks h hex e1 hj
    exact ⟨c1, s, _, _, c2, c3, by rw [received, List.flatMap_def]⟩
  refine ⟨?_, ?_, ?_⟩
  · intro i f hi
    obtain ⟨c1, s, c2, c3⟩ := src hi
    exact k1 i f s _ c2 c1 c3
  · intro j w hj
    obtain ⟨c1, s, got, gave, c2, c3, c4⟩ := snk hj
    rw [← c4]
    exact k2 j w s got gave c2 c1 c3
  · intro i j f w hi hj hlo hx
    obtain ⟨c1, s, c2, c3⟩ := src hi
    obtain ⟨d1, s', got, gave, d2, d3, d4⟩ := snk hj
    rw [← d4]
    exact k3 i j f s _ w s' got gave c2 c1 c3 hlo d2 d1 d3 hx

/-- C138. In every step of a simulation, either all sources of a commodity give all they can, or all
sinks for it are given all they take.

Partial: as C125. -/
theorem C138_nothing_left_partial {ks : List Kind} (hks : ∀ k ∈ ks, Sensible k ∧ Suits A k)
    {ps : List (Running act)} (h : deployAll ks = .ok ps) {ex : Nat → Exchange}
    (hex : ∀ t, (ex t).Fair) (hth : ∀ t, (ex t).Thorough) {n : Nat} {l : List (List (Deal × NMat))}
    {ps' : List (Running act)} (hs : simulate ex n 0 ps = .ok (l, ps')) {t : Nat}
    {gs : List (Deal × NMat)} (ht : l[t]? = some gs) {x : String}
    (hlo : ∀ f, Kind.source f ∈ ks → f.outcommod = x → f.lo ≤ 0) :
    (∀ (i : Nat) f, ks[i]? = some (.source f) → f.outcommod = x →
      totalQty (givenBy gs i) = left f (sent (l.take t) i)) ∨
    ∀ (j : Nat) w, ks[j]? = some (.sink w) → x ∈ w.commods →
      totalQty (givenTo gs j) = wanted w (received (l.take t) j) := by
  obtain ⟨k1, k2, k3⟩ := step_flow hks h hex hth hs ht
  by_contra hno
  push Not at hno
  obtain ⟨⟨i, f, hi, rfl, n1⟩, ⟨j, w, hj, hx, n2⟩⟩ := hno
  rcases k3 i j f w hi hj (hlo f (List.mem_of_getElem? hi) rfl) hx with h1 | h1
  · exact n1 (le_antisymm (k1 i f hi) h1)
  · exact n2 (le_antisymm (k2 j w hj) h1)

theorem sum_zipIdx' {α : Type} (F : α → Nat → ℚ) (l : List α) :
    (l.zipIdx.map fun y => F y.1 y.2).sum =
      ((List.range l.length).map fun j => (l[j]?.map fun a => F a j).getD 0).sum := by
  induction l using List.reverseRecOn with
  | nil => rfl
  | append_singleton l a ih =>
    rw [List.zipIdx_append, List.map_append, List.sum_append, ih,
      List.length_append, List.length_singleton, List.range_succ, List.map_append, List.sum_append]
    congr 1
    · refine congrArg List.sum (List.map_congr_left fun j hj => ?_)
      rw [List.getElem?_append_left (List.mem_range.1 hj)]
    · simp

/-- What is traded in a commodity, by suppliers and by receivers. -/
theorem traded_parts {gs : List (Deal × NMat)} {x : String} {n : Nat} (f : Deal × NMat → Nat)
    (h : ∀ g ∈ gs, f g < n) : traded gs x = ((List.range n).map fun j =>
      (((gs.filter fun g => g.1.commod = x).filter fun g => f g = j).map fun g => qty g.2).sum).sum := by
  have := sum_parts (fun _ => true) f (fun g => qty g.2) (n := n) (gs.filter fun g => g.1.commod = x)
    (fun g hg => h g (List.mem_of_mem_filter hg))
  rw [List.filter_true, List.filter_true] at this
  rw [this]; rfl

/-- The parts in terms of the prototypes. -/
theorem step_parts {ks : List Kind} {gs : List (Deal × NMat)} {x : String}
    (hS : Simple ks x) (hc : ∀ g ∈ gs, ∃ k k', ks[g.1.src]? = some k ∧
      ks[g.1.dst]? = some k' ∧ g.1.commod ∈ sellsOf k ∧ g.1.commod ∈ buysOf k') :
    traded gs x = ((List.range ks.length).map fun i => (ks[i]?.map fun k => match k with
      | .source f => if f.outcommod = x then totalQty (givenBy gs i) else 0
      | _ => 0).getD 0).sum ∧
    traded gs x = ((List.range ks.length).map fun j => (ks[j]?.map fun k => match k with
      | .sink w => if x ∈ w.commods then totalQty (givenTo gs j) else 0
      | _ => 0).getD 0).sum := by
  constructor
  · rw [traded_parts (fun g => g.1.src) fun g hg => by
      obtain ⟨k, k', h1, -⟩ := hc g hg
      exact (List.getElem?_eq_some_iff.1 h1).1]
    refine congrArg List.sum (List.map_congr_left fun i hi => ?_)
    obtain ⟨k, hi⟩ : ∃ k, ks[i]? = some k :=
      ⟨_, List.getElem?_eq_getElem (List.mem_range.1 hi)⟩
    rw [hi, Option.map_some, Option.getD_some]
    have none_of : (x ∉ sellsOf k) →
        (((gs.filter fun g => g.1.commod = x).filter fun g => g.1.src = i).map fun g => qty g.2).sum = 0 := by
      intro hn
      rw [List.filter_filter, List.filter_eq_nil_iff.2]
      · rfl
      · intro g hg e
        simp only [Bool.and_eq_true, decide_eq_true_eq] at e
        obtain ⟨k₁, k', h1, -, h2, -⟩ := hc g hg
        rw [e.1, hi] at h1
        obtain rfl := Option.some.inj h1
        exact hn (e.2 ▸ h2)
    have hmem : k ∈ ks := List.mem_of_getElem? hi
    have other : k.isSource = false → x ∉ sellsOf k := fun e hx => by
      have := hS.sold k hmem hx
      rw [e] at this; cases this
    cases k with
    | source f =>
      dsimp only
      by_cases e : f.outcommod = x
      · rw [if_pos e]
        unfold givenBy totalQty
        rw [List.map_map, List.filter_filter]
        congr 2
        refine List.filter_congr fun g hg => ?_
        rw [Bool.eq_iff_iff]
        simp only [Bool.and_eq_true, decide_eq_true_eq]
        refine ⟨fun h => h.1, fun h => ⟨h, ?_⟩⟩
        obtain ⟨k₁, k', h1, -, h2, -⟩ := hc g hg
        rw [h, hi] at h1
        obtain rfl := Option.some.inj h1
        rw [← e]
        simpa [sellsOf] using h2
      · rw [if_neg e]
        exact none_of fun h => e (List.mem_singleton.1 h).symm
    | _ => exact none_of (other rfl)
  · rw [traded_parts (fun g => g.1.dst) fun g hg => by
      obtain ⟨k, k', -, h1, -⟩ := hc g hg
      exact (List.getElem?_eq_some_iff.1 h1).1]
    refine congrArg List.sum (List.map_congr_left fun i hi => ?_)
    obtain ⟨k, hi⟩ : ∃ k, ks[i]? = some k :=
      ⟨_, List.getElem?_eq_getElem (List.mem_range.1 hi)⟩
    rw [hi, Option.map_some, Option.getD_some]
    have none_of : (x ∉ buysOf k) →
        (((gs.filter fun g => g.1.commod = x).filter fun g => g.1.dst = i).map fun g => qty g.2).sum = 0 := by
      intro hn
      rw [List.filter_filter, List.filter_eq_nil_iff.2]
      · rfl
      · intro g hg e
        simp only [Bool.and_eq_true, decide_eq_true_eq] at e
        obtain ⟨k₁, k', -, h1, -, h2⟩ := hc g hg
        rw [e.1, hi] at h1
        obtain rfl := Option.some.inj h1
        exact hn (e.2 ▸ h2)
    have hmem : k ∈ ks := List.mem_of_getElem? hi
    have other : k.isSinkFor x = false → x ∉ buysOf k := fun e hx => by
      have := hS.bought k hmem hx
      rw [e] at this; cases this
    cases k with
    | sink w =>
      dsimp only
      by_cases e : x ∈ w.commods
      · rw [if_pos e]
        have hw : w.commods = [x] := by
          have := hS.bought _ hmem e
          simpa [Kind.isSinkFor] using this
        unfold givenTo totalQty
        rw [List.map_map, List.filter_filter]
        congr 2
        refine List.filter_congr fun g hg => ?_
        rw [Bool.eq_iff_iff]
        simp only [Bool.and_eq_true, decide_eq_true_eq]
        refine ⟨fun h => h.1, fun h => ⟨h, ?_⟩⟩
        obtain ⟨k₁, k', -, h1, -, h2⟩ := hc g hg
        rw [h, hi] at h1
        obtain rfl := Option.some.inj h1
        simpa [buysOf, hw] using h2
      · rw [if_neg e]
        exact none_of e
    | _ => exact none_of (other rfl)

/-- C138. Where only sources sell a commodity and only sinks for it buy it, the amount that is traded in
a step is the smaller one of what the sources can give and what the sinks take.

Partial: as C125. -/
theorem C138_flow_partial {ks : List Kind} (hks : ∀ k ∈ ks, Sensible k ∧ Suits A k)
    {ps : List (Running act)} (h : deployAll ks = .ok ps) {ex : Nat → Exchange}
    (hex : ∀ t, (ex t).Fair) (hth : ∀ t, (ex t).Thorough) {n : Nat} {l : List (List (Deal × NMat))}
    {ps' : List (Running act)} (hs : simulate ex n 0 ps = .ok (l, ps')) {t : Nat}
    {gs : List (Deal × NMat)} (ht : l[t]? = some gs) {x : String} (hS : Simple ks x) :
    traded gs x = min (supply ks (l.take t) x) (demand ks (l.take t) x) := by
  obtain ⟨k1, k2, -⟩ := step_flow hks h hex hth hs ht
  obtain ⟨p1, p2⟩ := step_parts hS (C137_commodities_partial hks h hex hs gs (List.mem_of_getElem? ht))
  have eS : supply ks (l.take t) x = _ := sum_zipIdx' (canGive (l.take t) x) ks
  have eD : demand ks (l.take t) x = _ := sum_zipIdx' (canTake (l.take t) x) ks
  apply le_antisymm
  · apply le_min
    · rw [eS, p1]
      refine List.sum_le_sum fun i hi => ?_
      obtain ⟨k, hi⟩ : ∃ k, ks[i]? = some k :=
        ⟨_, List.getElem?_eq_getElem (List.mem_range.1 hi)⟩
      rw [hi]
      cases k with
      | source f =>
        simp only [Option.map_some, Option.getD_some, canGive]
        split
        · exact k1 i f hi
        · exact le_refl _
      | _ => exact le_refl _
    · rw [eD, p2]
      refine List.sum_le_sum fun j hj => ?_
      obtain ⟨k, hj⟩ : ∃ k, ks[j]? = some k :=
        ⟨_, List.getElem?_eq_getElem (List.mem_range.1 hj)⟩
      rw [hj]
      cases k with
      | sink f =>
        simp only [Option.map_some, Option.getD_some, canTake]
        split
        · exact k2 j f hj
        · exact le_refl _
      | _ => exact le_refl _
  · rcases C138_nothing_left_partial hks h hex hth hs ht hS.amounts with a | a
    · refine (min_le_left _ _).trans ?_
      rw [eS, p1]
      refine List.sum_le_sum fun i hi => ?_
      obtain ⟨k, hi⟩ : ∃ k, ks[i]? = some k :=
        ⟨_, List.getElem?_eq_getElem (List.mem_range.1 hi)⟩
      rw [hi]
      cases k with
      | source f =>
        simp only [Option.map_some, Option.getD_some, canGive]
        split
        · rename_i e; exact (a i f hi e).ge
        · exact le_refl _
      | _ => exact le_refl _
    · refine (min_le_right _ _).trans ?_
      rw [eD, p2]
      refine List.sum_le_sum fun j hj => ?_
      obtain ⟨k, hj⟩ : ∃ k, ks[j]? = some k :=
        ⟨_, List.getElem?_eq_getElem (List.mem_range.1 hj)⟩
      rw [hj]
      cases k with
      | sink f =>
        simp only [Option.map_some, Option.getD_some, canTake]
        split
        · rename_i e; exact (a j f hj e).ge
        · exact le_refl _
      | _ => exact le_refl _

theorem sent_append (l : List (List (Deal × NMat))) (gs : List (Deal × NMat)) (i : Nat) :
    sent (l ++ [gs]) i = sent l i + totalQty (givenBy gs i) := by
  simp [sent, totalQty_append]

theorem received_append (l : List (List (Deal × NMat))) (gs : List (Deal × NMat)) (i : Nat) :
    received (l ++ [gs]) i = received l i + totalQty (givenTo gs i) := by
  simp [received, totalQty_append]

theorem take_next {α : Type} {l : List α} {t : Nat} {a : α} (h : l[t]? = some a) :
    l.take (t + 1) = l.take t ++ [a] := by
  rw [List.take_add_one, h]; rfl

theorem left_le (f : Source.Cfg) (hf : 0 ≤ f.throughput) (q : ℚ) : left f q ≤ f.throughput := by
  unfold left
  split
  · exact hf
  · exact min_le_left _ _

theorem wanted_le (w : Sink.Cfg) (hw : 0 ≤ w.capacity) (q : ℚ) : wanted w q ≤ w.capacity := by
  unfold wanted
  split
  · exact min_le_left _ _
  · exact hw

/-- What a source has sent and a sink has received after `t` steps. -/
theorem paces {ks : List Kind} (hks : ∀ k ∈ ks, Sensible k ∧ Suits A k)
    {ps : List (Running act)} (h : deployAll ks = .ok ps) {ex : Nat → Exchange}
    (hex : ∀ t, (ex t).Fair) (hth : ∀ t, (ex t).Thorough) {n : Nat} {l : List (List (Deal × NMat))}
    {ps' : List (Running act)} (hs : simulate ex n 0 ps = .ok (l, ps')) {t : Nat} (ht : t ≤ n) :
    (∀ (i : Nat) f, ks[i]? = some (.source f) → sent (l.take t) i ≤ t * f.throughput) ∧
    ∀ (j : Nat) w, ks[j]? = some (.sink w) → received (l.take t) j ≤ t * w.capacity := by
  obtain ⟨hlen, -⟩ := simulate_at hs
  induction t with
  | zero => simp [sent, received, totalQty]
  | succ t ih =>
    obtain ⟨i1, i2⟩ := ih (by omega)
    have hg : l[t]? = some l[t] := List.getElem?_eq_getElem (by omega)
    obtain ⟨k1, k2, -⟩ := step_flow hks h hex hth hs hg
    rw [take_next hg]
    refine ⟨fun i f hi => ?_, fun j w hj => ?_⟩
    · have := left_le f (hks _ (List.mem_of_getElem? hi)).1.2.1 (sent (l.take t) i)
      have := k1 i f hi
      have := i1 i f hi
      rw [sent_append]; push_cast; linarith
    · have := wanted_le w (hks _ (List.mem_of_getElem? hj)).1.1.capacity (received (l.take t) j)
      have := k2 j w hj
      have := i2 j w hj
      rw [received_append]; push_cast; linarith

/-- The sinks for the commodity `x` have room for `n` steps. -/
def Roomy (ks : List Kind) (x : String) (n : Nat) : Prop :=
  ∀ w, Kind.sink w ∈ ks → x ∈ w.commods → w.eps < w.capacity ∧ n * w.capacity ≤ w.maxInv

/-- The sources of the commodity `x` have material for `n` steps. -/
def Ample (ks : List Kind) (x : String) (n : Nat) : Prop :=
  ∀ f, Kind.source f ∈ ks → f.outcommod = x → f.eps ≤ f.throughput ∧ n * f.throughput ≤ f.size

theorem sum_fst {α : Type} (g : α → ℚ) (l : List α) :
    (l.map g).sum = (l.zipIdx.map fun y => g y.1).sum := by
  conv_lhs => rw [← List.zipIdx_map_fst 0 l, List.map_map]
  rfl

theorem demand_roomy {ks : List Kind} (hks : ∀ k ∈ ks, Sensible k ∧ Suits A k)
    {ps : List (Running act)} (h : deployAll ks = .ok ps) {ex : Nat → Exchange}
    (hex : ∀ t, (ex t).Fair) (hth : ∀ t, (ex t).Thorough) {n : Nat} {l : List (List (Deal × NMat))}
    {ps' : List (Running act)} (hs : simulate ex n 0 ps = .ok (l, ps')) {t : Nat} (ht : t < n)
    {x : String} (hR : Roomy ks x n) : demand ks (l.take t) x = (ks.map (takeRate x)).sum := by
  obtain ⟨-, p2⟩ := paces hks h hex hth hs ht.le
  rw [demand, sum_fst (takeRate x) ks]
  refine congrArg List.sum (List.map_congr_left fun y hy => ?_)
  obtain ⟨k, j⟩ := y
  have hj : ks[j]? = some k := List.mem_zipIdx_iff_getElem?.1 hy
  cases k with
  | sink w =>
    simp only [canTake, takeRate]
    split
    · rename_i e
      obtain ⟨r1, r2⟩ := hR w (List.mem_of_getElem? hj) e
      have h0 := (hks _ (List.mem_of_getElem? hj)).1.1.capacity
      have h1 := p2 j w hj
      have h2 : ((t : ℚ) + 1) * w.capacity ≤ n * w.capacity :=
        mul_le_mul_of_nonneg_right (by exact_mod_cast ht) h0
      have h3 : min w.capacity (w.maxInv - received (l.take t) j) = w.capacity :=
        min_eq_left (by linarith)
      rw [wanted, h3, if_pos r1]
    · rfl
  | _ => rfl

theorem supply_ample {ks : List Kind} (hks : ∀ k ∈ ks, Sensible k ∧ Suits A k)
    {ps : List (Running act)} (h : deployAll ks = .ok ps) {ex : Nat → Exchange}
    (hex : ∀ t, (ex t).Fair) (hth : ∀ t, (ex t).Thorough) {n : Nat} {l : List (List (Deal × NMat))}
    {ps' : List (Running act)} (hs : simulate ex n 0 ps = .ok (l, ps')) {t : Nat} (ht : t < n)
    {x : String} (hR : Ample ks x n) : supply ks (l.take t) x = (ks.map (giveRate x)).sum := by
  obtain ⟨p1, -⟩ := paces hks h hex hth hs ht.le
  rw [supply, sum_fst (giveRate x) ks]
  refine congrArg List.sum (List.map_congr_left fun y hy => ?_)
  obtain ⟨k, j⟩ := y
  have hj : ks[j]? = some k := List.mem_zipIdx_iff_getElem?.1 hy
  cases k with
  | source f =>
    simp only [canGive, giveRate]
    split
    · rename_i e
      obtain ⟨r1, r2⟩ := hR f (List.mem_of_getElem? hj) e
      have h0 := (hks _ (List.mem_of_getElem? hj)).1.2.1
      have h1 := p1 j f hj
      have h2 : ((t : ℚ) + 1) * f.throughput ≤ n * f.throughput :=
        mul_le_mul_of_nonneg_right (by exact_mod_cast ht) h0
      have h3 : min f.throughput (f.size - sent (l.take t) j) = f.throughput :=
        min_eq_left (by linarith)
      rw [left, h3, if_neg (not_lt.2 r1)]
    · rfl
  | _ => rfl

/-- C138. As long as the sources of a commodity have material and the sinks for it have room, the same
is traded in every step: the smaller one of all throughputs and all capacities.

Partial: as C125. -/
theorem C138_steady_partial {ks : List Kind} (hks : ∀ k ∈ ks, Sensible k ∧ Suits A k)
    {ps : List (Running act)} (h : deployAll ks = .ok ps) {ex : Nat → Exchange}
    (hex : ∀ t, (ex t).Fair) (hth : ∀ t, (ex t).Thorough) {n : Nat} {l : List (List (Deal × NMat))}
    {ps' : List (Running act)} (hs : simulate ex n 0 ps = .ok (l, ps')) {x : String}
    (hS : Simple ks x) (hA : Ample ks x n) (hR : Roomy ks x n) : ∀ gs ∈ l,
    traded gs x = min (ks.map (giveRate x)).sum (ks.map (takeRate x)).sum := by
  intro gs hg
  obtain ⟨t, ht⟩ := List.getElem?_of_mem hg
  have hlt : t < n := (simulate_at hs).1 ▸ (List.getElem?_eq_some_iff.1 ht).1
  rw [C138_flow_partial hks h hex hth hs ht hS, supply_ample hks h hex hth hs hlt hA,
    demand_roomy hks h hex hth hs hlt hR]

theorem eq_of_sum_le {α : Type} {f g : α → ℚ} : ∀ {l : List α}, (∀ x ∈ l, f x ≤ g x) →
    (l.map g).sum ≤ (l.map f).sum → ∀ x ∈ l, f x = g x := by
  intro l
  induction l with
  | nil => simp
  | cons a l ih =>
    intro h1 h2 x hx
    simp only [List.map_cons, List.sum_cons] at h2
    have h3 := h1 a (by simp)
    have h4 : (l.map f).sum ≤ (l.map g).sum := List.sum_le_sum fun y hy => h1 y (by simp [hy])
    rcases List.mem_cons.1 hx with rfl | hx
    · linarith
    · exact ih (fun y hy => h1 y (by simp [hy])) (by linarith) x hx

/-- C138. If the sinks for a commodity have room and together take as much in a step as its sources
give, every source gives its throughput in every step until its stock is used up.

Partial: as C125. -/
theorem C138_ships_partial {ks : List Kind} (hks : ∀ k ∈ ks, Sensible k ∧ Suits A k)
    {ps : List (Running act)} (h : deployAll ks = .ok ps) {ex : Nat → Exchange}
    (hex : ∀ t, (ex t).Fair) (hth : ∀ t, (ex t).Thorough) {n : Nat} {l : List (List (Deal × NMat))}
    {ps' : List (Running act)} (hs : simulate ex n 0 ps = .ok (l, ps')) {x : String}
    (hS : Simple ks x) (hR : Roomy ks x n)
    (hle : (ks.map (giveRate x)).sum ≤ (ks.map (takeRate x)).sum) {i : Nat} {f : Source.Cfg}
    (hi : ks[i]? = some (.source f)) (hx : f.outcommod = x) (he : f.eps ≤ f.throughput) :
    sent l i ≤ n * f.throughput ∧ sent l i ≤ f.size ∧
      (sent l i = n * f.throughput ∨ f.size - f.eps < sent l i) := by
  obtain ⟨hlen, -⟩ := simulate_at hs
  have hf := (hks _ (List.mem_of_getElem? hi)).1
  -- in every step it gives what it can
  have gives : ∀ (t : Nat) gs, l[t]? = some gs →
      totalQty (givenBy gs i) = left f (sent (l.take t) i) := by
    intro t gs ht
    have hlt : t < n := hlen ▸ (List.getElem?_eq_some_iff.1 ht).1
    obtain ⟨k1, -⟩ := step_flow hks h hex hth hs ht
    obtain ⟨p1, -⟩ := step_parts hS
      (C137_commodities_partial hks h hex hs gs (List.mem_of_getElem? ht))
    have eS : supply ks (l.take t) x = _ := sum_zipIdx' (canGive (l.take t) x) ks
    have hsup : supply ks (l.take t) x ≤ (ks.map (giveRate x)).sum := by
      rw [supply, sum_fst (giveRate x) ks]
      refine List.sum_le_sum fun y hy => ?_
      obtain ⟨k, j⟩ := y
      have hj : ks[j]? = some k := List.mem_zipIdx_iff_getElem?.1 hy
      cases k with
      | source f =>
        simp only [canGive, giveRate]
        split
        · exact left_le f (hks _ (List.mem_of_getElem? hj)).1.2.1 _
        · exact le_refl _
      | _ => exact le_refl _
    have e := C138_flow_partial hks h hex hth hs ht hS
    rw [demand_roomy hks h hex hth hs hlt hR, min_eq_left (hsup.trans hle), eS, p1] at e
    have := eq_of_sum_le (l := List.range ks.length) (fun j hj => ?_) e.ge i
      (List.mem_range.2 (List.getElem?_eq_some_iff.1 hi).1)
    · rw [hi] at this
      simpa [canGive, hx] using this
    · obtain ⟨k, hj⟩ : ∃ k, ks[j]? = some k := ⟨_, List.getElem?_eq_getElem (List.mem_range.1 hj)⟩
      rw [hj]
      cases k with
      | source f =>
        simp only [Option.map_some, Option.getD_some, canGive]
        split
        · exact k1 j f hj
        · exact le_refl _
      | _ => exact le_refl _
  have key : ∀ t ≤ n, sent (l.take t) i ≤ t * f.throughput ∧ sent (l.take t) i ≤ f.size ∧
      (sent (l.take t) i = t * f.throughput ∨ f.size - f.eps < sent (l.take t) i) := by
    intro t
    induction t with
    | zero =>
      intro _
      simpa [sent, totalQty] using hf.1
    | succ t ih =>
      intro ht
      have hg : l[t]? = some l[t] := List.getElem?_eq_getElem (by omega)
      have hgive := gives t _ hg
      obtain ⟨ih1, ih2, ih⟩ := ih (by omega)
      have h0 := hf.2.1
      have h1 := hf.2.2.1
      rw [take_next hg, sent_append, hgive]
      push_cast
      generalize sent (l.take t) i = q at ih1 ih2 ih
      unfold left
      by_cases c1 : f.throughput ≤ f.size - q
      · rw [min_eq_left c1, if_neg (not_lt.2 he)]
        refine ⟨by linarith, by linarith, ?_⟩
        rcases ih with ih | ih
        · left; rw [ih]; ring
        · linarith
      · push Not at c1
        rw [min_eq_right c1.le]
        split
        · exact ⟨by linarith, by linarith, Or.inr (by linarith)⟩
        · exact ⟨by linarith, by linarith, Or.inr (by linarith)⟩
  have := key n le_rfl
  rwa [List.take_of_length_le hlen.le] at this

/-! ## An example -/

/-- A smaller mine. -/
def exPit : Source.Cfg :=
  { exMine with
    size := 100
    throughput := 40 }

/-- A sink for ore. -/
def exHeap (c : ℚ) : Sink.Cfg :=
  { exSink with
    commods := ["ore"]
    capacity := c }

/-- Two mines and two sinks. -/
def exOres (c : ℚ) : List Kind := [.source exMine, .sink (exHeap 120), .source exPit, .sink (exHeap c)]

theorem exOres_sensible {c : ℚ} (hc : 0 ≤ c) : ∀ k ∈ exOres c, Sensible k ∧ Suits exOpen k := by
  have mine : ∀ f : Source.Cfg, 0 ≤ f.size → 0 ≤ f.throughput → f.eps = 1/1000000 →
      f.recipe = exMine.recipe → f.fill = exMine.fill → f.ship = exMine.ship →
      Sensible (.source f) ∧ Suits exOpen (.source f) := by
    intro f h1 h2 h3 h4 h5 h6
    refine ⟨⟨h1, h2, by norm_num [h3], ?_, fun _ => by rw [h5]; rfl, fun _ => by rw [h6]; rfl⟩,
      fun _ => True, OfSource.blendable_true, fun _ _ => trivial, fun _ _ _ _ => trivial,
      fun _ _ _ => trivial⟩
    rw [h4]
    intro r hr
    cases hr
    exact ⟨by decide +kernel, by norm_num [Mat.Nonneg]⟩
  have heap : ∀ c : ℚ, 0 ≤ c → Sensible (.sink (exHeap c)) ∧ Suits exOpen (.sink (exHeap c)) := by
    intro c hc
    refine ⟨⟨⟨by norm_num [exHeap, exSink], by simpa [exHeap] using hc, by norm_num [exHeap, exSink],
      by norm_num [exHeap, exSink], ?_⟩, ?_, Or.inl rfl, rfl, rfl⟩, fun _ _ _ _ => trivial⟩ <;>
    · intro r hr; cases hr
  intro k hk
  simp only [exOres, List.mem_cons, List.not_mem_nil, or_false] at hk
  rcases hk with rfl | rfl | rfl | rfl
  · exact mine _ (by norm_num [exMine]) (by norm_num [exMine]) rfl rfl rfl rfl
  · exact heap _ (by norm_num)
  · exact mine _ (by norm_num [exPit]) (by norm_num [exPit]) rfl rfl rfl rfl
  · exact heap _ hc

theorem exOres_simple (c : ℚ) : Simple (exOres c) "ore" := by
  refine ⟨?_, ?_, ?_⟩
  · intro k hk hx
    simp only [exOres, List.mem_cons, List.not_mem_nil, or_false] at hk
    rcases hk with rfl | rfl | rfl | rfl
    · rfl
    · simp [sellsOf] at hx
    · rfl
    · simp [sellsOf] at hx
  · intro f hf _
    simp only [exOres, List.mem_cons, List.not_mem_nil, or_false, Kind.source.injEq, reduceCtorEq,
      false_or, or_false] at hf
    rcases hf with rfl | rfl <;> norm_num [exPit, exMine]
  · intro k hk hx
    simp only [exOres, List.mem_cons, List.not_mem_nil, or_false] at hk
    rcases hk with rfl | rfl | rfl | rfl
    · simp [buysOf] at hx
    · rfl
    · simp [buysOf] at hx
    · rfl

theorem exOres_roomy {c : ℚ} (h1 : 1/1000 < c) (h2 : c ≤ 100) : Roomy (exOres c) "ore" 5 := by
  intro w hw _
  simp only [exOres, List.mem_cons, List.not_mem_nil, or_false, Kind.sink.injEq, reduceCtorEq,
    false_or] at hw
  rcases hw with rfl | rfl
  · constructor <;> norm_num [exHeap, exSink]
  · constructor
    · norm_num [exHeap, exSink]; linarith
    · norm_num [exHeap, exSink]; linarith

/-- Sinks for 200 kg in a step: the mines are used up. In the first two steps they give 190 kg, then
170 kg, then 50 kg, and then nothing. With sinks for 180 kg it is 180 kg in the first steps. -/
example : ((deployAll (exOres 80) >>= simulate (fun _ => pouring) 5 0).toOption.map fun r =>
      (r.1.map fun gs => traded gs "ore", sent r.1 0, sent r.1 2)) =
      some ([190, 190, 170, 50, 0], 500, 100) ∧
    ((deployAll (exOres 60) >>= simulate (fun _ => pouring) 2 0).toOption.map fun r =>
      r.1.map fun gs => traded gs "ore") = some [180, 180] := by
  decide +kernel

/-- The example meets the hypotheses, also of exchanges that are not this one. -/
example {ex : Nat → Exchange} (h1 : ∀ t, (ex t).Fair) (h2 : ∀ t, (ex t).Thorough) :
    ∃ ps l ps', deployAll (exOres 80) = .ok ps ∧ simulate ex 5 0 ps = .ok (l, ps') ∧
      500 - 1/1000000 < sent l 0 ∧ sent l 0 ≤ 500 := by
  obtain ⟨ps, h3, h4⟩ := C125_runs_partial (exOres_sensible (c := 80) (by norm_num))
  obtain ⟨l, ps', h5, -⟩ := h4 ex h1 5
  obtain ⟨b1, b2, b3⟩ := C138_ships_partial (i := 0) (f := exMine) (exOres_sensible (by norm_num)) h3 h1
    h2 h5 (exOres_simple 80) (exOres_roomy (by norm_num) (by norm_num)) (by decide +kernel) rfl rfl
    (by norm_num [exMine])
  refine ⟨ps, l, ps', h3, h5, ?_, ?_⟩
  · rcases b3 with b3 | b3
    · rw [b3] at b2; norm_num [exMine] at b2
    · simpa [exMine] using b3
  · simpa [exMine] using b2

/-- With sinks for 180 kg, in two steps. -/
example {ex : Nat → Exchange} (h1 : ∀ t, (ex t).Fair) (h2 : ∀ t, (ex t).Thorough) :
    ∃ ps l ps', deployAll (exOres 60) = .ok ps ∧ simulate ex 2 0 ps = .ok (l, ps') ∧
      ∀ gs ∈ l, traded gs "ore" = 180 := by
  obtain ⟨ps, h3, h4⟩ := C125_runs_partial (exOres_sensible (c := 60) (by norm_num))
  obtain ⟨l, ps', h5, -⟩ := h4 ex h1 2
  refine ⟨ps, l, ps', h3, h5, fun gs hg => ?_⟩
  rw [C138_steady_partial (exOres_sensible (by norm_num)) h3 h1 h2 h5 (exOres_simple 60) ?_ ?_ gs hg]
  · decide +kernel
  · intro f hf _
    simp only [exOres, List.mem_cons, List.not_mem_nil, or_false, Kind.source.injEq, reduceCtorEq,
      false_or] at hf
    rcases hf with rfl | rfl <;> constructor <;> norm_num [exPit, exMine]
  · intro w hw _
    simp only [exOres, List.mem_cons, List.not_mem_nil, or_false, Kind.sink.injEq, reduceCtorEq,
      false_or] at hw
    rcases hw with rfl | rfl <;> constructor <;> norm_num [exHeap, exSink]

end Cyc.Sim
