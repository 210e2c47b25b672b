import Verif.Reactor.Props7
import Verif.Sim.Props12

/-!
# No facility owes mass, and no energy without fuel in closed simulations

C142 and C143.
-/

namespace Cyc.Sim

variable {A : Agreement}

/-! ## C142 -/

theorem kept_nonneg {ks : List Kind} (hks : ∀ k ∈ ks, Sensible k ∧ Suits A k)
    {ps : List (Running act)} (h : deployAll ks = .ok ps) {ex : Nat → Exchange}
    (hex : ∀ t, (ex t).Fair) {n : Nat} {l : List (List (Deal × NMat))} {ps' : List (Running act)}
    (hs : simulate ex n 0 ps = .ok (l, ps')) :
    ∀ p ∈ ps', ∀ m ∈ holdings p.k p.s, Mat.Nonneg m := by
  obtain ⟨g0, -⟩ := deployAll_k h hks
  obtain ⟨l', ps'', e1, -, e2, -⟩ := simulate_ok (A := A) hex n 0 g0
  obtain ⟨rfl, rfl⟩ := Prod.mk.inj (Except.ok.inj (e1.symm.trans hs))
  exact fun p hp => (e2 p hp).nonneg

/-- C142. At no time does a facility hold a negative mass of anything: of no nuclide, in no piece of
material.

Partial: as C125. -/
theorem C142_nothing_negative_partial {ks : List Kind} (hks : ∀ k ∈ ks, Sensible k ∧ Suits A k)
    {ps : List (Running act)} (h : deployAll ks = .ok ps) {ex : Nat → Exchange}
    (hex : ∀ t, (ex t).Fair) {n : Nat} {l : List (List (Deal × NMat))} {ps' : List (Running act)}
    (hs : simulate ex n 0 ps = .ok (l, ps')) :
    ∀ p ∈ ps', ∀ m ∈ holdings p.k p.s, ∀ nuc, 0 ≤ m.mass nuc :=
  fun p hp m hm => (kept_nonneg hks h hex hs p hp m hm).mass_nonneg

/-- C142. What a facility has given is never more than what it started with and what it was given.

Partial: as C125. -/
theorem C142_nothing_owed_partial {ks : List Kind} (hks : ∀ k ∈ ks, Sensible k ∧ Suits A k)
    {ps : List (Running act)} (h : deployAll ks = .ok ps) {ex : Nat → Exchange}
    (hex : ∀ t, (ex t).Fair) {n : Nat} {l : List (List (Deal × NMat))} {ps' : List (Running act)}
    (hs : simulate ex n 0 ps = .ok (l, ps')) {j : Nat} {k : Kind} (hj : ks[j]? = some k) :
    totalQty (l.flatMap fun gs => givenBy gs j) ≤
      startsWith k + totalQty (l.flatMap fun gs => givenTo gs j) := by
  obtain ⟨-, s, e, -⟩ := lived_at hks h hex hs hj
  have := C132_balance_partial hks h hex hs e
  have nn : 0 ≤ totalQty (holdings k s) :=
    AllNonneg.total_nonneg (kept_nonneg hks h hex hs _ (List.mem_of_getElem? e))
  simp only at this
  linarith

/-! ## Flows between groups of facilities -/

/-- What is given by the facilities at the positions of `G` (`f` the source), or to them (`f` the
destination). -/
def flow (l : List (List (Deal × NMat))) (f : Deal × NMat → Nat) (G : Nat → Bool) : ℚ :=
  ((l.flatten.filter fun g => G (f g)).map fun g => qty g.2).sum

theorem flow_at (l : List (List (Deal × NMat))) (f : Deal × NMat → Nat) (j : Nat) :
    totalQty (l.flatMap fun gs => (gs.filter fun g => f g = j).map Prod.snd) =
      ((l.flatten.filter fun g => f g = j).map fun g => qty g.2).sum := by
  unfold totalQty
  induction l with
  | nil => rfl
  | cons a l ih =>
    simp only [List.flatMap_cons, List.map_append, List.sum_append, ih, List.flatten_cons,
      List.filter_append, List.map_map]
    rfl

theorem group_balance {ks : List Kind} (hks : ∀ k ∈ ks, Sensible k ∧ Suits A k)
    {ps : List (Running act)} (h : deployAll ks = .ok ps) {ex : Nat → Exchange}
    (hex : ∀ t, (ex t).Fair) {n : Nat} {l : List (List (Deal × NMat))} {ps' : List (Running act)}
    (hs : simulate ex n 0 ps = .ok (l, ps')) (G : Nat → Bool) :
    heldBy ps' G + flow l (fun g => g.1.src) G = startBy ks G + flow l (fun g => g.1.dst) G := by
  have hlen : ps'.length = ks.length := by
    obtain ⟨g0, kinds⟩ := deployAll_k h hks
    obtain ⟨l', ps'', e1, -, -, e2, -⟩ := simulate_ok (A := A) hex n 0 g0
    obtain ⟨rfl, rfl⟩ := Prod.mk.inj (Except.ok.inj (e1.symm.trans hs))
    have := congrArg List.length (e2.trans kinds)
    simpa using this
  unfold heldBy startBy flow
  rw [sum_zipIdx G (fun p : Running act => totalQty (holdings p.k p.s)), sum_zipIdx G startsWith, hlen]
  have bal : ∀ j ∈ (List.range ks.length).filter G,
      (ps'[j]?.map fun p : Running act => totalQty (holdings p.k p.s)).getD 0 +
        ((l.flatten.filter fun g => g.1.src = j).map fun g => qty g.2).sum =
      (ks[j]?.map startsWith).getD 0 +
        ((l.flatten.filter fun g => g.1.dst = j).map fun g => qty g.2).sum := by
    intro j hj
    have hj := List.mem_range.1 (List.mem_of_mem_filter hj)
    have e1 : ks[j]? = some ks[j] := List.getElem?_eq_getElem hj
    obtain ⟨-, s, e2, -⟩ := lived_at hks h hex hs e1
    have := C132_balance_partial hks h hex hs e2
    rw [e1, e2]
    unfold givenBy givenTo at this
    rw [flow_at l fun g => g.1.src, flow_at l fun g => g.1.dst] at this
    exact this
  have trades : ∀ g ∈ l.flatten, g.1.src < ks.length ∧ g.1.dst < ks.length := by
    intro g hg
    obtain ⟨gs, h1, h2⟩ := List.mem_flatten.1 hg
    obtain ⟨k, k', h3, h4, -⟩ := C137_commodities_partial hks h hex hs gs h1 g h2
    exact ⟨(List.getElem?_eq_some_iff.1 h3).1, (List.getElem?_eq_some_iff.1 h4).1⟩
  have := congrArg List.sum (List.map_congr_left bal)
  rwa [List.sum_map_add, List.sum_map_add,
    sum_parts G (fun g : Deal × NMat => g.1.src) (fun g => qty g.2) _ fun g hg => (trades g hg).1,
    sum_parts G (fun g : Deal × NMat => g.1.dst) (fun g => qty g.2) _ fun g hg => (trades g hg).2] at this

theorem sum_nonneg_filter {α : Type} {l : List α} {v : α → ℚ} (hv : ∀ x ∈ l, 0 ≤ v x)
    {p q r : α → Bool} (h : ∀ x ∈ l, (p x = true ∨ q x = true → r x = true))
    (hd : ∀ x ∈ l, ¬ (p x = true ∧ q x = true)) :
    ((l.filter p).map v).sum + ((l.filter q).map v).sum ≤ ((l.filter r).map v).sum := by
  induction l with
  | nil => simp
  | cons a l ih =>
    have ih := ih (fun x hx => hv x (by simp [hx])) (fun x hx => h x (by simp [hx]))
      fun x hx => hd x (by simp [hx])
    have h0 := hv a (by simp)
    have h1 := h a (by simp)
    have h2 := hd a (by simp)
    simp only [List.filter_cons]
    cases hp : p a <;> cases hq : q a <;> cases hr : r a <;> simp_all <;> linarith

theorem heldBy_parts {ps : List (Running act)} (hn : ∀ p ∈ ps, ∀ m ∈ holdings p.k p.s, Mat.Nonneg m)
    {G D : Nat → Bool} (hd : ∀ j, ¬ (G j = true ∧ D j = true)) :
    heldBy ps G + heldBy ps D ≤ (ps.map fun p => totalQty (holdings p.k p.s)).sum := by
  have e : (ps.map fun p => totalQty (holdings p.k p.s)).sum =
      (((ps.zipIdx.filter fun _ => true)).map fun x => totalQty (holdings x.1.k x.1.s)).sum := by
    rw [List.filter_true]
    have : ps = ps.zipIdx.map Prod.fst := by simp
    conv_lhs => rw [this, List.map_map]
    rfl
  rw [e]
  refine sum_nonneg_filter (fun x hx => ?_) (fun _ _ _ => rfl) fun x _ => hd x.2
  exact AllNonneg.total_nonneg (hn x.1 (List.fst_mem_of_mem_zipIdx hx))

theorem OfReactor.received_mass {c : Reactor.Cfg} {enc : NMat → Nat} (hw : Reactor.WellFormed c)
    {is : List Reactor.In} {os : List Reactor.Out} {s : Reactor.State} (h : Reactor.History c is os s)
    {got : List (List NMat)} (hg : is.map (fun i => i.buys.map Prod.snd) = numbered enc 0 got) :
    totalQty got.flatten = (Reactor.received is).length * c.assemSize := by
  have size : ∀ a ∈ Reactor.received is, a.qty = c.assemSize := by
    obtain ⟨s0, h0, hh, hr⟩ := h
    have := Reactor.run_inductO hw
      (P := fun is _ _ => ∀ a ∈ Reactor.received is, a.qty = c.assemSize)
      (fun _ hb sp a ha => by
        unfold Reactor.received at ha hb
        rw [List.flatMap_append, List.mem_append] at ha
        rcases ha with ha | ha
        · exact hb a ha
        · simp only [List.flatMap_cons, List.flatMap_nil, List.append_nil] at ha
          obtain ⟨d, hd, rfl⟩ := List.mem_map.1 ha
          exact (sp.supplied d hd).2) is (pre := []) (opre := []) (Reactor.enter_inv hw h0)
      (by simp [Reactor.received]) hh hr
    simpa using this
  rw [OfReactor.received_eq hg] at size ⊢
  rw [List.length_map, List.length_zipIdx]
  have size : ∀ m ∈ got.flatten, qty m = c.assemSize := by
    intro m hm
    obtain ⟨i, hi, rfl⟩ := List.mem_iff_getElem.1 hm
    refine size ⟨i, qty got.flatten[i], enc got.flatten[i]⟩
      (List.mem_map.2 ⟨(got.flatten[i], i), ?_, rfl⟩)
    rw [List.mem_zipIdx_iff_getElem?]
    exact List.getElem?_eq_getElem hi
  unfold totalQty
  generalize got.flatten = ms at size
  induction ms with
  | nil => simp
  | cons m ms ih =>
    rw [List.map_cons, List.sum_cons, ih fun x hx => size x (by simp [hx]), size m (by simp),
      List.length_cons]
    push_cast
    ring

/-- A reactor generates no more than its burn-up allows for the fuel it has received. -/
theorem OfReactor.energy_le {c : Reactor.Cfg} {enc : NMat → Nat} (hw : Reactor.WellFormed c)
    {is : List Reactor.In} {os : List Reactor.Out} {s : Reactor.State} (h1 : Reactor.History c is os s)
    {got : List (List NMat)} (h3 : is.map (fun i => i.buys.map Prod.snd) = numbered enc 0 got)
    {B : ℚ} (hB : 0 ≤ B) (hc : Burns B c) :
    Reactor.energy os ≤ B * totalQty got.flatten ∧
    (Reactor.energy os ≠ 0 → Reactor.energy os ≤ B * (totalQty got.flatten -
      (c.nCore - min c.nBatch c.nCore : ℕ) * c.assemSize)) := by
  have hm := OfReactor.received_mass hw h1 h3
  have hs := hw.assemSize
  rw [hm]
  have key : Reactor.energy os ≠ 0 → Reactor.energy os ≤ B * ((Reactor.received is).length * c.assemSize -
      (c.nCore - min c.nBatch c.nCore : ℕ) * c.assemSize) := by
    intro h0
    have h5 := Reactor.C124_energy_from_start hw hc.power hc.starts h1 h0
    have h6 := Reactor.energy_nonneg hw hc.power h1
    have hb : (0 : ℚ) < (min c.nBatch c.nCore : ℕ) := by exact_mod_cast hc.batch
    have hu := hc.burnup
    have hpt : 0 ≤ c.powerCap * c.cycleTime := mul_nonneg hc.power (by positivity)
    generalize ((c.nCore - min c.nBatch c.nCore : ℕ) : ℚ) = r at *
    generalize ((min c.nBatch c.nCore : ℕ) : ℚ) = b at *
    generalize ((Reactor.received is).length : ℚ) = N at *
    have hE : 0 < Reactor.energy os := lt_of_le_of_ne h6 (Ne.symm h0)
    have hn : 0 ≤ N - r := by
      by_contra hn
      have := mul_nonpos_of_nonneg_of_nonpos hpt (le_of_not_ge hn)
      have := mul_pos hE hb
      linarith
    have := mul_le_mul_of_nonneg_right hu hn
    refine le_of_mul_le_mul_right ?_ hb
    calc Reactor.energy os * b ≤ B * (b * c.assemSize) * (N - r) := h5.trans this
      _ = B * (N * c.assemSize - r * c.assemSize) * b := by ring
  refine ⟨?_, key⟩
  by_cases h0 : Reactor.energy os = 0
  · rw [h0]
    positivity
  · refine (key h0).trans (mul_le_mul_of_nonneg_left ?_ hB)
    have : (0 : ℚ) ≤ (c.nCore - min c.nBatch c.nCore : ℕ) * c.assemSize := by positivity
    linarith

/-! ## C143 -/

/-- The reactor `j` of a simulation has generated the energy `E` (power times time steps) in the steps
of the log `l`: it is that of a history of its own, in which it received and shipped what the log
says. -/
def Generated (l : List (List (Deal × NMat))) (ps' : List (Running act)) (j : Nat) (E : ℚ) : Prop :=
  ∃ (c : Reactor.Cfg) (enc : NMat → Nat) (dec : Nat → NMat) (s : Reactor.State × Nat)
    (is : List Reactor.In) (os : List Reactor.Out),
    ps'[j]? = some ⟨.reactor c enc dec, s⟩ ∧ Reactor.History c is os s.1 ∧ os.length = l.length ∧
    is.map (fun i => i.buys.map Prod.snd) = numbered enc 0 (l.map fun gs => givenTo gs j) ∧
    os.map (fun o => material dec (o.shipped.map Prod.snd)) = l.map (fun gs => givenBy gs j) ∧
    E = Reactor.energy os

/-- Every reactor of a simulation has generated some energy.

Partial: as C125. -/
theorem C143_generated_partial {ks : List Kind} (hks : ∀ k ∈ ks, Sensible k ∧ Suits A k)
    {ps : List (Running act)} (h : deployAll ks = .ok ps) {ex : Nat → Exchange}
    (hex : ∀ t, (ex t).Fair) {n : Nat} {l : List (List (Deal × NMat))} {ps' : List (Running act)}
    (hs : simulate ex n 0 ps = .ok (l, ps')) {j : Nat} {c : Reactor.Cfg} {enc : NMat → Nat}
    {dec : Nat → NMat} (hj : ks[j]? = some (.reactor c enc dec)) : ∃ E, Generated l ps' j E := by
  obtain ⟨-, s, e, is, os, h1, -, h3, h4, -⟩ := lived_at hks h hex hs hj
  refine ⟨_, c, enc, dec, s, is, os, e, h1, ?_, h3, h4, rfl⟩
  have := congrArg List.length h4
  simpa using this

/-- C143. A reactor generates no more than its burn-up allows for the fuel it has received; to begin
with, a part of the core that is never discharged has to be filled.

Partial: as C125. -/
theorem C143_reactor_partial {ks : List Kind} (hks : ∀ k ∈ ks, Sensible k ∧ Suits A k)
    {ps : List (Running act)} (h : deployAll ks = .ok ps) {ex : Nat → Exchange}
    (hex : ∀ t, (ex t).Fair) {n : Nat} {l : List (List (Deal × NMat))} {ps' : List (Running act)}
    (hs : simulate ex n 0 ps = .ok (l, ps')) {j : Nat} {c : Reactor.Cfg} {enc : NMat → Nat}
    {dec : Nat → NMat} (hj : ks[j]? = some (.reactor c enc dec)) {B : ℚ} (hB : 0 ≤ B)
    (hc : Burns B c) {E : ℚ} (hE : Generated l ps' j E) :
    E ≤ B * totalQty (l.flatMap fun gs => givenTo gs j) ∧
    (E ≠ 0 → E ≤ B * (totalQty (l.flatMap fun gs => givenTo gs j) -
      (c.nCore - min c.nBatch c.nCore : ℕ) * c.assemSize)) := by
  obtain ⟨hk, s', e, -⟩ := lived_at hks h hex hs hj
  obtain ⟨c', enc', dec', s, is, os, e', h1, -, h3, -, rfl⟩ := hE
  rw [e] at e'
  cases e'
  rw [List.flatMap_def]
  exact OfReactor.energy_le hk.1 h1 h3 hB hc

/-- C143. In an open fuel cycle no fuel is used twice: all reactors together receive no more than the
mass there was at the beginning.

Partial: as C125. -/
theorem C143_fuel_used_once_partial {ks : List Kind} (hks : ∀ k ∈ ks, Sensible k ∧ Suits A k)
    {ps : List (Running act)} (h : deployAll ks = .ok ps) {ex : Nat → Exchange}
    (hex : ∀ t, (ex t).Fair) {n : Nat} {l : List (List (Deal × NMat))} {ps' : List (Running act)}
    (hs : simulate ex n 0 ps = .ok (l, ps')) {D : Nat → Bool} (hD : Open ks D) :
    (((List.range ks.length).filter (reactorAt ks)).map fun j =>
      totalQty (l.flatMap fun gs => givenTo gs j)).sum ≤ (ks.map startsWith).sum := by
  have trades : ∀ g ∈ l.flatten, g.1.dst < ks.length ∧ 0 ≤ qty g.2 ∧
      (reactorAt ks g.1.src = true ∨ D g.1.src = true → D g.1.dst = true) := by
    intro g hg
    obtain ⟨gs, h1, h2⟩ := List.mem_flatten.1 hg
    obtain ⟨k, k', h3, h4, h5, h6⟩ := C137_commodities_partial hks h hex hs gs h1 g h2
    refine ⟨(List.getElem?_eq_some_iff.1 h4).1, ?_, fun hr => ?_⟩
    · obtain ⟨g0, -⟩ := deployAll_k h hks
      obtain ⟨l', ps'', e1, -, -, -, -, e2⟩ := simulate_ok (A := A) hex n 0 g0
      obtain ⟨rfl, rfl⟩ := Prod.mk.inj (Except.ok.inj (e1.symm.trans hs))
      exact (e2 gs h1 g h2).1.1.1.le
    · refine hD.spent _ _ k k' h3 h4 (hr.imp_left fun e => ?_) ⟨_, h5, h6⟩
      rw [reactorAt, h3] at e
      exact e
  have apart : ∀ j, ¬ (reactorAt ks j = true ∧ D j = true) := by
    rintro j ⟨h1, h2⟩
    unfold reactorAt at h1
    cases hk : ks[j]? with
    | none => rw [hk] at h1; cases h1
    | some k =>
      rw [hk] at h1
      have := hD.apart j k hk h2
      rw [show k.isReactor = true from h1] at this
      cases this
  have b1 := group_balance hks h hex hs (reactorAt ks)
  have b2 := group_balance hks h hex hs D
  have s1 : startBy ks (reactorAt ks) = 0 := by
    unfold startBy
    rw [sum_zipIdx]
    refine List.sum_eq_zero fun x hx => ?_
    obtain ⟨j, hj, rfl⟩ := List.mem_map.1 hx
    have hj := (List.mem_filter.1 hj).2
    unfold reactorAt at hj
    cases hk : ks[j]? with
    | none => rfl
    | some k =>
      rw [hk] at hj
      cases k <;> first | rfl | cases hj
  have s2 : 0 ≤ startBy ks D := by
    unfold startBy
    refine List.sum_nonneg fun x hx => ?_
    obtain ⟨y, hy, rfl⟩ := List.mem_map.1 hx
    have hk := (hks _ (List.fst_mem_of_mem_zipIdx (List.mem_filter.1 hy).1)).1
    generalize y.1 = k at hk
    cases k with
    | source c => exact hk.1
    | enrichment c => exact le_max_left _ _
    | _ => exact le_refl _
  have f1 : flow l (fun g => g.1.src) (reactorAt ks) + flow l (fun g => g.1.src) D ≤
      flow l (fun g => g.1.dst) D :=
    sum_nonneg_filter (fun g hg => (trades g hg).2.1) (fun g hg => (trades g hg).2.2)
      fun g _ => apart _
  have t1 := heldBy_parts (kept_nonneg hks h hex hs) apart
  rw [C126_total_partial hks h hex hs] at t1
  have e : (((List.range ks.length).filter (reactorAt ks)).map fun j =>
      totalQty (l.flatMap fun gs => givenTo gs j)).sum = flow l (fun g => g.1.dst) (reactorAt ks) := by
    unfold givenTo flow
    simp only [flow_at l fun g => g.1.dst]
    exact sum_parts (reactorAt ks) (fun g : Deal × NMat => g.1.dst) (fun g => qty g.2) _
      fun g hg => (trades g hg).1
  rw [e]
  linarith

theorem sum_le_scaled {α : Type} {B : ℚ} {E m : α → ℚ} {l : List α} (h : ∀ x ∈ l, E x ≤ B * m x) :
    (l.map E).sum ≤ B * (l.map m).sum := by
  induction l with
  | nil => simp
  | cons a l ih =>
    have := ih fun x hx => h x (by simp [hx])
    have := h a (by simp)
    simp only [List.map_cons, List.sum_cons]
    linarith

/-- C143. In an open fuel cycle all reactors together generate no more than their burn-up allows for the
mass there was at the beginning, however long the simulation runs.

Partial: as C125. -/
theorem C143_energy_partial {ks : List Kind} (hks : ∀ k ∈ ks, Sensible k ∧ Suits A k)
    {ps : List (Running act)} (h : deployAll ks = .ok ps) {ex : Nat → Exchange}
    (hex : ∀ t, (ex t).Fair) {n : Nat} {l : List (List (Deal × NMat))} {ps' : List (Running act)}
    (hs : simulate ex n 0 ps = .ok (l, ps')) {D : Nat → Bool} (hD : Open ks D) {B : ℚ} (hB : 0 ≤ B)
    (hc : ∀ c enc dec, .reactor c enc dec ∈ ks → Burns B c) {E : Nat → ℚ}
    (hE : ∀ j < ks.length, reactorAt ks j = true → Generated l ps' j (E j)) :
    (((List.range ks.length).filter (reactorAt ks)).map E).sum ≤ B * (ks.map startsWith).sum := by
  refine le_trans ?_ (mul_le_mul_of_nonneg_left
    (C143_fuel_used_once_partial hks h hex hs hD) hB)
  refine sum_le_scaled fun j hj => ?_
  obtain ⟨h1, h2⟩ := List.mem_filter.1 hj
  have h1 := List.mem_range.1 h1
  have e1 : ks[j]? = some ks[j] := List.getElem?_eq_getElem h1
  have h2' := h2
  rw [reactorAt, e1] at h2'
  cases hk : ks[j] with
  | reactor c enc dec =>
    rw [hk] at e1
    exact (C143_reactor_partial hks h hex hs e1 hB (hc c enc dec (List.mem_of_getElem? e1))
      (hE j h1 h2)).1
  | _ => rw [hk] at h2'; cases h2'

/-! ## An example -/

theorem exFrontEnd_open : Open exFrontEnd fun j => decide (j = 4) := by
  constructor
  · intro i j k k' hi hj hr
    rcases i with _ | _ | _ | _ | _ | _ | i <;> rcases j with _ | _ | _ | _ | _ | _ | j <;>
      first
      | (cases hi; done)
      | (cases hj; done)
      | (cases hi; cases hj; first | (exact fun _ => rfl) | (exact absurd hr (by decide)) | (intro hx; exact absurd hx (by decide)))
  · intro j k hj hd
    have := of_decide_eq_true hd
    subst this
    cases hj
    rfl

/-- Both reactors of the example meet the hypotheses. -/
example : ∃ ps l ps', deployAll exFrontEnd = .ok ps ∧ simulate (fun _ => sating) 10 0 ps = .ok (l, ps') ∧
    ∃ E₁ E₂, Generated l ps' 2 E₁ ∧ Generated l ps' 3 E₂ ∧ E₁ + E₂ ≤ 5 / 3 * 14250 := by
  obtain ⟨ps, h1, h2⟩ := C125_runs_partial exFrontEnd_sensible
  obtain ⟨l, ps', h3, -⟩ := h2 (fun _ => sating) (fun _ => sating_fair) 10
  obtain ⟨E₁, k1⟩ := C143_generated_partial exFrontEnd_sensible h1 (fun _ => sating_fair) h3 (j := 2) rfl
  obtain ⟨E₂, k2⟩ := C143_generated_partial exFrontEnd_sensible h1 (fun _ => sating_fair) h3 (j := 3) rfl
  refine ⟨ps, l, ps', h1, h3, E₁, E₂, k1, k2, ?_⟩
  have := C143_energy_partial exFrontEnd_sensible h1 (fun _ => sating_fair) h3 exFrontEnd_open
    (B := 5 / 3) (by norm_num) (by
      intro c enc dec hc
      simp only [exFrontEnd, List.mem_cons, List.not_mem_nil, or_false, reduceCtorEq, false_or,
        Kind.reactor.injEq] at hc
      rcases hc with ⟨rfl, -⟩ | ⟨rfl, -⟩
      · exact ⟨by decide, rfl, by decide +kernel, by decide +kernel⟩
      · exact ⟨by decide, rfl, by decide +kernel, by decide +kernel⟩)
    (E := fun j => if j = 2 then E₁ else E₂) (by
      intro j hj hr
      have hj : j < 6 := hj
      match j with
      | 0 | 1 | 4 | 5 => exact absurd hr (by decide)
      | 2 => exact k1
      | 3 => exact k2)
  have e1 : (List.range exFrontEnd.length).filter (reactorAt exFrontEnd) = [2, 3] := by decide
  have e2 : (exFrontEnd.map startsWith).sum = 14250 := by decide +kernel
  rw [e1, e2] at this
  simpa using this

/-- A reactor that buys what it sells, and a source of 36 kg. -/
def exRecycle : List Kind :=
  [.source { exFuel with size := 36 },
    .reactor { exReactor with outCommods := ["fuel"] } (fun _ => 1) exDec]

/-- If the fuel cycle is not open, the same fuel can be used again and again: this reactor has received
72 kg after 10 steps. -/
example : ((deployAll exRecycle >>= simulate (fun _ => greedy) 10 0).toOption.map fun r =>
    totalQty (r.1.flatMap fun gs => givenTo gs 1)) = some 72 ∧ (exRecycle.map startsWith).sum = 36 := by
  constructor <;> decide +kernel

end Cyc.Sim
