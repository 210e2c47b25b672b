import Verif.FuelFab.Lemmas6

/-!
# Fuel fabrication: properties C42, C43 and C48

Weights and fractions. The cross sections and the atomic masses are parameters.
-/

namespace Cyc.FuelFab

open Mat (massOf)

/-! ## An example facility -/

/-- Depleted uranium. -/
def du : NMat := ⟨[(922350000, 1), (922380000, 399)]⟩

/-- Plutonium with some uranium. -/
def pu : NMat := ⟨[(922380000, 100), (942390000, 60), (942400000, 40)]⟩

/-- Weapons plutonium. -/
def puw : NMat := ⟨[(942390000, 10)]⟩

/-- Filler of depleted uranium, fissile material poor in plutonium, top-up of plutonium-239. -/
def exCfg : Cfg where
  fillCommods := ["du", "ru"]
  fillPrefs := []
  fillRecipe := some du
  fillSize := 500
  fissCommods := ["pu", "mox"]
  fissPrefs := [2, 3]
  fissRecipe := none
  fissSize := 300
  topupCommod := "puw"
  topupPref := 1
  topupRecipe := none
  topupSize := 50
  outCommod := "fuel"
  throughput := 100
  spectrum := "thermal"
  xs := fun s n =>
    if s = "thermal" then
      if n = 922350000 then some (3, 2)
      else if n = 922380000 then some (0, 1)
      else if n = 942390000 then some (4, 3)
      else none
    else none
  atomMass := fun n => (n / 10000 % 1000 : Nat) + 1
  eps := 1/1000000
  near := 1/100000000
  large := 10 ^ 299
  lo := 0

theorem nonneg_of_all {m : NMat} (h : m.entries.all (fun e => decide (0 ≤ e.2)) = true) :
    Mat.Nonneg m := by
  intro e he
  simpa using List.all_eq_true.1 h e he

theorem du_solid : Solid du := ⟨by norm_num [du, Mat.qty_def], nonneg_of_all (by decide +kernel)⟩
theorem pu_solid : Solid pu := ⟨by norm_num [pu, Mat.qty_def], nonneg_of_all (by decide +kernel)⟩
theorem puw_solid : Solid puw := ⟨by norm_num [puw, Mat.qty_def], nonneg_of_all (by decide +kernel)⟩

theorem exCfg_valid : Valid exCfg := by
  refine ⟨?_, ⟨(0, 1), rfl⟩, ⟨(4, 3), rfl⟩, by decide +kernel, ⟨du, rfl⟩, ?_, ?_, ?_, ?_, ?_⟩
  · intro n
    show (0 : ℚ) < (n / 10000 % 1000 : Nat) + 1
    positivity
  · intro m hm
    rcases hm with h | h | h
    · simp only [exCfg, Option.some.injEq] at h; subst h; exact du_solid
    · simp [exCfg] at h
    · simp [exCfg] at h
  all_goals norm_num [exCfg]

/-- The weights of the example streams are in order. -/
example : weight exCfg du < weight exCfg pu ∧ weight exCfg pu < weight exCfg puw := by
  decide +kernel

/-! ## C42 -/

/-- C42: the two fractions are in [0, 1], add up to 1, and the mixture they give deviates from the
target by at most `CY_NEAR_ZERO` times the difference of the two weights. -/
theorem C42_fractions {e l t h : ℚ} (he : 0 < e) (h1 : l ≤ t) (h2 : t ≤ h) :
    ∃ f g, highFrac e l t h = .ok f ∧ lowFrac e l t h = .ok g ∧ 0 ≤ f ∧ f ≤ 1 ∧ 0 ≤ g ∧ g ≤ 1 ∧
      f + g = 1 ∧ |f * h + g * l - t| ≤ e * (h - l) := by
  obtain ⟨r1, r2⟩ := frac_range (e := e) h1 h2
  exact ⟨_, _, highFrac_eq h1 h2, lowFrac_eq h1 h2, r1, r2, by linarith, by linarith, by ring,
    frac_close he h1 h2⟩

/-- C42, the part that holds exactly: a target that is one of the two weights, or is not within
`CY_NEAR_ZERO` of one of them (relative to their difference), is reproduced. Missing: targets closer
to one of the two weights, which are replaced by it. -/
theorem C42_exact_partial {e l t h : ℚ} (he : 0 < e) (he' : e ≤ 1) (h1 : l ≤ t) (h2 : t ≤ h)
    (ht : t = l ∨ t = h ∨ (e * (h - l) ≤ t - l ∧ e * (h - l) ≤ h - t)) {f g : ℚ}
    (hf : highFrac e l t h = .ok f) (hg : lowFrac e l t h = .ok g) : f * h + g * l = t := by
  rw [highFrac_eq h1 h2] at hf
  rw [lowFrac_eq h1 h2] at hg
  simp only [Except.ok.injEq] at hf hg
  subst hf; subst hg
  by_cases hlh : l = h
  · subst hlh
    have : t = l := le_antisymm h2 h1
    subst this; ring
  · have hpos : 0 < h - l := sub_pos.2 (lt_of_le_of_ne (h1.trans h2) hlh)
    have hmix := exactFrac_mix h1 h2
    have hex : exactFrac l t h = (t - l) / (h - l) := by unfold exactFrac; rw [if_neg hlh]
    have hfr : frac e l t h = snap e ((t - l) / (h - l)) := by unfold frac; rw [if_neg hlh]
    rw [hfr]
    rw [hex] at hmix
    have hsn : snap e ((t - l) / (h - l)) = (t - l) / (h - l) := by
      rcases ht with rfl | rfl | ⟨ha, hb⟩
      · simp only [sub_self, zero_div, snap]
        rw [if_neg (by linarith), if_pos he]
      · rw [div_self (ne_of_gt hpos)]; simp [snap, he]
      · have k1 : e ≤ (t - l) / (h - l) := by rw [le_div_iff₀ hpos]; exact ha
        have k2 : e ≤ 1 - (t - l) / (h - l) := by
          rw [le_sub_iff_add_le, ← le_sub_iff_add_le', div_le_iff₀ hpos]; nlinarith
        unfold snap
        rw [if_neg (not_lt.2 k2), if_neg (not_lt.2 k1)]
    rw [hsn]; exact hmix

/-- C42 as stated is false: a target strictly between the two weights is not reproduced when it is
close to one of them. -/
theorem C42_counterexample : ∃ l t h f g : ℚ, l < t ∧ t < h ∧
    highFrac exCfg.near l t h = .ok f ∧ lowFrac exCfg.near l t h = .ok g ∧ f * h + g * l ≠ t := by
  have h1 : (0 : ℚ) ≤ 1 / 1000000000 := by norm_num
  have h2 : (1 / 1000000000 : ℚ) ≤ 1 := by norm_num
  have hf : frac exCfg.near 0 (1 / 1000000000) 1 = 0 := by decide +kernel
  refine ⟨0, 1 / 1000000000, 1, 0, 1, by norm_num, by norm_num, ?_, ?_, by norm_num⟩
  · rw [highFrac_eq h1 h2, hf]
  · rw [lowFrac_eq h1 h2, hf]; norm_num

/-- C42: a target that is not between the two weights is refused. -/
theorem C42_refuses {e l t h : ℚ} (ht : ¬ (l ≤ t ∧ t ≤ h)) :
    highFrac e l t h = .error .value ∧ lowFrac e l t h = .error .value := by
  have hv : validWeights l t h = false := by
    rw [← Bool.not_eq_true, validWeights_iff]; exact ht
  have : highFrac e l t h = .error .value := by unfold highFrac; rw [if_pos hv]
  exact ⟨this, by unfold lowFrac; rw [this]; rfl⟩

/-- C42: in any reachable state, what is offered on a request with material has the quantity of the
target and its weight, up to `CY_NEAR_ZERO` times the difference of the weights of the two streams
that are mixed. -/
theorem C42_offer {c : Cfg} (V : Valid c) {s s₁ : State} (h : Reachable c s) {addr : Nat → Nat}
    {a : Asks} (hr : requests c addr s = .ok (a, s₁)) {reqs : String → List NMat} {port : Port}
    (hb : bids c reqs s₁ = .ok (some port)) {j : Nat} {m t : NMat} (hj : (j, m) ∈ port.bids)
    (ht : (reqs c.outCommod)[j]? = some t) (hs : Solid t) :
    qty m = qty t ∧
    (|weight c m - weight c t| ≤ c.near * (weight c port.fiss - weight c port.fill) ∨
      |weight c m - weight c t| ≤ c.near * (weight c port.topup - weight c port.fiss)) := by
  have I := reachable_inv V h
  have I1 := I.same (requests_same I hr)
  rcases bids_ok V I1 reqs hb with ⟨h0, -⟩ | ⟨k, bs, -, K, hp, hbs⟩
  · cases h0
  simp only [Option.some.injEq] at hp
  subst hp
  obtain ⟨t', h1, h2⟩ := (hbs j m).1 hj
  rw [ht] at h1
  simp only [Option.some.injEq] at h1
  subst h1
  simp only
  rw [← K.wFill, ← K.wFiss]
  unfold offerOf at h2
  rw [wt_solid V hs] at h2
  split at h2
  · rename_i hv
    simp only [Option.some.injEq] at h2
    subst h2
    obtain ⟨r1, r2⟩ := frac_range (e := c.near) hv.1 hv.2
    refine ⟨mixture_qty V K.fiss K.fill r1 r2 _, Or.inl ?_⟩
    rw [mixture_weight V K.fiss K.fill r1 r2 hs.1, ← K.wFill, ← K.wFiss]
    exact frac_close V.near hv.1 hv.2
  · split at h2
    · rename_i _ hv
      simp only [Option.some.injEq] at h2
      subst h2
      have hne : s₁.topup.items ≠ [] := by simpa using hv.1
      obtain ⟨r1, r2⟩ := frac_range (e := c.near) hv.2.1 hv.2.2
      refine ⟨mixture_qty V K.topup K.fiss r1 r2 _, Or.inr ?_⟩
      rw [mixture_weight V K.topup K.fiss r1 r2 hs.1, ← K.wTopup hne, ← K.wFiss]
      exact frac_close V.near hv.2.1 hv.2.2
    · cases h2

/-- A target between two weights and the fraction of the heavier stream. -/
example : (highFrac exCfg.near (1/4) (1/2) 1).toOption = some (1/3) ∧
    (lowFrac exCfg.near (1/4) (1/2) 1).toOption = some (2/3) := by decide +kernel

/-! ## C43 -/

/-- C43: mix `q` kg of two materials by the converted mass fractions: they are in [0, 1] and add up
to 1, the mixture has `q` kg, and the share of the first material in its atoms is the fraction that
was asked for. -/
theorem C43_atoms {c : Cfg} (V : Valid c) {a b : NMat} (ha : Solid a) (hb : Solid b) {f : ℚ}
    (h0 : 0 ≤ f) (h1 : f ≤ 1) (q : ℚ) :
    let p := atomToMass c.atomMass f a b
    let r := atomToMass c.atomMass (1 - f) b a
    let x := a.scale (p * q / qty a)
    let y := b.scale (r * q / qty b)
    0 ≤ p ∧ 0 ≤ r ∧ p + r = 1 ∧ qty x + qty y = q ∧ atoms c x = f * atoms c (x.absorb y) := by
  intro p r x y
  obtain ⟨g1, g2⟩ := atomToMass_range V ha hb h0 h1
  have hr : r = 1 - p := atomToMass_compl V ha hb h0 h1
  refine ⟨g1, by rw [hr]; linarith, by rw [hr]; ring, ?_, ?_⟩
  · show qty (ofComp (p * q) a) + qty (ofComp (r * q) b) = q
    rw [ofComp_qty (ne_of_gt ha.1), ofComp_qty (ne_of_gt hb.1), hr]; ring
  · show atoms c (ofComp (p * q) a) = f * atoms c ((ofComp (p * q) a).absorb (ofComp (r * q) b))
    rw [atoms_absorb, hr]
    exact mix_atoms V ha hb h0 h1

/-- The fractions of the example streams. -/
example : atomToMass exCfg.atomMass (1/2) puw ⟨[(922380000, 1)]⟩ = 240 / 479 := by decide +kernel

/-! ## C48 -/

/-- C48: the weight of a material is the average weight of its atoms. -/
theorem C48_weight {c : Cfg} (V : Valid c) {m : NMat} (h : Solid m) :
    cosi c m = .ok (weight c m) := by rw [cosi_eq V, wt_solid V h]

/-- C48: a material that is only uranium-238 has weight 0. -/
theorem C48_u238 {c : Cfg} (V : Valid c) {m : NMat} (h : Solid m)
    (hu : ∀ e ∈ m.entries, e.1 = 922380000) : cosi c m = .ok 0 := by
  rw [C48_weight V h]
  unfold weight
  have : m.entries.map (fun e => e.2 / c.atomMass e.1 * nuclideWeight c e.1) =
      m.entries.map fun _ => 0 := by
    apply List.map_congr_left
    intro e he
    rw [hu e he]
    simp [nuclideWeight]
  rw [this]; simp

/-- C48: a material that is only plutonium-239 has weight 1. -/
theorem C48_pu239 {c : Cfg} (V : Valid c) {m : NMat} (h : Solid m)
    (hu : ∀ e ∈ m.entries, e.1 = 942390000) : cosi c m = .ok 1 := by
  rw [C48_weight V h]
  unfold weight atoms
  have : m.entries.map (fun e => e.2 / c.atomMass e.1 * nuclideWeight c e.1) =
      m.entries.map fun e => e.2 / c.atomMass e.1 := by
    apply List.map_congr_left
    intro e he
    rw [hu e he]
    simp [nuclideWeight, div_self (sub_ne_zero.2 V.scale)]
  rw [this]
  have := atoms_pos V h
  unfold atoms at this
  rw [div_self (ne_of_gt this)]

/-- C48: the weight of a mixture is the average of the weights of its parts, by atoms. -/
theorem C48_mix {c : Cfg} (V : Valid c) {a b : NMat} (ha : Solid a) (hb : Solid b) {wa wb : ℚ}
    (h1 : cosi c a = .ok wa) (h2 : cosi c b = .ok wb) :
    cosi c (a.absorb b) =
      .ok ((atoms c a * wa + atoms c b * wb) / (atoms c a + atoms c b)) := by
  rw [C48_weight V ha] at h1
  rw [C48_weight V hb] at h2
  simp only [Except.ok.injEq] at h1 h2
  subst h1; subst h2
  rw [C48_weight V ⟨by rw [Mat.qty_absorb]; have := ha.1; have := hb.1; linarith,
    Nonneg.absorb ha.2 hb.2⟩, weight_absorb (ne_of_gt (atoms_pos V ha)) (ne_of_gt (atoms_pos V hb))]

/-- C48: the weight does not depend on the quantity. -/
theorem C48_scale {c : Cfg} (V : Valid c) {m : NMat} (h : Solid m) {k : ℚ} (hk : 0 < k) :
    cosi c (m.scale k) = cosi c m := by
  rw [C48_weight V h, C48_weight V (h.scale hk), weight_scale (ne_of_gt hk)]

/-- C48: the static variables of the function are transparent: any number of calls, in any order,
return the weights of their arguments. -/
theorem C48_history {c : Cfg} (V : Valid c) {ms : List NMat} (h : ∀ m ∈ ms, Solid m) :
    ∃ k, calls c ms .init = .ok (ms.map (weight c), k) := by
  have key : ∀ {ms : List NMat} {k : Statics}, (∀ m ∈ ms, Solid m) → StaticsOk c k →
      ∃ k', calls c ms k = .ok (ms.map (weight c), k') := by
    intro ms
    induction ms with
    | nil => intro k _ _; exact ⟨k, rfl⟩
    | cons m ms ih =>
      intro k h hk
      obtain ⟨k1, e1, e2⟩ := cosiStatic_eq V hk m
      obtain ⟨k2, e3⟩ := ih (fun x hx => h x (by simp [hx])) e2
      refine ⟨k2, ?_⟩
      simp only [calls, e1, ok_bind, e3, pure_eq_ok, List.map_cons, wt_solid V (h m (by simp))]
  exact key h ⟨fun h => absurd rfl h, fun n x h => by simp [Statics.init] at h⟩

/-- Weights in the example: uranium-238, plutonium-239, depleted uranium. -/
example : (cosi exCfg ⟨[(922380000, 7)]⟩).toOption = some 0 ∧
    (cosi exCfg ⟨[(942390000, 7)]⟩).toOption = some 1 ∧
    (cosi exCfg ⟨[(922350000, 236), (922380000, 239)]⟩).toOption = some (629 / 1880) ∧
    (calls exCfg [du, pu, du] .init).toOption.map Prod.fst =
      some [weight exCfg du, weight exCfg pu, weight exCfg du] := by decide +kernel

end Cyc.FuelFab
