import Verif.Sim.Conversion
import Verif.Sim.Enrichment
import Verif.Sim.Example
import Verif.Sim.FuelFab
import Verif.Sim.Mixer
import Verif.Sim.Reactor
import Verif.Sim.Separations
import Verif.Sim.Sink
import Verif.Sim.Source
import Verif.Sim.Storage

/-!
# Whole simulations: properties C125, C126, C127 and C128

A simulation is any list of prototypes (`Kind`), deployed and then run with an exchange that makes
any deals within the published requests and offers (`Exchange.Fair`), which may be different ones in
every step. The exchange is the only thing that is not a facility. An agreement says what may be
requested and delivered in a commodity (`Agreement`); it matters only where there is enrichment, which
needs uranium for feed (`suits_anything`).
-/

namespace Cyc.Sim

variable {A : Agreement} {μ : NMat → ℚ}

/-- What a facility has changes, as `μ` measures it, only by what it is given and what it gives: a
reactor transmutes, and a source without a recipe decides only on delivery what its material is. -/
def Keeps (μ : NMat → ℚ) : Kind → Prop
  | .reactor _ _ _ => μ = qty
  | .source c => c.recipe = none → μ = qty
  | _ => True

theorem keeps_qty (k : Kind) : Keeps qty k := by cases k <;> simp [Keeps]

theorem measure_qty : Measure qty := fun _ _ h => Network.totalQty_eq h

theorem measure_mass (n : Nat) : Measure fun m => m.mass n := fun _ _ h => h n

theorem deploy_ok (hμ : Measure μ) {k : Kind} (hk : Keeps μ k) (h : Sensible k) (hA : Suits A k) :
    ∃ p, deploy k = .ok p ∧ Good A μ holdings p ∧ p.k = k := by
  have key : ∀ {p : Running act}, deploy k = .ok p → p.k = k := by
    intro p hp
    cases k <;> simp only [deploy, bind_ok, pure_eq_ok, Except.ok.injEq] at hp
    case conversion => rw [← hp]
    case mixer => rw [← hp]
    all_goals
      obtain ⟨s, -, hp⟩ := hp
      rw [← hp]
  have : ∃ p, deploy k = .ok p ∧ Good A μ holdings p := by
    cases k with
    | conversion c => exact OfConversion.deployed hμ h hA
    | enrichment c => exact OfEnrichment.deployed hμ h hA
    | fuelFab c => exact OfFuelFab.deployed hμ h hA
    | mixer c => exact OfMixer.deployed hμ h hA
    | reactor c enc dec => 
      obtain rfl : μ = qty := hk
      exact OfReactor.deployed h hA
    | separations c => exact OfSeparations.deployed hμ h hA
    | sink c => exact OfSink.deployed h hA
    | source c => exact OfSource.deployed hμ hk h hA
    | storage c want => exact OfStorage.deployed hμ h hA
  obtain ⟨p, h1, h2⟩ := this
  exact ⟨p, h1, h2, key h1⟩

theorem deployAll_ok (hμ : Measure μ) {ks : List Kind} (hk : ∀ k ∈ ks, Keeps μ k)
    (h : ∀ k ∈ ks, Sensible k ∧ Suits A k) :
    ∃ ps, deployAll ks = .ok ps ∧ (∀ p ∈ ps, Good A μ holdings p) ∧ ps.map Running.k = ks := by
  induction ks with
  | nil => exact ⟨[], rfl, by simp, rfl⟩
  | cons k ks ih =>
    obtain ⟨p, h1, h2, h3⟩ := deploy_ok hμ (hk k (by simp)) (h k (by simp)).1 (h k (by simp)).2
    obtain ⟨ps, h4, h5, h6⟩ := ih (fun x hx => hk x (by simp [hx]))
      fun x hx => h x (by simp [hx])
    refine ⟨p :: ps, by simp [deployAll, h1, h4, ok_bind, pure_eq_ok], ?_, by simp [h3, h6]⟩
    intro q hq
    rcases List.mem_cons.1 hq with rfl | hq
    · exact h2
    · exact h5 q hq

theorem simulate_ok {ex : Nat → Exchange} (hex : ∀ t, (ex t).Fair) (n : Nat) :
    ∀ (t : Nat) {ps : List (Running act)}, (∀ p ∈ ps, Good A μ holdings p) →
    ∃ l ps', simulate ex n t ps = .ok (l, ps') ∧ l.length = n ∧ (∀ p ∈ ps', Good A μ holdings p) ∧
      ps'.map Running.k = ps.map Running.k ∧ tot μ (allOf holdings ps') = tot μ (allOf holdings ps) ∧
      ∀ gs ∈ l, ∀ g ∈ gs, Matches A g := by
  induction n with
  | zero => intro t ps h; exact ⟨[], ps, rfl, rfl, h, rfl, rfl, by simp⟩
  | succ n ih =>
    intro t ps h
    obtain ⟨asks, offers, gs, ps₁, -, -, h1, h10, h2, h3, h4⟩ := round_ok (hex t) h
    obtain ⟨l, ps', h5, h6, h7, h8, h9, h11⟩ := ih (t + 1) h2
    refine ⟨gs :: l, ps', by simp [simulate, h1, h5, ok_bind, pure_eq_ok], by simp [h6], h7,
      h8.trans h3, h9.trans h4, fun x hx => ?_⟩
    rcases List.mem_cons.1 hx with rfl | hx
    · exact h10.2
    · exact h11 x hx

/-- The agreement by which anything may be requested and delivered. -/
def anything : Agreement := ⟨fun _ _ => True, fun _ _ => True⟩

/-- Everything except enrichment suits it. -/
theorem suits_anything {k : Kind} (hk : ∀ c, k ≠ .enrichment c) : Suits anything k := by
  have P : ∀ ins out, Passes anything ins out := fun ins out =>
    ⟨fun _ => True, OfSource.blendable_true, fun _ _ _ _ _ => trivial, fun _ _ _ => trivial⟩
  cases k with
  | enrichment c => exact absurd rfl (hk c)
  | conversion c => exact ⟨fun _ _ _ _ => trivial, P _ _⟩
  | fuelFab c => exact ⟨fun _ _ _ _ => trivial, fun _ _ _ _ => trivial, fun _ _ => trivial,
      fun _ _ => trivial⟩
  | mixer c => exact ⟨fun _ _ _ _ _ _ => trivial, fun _ _ => trivial⟩
  | reactor c enc dec => exact ⟨fun _ _ _ _ _ _ _ _ => trivial, fun _ _ _ _ => trivial⟩
  | separations c => exact ⟨fun _ _ _ _ => trivial, fun _ _ => trivial, fun _ _ _ _ => trivial⟩
  | sink c => exact fun _ _ _ _ => trivial
  | source c =>
    exact ⟨fun _ => True, OfSource.blendable_true, fun _ _ => trivial, fun _ _ _ _ => trivial,
      fun _ _ _ => trivial⟩
  | storage c want => exact ⟨fun _ _ _ _ => trivial, fun _ _ => P _ _⟩

/-! ## C125 -/

/-- C125. The facilities can be deployed, and whatever the exchange does within the requests and
offers, no time step fails; in each of them every facility publishes requests and offers, and every
deal is delivered in the amount agreed.

Partial: for prototypes that are `Sensible`, with feed for the enrichment facilities that suits them
(`Suits`), and without the deals that `FuelFab` offers but cannot keep (C46, `fuelKept`). -/
theorem C125_runs_partial {ks : List Kind} (hks : ∀ k ∈ ks, Sensible k ∧ Suits A k) :
    ∃ ps, deployAll ks = .ok ps ∧ ∀ ex : Nat → Exchange, (∀ t, (ex t).Fair) → ∀ n,
      ∃ l ps', simulate ex n 0 ps = .ok (l, ps') ∧ l.length = n ∧ ps'.map Running.k = ks ∧
        ∃ asks offers gs ps'', askAll ps' = .ok asks ∧ offerAll (requestsOf asks) ps' = .ok offers ∧
          round (ex n) ps' = .ok (gs, ps'') ∧ (gs.map Prod.fst).Perm (ex n asks offers) ∧
          ∀ g ∈ gs, qty g.2 = g.1.amt ∧ Mat.Nonneg g.2 := by
  obtain ⟨ps, h1, h2, h3⟩ := deployAll_ok measure_qty (fun k _ => keeps_qty k) hks
  refine ⟨ps, h1, fun ex hex n => ?_⟩
  obtain ⟨l, ps', h4, h5, h6, h7, -, -⟩ := simulate_ok hex n 0 h2
  obtain ⟨asks, offers, gs, ps'', e1, e2, e3, ⟨e4, e5⟩, -⟩ := round_ok (hex n) h6
  exact ⟨l, ps', h4, h5, h7.trans h3, asks, offers, gs, ps'', e1, e2, e3, e4, fun g hg =>
    ⟨(e5 g hg).1.2, (e5 g hg).1.1.2⟩⟩

/-- C125 without enrichment: nothing has to be agreed upon. -/
theorem C125_without_enrichment_partial {ks : List Kind} (hks : ∀ k ∈ ks, Sensible k)
    (hne : ∀ c, .enrichment c ∉ ks) :
    ∃ ps, deployAll ks = .ok ps ∧ ∀ ex : Nat → Exchange, (∀ t, (ex t).Fair) → ∀ n,
      ∃ l ps', simulate ex n 0 ps = .ok (l, ps') ∧ l.length = n ∧ ps'.map Running.k = ks ∧
        ∃ asks offers gs ps'', askAll ps' = .ok asks ∧ offerAll (requestsOf asks) ps' = .ok offers ∧
          round (ex n) ps' = .ok (gs, ps'') ∧ (gs.map Prod.fst).Perm (ex n asks offers) ∧
          ∀ g ∈ gs, qty g.2 = g.1.amt ∧ Mat.Nonneg g.2 :=
  C125_runs_partial fun k hk => ⟨hks k hk, suits_anything fun c e => hne c (e ▸ hk)⟩

/-! ## C126 -/

/-- What a facility starts with, in kg. -/
def startsWith : Kind → ℚ
  | .source c => c.size
  | .enrichment c => max 0 c.initialFeed
  | _ => 0

theorem deploy_mass {k : Kind} (hk : Sensible k) {p : Running act} (h : deploy k = .ok p) :
    totalQty (holdings p.k p.s) = startsWith k := by
  cases k with
  | conversion c => cases h; rfl
  | enrichment c =>
    simp only [deploy, bind_ok, pure_eq_ok, Except.ok.injEq] at h
    obtain ⟨s, h, rfl⟩ := h
    obtain ⟨-, e1, e2, -⟩ := Enrichment.build_inv hk.1 h
    show totalQty (Enrichment.contents s) = max 0 c.initialFeed
    unfold Enrichment.contents
    rw [e1, e2, List.append_nil]
    unfold Enrichment.initial
    split
    · rename_i h0
      have hp := hk.1.recipePos
      simp only [totalQty_cons, totalQty_nil, add_zero, Mat.qty_scale]
      rw [max_eq_right h0.le]
      field_simp
    · rename_i h0
      rw [max_eq_left (not_lt.1 h0)]; rfl
  | fuelFab c =>
    simp only [deploy, bind_ok, pure_eq_ok, Except.ok.injEq] at h
    obtain ⟨s, h, rfl⟩ := h
    show totalQty (FuelFab.contents s) = 0
    rw [(FuelFab.enter_inv h).2.1]; rfl
  | mixer c =>
    cases h
    show totalQty (Mixer.contents (Mixer.enter c)) = 0
    exact Network.totalQty_eq (l' := []) fun n => by rw [Mixer.contents_enter]; rfl
  | reactor c enc dec =>
    simp only [deploy, bind_ok, pure_eq_ok, Except.ok.injEq] at h
    obtain ⟨s, h, rfl⟩ := h
    unfold Reactor.enter at h
    dsimp only at h
    split at h
    · cases h
    · cases h; rfl
  | separations c =>
    simp only [deploy, bind_ok, pure_eq_ok, Except.ok.injEq] at h
    obtain ⟨s, h, rfl⟩ := h
    obtain ⟨e1, e2, e3, -⟩ := Separations.enter_inv h
    show totalQty (Separations.contents s) = 0
    have : s.bufs.flatMap (fun b => b.2.items) = [] := by
      rw [e3]; exact List.flatMap_eq_nil_iff.2 (Separations.initBufs_items _)
    unfold Separations.contents
    rw [e1, e2, this]; rfl
  | sink c =>
    simp only [deploy, bind_ok, pure_eq_ok, Except.ok.injEq] at h
    obtain ⟨s, h, rfl⟩ := h
    show totalQty (sunk s.inventory.items) = 0
    rw [(Sink.enter_ok h).2.1]; rfl
  | source c =>
    obtain ⟨h0, h1, h2, h3, h4, h5⟩ := hk
    simp only [deploy, Source.build_eq, ok_bind, pure_eq_ok, Except.ok.injEq] at h
    subst h
    show totalQty [Source.ofComp c.size (Source.stuff c)] = c.size
    have hstuff : 0 < qty (Source.stuff c) := by
      unfold Source.stuff
      cases h : c.recipe with
      | none => exact (solid_blank (q := 1) (by norm_num)).1
      | some r => exact (h3 r h).1
    simp only [totalQty_cons, totalQty_nil, add_zero]
    exact Source.qty_ofComp hstuff
  | storage c want =>
    simp only [deploy, bind_ok, pure_eq_ok, Except.ok.injEq] at h
    obtain ⟨⟨q, s⟩, h, rfl⟩ := h
    show totalQty (Storage.contents s) = 0
    have := (Storage.contents_total (Storage.enter_inv h).1).1
    simpa [Storage.mats] using this

theorem deployAll_mass {ks : List Kind} (hks : ∀ k ∈ ks, Sensible k) {ps : List (Running act)}
    (h : deployAll ks = .ok ps) : tot qty (allOf holdings ps) = (ks.map startsWith).sum := by
  induction ks generalizing ps with
  | nil =>
    simp only [deployAll, Except.ok.injEq] at h
    subst h; rfl
  | cons k ks ih =>
    simp only [deployAll, bind_ok, pure_eq_ok, Except.ok.injEq] at h
    obtain ⟨p, h1, ps', h2, rfl⟩ := h
    have e1 := deploy_mass (hks k (by simp)) h1
    have e2 := ih (fun x hx => hks x (by simp [hx])) h2
    rw [List.map_cons, List.sum_cons, ← e1, ← e2]
    simp [allOf, tot_qty]

/-- C126. At any time, what all facilities have is in total what the sources and the enrichment
facilities had at the start.

Partial: as C125. -/
theorem C126_total_partial {ks : List Kind} (hks : ∀ k ∈ ks, Sensible k ∧ Suits A k)
    {ps : List (Running act)} (h : deployAll ks = .ok ps) {ex : Nat → Exchange}
    (hex : ∀ t, (ex t).Fair) {n : Nat} {l : List (List (Deal × NMat))} {ps' : List (Running act)}
    (hs : simulate ex n 0 ps = .ok (l, ps')) :
    (ps'.map fun p => totalQty (holdings p.k p.s)).sum = (ks.map startsWith).sum := by
  obtain ⟨ps₀, h1, h2, -⟩ := deployAll_ok measure_qty (fun k _ => keeps_qty k) hks
  rw [h] at h1
  simp only [Except.ok.injEq] at h1
  subst h1
  obtain ⟨l', ps'', h4, -, -, -, h5, -⟩ := simulate_ok hex n 0 h2
  rw [hs] at h4
  simp only [Except.ok.injEq, Prod.mk.injEq] at h4
  obtain ⟨-, rfl⟩ := h4
  rw [← deployAll_mass (fun k hk => (hks k hk).1) h, ← h5]
  clear h5 hs
  induction ps' with
  | nil => rfl
  | cons p ps ih =>
    rw [List.map_cons, List.sum_cons, ih]
    simp [allOf, tot_qty]

/-! ## C127 -/

/-- C127. If every prototype requests only what is agreed upon, and delivers what is agreed upon as
long as it receives that, then whatever is delivered in a simulation is as agreed.

Partial: as C125. -/
theorem C127_agreed_partial {ks : List Kind} (hks : ∀ k ∈ ks, Sensible k ∧ Suits A k)
    {ps : List (Running act)} (h : deployAll ks = .ok ps) {ex : Nat → Exchange}
    (hex : ∀ t, (ex t).Fair) {n : Nat} {l : List (List (Deal × NMat))} {ps' : List (Running act)}
    (hs : simulate ex n 0 ps = .ok (l, ps')) {gs : List (Deal × NMat)} (hgs : gs ∈ l)
    {d : Deal} {m : NMat} (hg : (d, m) ∈ gs) : A.mat d.commod m := by
  obtain ⟨ps₀, h1, h2, -⟩ := deployAll_ok measure_qty (fun k _ => keeps_qty k) hks
  rw [h] at h1
  simp only [Except.ok.injEq] at h1
  subst h1
  obtain ⟨l', ps'', h4, -, -, -, -, h5⟩ := simulate_ok hex n 0 h2
  rw [hs] at h4
  simp only [Except.ok.injEq, Prod.mk.injEq] at h4
  obtain ⟨rfl, -⟩ := h4
  exact (h5 gs hgs _ hg).2

/-! ## C128 -/

/-- What a facility starts with of a nuclide, in kg. -/
def startsWithOf (n : Nat) : Kind → ℚ
  | .source c => match c.recipe with
    | none => 0
    | some r => c.size * (r.mass n / qty r)
  | .enrichment c => max 0 c.initialFeed * (c.feedRecipe.mass n / qty c.feedRecipe)
  | _ => 0

theorem deploy_nuclide {k : Kind} (hk : Sensible k) (hr : ∀ c, k = .source c → c.recipe ≠ none)
    {p : Running act} (h : deploy k = .ok p) (n : Nat) :
    Mat.massOf (holdings p.k p.s) n = startsWithOf n k := by
  cases k with
  | conversion c => cases h; rfl
  | enrichment c =>
    simp only [deploy, bind_ok, pure_eq_ok, Except.ok.injEq] at h
    obtain ⟨s, h, rfl⟩ := h
    obtain ⟨-, e1, e2, -⟩ := Enrichment.build_inv hk.1 h
    show Mat.massOf (Enrichment.contents s) n = max 0 c.initialFeed * _
    unfold Enrichment.contents
    rw [e1, e2, List.append_nil]
    unfold Enrichment.initial
    split
    · rename_i h0
      have hp := hk.1.recipePos
      simp only [Mat.massOf_cons, Mat.massOf_nil, add_zero, Mat.mass_scale]
      rw [max_eq_right h0.le]
      field_simp
    · rename_i h0
      rw [max_eq_left (not_lt.1 h0), zero_mul]; rfl
  | fuelFab c =>
    simp only [deploy, bind_ok, pure_eq_ok, Except.ok.injEq] at h
    obtain ⟨s, h, rfl⟩ := h
    show Mat.massOf (FuelFab.contents s) n = 0
    rw [(FuelFab.enter_inv h).2.1]; rfl
  | mixer c =>
    cases h
    show Mat.massOf (Mixer.contents (Mixer.enter c)) n = 0
    exact Mixer.contents_enter c n
  | reactor c enc dec =>
    simp only [deploy, bind_ok, pure_eq_ok, Except.ok.injEq] at h
    obtain ⟨s, h, rfl⟩ := h
    unfold Reactor.enter at h
    dsimp only at h
    split at h
    · cases h
    · cases h; rfl
  | separations c =>
    simp only [deploy, bind_ok, pure_eq_ok, Except.ok.injEq] at h
    obtain ⟨s, h, rfl⟩ := h
    obtain ⟨e1, e2, e3, -⟩ := Separations.enter_inv h
    show Mat.massOf (Separations.contents s) n = 0
    have : s.bufs.flatMap (fun b => b.2.items) = [] := by
      rw [e3]; exact List.flatMap_eq_nil_iff.2 (Separations.initBufs_items _)
    unfold Separations.contents
    rw [e1, e2, this]; rfl
  | sink c =>
    simp only [deploy, bind_ok, pure_eq_ok, Except.ok.injEq] at h
    obtain ⟨s, h, rfl⟩ := h
    show Mat.massOf (sunk s.inventory.items) n = 0
    rw [(Sink.enter_ok h).2.1]; rfl
  | source c =>
    obtain ⟨h0, h1, h2, h3, h4, h5⟩ := hk
    simp only [deploy, Source.build_eq, ok_bind, pure_eq_ok, Except.ok.injEq] at h
    subst h
    show Mat.massOf [Source.ofComp c.size (Source.stuff c)] n = startsWithOf n (.source c)
    obtain ⟨r, e⟩ := Option.ne_none_iff_exists'.1 (hr c rfl)
    simp only [startsWithOf, Source.stuff, e, Source.ofComp, Mat.massOf_cons, Mat.massOf_nil,
      add_zero, Mat.mass_scale, Option.getD_some]
    ring
  | storage c want =>
    simp only [deploy, bind_ok, pure_eq_ok, Except.ok.injEq] at h
    obtain ⟨⟨q, s⟩, h, rfl⟩ := h
    show Mat.massOf (Storage.contents s) n = 0
    have := (Storage.contents_total (Storage.enter_inv h).1).2.1 n
    simpa [Storage.mats] using this

theorem deployAll_nuclide {ks : List Kind} (hks : ∀ k ∈ ks, Sensible k)
    (hr : ∀ c, .source c ∈ ks → c.recipe ≠ none) {ps : List (Running act)}
    (h : deployAll ks = .ok ps) (n : Nat) :
    (ps.map fun p => Mat.massOf (holdings p.k p.s) n).sum = (ks.map (startsWithOf n)).sum := by
  induction ks generalizing ps with
  | nil =>
    simp only [deployAll, Except.ok.injEq] at h
    subst h; rfl
  | cons k ks ih =>
    simp only [deployAll, bind_ok, pure_eq_ok, Except.ok.injEq] at h
    obtain ⟨p, h1, ps', h2, rfl⟩ := h
    have e1 := deploy_nuclide (hks k (by simp)) (fun c e => hr c (by simp [e])) h1 n
    have e2 := ih (fun x hx => hks x (by simp [hx])) (fun c hc => hr c (by simp [hc])) h2
    rw [List.map_cons, List.sum_cons, List.map_cons, List.sum_cons, e1, e2]

theorem massOf_allOf (ps : List (Running act)) (n : Nat) : tot (fun m => m.mass n) (allOf holdings ps) =
    (ps.map fun p => Mat.massOf (holdings p.k p.s) n).sum := by
  induction ps with
  | nil => rfl
  | cons p ps ih =>
    rw [List.map_cons, List.sum_cons, ← ih]
    unfold allOf
    rw [List.flatMap_cons, tot_append]
    rfl

/-- C128. At any time, what all facilities have of a nuclide is in total what the sources and the
enrichment facilities had of it at the start: only reactors transmute.

Partial: as C125, and without sources that have no recipe. -/
theorem C128_nuclides_partial {ks : List Kind} (hks : ∀ k ∈ ks, Sensible k ∧ Suits A k)
    (hno : ∀ c enc dec, .reactor c enc dec ∉ ks) (hr : ∀ c, .source c ∈ ks → c.recipe ≠ none)
    {ps : List (Running act)} (h : deployAll ks = .ok ps) {ex : Nat → Exchange}
    (hex : ∀ t, (ex t).Fair) {t : Nat} {l : List (List (Deal × NMat))} {ps' : List (Running act)}
    (hs : simulate ex t 0 ps = .ok (l, ps')) (n : Nat) :
    (ps'.map fun p => Mat.massOf (holdings p.k p.s) n).sum = (ks.map (startsWithOf n)).sum := by
  have hk : ∀ k ∈ ks, Keeps (fun m => m.mass n) k := by
    intro k hk
    cases k with
    | reactor c enc dec => exact absurd hk (hno c enc dec)
    | source c => exact fun e => absurd e (hr c hk)
    | _ => trivial
  obtain ⟨ps₀, h1, h2, -⟩ := deployAll_ok (measure_mass n) hk hks
  rw [h] at h1
  simp only [Except.ok.injEq] at h1
  subst h1
  obtain ⟨l', ps'', h4, -, -, -, h5, -⟩ := simulate_ok hex t 0 h2
  rw [hs] at h4
  simp only [Except.ok.injEq, Prod.mk.injEq] at h4
  obtain ⟨-, rfl⟩ := h4
  rw [← deployAll_nuclide (fun k hk => (hks k hk).1) hr h, ← massOf_allOf, ← massOf_allOf]
  exact h5

/-! ## An example -/

theorem exKinds_sensible : ∀ k ∈ exKinds, Sensible k := by
  intro k hk
  simp only [exKinds, List.mem_cons, List.not_mem_nil, or_false] at hk
  rcases hk with rfl | rfl | rfl | rfl | rfl | rfl | rfl | rfl
  · refine ⟨by norm_num [exMine], by norm_num [exMine], by norm_num [exMine], ?_, fun _ => rfl,
      fun _ => rfl⟩
    intro r hr
    cases hr
    exact ⟨by decide +kernel, by norm_num [Mat.Nonneg, exMine]⟩
  · exact ⟨by norm_num [exConversion], by norm_num [exConversion], by norm_num [exConversion],
      by norm_num [exConversion]⟩
  · refine ⟨⟨by norm_num [Mat.Nonneg, exEnrichment], by decide +kernel, ?_, ?_, ?_, ?_, ?_, ?_, ?_⟩, ?_,
      by decide, rfl⟩ <;> norm_num [exEnrichment, Enrichment.u235, Enrichment.u238]
  · refine ⟨⟨rfl, rfl, rfl, Or.inl rfl, by decide, rfl, rfl, rfl, rfl, rfl, ?_, le_rfl,
      by norm_num [exReactor], by decide, by decide, by norm_num [exReactor]⟩, ?_⟩
    · intro r hr
      simp only [exReactor, List.mem_singleton, List.not_mem_nil, or_false] at hr ⊢
      rcases hr with rfl | rfl <;> decide
    · intro n
      unfold exDec
      split
      · exact ⟨by decide +kernel, by norm_num [Mat.Nonneg, exMine]⟩
      · exact ⟨by decide +kernel, by norm_num [Mat.Nonneg, exMine]⟩
  · refine ⟨⟨by decide, by decide, ?_, ?_, by norm_num [exSeparations], by norm_num [exSeparations],
      by norm_num [exSeparations], by norm_num [exSeparations]⟩, by norm_num [exSeparations], rfl,
      by decide, Or.inl rfl, by decide⟩
    · intro s hs e he
      simp only [exSeparations, List.mem_cons, List.not_mem_nil, or_false] at hs
      rcases hs with rfl | rfl <;> simp only [List.mem_cons, List.not_mem_nil, or_false] at he
      · subst he; norm_num
      · rcases he with rfl | rfl <;> norm_num
    · exact Separations.exCfg_valid.share
  · refine ⟨⟨by decide, ?_, by norm_num [exMixer], by norm_num [exMixer], by norm_num [exMixer]⟩, ?_,
      by norm_num [exMixer]⟩ <;>
    · intro x hx
      simp only [exMixer, List.mem_cons, List.not_mem_nil, or_false] at hx
      rcases hx with rfl | rfl <;> norm_num
  · refine ⟨⟨by decide, Or.inl rfl, rfl, Or.inl rfl, ?_⟩, by norm_num [exStorage], Or.inr ?_⟩ <;>
      norm_num [exStorage]
  · refine ⟨⟨by norm_num [exSink], by norm_num [exSink], by norm_num [exSink], by norm_num [exSink],
      ?_⟩, ?_, Or.inl rfl, rfl, rfl⟩ <;>
    · intro r hr; cases hr

theorem exKinds_suit : ∀ k ∈ exKinds, Suits exAgreement k := by
  have any : ∀ k, k ≠ "fuel" → ∀ m, exAgreement.target k m := fun k hk m e => absurd e hk
  have free : ∀ k, k ≠ "ore" → k ≠ "feed" → k ≠ "fuel" → Free exAgreement k := fun k h1 h2 h3 m _ =>
    ⟨fun e => (e.elim h1 h2).elim, fun e => absurd e h3⟩
  have assayed : Assayed (1/100) (1/100) ⟨[(922350000, 1), (922380000, 99)]⟩ := by
    refine ⟨?_, ?_, ?_⟩
    · intro m hm e he
      rw [List.mem_singleton] at hm
      subst hm
      simp only [List.mem_cons, List.not_mem_nil, or_false] at he
      rcases he with rfl | rfl
      · exact Or.inl rfl
      · exact Or.inr rfl
    · decide +kernel
    · decide +kernel
  intro k hk
  simp only [exKinds, List.mem_cons, List.not_mem_nil, or_false] at hk
  rcases hk with rfl | rfl | rfl | rfl | rfl | rfl | rfl | rfl
  · refine ⟨Assayed (1/100) (1/100), OfEnrichment.assayed_blendable _ _, fun r hr => ?_, ?_, ?_⟩
    · cases hr
      exact assayed
    · intro h; cases h
    · intro m _ hm
      exact ⟨fun _ => hm, fun e => absurd e (by decide)⟩
  · refine ⟨fun k hk q _ => any _ ?_ _, Assayed (1/100) (1/100),
      OfEnrichment.assayed_blendable _ _, fun k hk m _ hm => ?_, fun m _ hm => ?_⟩
    · simp only [exConversion, List.mem_singleton] at hk; subst hk; decide
    · simp only [exConversion, List.mem_singleton] at hk; subst hk; exact hm.1 (Or.inl rfl)
    · exact ⟨fun _ => hm, fun e => absurd e (by decide)⟩
  · refine ⟨fun q _ => any _ (by decide) _, free _ (by decide) (by decide) (by decide), ?_, 1/100,
      1/100, by norm_num [exEnrichment], assayed, fun m _ hm => hm.1 (Or.inr rfl), fun m _ hm _ => hm rfl⟩
    intro m q _ _ _ _
    refine ⟨fun e => (e.elim (fun e => absurd e (by decide)) fun e => absurd e (by decide)), fun _ => ?_⟩
    exact Enrichment.pure_scale (Enrichment.offer_pure m)
  · refine ⟨fun k hk r n q _ _ hq _ => ?_, fun k hk => ?_⟩
    · have : 1/100 * ((exDec n).mass Enrichment.u235 + (exDec n).mass Enrichment.u238) ≤
          (exDec n).mass Enrichment.u235 := by
        unfold exDec
        split <;> decide +kernel
      rw [Mat.mass_scale, Mat.mass_scale]
      nlinarith
    · simp only [exReactor, List.mem_singleton] at hk; subst hk
      exact free _ (by decide) (by decide) (by decide)
  · refine ⟨fun k hk q _ => any _ ?_ _, free _ (by decide) (by decide) (by decide), fun x hx => ?_⟩
    · simp only [exSeparations, List.mem_singleton] at hk; subst hk; decide
    · simp only [exSeparations, List.mem_cons, List.not_mem_nil, or_false] at hx
      rcases hx with rfl | rfl <;> exact free _ (by decide) (by decide) (by decide)
  · refine ⟨fun x hx k hk q _ => any _ ?_ _, free _ (by decide) (by decide) (by decide)⟩
    simp only [exMixer, List.mem_cons, List.not_mem_nil, or_false] at hx
    rcases hx with rfl | rfl <;>
    · simp only [List.map_cons, List.map_nil, List.mem_singleton] at hk
      subst hk; decide
  · refine ⟨fun k hk q _ => any _ ?_ _, fun k hk => ⟨fun _ => True, OfSource.blendable_true,
      fun _ _ _ _ _ => trivial, fun m hm _ => free _ ?_ ?_ ?_ m hm⟩⟩
    · simp only [exStorage, List.mem_singleton] at hk; subst hk; decide
    all_goals simp only [exStorage, List.mem_singleton] at hk; subst hk; decide
  · intro k hk q _
    refine any _ ?_ _
    simp only [exSink, List.mem_cons, List.not_mem_nil, or_false] at hk
    rcases hk with rfl | rfl | rfl <;> decide

/-- The example and its exchange meet the hypotheses of C125, C126 and C127. -/
example : (∀ k ∈ exKinds, Sensible k ∧ Suits exAgreement k) ∧ ∀ _ : Nat, greedy.Fair :=
  ⟨fun k hk => ⟨exKinds_sensible k hk, exKinds_suit k hk⟩, fun _ => greedy_fair⟩

/-- In the example everything happens: ore is enriched, fuel is burnt and separated, and tails, waste
and mixed oxide come to their end; nothing of the 530 kg is lost. -/
example : (exRun 8).toOption = some
    [[(0, 1, "ore", 150)], [(0, 1, "ore", 150), (1, 2, "feed", 120)],
      [(0, 1, "ore", 140), (1, 2, "feed", 100), (2, 3, "fuel", 12), (2, 3, "fuel", 12)],
      [(0, 1, "ore", 60), (1, 2, "feed", 140), (2, 7, "tails", 50), (2, 3, "fuel", 12)],
      [(1, 2, "feed", 76), (2, 7, "tails", 50), (2, 3, "fuel", 12), (3, 4, "spent", 12)],
      [(1, 2, "feed", 64), (2, 7, "tails", 50), (4, 5, "pu", 9/10), (4, 5, "u", 15/4),
        (4, 6, "waste", 27/20)],
      [(2, 7, "tails", 50), (4, 5, "pu", 9/10), (4, 5, "u", 15/4), (4, 6, "waste", 27/20)],
      [(2, 7, "tails", 40), (2, 3, "fuel", 12), (3, 4, "spent", 12), (5, 7, "mox", 36/5),
        (6, 7, "old waste", 27/20)]] := by
  decide +kernel

example : ((deployAll exKinds >>= simulate (fun _ => greedy) 8 0).toOption.map fun r =>
    r.2.map fun p => totalQty (holdings p.k p.s)) = some [0, 0, 230, 36, 12, 21/10, 27/20, 4971/20] := by
  decide +kernel

theorem exCold_sensible : ∀ k ∈ exCold, Sensible k := by
  intro k hk
  simp only [exCold, List.mem_cons, List.not_mem_nil, or_false] at hk
  rcases hk with rfl | rfl | rfl | rfl | rfl | rfl | rfl | rfl | rfl
  case inr.inr.inr.inl =>
    refine ⟨⟨by norm_num [exSink, exBuyer], by norm_num [exSink, exBuyer],
      by norm_num [exSink, exBuyer], by norm_num [exSink, exBuyer], ?_⟩, ?_, Or.inl rfl, rfl, rfl⟩
    · intro r hr
      cases hr
      decide +kernel
    · intro r hr
      cases hr
      norm_num [Mat.Nonneg]
  case inr.inr.inr.inr.inl =>
    refine ⟨by norm_num [exMine, exSpent], by norm_num [exMine, exSpent],
      by norm_num [exMine, exSpent], ?_, fun _ => rfl, fun _ => rfl⟩
    intro r hr
    cases hr
    exact ⟨by decide +kernel, by norm_num [Mat.Nonneg, exSpent]⟩
  all_goals exact exKinds_sensible _ (by simp [exKinds])

theorem exCold_suits : ∀ k ∈ exCold, Suits exAgreement k := by
  intro k hk
  simp only [exCold, List.mem_cons, List.not_mem_nil, or_false] at hk
  rcases hk with rfl | rfl | rfl | rfl | rfl | rfl | rfl | rfl | rfl
  case inr.inr.inr.inl =>
    intro k hk q hq _
    have h1 : 0 ≤ q / qty (⟨[(922350000, 5), (922380000, 95)]⟩ : NMat) := by
      have : qty (⟨[(922350000, 5), (922380000, 95)]⟩ : NMat) = 100 := by decide +kernel
      rw [this]; positivity
    have h2 : 1/100 * ((⟨[(922350000, 5), (922380000, 95)]⟩ : NMat).mass Enrichment.u235 +
        (⟨[(922350000, 5), (922380000, 95)]⟩ : NMat).mass Enrichment.u238) ≤
        (⟨[(922350000, 5), (922380000, 95)]⟩ : NMat).mass Enrichment.u235 := by decide +kernel
    simp only [Sink.target, exBuyer, Mat.mass_scale]
    nlinarith
  case inr.inr.inr.inr.inl =>
    refine ⟨fun _ => True, OfSource.blendable_true, fun _ _ => trivial, fun _ _ _ _ => trivial,
      fun m _ _ => ⟨fun e => ?_, fun e => absurd e (by decide)⟩⟩
    exact (e.elim (fun e => absurd e (by decide)) fun e => absurd e (by decide))
  all_goals exact exKinds_suit _ (by simp [exKinds])

/-- The example without a reactor meets the hypotheses of C128. -/
example : (∀ k ∈ exCold, Sensible k ∧ Suits exAgreement k) ∧
    (∀ c enc dec, .reactor c enc dec ∉ exCold) ∧ ∀ c, .source c ∈ exCold → c.recipe ≠ none := by
  refine ⟨fun k hk => ⟨exCold_sensible k hk, exCold_suits k hk⟩, by simp [exCold], ?_⟩
  intro c hc
  simp only [exCold, List.mem_cons, Kind.source.injEq, reduceCtorEq, List.not_mem_nil, or_false,
    false_or] at hc
  rcases hc with rfl | rfl <;> simp [exMine, exSpent]

/-- Of uranium-235, 5 kg are in the mine, 0.3 kg are feed, and 5 kg are in the spent fuel; after
eight steps they are all over the place. -/
example : exCold.map (startsWithOf Enrichment.u235) = [5, 0, 3/10, 0, 5, 0, 0, 0, 0] := by
  decide +kernel

example : ((deployAll exCold >>= simulate (fun _ => greedy) 8 0).toOption.map fun r =>
    r.2.map fun p => Mat.massOf (holdings p.k p.s) Enrichment.u235) =
    some [0, 0, 4/5, 4, 0, 671/300, 5/6, 7/4, 17/25] := by
  decide +kernel

/-! ### With fuel fabrication -/

/-- Plutonium, depleted uranium and weapons plutonium for a fuel fabrication, and two sinks that want
fuel of different worth. -/
def exFab : List Kind :=
  [.source { exMine with outcommod := "pu", recipe := some FuelFab.pu, size := 100, throughput := 20 },
    .source { exMine with outcommod := "du", recipe := some FuelFab.du, size := 400, throughput := 100 },
    .source { exMine with outcommod := "puw", recipe := some FuelFab.puw, size := 10, throughput := 5 },
    .fuelFab FuelFab.exCfg,
    .sink { exSink with commods := ["fuel"], recipe := some FuelFab.fuel1, capacity := 50 },
    .sink { exSink with commods := ["fuel"], recipe := some FuelFab.fuel2, capacity := 10 }]

theorem exFab_sensible : ∀ k ∈ exFab, Sensible k := by
  have S : ∀ (o : String) (r : NMat) (q t : ℚ), 0 ≤ q → 0 ≤ t → 0 < qty r → Mat.Nonneg r →
      Sensible (.source
        { exMine with outcommod := o, recipe := some r, size := q, throughput := t }) := by
    intro o r q t hq ht h1 h2
    refine ⟨hq, ht, by norm_num [exMine], ?_, fun _ => rfl, fun _ => rfl⟩
    intro r' hr
    cases hr
    exact ⟨h1, h2⟩
  have K : ∀ (r : NMat) (q : ℚ), 0 ≤ q → 0 < qty r → Mat.Nonneg r →
      Sensible (.sink { exSink with commods := ["fuel"], recipe := some r, capacity := q }) := by
    intro r q hq h1 h2
    refine ⟨⟨by norm_num [exSink], hq, by norm_num [exSink], by norm_num [exSink], ?_⟩, ?_, Or.inl rfl,
      rfl, rfl⟩
    · intro r' hr
      cases hr
      exact h1
    · intro r' hr
      cases hr
      exact h2
  intro k hk
  simp only [exFab, List.mem_cons, List.not_mem_nil, or_false] at hk
  rcases hk with rfl | rfl | rfl | rfl | rfl | rfl
  · exact S _ _ _ _ (by norm_num) (by norm_num) (by decide +kernel) (by norm_num [Mat.Nonneg, FuelFab.pu])
  · exact S _ _ _ _ (by norm_num) (by norm_num) (by decide +kernel) (by norm_num [Mat.Nonneg, FuelFab.du])
  · exact S _ _ _ _ (by norm_num) (by norm_num) (by decide +kernel) (by norm_num [Mat.Nonneg, FuelFab.puw])
  · exact ⟨FuelFab.exCfg_valid, by decide +kernel, by decide +kernel⟩
  · exact K _ _ (by norm_num) (by decide +kernel) (by norm_num [Mat.Nonneg, FuelFab.fuel1])
  · exact K _ _ (by norm_num) (by decide +kernel) (by norm_num [Mat.Nonneg, FuelFab.fuel2])

/-- The example meets the hypotheses of C125 to C128. -/
example : (∀ k ∈ exFab, Sensible k ∧ Suits anything k) ∧
    (∀ c enc dec, .reactor c enc dec ∉ exFab) ∧ ∀ c, .source c ∈ exFab → c.recipe ≠ none := by
  refine ⟨fun k hk => ⟨exFab_sensible k hk, suits_anything fun c e => ?_⟩, by simp [exFab], ?_⟩
  · subst e
    simp [exFab] at hk
  · intro c hc
    simp only [exFab, List.mem_cons, Kind.source.injEq, reduceCtorEq, List.not_mem_nil, or_false] at hc
    rcases hc with rfl | rfl | rfl <;> simp

/-- Fuel is made of what came in the steps before; the rich fuel only when there is enough top-up.
Nothing of the 510 kg is lost. -/
example : ((deployAll exFab >>= simulate (fun _ => greedy) 4 0).toOption.map fun r =>
    r.1.map fun gs => gs.map fun g => (g.1.src, g.1.dst, g.1.commod, qty g.2)) = some
    [[(0, 3, "pu", 20), (1, 3, "du", 100), (2, 3, "puw", 5)],
      [(0, 3, "pu", 20), (1, 3, "du", 100), (2, 3, "puw", 5), (3, 4, "fuel", 50)],
      [(0, 3, "pu", 20), (1, 3, "du", 100), (3, 4, "fuel", 50), (3, 5, "fuel", 10)],
      [(0, 3, "pu", 20), (1, 3, "du", 100), (3, 4, "fuel", 50)]] := by
  decide +kernel

example : ((deployAll exFab >>= simulate (fun _ => greedy) 4 0).toOption.map fun r =>
    r.2.map fun p => totalQty (holdings p.k p.s)) = some [20, 0, 0, 330, 150, 10] := by
  decide +kernel

end Cyc.Sim
