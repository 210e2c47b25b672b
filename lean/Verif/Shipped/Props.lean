import Verif.Shipped.Spec
import Verif.Sim.Props5
import Verif.Sim.Commods

/-!
# The input files that come with the code run
-/

namespace Cyc.Shipped

open Cyc.Sim
open Cyc.Input (large)

/-! ## Sensible input -/

theorem large_nonneg : (0 : ℚ) ≤ large := by unfold large; positivity

theorem ten_le_large : (10 : ℚ) ^ 100 ≤ large := by
  unfold large
  exact pow_le_pow_right₀ (by norm_num) (by norm_num)

theorem source_sensible {W : World} (hW : W.Sound) {out : String} {r : NMat} {q : Option ℚ} (hr : Solid r)
    (hq : ∀ x, q = some x → 0 ≤ x) : Sensible (W.source out r q).kind := by
  refine ⟨large_nonneg, ?_, hW.eps, ?_, fun _ => rfl, fun _ => rfl⟩
  · show 0 ≤ q.getD large
    cases q with
    | none => exact large_nonneg
    | some x => exact hq x rfl
  · intro r' h
    cases h
    exact hr

theorem sink_sensible {W : World} (hW : W.Sound) {ks : List String} {q : Option ℚ}
    (hq : ∀ x, q = some x → 0 ≤ x) : Sensible (W.sink ks q).kind := by
  refine ⟨⟨large_nonneg, ?_, hW.eps, hW.epsRsrc, ?_⟩, ?_, Or.inl rfl, rfl, rfl⟩
  rotate_left
  · intro r h; cases h
  · intro r h; cases h
  show 0 ≤ q.getD large
  cases q with
  | none => exact large_nonneg
  | some x => exact hq x rfl

theorem enrichment_sensible {W : World} (hW : W.Sound) {feed product tails : String} {r : NMat}
    {o : Input.EnrichmentOpts} (hr : Solid r) (hp : product ≠ tails) (ht : o.tailsAssay.getD (3/1000) = 3/1000)
    (h1 : 0 < o.swuCapacity.getD large) (h2 : 0 ≤ o.maxFeed.getD large)
    (h3 : o.initialFeed.getD 0 ≤ o.maxFeed.getD large) :
    Sensible (W.enrichment feed product tails r o).kind := by
  refine ⟨⟨hr.2, hr.1, hW.eps, h2, ?_, ?_, h1, hW.atom _, hW.heavier⟩, h3, hp, rfl⟩
  · show 0 ≤ o.tailsAssay.getD (3/1000)
    rw [ht]; norm_num
  · show o.tailsAssay.getD (3/1000) ≤ 1
    rw [ht]; norm_num

theorem unit_spec {rs : List (String × NMat)} (hrs : ∀ r ∈ rs, Solid r.2) (n : Nat) :
    qty (unit rs n) = 1 ∧ Mat.Nonneg (unit rs n) := by
  unfold unit
  split
  · rename_i r hr
    obtain ⟨h1, h2⟩ := hrs r (List.mem_of_getElem? hr)
    exact ⟨by rw [Mat.qty_scale]; field_simp, h2.scale (by positivity)⟩
  · exact ⟨by decide +kernel, by norm_num [Mat.Nonneg]⟩

theorem number_isSome {rs : List (String × NMat)} {r : String} (h : r ∈ rs.map Prod.fst) :
    (number rs r).isSome := by
  unfold number
  rw [List.findIdx?_isSome, List.any_eq_true]
  obtain ⟨x, hx, rfl⟩ := List.mem_map.1 h
  exact ⟨x, hx, by simp⟩

/-- The lists of changes of a reactor correspond. -/
structure Tidy (rs : List (String × NMat)) (fuels : List (String × String × String × String))
    (o : Input.ReactorOpts) : Prop where
  prefs : (o.prefs.getD []).length = 0 ∨ (o.prefs.getD []).length = fuels.length
  some : fuels ≠ []
  commods : (o.recipeChangeCommods.getD []).length = (o.recipeChangeTimes.getD []).length
  ins : (o.recipeChangeIn.getD []).length = (o.recipeChangeTimes.getD []).length
  outs : (o.recipeChangeOut.getD []).length = (o.recipeChangeTimes.getD []).length
  prefCommods : (o.prefChangeCommods.getD []).length = (o.prefChangeTimes.getD []).length
  prefValues : (o.prefChangeValues.getD []).length = (o.prefChangeTimes.getD []).length
  known : ∀ r ∈ (fuels.map fun f => f.2.1) ++ (fuels.map fun f => f.2.2.2) ++ o.recipeChangeIn.getD [] ++
    o.recipeChangeOut.getD [], r ∈ rs.map Prod.fst
  side : (o.sideProducts.getD []).length ≤ (o.sideQty.getD []).length
  cycle : 0 < o.cycleTime.getD 18

theorem reactor_sensible {W : World} (hW : W.Sound) {rs : List (String × NMat)}
    (hrs : ∀ r ∈ rs, Solid r.2) {fuels : List (String × String × String × String)} {a : ℚ} {b : Nat}
    {o : Input.ReactorOpts} (h : Tidy rs fuels o) (ha : 0 < a) (hb : 0 < b) :
    Sensible (W.reactor rs fuels a b o).kind := by
  refine ⟨⟨?_, ?_, ?_, ?_, ?_, h.commods, h.ins, h.outs, h.prefCommods, h.prefValues, ?_, h.side, ha, hb,
    h.cycle, hW.eps.le⟩, unit_spec hrs⟩
  · simp [Input.ReactorOpts.fill]
  · simp [Input.ReactorOpts.fill]
  · simp [Input.ReactorOpts.fill]
  · simpa [Input.ReactorOpts.fill] using h.prefs
  · simpa [Input.ReactorOpts.fill] using h.some
  · intro r hr
    refine number_isSome (h.known r ?_)
    simp only [List.mem_append]
    rcases hr with hr | hr | hr | hr
    · exact Or.inl (Or.inl (Or.inl hr))
    · exact Or.inl (Or.inl (Or.inr hr))
    · exact Or.inl (Or.inr hr)
    · exact Or.inr hr

theorem separations_sensible {W : World} (hW : W.Sound) {feeds : List String} {buf : ℚ}
    {streams : List (String × Separations.Stream)} {o : Input.SeparationsOpts}
    (h1 : (streams.map Prod.fst).Nodup)
    (h2 : o.leftoverCommod.getD "default-waste-stream" ∉ streams.map Prod.fst)
    (h3 : ∀ s ∈ streams, ∀ e ∈ s.2.effs, 0 ≤ e.2) (h4 : ∀ n, Separations.share streams n ≤ 1)
    (h5 : 1 ≤ o.throughput.getD large) (h6 : 0 ≤ buf) (h7 : o.leftoverCap = none) (h8 : feeds ≠ [])
    (h9 : (o.feedPrefs.getD []).length = 0 ∨ (o.feedPrefs.getD []).length = feeds.length)
    (h10 : ∀ s ∈ streams, (s.2.effs.map Prod.fst).Nodup) :
    Sensible (W.separations feeds buf streams o).kind :=
  ⟨⟨h1, h2, h3, h4, zero_lt_one.trans_le h5, hW.lo.trans h5, hW.eps.le, h6⟩, hW.eps, h7, h8, h9, h10⟩

theorem fuelFab_sensible {W : World} (hW : W.Sound) {fills fisses : List String} {r : NMat}
    {fillSize fissSize : ℚ} {out : String} {o : Input.FuelFabOpts} (hr : Solid r)
    (h1 : ∀ m, o.fissRecipe = some m ∨ o.topupRecipe = some m → Solid m) (h2 : 0 ≤ o.throughput.getD large)
    (h3 : o.fissPrefs = none) (h4 : o.fillPrefs = none) :
    Sensible (W.fuelFab fills r fillSize fisses fissSize "thermal" out o).kind := by
  refine ⟨⟨hW.atom, hW.u238, hW.pu239, hW.surplus _ rfl rfl, ⟨_, rfl⟩, ?_, hW.eps, hW.near, hW.nearHalf,
    h2⟩, Or.inl ?_, Or.inl ?_⟩
  · rintro m (h | h)
    · cases h; exact hr
    · exact h1 m h
  · simp [Input.FuelFabOpts.fill, h3]
  · simp [Input.FuelFabOpts.fill, h4]

/-! ## The agreements -/

/-- Feed has the assay `a`, and product is requested with no less. -/
def dealt (feed product : String) (a : ℚ) : Agreement where
  target k m := k = product → a * (m.mass Enrichment.u235 + m.mass Enrichment.u238) ≤ m.mass Enrichment.u235
  mat k m := k = feed → Assayed a a m

section
variable {W : World} {feed product : String} {a : ℚ}

theorem sink_suits {ks : List String} {q : Option ℚ} (h : product ∉ ks) :
    Suits (dealt feed product a) (W.sink ks q).kind := fun k hk _ _ e => absurd (e ▸ hk) h

theorem source_suits {out : String} {r : NMat} {q : Option ℚ} (h : out = feed → Assayed a a r) :
    Suits (dealt feed product a) (W.source out r q).kind := by
  by_cases e : out = feed
  · refine ⟨Assayed a a, OfEnrichment.assayed_blendable _ _, fun r' hr' => ?_, fun h => (by cases h),
      fun m _ hm _ => hm⟩
    cases hr'
    exact h e
  · exact ⟨fun _ => True, OfSource.blendable_true, fun _ _ => trivial, fun _ _ _ _ => trivial,
      fun m _ _ h => absurd h e⟩

theorem enrichment_suits {tails : String} {r : NMat} {o : Input.EnrichmentOpts} (h1 : feed ≠ product)
    (h2 : tails ≠ feed) (h3 : Assayed a a r) (h4 : o.tailsAssay.getD (3/1000) < a) :
    Suits (dealt feed product a) (W.enrichment feed product tails r o).kind :=
  ⟨fun _ _ e => absurd e h1, fun _ _ e => absurd e h2, fun _ _ _ _ _ _ e => absurd e.symm h1, a, a, h4, h3,
    fun _ _ h => h rfl, fun _ _ h _ => h rfl⟩

theorem separations_suits {feeds : List String} {buf : ℚ} {streams : List (String × Separations.Stream)}
    {o : Input.SeparationsOpts} (h1 : product ∉ feeds) (h2 : feed ∉ streams.map Prod.fst)
    (h3 : o.leftoverCommod.getD "default-waste-stream" ≠ feed) :
    Suits (dealt feed product a) (W.separations feeds buf streams o).kind :=
  ⟨fun _ hk _ _ e => absurd (e ▸ hk) h1, fun _ _ e => absurd e h3,
    fun _ hx _ _ e => absurd (e ▸ List.mem_map_of_mem hx) h2⟩

theorem fuelFab_suits {fills fisses : List String} {r : NMat} {fillSize fissSize : ℚ} {s out : String}
    {o : Input.FuelFabOpts} (h1 : product ∉ fills) (h2 : product ∉ fisses)
    (h3 : o.topupCommod.getD "" ≠ product) (h4 : out ≠ feed) :
    Suits (dealt feed product a) (W.fuelFab fills r fillSize fisses fissSize s out o).kind :=
  ⟨fun _ hk _ _ e => absurd (e ▸ hk) h2, fun _ hk _ _ e => absurd (e ▸ hk) h1, fun _ _ e => absurd e h3,
    fun _ _ e => absurd e h4⟩

/-- The recipes that the input names for the product have at least the assay `a`. -/
theorem reactor_suits {rs : List (String × NMat)} {fuels : List (String × String × String × String)} {x : ℚ}
    {b : Nat} {o : Input.ReactorOpts}
    (h1 : ∀ r n, ((product, r) ∈ (fuels.map fun f => (f.1, f.2.1)) ∨
      (product, r) ∈ (o.recipeChangeCommods.getD []).zip (o.recipeChangeIn.getD [])) → number rs r = some n →
      a * ((unit rs n).mass Enrichment.u235 + (unit rs n).mass Enrichment.u238) ≤
        (unit rs n).mass Enrichment.u235)
    (h2 : feed ∉ fuels.map fun f => f.2.2.1) :
    Suits (dealt feed product a) (W.reactor rs fuels x b o).kind := by
  refine ⟨fun k _ r n q hN hn hq e => ?_, fun _ hk _ _ e => absurd (e ▸ hk) h2⟩
  subst e
  have := h1 r n (by
    rcases hN with hN | hN
    · left
      simpa [Input.ReactorOpts.fill, List.zip_map'] using hN
    · exact Or.inr hN) hn
  rw [Mat.mass_scale, Mat.mass_scale]
  nlinarith

end

/-! ## The files -/

theorem solid_of {m : NMat} (h1 : 0 < qty m) (h2 : ∀ e ∈ m.entries, 0 ≤ e.2) : Solid m := ⟨h1, h2⟩

theorem natural_solid : Solid natural := solid_of (by decide +kernel) (by decide +kernel)

theorem hydrogen_solid : Solid hydrogen := solid_of (by decide +kernel) (by decide +kernel)

theorem depleted_solid : Solid (uranium (3/1000) (997/1000)) :=
  solid_of (by decide +kernel) (by decide +kernel)

theorem spent_solid : Solid spent := solid_of (by decide +kernel) (by decide +kernel)

theorem solid_recipes {rs : List (String × NMat)}
    (h : rs.all (fun r => decide (0 < qty r.2) && r.2.entries.all fun e => decide (0 ≤ e.2)) = true) :
    ∀ r ∈ rs, Solid r.2 := by
  intro r hr
  have := List.all_eq_true.1 h r hr
  simp only [Bool.and_eq_true, decide_eq_true_eq, List.all_eq_true] at this
  exact ⟨this.1, this.2⟩

theorem assayed_uranium {a b x : ℚ} (h : x * (a + b) = a) : Assayed x x (uranium a b) := by
  have h1 : (uranium a b).mass Enrichment.u235 = a := by
    simp [uranium, Mat.mass, Enrichment.u235]
  have h2 : (uranium a b).mass Enrichment.u238 = b := by
    simp [uranium, Mat.mass, Enrichment.u238]
  refine ⟨?_, ?_, ?_⟩
  · intro m hm e he
    rw [List.mem_singleton] at hm
    subst hm
    simp only [uranium, List.mem_cons, List.not_mem_nil, or_false] at he
    rcases he with rfl | rfl
    · exact Or.inl rfl
    · exact Or.inr rfl
  · rw [h1, h2]; exact h.le
  · rw [h1, h2]; exact h.ge

/-- What the proofs need of a file: one agreement suits all its prototypes. -/
def Fine (f : File) : Prop := ∃ A, ∀ p ∈ f.protos, Sensible p.input.kind ∧ Suits A p.input.kind

/-- The stream of `recycle.xml` takes 99 % of the plutonium. -/
theorem recycle_share (n : Nat) :
    Separations.share [("sep_stream", ⟨10 ^ 100, [(940000000, 99/100)]⟩)] n ≤ 1 := by
  simp only [Separations.share, List.map_cons, List.map_nil, List.sum_cons, List.sum_nil, add_zero,
    Separations.fraction]
  have h : ∀ k x, Separations.entry [(940000000, 99/100)] k = some x → x = 99/100 := by
    intro k x hx
    rw [Separations.entry_cons] at hx
    split at hx
    · exact (Option.some.inj hx).symm
    · cases hx
  cases h1 : Separations.entry [(940000000, 99/100)] n with
  | some x => rw [Option.some_or, Option.getD_some, h _ _ h1]; norm_num
  | none =>
    cases h2 : Separations.entry [(940000000, 99/100)] (Separations.element n) with
    | some x => rw [Option.none_or, Option.getD_some, h _ _ h2]; norm_num
    | none => norm_num

theorem recycle_fine {W : World} (hW : W.Sound) : Fine (recycle W) := by
  refine ⟨dealt "natl_u" "uox" (711/100000), ?_⟩
  intro p hp
  simp only [recycle, List.mem_cons, List.not_mem_nil, or_false] at hp
  rcases hp with rfl | rfl | rfl | rfl | rfl | rfl
  · refine ⟨enrichment_sensible hW natural_solid (by decide) rfl ?_ ?_ ?_,
      enrichment_suits (by decide) (by decide) (assayed_uranium (by norm_num)) ?_⟩
    · simp only [Option.getD_some]; positivity
    · exact large_nonneg
    · exact ten_le_large
    · norm_num
  · refine ⟨separations_sensible hW (by decide) (by decide) ?_ recycle_share ?_ (by norm_num) rfl (by decide)
      (Or.inr rfl) (by decide), separations_suits (by decide) (by decide) (by decide)⟩
    · intro s hs e he
      obtain rfl := List.mem_singleton.1 hs
      obtain rfl := List.mem_singleton.1 he
      norm_num
    · norm_num
  · refine ⟨fuelFab_sensible hW depleted_solid ?_ ?_ rfl rfl,
      fuelFab_suits (by decide) (by decide) (by decide) (by decide)⟩
    · rintro m (h | h) <;> cases h
    · norm_num
  · refine ⟨reactor_sensible hW (solid_recipes (by decide +kernel)) ⟨Or.inr rfl, by decide, rfl, rfl, rfl,
      rfl, rfl, by decide +kernel, le_rfl, by decide⟩ (by norm_num) (by norm_num),
      reactor_suits ?_ (by decide)⟩
    intro r n hr hn
    have hr : r = "fresh_uox" := by simpa using hr
    subst hr
    have : n = 1 := by
      have : number recycleRecipes "fresh_uox" = some 1 := by decide +kernel
      rw [this] at hn
      exact (Option.some.inj hn).symm
    subst this
    decide +kernel
  · exact ⟨sink_sensible hW (by rintro x h; cases h; positivity), sink_suits (by decide)⟩
  · exact ⟨source_sensible hW depleted_solid (by rintro x h; cases h),
      source_suits fun h => absurd h (by decide)⟩

theorem physorEnrichment_fine {W : World} (hW : W.Sound) : Fine (physorEnrichment W) := by
  refine ⟨dealt "natl_u" "enriched_u" (711/100000), ?_⟩
  have rich : ∀ r n, r = "lwr_fuel_recipe" ∨ r = "lwr_fuel_recipe2" → number physorRecipes r = some n →
      711/100000 * ((unit physorRecipes n).mass Enrichment.u235 +
        (unit physorRecipes n).mass Enrichment.u238) ≤ (unit physorRecipes n).mass Enrichment.u235 := by
    intro r n hr hn
    rcases hr with rfl | rfl
    · have : number physorRecipes "lwr_fuel_recipe" = some 1 := by decide +kernel
      rw [this] at hn
      cases hn
      decide +kernel
    · have : number physorRecipes "lwr_fuel_recipe2" = some 2 := by decide +kernel
      rw [this] at hn
      cases hn
      decide +kernel
  intro p hp
  simp only [physorEnrichment, List.mem_cons, List.not_mem_nil, or_false] at hp
  rcases hp with rfl | rfl | rfl
  · refine ⟨enrichment_sensible hW natural_solid (by decide) rfl ?_ ?_ ?_,
      enrichment_suits (by decide) (by decide) (assayed_uranium (by norm_num)) ?_⟩
    · norm_num
    · exact large_nonneg
    · show (100000 : ℚ) ≤ large
      exact le_trans (by norm_num) ten_le_large
    · norm_num
  · refine ⟨reactor_sensible hW (solid_recipes (by decide +kernel)) ⟨Or.inr rfl, by decide, rfl, rfl, rfl,
      rfl, rfl, by decide +kernel, le_rfl, by decide⟩ (by norm_num) (by norm_num),
      reactor_suits (fun r n hr => rich r n ?_) (by decide)⟩
    rcases hr with hr | hr
    · left; simpa using hr
    · have : r = "lwr_fuel_recipe2" ∨ r = "lwr_fuel_recipe" := by simpa using hr
      exact this.symm
  · refine ⟨reactor_sensible hW (solid_recipes (by decide +kernel)) ⟨Or.inr rfl, by decide, rfl, rfl, rfl,
      rfl, rfl, by decide +kernel, le_rfl, by decide⟩ (by norm_num) (by norm_num),
      reactor_suits (fun r n hr => rich r n ?_) (by decide)⟩
    left; simpa using hr

theorem physorSources_fine {W : World} (hW : W.Sound) : Fine (physorSources W) := by
  refine ⟨anything, ?_⟩
  intro p hp
  simp only [physorSources, List.mem_cons, List.not_mem_nil, or_false] at hp
  rcases hp with rfl | rfl | rfl | rfl | rfl
  · exact ⟨source_sensible hW (solid_of (by decide +kernel) (by decide +kernel)) (by
      rintro x h; cases h; norm_num), suits_anything (by rintro c ⟨⟩)⟩
  · exact ⟨source_sensible hW (solid_of (by decide +kernel) (by decide +kernel)) (by
      rintro x h; cases h; norm_num), suits_anything (by rintro c ⟨⟩)⟩
  all_goals
    exact ⟨reactor_sensible hW (solid_recipes (by decide +kernel)) ⟨Or.inr rfl, by decide, rfl, rfl, rfl,
      rfl, rfl, by decide +kernel, le_rfl, by decide⟩ (by norm_num) (by norm_num),
      suits_anything (by rintro c ⟨⟩)⟩

theorem enrichment_fine {W : World} (hW : W.Sound) {o : Input.EnrichmentOpts} {w : Option ℚ} {x : ℚ}
    (h1 : 0 < o.swuCapacity.getD large) (h2 : 0 ≤ o.maxFeed.getD large) (h3 : o.initialFeed = none)
    (hx : 0 ≤ x) : ∃ A, ∀ p ∈ enrichmentProtos W o w x, Sensible p.input.kind ∧ Suits A p.input.kind := by
  have solid : Solid (uranium (7/10) (993/10)) := solid_of (by decide +kernel) (by decide +kernel)
  have assayed : Assayed (7/1000) (7/1000) (uranium (7/10) (993/10)) := assayed_uranium (by norm_num)
  refine ⟨dealt "natl_u" "enriched_u" (7/1000), ?_⟩
  intro p hp
  simp only [enrichmentProtos, List.mem_cons, List.not_mem_nil, or_false] at hp
  rcases hp with rfl | rfl | rfl | rfl
  · exact ⟨source_sensible hW solid (by rintro x h; cases h; norm_num), source_suits fun _ => assayed⟩
  · refine ⟨enrichment_sensible hW solid (by decide) rfl h1 h2 ?_,
      enrichment_suits (by decide) (by decide) assayed ?_⟩
    · simpa [h3] using h2
    · norm_num
  · refine ⟨reactor_sensible hW (solid_recipes (by decide +kernel)) ⟨Or.inl rfl, by decide, rfl, rfl, rfl,
      rfl, rfl, ?_, le_rfl, Nat.one_pos⟩ (by norm_num) (by norm_num),
      reactor_suits (fun r n hr hn => ?_) (by decide)⟩
    · show ∀ r ∈ ["fuel_recipe", "used_fuel_recipe"], r ∈ enrichmentRecipes.map Prod.fst
      decide +kernel
    have hr : r = "fuel_recipe" := by simpa using hr
    subst hr
    have : number enrichmentRecipes "fuel_recipe" = some 1 := by decide +kernel
    rw [this] at hn
    cases hn
    decide +kernel
  · exact ⟨sink_sensible hW (by rintro y h; cases h; exact hx), sink_suits (by decide)⟩

/-- Files with sources and sinks only. -/
theorem simple_fine {W : World} (hW : W.Sound) {f : File}
    (h : ∀ p ∈ f.protos, (∃ out r q, Solid r ∧ 0 ≤ q ∧ p.input = W.source out r (some q)) ∨
      ∃ ks q, (∀ x, q = some x → 0 ≤ x) ∧ p.input = W.sink ks q) : Fine f := by
  refine ⟨anything, fun p hp => ?_⟩
  rcases h p hp with ⟨out, r, q, hr, hq, e⟩ | ⟨ks, q, hq, e⟩
  · rw [e]
    exact ⟨source_sensible hW hr (by rintro x h; cases h; exact hq), suits_anything (by rintro c ⟨⟩)⟩
  · rw [e]
    exact ⟨sink_sensible hW hq, suits_anything (by rintro c ⟨⟩)⟩

theorem files_fine {W : World} (hW : W.Sound) : ∀ f ∈ files W, Fine f := by
  intro f hf
  simp only [files, List.mem_cons, List.not_mem_nil, or_false] at hf
  rcases hf with rfl | rfl | rfl | rfl | rfl | rfl | rfl | rfl | rfl | rfl | rfl | rfl | rfl | rfl | rfl | rfl
  · exact recycle_fine hW
  · exact physorEnrichment_fine hW
  · exact physorSources_fine hW
  · exact enrichment_fine hW (by norm_num [large]) (by norm_num) rfl (by norm_num)
  · exact enrichment_fine hW (by norm_num [large]) (by norm_num) rfl (by norm_num)
  · exact enrichment_fine hW (by norm_num [large]) (by norm_num) rfl (by norm_num)
  · exact enrichment_fine hW (by norm_num) (by norm_num) rfl (by norm_num)
  all_goals
    refine simple_fine hW fun p hp => ?_
    simp only [minimal, minimalLife, minimalThree, minimalThreeLife, deployed, growthLinear, growthDeploy,
      capacitated, growth, List.mem_cons, List.not_mem_nil, or_false] at hp
  all_goals rcases hp with rfl | rfl | rfl | rfl
  all_goals first
    | exact Or.inl ⟨_, _, _, hydrogen_solid, by norm_num, rfl⟩
    | exact Or.inl ⟨_, _, _, natural_solid, by norm_num, rfl⟩
    | exact Or.inr ⟨_, none, by rintro x ⟨⟩, rfl⟩
    | exact Or.inr ⟨_, some _, by rintro x ⟨⟩; norm_num, rfl⟩

/-! ## C157 -/

/-- The file, with facilities that leave when they may, is one way to play it. -/
theorem plan_plays (f : File) (leaves : Nat → Nat → Bool) : Plays f (f.plan leaves) := by
  intro t k hk
  obtain ⟨p, hp, rfl⟩ := List.mem_map.1 hk
  refine ⟨p, ?_, rfl⟩
  simp only [File.due, List.mem_flatMap] at hp
  obtain ⟨b, -, hp⟩ := hp
  split at hp
  · obtain ⟨q, hq, hp⟩ := List.mem_flatMap.1 hp
    obtain rfl := List.eq_of_mem_replicate hp
    exact (List.mem_filter.1 hq).1
  · cases hp

/-- C157. The input files that come with the code run: whatever is built of the prototypes of a file, whenever,
and whatever leaves, and whatever a fair exchange decides, a simulation of any number of steps goes through, no
facility is lost, everything is handed over in the amount agreed, and no mass is made or lost.

Partial: as C125. -/
theorem C157_runs_partial {W : World} (hW : W.Sound) {f : File} (hf : f ∈ files W) {plan : Plan}
    (hp : Plays f plan) {ex : Nat → Exchange} (hex : ∀ t, (ex t).Fair) (n : Nat) :
    ∃ l gone ps, live ex plan n 0 [] = .ok (l, gone, ps) ∧ l.length = n ∧
      ((gone ++ ps).map Running.k).Perm
        ((List.range n).flatMap fun t => (plan.builds t).map (Kind.since t)) ∧
      (∀ p ∈ gone, mayLeave p.k p.s = true) ∧
      (ps.map fun p => totalQty (holdings p.k p.s)).sum +
        (gone.map fun p => totalQty (holdings p.k p.s)).sum =
          ((List.range n).map fun t => ((plan.builds t).map startsWith).sum).sum ∧
      ∃ new asks offers gs ps', deployAll ((plan.builds n).map (Kind.since n)) = .ok new ∧
        askAll (ps ++ new) = .ok asks ∧ offerAll (requestsOf asks) (ps ++ new) = .ok offers ∧
        round (ex n) (ps ++ new) = .ok (gs, ps') ∧ (gs.map Prod.fst).Perm (ex n asks offers) ∧
        ∀ g ∈ gs, qty g.2 = g.1.amt ∧ Mat.Nonneg g.2 := by
  obtain ⟨A, hA⟩ := files_fine hW f hf
  have hb : ∀ t, ∀ k ∈ plan.builds t, Sensible k ∧ Suits A k := by
    intro t k hk
    obtain ⟨p, h, rfl⟩ := hp t k hk
    exact ⟨sensible_until _ (hA p h).1, suits_until _ (hA p h).2⟩
  obtain ⟨l, gone, ps, h1, h2, h3, h4, new, asks, offers, gs, ps', h5, -, h6, h7, h8, h9, h10⟩ :=
    C129_comings_and_goings_partial hb hex n
  exact ⟨l, gone, ps, h1, h2, h3, h4, C130_total_partial hb hex h1, new, asks, offers, gs, ps', h5, h6, h7, h8,
    h9, h10⟩

/-- C157. So they do with a growth region: whatever it demands, whatever the building manager decides, and
whatever others build of the prototypes of the file.

Partial: as C125. -/
theorem C157_grown_partial {W : World} (hW : W.Sound) {f : File} (hf : f ∈ files W) {region : Region.Cfg}
    {power : String} {limit : ℚ} {is : List Region.Inst} {n : Nat} (hs : Region.Start is [] n)
    (hv : (f.country region power limit).Valid is) {ex : Nat → Exchange} (hex : ∀ t, (ex t).Fair)
    {es : List Event} (he : ∀ e ∈ es, (f.country region power limit).Orderly is e) :
    ∃ os x, Grown (f.country region power limit) is n ex es os x ∧ os.length = es.length := by
  obtain ⟨A, hA⟩ := files_fine hW f hf
  refine C134_runs_partial (A := A) hs hv ?_ hex he
  intro m hm
  obtain ⟨p, hp, rfl⟩ := List.mem_map.1 hm
  show Sensible (match f.protos.find? fun q => q.name = p.name with | some p => p.input.kind | none => _) ∧
    Suits A (match f.protos.find? fun q => q.name = p.name with | some p => p.input.kind | none => _)
  cases h : f.protos.find? fun q => q.name = p.name with
  | none => simp at h; exact absurd rfl (h p hp)
  | some q => exact hA q (List.mem_of_find?_eq_some h)

/-- What is built of the file, if it is all built at the start. -/
theorem built_start {f : File} (h : ∀ b ∈ f.builds, b.1 = 0) (leaves : Nat → Nat → Bool) (n : Nat) :
    ((f.plan leaves).built 0 n).Sublist (((f.plan leaves).builds 0).map (Kind.since 0)) := by
  cases n with
  | zero => exact List.nil_sublist _
  | succ n =>
    have late : ∀ m t, ((f.plan leaves).built (t + 1) m) = [] := by
      intro m t
      refine List.flatMap_eq_nil_iff.2 fun u hu => ?_
      have hu : t + 1 ≤ u := (List.mem_range'_1.1 hu).1
      have : f.due u = [] := by
        refine List.flatMap_eq_nil_iff.2 fun b hb => if_neg ?_
        rw [h b hb]; omega
      simp [File.plan, this]
    have : (f.plan leaves).built 0 (n + 1) =
        ((f.plan leaves).builds 0).map (Kind.since 0) ++ (f.plan leaves).built (0 + 1) n := rfl
    rw [this, late, List.append_nil]

/-- C157. Where a file has an enrichment facility, no more than one of the facilities that it builds sells the
feed, so there is nothing to sort for `order_prefs`. -/
theorem C157_one_seller {W : World} {f : File} (hf : f ∈ files W) {p : Proto} (hp : p ∈ f.protos)
    {c : Enrichment.Cfg} (hc : p.input.kind = .enrichment c) (leaves : Nat → Nat → Bool) (n : Nat) :
    (((f.plan leaves).built 0 n).filter fun k => c.feedCommod ∈ sellsOf k).length ≤ 1 := by
  have key : ∀ {x : String}, (∀ b ∈ f.builds, b.1 = 0) → c.feedCommod = x →
      ((((f.plan leaves).builds 0).map (Kind.since 0)).filter fun k => x ∈ sellsOf k).length ≤ 1 →
      (((f.plan leaves).built 0 n).filter fun k => c.feedCommod ∈ sellsOf k).length ≤ 1 := by
    rintro x h rfl h'
    exact ((built_start h leaves n).filter _).length_le.trans h'
  simp only [files, List.mem_cons, List.not_mem_nil, or_false] at hf
  rcases hf with rfl | rfl | rfl | rfl | rfl | rfl | rfl | rfl | rfl | rfl | rfl | rfl | rfl | rfl | rfl | rfl
  all_goals
    simp only [recycle, physorEnrichment, physorSources, enrichmentOne, enrichmentLinear, enrichmentNatu,
      enrichmentSwu, enrichmentProtos, minimal, minimalLife, minimalThree, minimalThreeLife, deployed,
      growthLinear, growthDeploy, capacitated, growth, List.mem_cons, List.not_mem_nil, or_false] at hp
  all_goals rcases hp with rfl | rfl | rfl | rfl | rfl | rfl
  all_goals first
    | (cases hc; done)
    | (cases hc
       refine key (x := "natl_u") ?_ rfl ?_
       · simp [recycle, physorEnrichment, enrichmentOne, enrichmentLinear, enrichmentNatu, enrichmentSwu]
       exact Nat.le_of_ble_eq_true rfl)

/-! ## Examples -/

/-- A sound world. -/
def exWorld : World where
  eps := 1/1000000
  lo := 1/1000000
  epsRsrc := 1/1000000
  near := 1/1000000
  defaultPref := 1
  atomMass n := (n / 10000 % 1000 : Nat) + 1
  xs s n :=
    if s = "thermal" then
      if n = 922350000 then some (3, 2)
      else if n = 922380000 then some (0, 1)
      else if n = 942390000 then some (4, 3)
      else none
    else none
  value x := (1 - 2 * x) * (1 - 2 * x)
  code _ := 1

theorem exWorld_sound : exWorld.Sound where
  eps := by norm_num [exWorld]
  epsRsrc := by norm_num [exWorld]
  lo := by norm_num [exWorld]
  near := by norm_num [exWorld]
  nearHalf := by norm_num [exWorld]
  atom n := by simp only [exWorld]; positivity
  heavier := by decide +kernel
  u238 := ⟨_, rfl⟩
  pu239 := ⟨_, rfl⟩
  surplus c h1 h2 := by
    simp only [FuelFab.surplus, FuelFab.yield, h1, h2]
    decide +kernel

/-- Amounts handed over by step. -/
def amounts (ex : Exchange) (plan : Plan) (n : Nat) : Option (List (List ℚ)) :=
  (live (fun _ => ex) plan n 0 []).toOption.map fun r => r.1.map fun gs => gs.map fun g => qty g.2

/-- As `tests/test_regression.py` has it for `source_1_sink_1.xml`. -/
example : amounts greedy ((minimal exWorld).plan fun _ _ => false) 3 = some [[1], [1], [1]] := by
  decide +kernel

/-- As `tests/test_regression.py` has it for `dynamic_capacitated.xml`: 2 kg, 3 kg, and again 2 kg. The sinks
leave when their life is over. -/
example : amounts greedy ((capacitated exWorld).plan fun t i => (t = 2 ∨ t = 3) ∧ (i = 3 ∨ i = 4)) 5 =
    some [[], [1, 1], [1, 1, 1], [1, 1], []] := by
  decide +kernel

/-- `1_src_enr_rxtr_sink.xml`: feed at first, then an assembly of 2 kg in every step, and the feed for it. -/
example : amounts greedy ((enrichmentOne exWorld).plan fun _ _ => false) 5 =
    some [[500], [2], [21, 2], [21, 2], [21, 2]] := by
  decide +kernel

/-- The growth region of `tests/input/growth.xml`. -/
def exRegion : Region.Cfg where
  demand := [("commodity1", [⟨0, "linear", "1 2"⟩]), ("commodity2", [⟨1, "linear", "0 3"⟩])]
  fn _ ps := if ps = "1 2" then .ok fun x => x + 2 else .ok fun _ => 3

/-- Its institution. -/
def exInst : Region.Inst := ⟨1, .manager, ["Sink", "Source1", "Source2", "Source3"], [], []⟩

def exCountry : Country := (growth exWorld).country exRegion "power" 1000

/-- The building manager covers the demand with as little as it can. -/
def exEvent (bs : List (Nat × String)) : Event where
  builds := bs
  decision k u := if k = "commodity2" then [⟨some 1, some "Source3", ⌈u⌉⟩]
    else if u ≤ 11/10 then [⟨some 1, some "Source1", 1⟩] else [⟨some 1, some "Source2", ⌈u / 2⌉⟩]
  leaves _ := false

def exEvents : List Event := [exEvent [(1, "Sink")], exEvent [], exEvent [], exEvent []]

theorem exEvents_orderly : ∀ e ∈ exEvents, exCountry.Orderly [exInst] e := by
  have key : ∀ bs : List (Nat × String), (∀ b ∈ bs, b.1 = 1 ∧ b.2 ∈ exCountry.names) →
      exCountry.Orderly [exInst] (exEvent bs) := by
    intro bs hb
    refine ⟨fun b h => ⟨by simp [exInst, (hb b h).1], (hb b h).2⟩, fun k u o ho => ?_⟩
    simp only [exEvent] at ho
    split at ho
    · obtain rfl := List.mem_singleton.1 ho
      exact ⟨1, _, rfl, rfl, by simp [exInst], by decide⟩
    · split at ho
      · obtain rfl := List.mem_singleton.1 ho
        exact ⟨1, _, rfl, rfl, by simp [exInst], by decide⟩
      · obtain rfl := List.mem_singleton.1 ho
        exact ⟨1, _, rfl, rfl, by simp [exInst], by decide⟩
  intro e he
  simp only [exEvents, List.mem_cons, List.not_mem_nil, or_false] at he
  rcases he with rfl | rfl | rfl | rfl <;> exact key _ (by decide)

theorem exCountry_start : Region.Start [exInst] [] 2 :=
  ⟨by decide, by decide, by simp, by simp⟩

theorem exCountry_valid : exCountry.Valid [exInst] := by
  refine ⟨by decide, ?_, ?_, ?_⟩
  · intro kp _ p _
    show ∃ f, exRegion.fn p.type p.params = .ok f
    simp only [exRegion]
    split <;> exact ⟨_, rfl⟩
  · intro kp hk
    simp only [exCountry, File.country, exRegion, List.mem_cons, List.not_mem_nil, or_false] at hk
    rcases hk with rfl | rfl <;> simp
  · intro i hi _ p hp
    obtain rfl := List.mem_singleton.1 hi
    simp only [exInst, List.mem_cons, List.not_mem_nil, or_false] at hp
    rcases hp with rfl | rfl | rfl | rfl <;> decide

/-- The file runs with its growth region. -/
example : ∃ os x, Grown exCountry [exInst] 2 (fun _ => greedy) exEvents os x ∧ os.length = 4 :=
  C157_grown_partial exWorld_sound (by simp [files]) exCountry_start exCountry_valid (fun _ => greedy_fair)
    exEvents_orderly

/-- What is ordered in each step, and built in the next: as `tests/test_regression.py` has it, a `Source2` that
is built at time 1, a `Source1` and three `Source3` at time 2, and a `Source1` at time 3. -/
def exGrowth : R (List (List String × List ℚ)) := do
  let T ← exCountry.load exCountry.names
  let w ← Region.enter exCountry.region T [exInst] [] [] 2
  let (os, _) ← grow exCountry T (fun _ => greedy) 0 ⟨w, []⟩ exEvents
  pure (os.map fun o => (o.ordered.map Prod.snd, o.deals.map fun g => qty g.2))

example : exGrowth.toOption =
    some [(["Source2"], []), (["Source1", "Source3", "Source3", "Source3"], [2]),
      (["Source1"], [2, 11/10, 1, 1, 1]), (["Source1"], [2, 11/10, 1, 1, 1, 11/10])] := by
  decide +kernel

end Cyc.Shipped
