import Verif.Sim.Props22

/-!
# Without refuelling outages the power that is demanded is recorded: property C153
-/

namespace Cyc.Sim

variable {A : Agreement}

/-- C153, for reactors that are refuelled in no time (`refuel_time` 0). In every step but the first the
reactors record no less power than was demanded in the step before, if the building manager decided for
builds that cover what was missing.

Partial: as C125. -/
theorem C153_no_outages_partial {C : Country} {is : List Region.Inst} {n : Nat} (hs : Region.Start is [] n)
    (hv : C.Valid is) (hm : ∀ i ∈ is, i.kind = .manager)
    (hin : ∀ p ∈ C.names, Sensible (C.input p) ∧ Suits A (C.input p))
    (hc : ∀ p ∈ C.names, ∀ k, 0 ≤ capacity C.power k (C.input p))
    {ex : Nat → Exchange} (hex : ∀ t, (ex t).Fair) (hea : ∀ t, (ex t).Eager) {es : List Event}
    {os : List Seen} {x : Land} (h : Grown C is n ex es os x) (he : ∀ e ∈ es, C.Orderly is e)
    {e₀ : Event} (h0 : es[0]? = some e₀) {i a : Nat} {pf : String} {f : Source.Cfg}
    (hi : e₀.builds[i]? = some (a, pf)) (hf : C.input pf = .source f) {y a' : Nat} {pw : String}
    {w : Sink.Cfg} (hy : e₀.builds[y]? = some (a', pw)) (hw : C.input pw = .sink w)
    (hl : ∀ e ∈ es, ∀ x, x ≤ i ∨ x ≤ y → e.leaves x = false)
    (hS : Supplies ((C.plan es os).built 0 es.length) f es.length)
    (hD : Drains ((C.plan es os).built 0 es.length) w es.length)
    (hr : ∀ p ∈ C.names, ∀ c enc dec, C.input p = .reactor c enc dec → C.life p = -1 ∧ Fuelled f w c)
    (hp : ∀ p ∈ C.names, C.power ∉ sellsOf (C.input p))
    (hz : ∀ p ∈ C.names, ∀ c enc dec, C.input p = .reactor c enc dec → c.refuelTime = 0) :
    ∃ G B, chronicle ex (C.plan es os) es.length 0 [] = .ok (G, B) ∧ B.map Book.p = x.plants ∧
      ∃ E : Book → Nat → ℚ,
        (∀ b ∈ B, b.p.k.isReactor = true → b.since + b.got.length = es.length ∧ b.Records (E b)) ∧
        ∀ (t : Nat) e fs, t + 1 < es.length → es[t]? = some e → Region.Demanded C.region C.power fs →
          (∀ u, 0 < u → u ≤ ((Region.expand (e.decision C.power u)).map fun b =>
            capacity C.power C.power (C.input b.2)).sum) →
          Region.curve fs.reverse t ≤ ((atWork B (t + 1)).map fun b => E b (t + 1)).sum := by
  obtain ⟨G, B, k1, -, k2, -, E, k3, -, k4⟩ := C153_power_partial hs hv hm hin hc hex hea h he h0 hi hf hy hw
    hl hS hD hr hp
  refine ⟨G, B, k1, k2, E, k3, fun t e fs ht hee hfs hcov => (k4 t e fs ht hee hfs hcov).trans_eq ?_⟩
  refine congrArg List.sum (List.map_congr_left fun b hb => ?_)
  have hbB : b ∈ B := (List.mem_filter.1 hb).1
  obtain ⟨built, -⟩ := C134_built hs h
  have hk : b.p.k ∈ (os.flatMap Seen.gone ++ x.plants).map Running.k := by
    rw [← k2]
    exact List.mem_map_of_mem (List.mem_append_right _ (List.mem_map_of_mem hbB))
  obtain ⟨s, -, hk⟩ := List.mem_flatMap.1 (built.mem_iff.1 hk)
  obtain ⟨d, hd, e1⟩ := List.mem_map.1 hk
  have hn := due_names hs h he s d hd
  have z : refuelling b.p.k (t + 1 - b.since) = 0 := by
    rw [← e1]
    unfold Country.made
    cases e2 : C.input d.2 with
    | reactor c enc dec =>
      have h1 := hz _ hn c enc dec e2
      have h2 : 0 < c.cycleTime := by
        have := (hin _ hn).1
        rw [e2] at this
        exact this.1.cycleTime
      refine if_pos ?_
      show _ % (c.cycleTime + c.refuelTime) < c.cycleTime
      rw [h1, Nat.add_zero]
      exact Nat.mod_lt _ h2
    | _ => rfl
  rw [z, add_zero]

/-! ## An example -/

/-- As `exGrid`, with reactors that are refuelled in no time. -/
def exSteady : Country := { exGrid with
  input := fun p => if p = "fuel" then .source exFuel else if p = "pool" then .sink exPool
    else .reactor { exReactor with refuelTime := 0 } (fun _ => 1) exDec }

theorem exSteady_valid : exSteady.Valid [exManager] :=
  ⟨by simp [exSteady, exGrid], fun _ _ _ _ => ⟨_, rfl⟩,
    fun kp hk => by
      have hk : kp = ("power", [⟨1, "lin", ""⟩]) := List.mem_singleton.1 hk
      subst hk
      simp,
    fun i hi _ p hp => by
      obtain rfl := List.mem_singleton.1 hi
      obtain rfl := List.mem_singleton.1 hp
      decide⟩

theorem exSteady_sensible :
    ∀ p ∈ exSteady.names, Sensible (exSteady.input p) ∧ Suits exOpen (exSteady.input p) := by
  intro p _
  simp only [exSteady]
  split
  · exact exFleet_sensible _ (by simp [exFleet])
  · split
    · exact exFleet_sensible _ (by simp [exFleet])
    · obtain ⟨⟨W, d⟩, k⟩ := exFleet_sensible (.reactor exReactor (fun _ => 1) exDec) (by simp [exFleet])
      exact ⟨⟨{ W with }, d⟩, k⟩

theorem exSteady_orderly : ∀ e ∈ exYears, exSteady.Orderly [exManager] e := fun e he =>
  ⟨(exYears_orderly e he).1, (exYears_orderly e he).2⟩

/-- What the region orders in the example. -/
def exSteadyOrders : R (List (List (Nat × String))) := do
  let T ← exSteady.load exSteady.names
  let w ← Region.enter exSteady.region T [exManager] [] [] 2
  let (os, _) ← grow exSteady T (fun _ => filling) 0 ⟨w, []⟩ exYears
  pure (os.map Seen.ordered)

theorem exSteadyOrders_eq :
    exSteadyOrders.toOption = some [[], [(1, "reactor")], [(1, "reactor")], [(1, "reactor")]] := by
  decide +kernel

/-- The example runs; two reactors are built in it, and what is demanded at time 2 is recorded at time 3. -/
example : ∃ os x G B, Grown exSteady [exManager] 2 (fun _ => filling) exYears os x ∧
    chronicle (fun _ => filling) (exSteady.plan exYears os) 4 0 [] = .ok (G, B) ∧
    ∃ E : Book → Nat → ℚ, (∀ b ∈ B, b.p.k.isReactor = true → b.Records (E b)) ∧
      20 ≤ ((atWork B 3).map fun b => E b 3).sum := by
  obtain ⟨os, x, h, hl⟩ := C134_runs_partial exCountry_start exSteady_valid exSteady_sensible
    (fun _ => filling_fair) exSteady_orderly
  have hl : os.length = 4 := hl
  have ho : os.map Seen.ordered = [[], [(1, "reactor")], [(1, "reactor")], [(1, "reactor")]] := by
    obtain ⟨T, w, h1, h2, h3⟩ := h
    have := exSteadyOrders_eq
    simp only [exSteadyOrders, h1, h2, h3, ok_bind, pure_eq_ok, Except.toOption, Option.some.injEq] at this
    exact this
  obtain ⟨o₀, o₁, o₂, o₃, rfl⟩ : ∃ o₀ o₁ o₂ o₃, os = [o₀, o₁, o₂, o₃] := by
    match os, hl with
    | [o₀, o₁, o₂, o₃], _ => exact ⟨_, _, _, _, rfl⟩
  simp only [List.map_cons, List.map_nil, List.cons.injEq, and_true] at ho
  obtain ⟨e0, e1, e2, e3⟩ := ho
  have built : (exSteady.plan exYears [o₀, o₁, o₂, o₃]).built 0 4 = [.source exFuel, .sink exPool,
      .reactor { exReactor with refuelTime := 0, enterTime := 2 } (fun _ => 1) exDec,
      .reactor { exReactor with refuelTime := 0, enterTime := 3 } (fun _ => 1) exDec] := by
    simp [Plan.built, List.range', Country.plan, due, exYears, exEvent, e0, e1, e2, exSteady, lastStep]
    exact ⟨rfl, rfl, rfl, rfl⟩
  have S : Supplies ((exSteady.plan exYears [o₀, o₁, o₂, o₃]).built 0 4) exFuel 4 := by
    rw [built]
    refine ⟨?_, by decide +kernel, by decide +kernel, by decide +kernel⟩
    intro k hk
    simp only [List.mem_cons, List.not_mem_nil, or_false] at hk
    rcases hk with rfl | rfl | rfl | rfl <;> decide
  have D : Drains ((exSteady.plan exYears [o₀, o₁, o₂, o₃]).built 0 4) exPool 4 := by
    rw [built]
    refine ⟨?_, by decide +kernel, by decide +kernel, by decide +kernel⟩
    intro k hk
    simp only [List.mem_cons, List.not_mem_nil, or_false] at hk
    rcases hk with rfl | rfl | rfl | rfl <;> decide
  have hd : Region.Demanded exSteady.region "power" [(1, fun x => 10 + 10 * x)] :=
    ⟨_, List.mem_singleton.2 rfl, .cons ⟨by norm_num, rfl⟩ .nil⟩
  obtain ⟨G, B, k1, -, E, k2, k3⟩ := C153_no_outages_partial exCountry_start exSteady_valid
    (by simp [exManager]) exSteady_sensible (by
      intro p _ k
      simp only [exSteady]
      split
      · simp only [capacity]; split <;> norm_num [exFuel]
      · split
        · exact le_refl _
        · simp only [capacity]; split <;> norm_num [exReactor])
    (fun _ => filling_fair) (fun _ => filling_eager) h exSteady_orderly (e₀ := exEvent ["fuel", "pool"] 9) rfl
    (i := 0) (f := exFuel) rfl rfl (y := 1) (w := exPool) rfl rfl (by
      intro e he x hx
      simp only [exYears, List.mem_cons, List.not_mem_nil, or_false] at he
      rcases he with rfl | rfl | rfl | rfl <;> simp [exEvent] <;> omega) S D (by
      intro p _ c enc dec e
      refine ⟨rfl, ?_⟩
      simp only [exSteady] at e
      split at e
      · cases e
      · split at e
        · cases e
        · cases e
          exact ⟨by decide, by decide +kernel, by decide, rfl, by decide, by decide⟩) (by decide) (by
      intro p _ c enc dec e
      simp only [exSteady] at e
      split at e
      · cases e
      · split at e
        · cases e
        · cases e
          rfl)
  refine ⟨_, x, G, B, h, k1, E, fun b hb hr => (k2 b hb hr).2, ?_⟩
  have := k3 2 (exEvent [] 9) _ (by decide) rfl hd (by
      intro u hu
      have h2 : u / 10 ≤ (Int.ceil (u / 10) : ℚ) := Int.le_ceil _
      have h4 : 0 < Int.ceil (u / 10) := Int.ceil_pos.2 (by linarith)
      have h5 : ((Int.ceil (u / 10)).toNat : ℚ) = (Int.ceil (u / 10) : ℚ) := by
        have : ((Int.ceil (u / 10)).toNat : ℤ) = Int.ceil (u / 10) := Int.toNat_of_nonneg h4.le
        exact_mod_cast this
      have h6 : capacity exSteady.power exSteady.power (exSteady.input "reactor") = 10 := by decide +kernel
      simp only [exEvent, Region.expand, List.flatMap_cons, List.flatMap_nil, List.append_nil,
        List.map_replicate, List.sum_replicate, Option.getD_some, h6, nsmul_eq_mul, h5]
      linarith)
  have e : Region.curve [(1, fun x : ℚ => 10 + 10 * x)].reverse ((2 : Nat) : ℚ) = 20 := by
    norm_num [Region.curve]
  rwa [e] at this

end Cyc.Sim
