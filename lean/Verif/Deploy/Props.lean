import Verif.Deploy.Lemmas

/-!
# Properties of the deployment schedule of `DeployInst`: C61, C62
-/

namespace Cyc.Deploy

/-! ## C61 -/

/-- The names of all prototypes in the schedules. -/
private def names (ds : List Inst) : List String := ds.flatMap Inst.prototypes

private theorem plain_names {ds : List Inst} (h : Plain ds) :
    ∀ p ∈ names ds, ∀ q ∈ names ds, ¬ Suffixed p q := by
  intro p hp q hq
  obtain ⟨d, hd, hp⟩ := List.mem_flatMap.1 hp
  obtain ⟨e, he, hq⟩ := List.mem_flatMap.1 hq
  exact h d hd e he p hp q hq

private theorem known_names {T : List (String × Proto)} {ds : List Inst} (h : ∀ d ∈ ds, Known T d) :
    ∀ d ∈ ds, ∀ p ∈ d.prototypes, p ∈ names ds ∧ ∃ q, Map.get? T p = some q :=
  fun d hd p hp => ⟨List.mem_flatMap.2 ⟨d, hd, hp⟩, h d hd p hp⟩

/-- C61, except for names that could be confused (`Plain`): whatever institutions enter, in each step
exactly the agents of the schedules are built. For each line whose time it is, the given number of
agents of the original prototype is built, with the lifetime of the line if there is one; they are
built by the institution of the schedule, in the order of the lines, and nothing else is built. -/
theorem C61_schedule_partial {ds : List Inst} {x x' : Ctx} (h0 : x.queue = [])
    (hk : ∀ d ∈ ds, Known x.protos d) (hp : Plain ds) (h : deployAll ds x = .ok x') (t : ℤ) :
    doBuild x' t = .ok (ds.flatMap (planned x.protos x.time t)) := by
  obtain ⟨e1, e2⟩ := deployAll_spec (T := x.protos) (as := []) (plain_names hp) (known_names hk)
    (fun _ _ => rfl) (by rw [h0]; exact .nil) h
  unfold doBuild
  rw [createAll_spec e1 e2 t, List.nil_append, flatMap_filter_map]
  congr 2
  funext d
  exact (planned_eq _ _ _ _).symm

/-- C61: a schedule is accepted. The lists are consistent, the prototypes exist, the builds are in
the future. Where names of prototypes must be unique, no prototype has the name that is given to one
with another lifetime, and no two institutions give the same name. -/
theorem C61_accepted {ds : List Inst} {x : Ctx} (h0 : x.queue = [])
    (hk : ∀ d ∈ ds, Known x.protos d) (hp : Plain ds) (hc : ∀ d ∈ ds, Consistent d)
    (hf : ∀ d ∈ ds, Future x.time d)
    (hu : x.unique = true →
      (∀ d ∈ ds, ∀ e ∈ entries d, ∀ m, Renamed x.protos e m → Map.get? x.protos m = none) ∧
      ds.Pairwise fun d d' => ∀ e ∈ entries d, ∀ e' ∈ entries d', ∀ m,
        Renamed x.protos e m → ¬ Renamed x.protos e' m) :
    ∃ x', deployAll ds x = .ok x' :=
  deployAll_ok (T := x.protos) (as := []) (plain_names hp) (known_names hk) hc hf
    (fun _ _ => rfl) (by rw [h0]; exact .nil) hu

private theorem schedMany_future {id : Nat} {name : String} {t : ℤ} {n : Nat} {x x' : Ctx}
    (h : schedMany id name t n x = .ok x') (hn : 0 < n) : x.time < due x.time t := by
  cases n with
  | zero => omega
  | succ n =>
    simp only [schedMany, bind_ok, schedBuild_eq] at h
    obtain ⟨y, hy, -⟩ := h
    split at hy
    · cases hy
    · omega

private theorem choose_time {d : Inst} {i : Nat} {p name : String} {seen seen' : List String}
    {x x' : Ctx} (h : choose d i p seen x = .ok (name, seen', x')) : x'.time = x.time := by
  unfold choose at h
  split at h
  · simp only [bind_ok] at h
    obtain ⟨a, -, l, -, h⟩ := h
    split at h
    · simp only [bind_ok] at h
      obtain ⟨⟨s2, x2⟩, h1, h⟩ := h
      simp only [pure_eq_ok, Except.ok.injEq, Prod.mk.injEq] at h
      obtain ⟨-, -, rfl⟩ := h
      unfold register at h1
      split at h1
      · simp only [Except.ok.injEq, Prod.mk.injEq] at h1
        rw [h1.2]
      · simp only [bind_ok] at h1
        obtain ⟨z, h1, h2⟩ := h1
        simp only [pure_eq_ok, Except.ok.injEq, Prod.mk.injEq] at h2
        rw [← h2.2]
        unfold addPrototype at h1
        split at h1
        · cases h1
        · simp only [Except.ok.injEq] at h1
          rw [← h1]
    · simp only [pure_eq_ok, Except.ok.injEq, Prod.mk.injEq] at h
      rw [h.2.2]
  · simp only [Except.ok.injEq, Prod.mk.injEq] at h
    rw [h.2.2]

private theorem buildLoop_future {d : Inst} {ps : List String} {i : Nat} {seen : List String}
    {x x' : Ctx} (hps : ps = d.prototypes.drop i) (h : buildLoop d ps i seen x = .ok x') :
    x'.time = x.time ∧ ∀ e ∈ (entries d).drop i, 0 < e.number → x.time < due x.time e.time := by
  induction ps generalizing i seen x with
  | nil =>
    simp only [buildLoop, Except.ok.injEq] at h
    have hle : d.prototypes.length ≤ i := by
      by_contra hlt
      have := congrArg List.length hps
      simp at this; omega
    have : (entries d).drop i = [] := by
      apply List.drop_eq_nil_of_le
      unfold entries
      simp; omega
    rw [this]
    exact ⟨by rw [h], by simp⟩
  | cons p ps ih =>
    simp only [buildLoop, bind_ok] at h
    obtain ⟨⟨name, seen', y⟩, h1, t, h2, n, h3, z, h4, h⟩ := h
    have hi : i < d.prototypes.length := by
      have := congrArg List.length hps
      simp at this; omega
    rw [List.drop_eq_getElem_cons hi, List.cons.injEq] at hps
    have hp0 : d.prototypes[i]? = some p := by rw [List.getElem?_eq_getElem hi, hps.1]
    have he := entries_get hp0 (at!_ok.1 h2) (at!_ok.1 h3)
    have hlt : i < (entries d).length := (List.getElem?_eq_some_iff.1 he).1
    have hd : (entries d).drop i = ⟨p, t, n, d.lifetimes[i]?⟩ :: (entries d).drop (i + 1) := by
      rw [List.drop_eq_getElem_cons hlt]
      rw [List.getElem?_eq_getElem hlt, Option.some.injEq] at he
      rw [he]
    have e1 : y.time = x.time := choose_time h1
    have e2 : z.time = y.time := by rw [schedMany_spec h4]; rfl
    obtain ⟨f1, f2⟩ := ih hps.2 h
    refine ⟨by rw [f1, e2, e1], ?_⟩
    rw [hd]
    intro e hm hpos
    rcases List.mem_cons.1 hm with rfl | hm
    · have := schedMany_future h4 (by simp only at hpos; omega)
      rw [e1] at this
      exact this
    · have := f2 e hm hpos
      rw [e2, e1] at this
      exact this

/-- C61: a schedule with a build that is not in the future is never accepted, whatever the names. -/
theorem C61_past {ds : List Inst} {x x' : Ctx} (h : deployAll ds x = .ok x') :
    ∀ d ∈ ds, Future x.time d := by
  induction ds generalizing x with
  | nil => simp
  | cons d ds ih =>
    simp only [deployAll, bind_ok] at h
    obtain ⟨y, h1, h⟩ := h
    obtain ⟨e, f⟩ := buildLoop_future (i := 0) rfl (deploy_ok.1 h1).1
    intro d' hd
    rcases List.mem_cons.1 hd with rfl | hd
    · exact f
    · have := ih h d' hd
      rwa [e] at this

/-! A concrete case: two institutions, one of them with lifetimes. -/

/-- Prototypes of the examples. -/
def exProtos : List (String × Proto) := [("mine", ⟨1, -1⟩), ("plant", ⟨2, 40⟩)]

/-- Kernel of the examples. -/
def exCtx (u : Bool) : Ctx := ⟨exProtos, [], 0, u⟩

/-- At time 2 a build at time 2 is not in the future; one at time 3, or in the next step, is. -/
example : deploy ⟨7, ["mine"], [2], [1], []⟩ { exCtx false with time := 2 } = .error .value ∧
    (deployAll [⟨7, ["mine", "mine"], [3, -1], [1, 1], []⟩]
      { exCtx false with time := 2 }).toOption.isSome = true := by
  constructor <;> decide +kernel

/-- Schedules of the examples. -/
def exInsts : List Inst :=
  [⟨7, ["mine", "plant", "plant", "plant"], [1, 3, 3, 5], [1, 2, 1, 1], [-1, 60, 40, 60]⟩,
   ⟨8, ["plant", "mine"], [3, -1], [1, 2], []⟩]

theorem exPlain : Plain exInsts := by
  have key : ∀ p ∈ ["mine", "plant"], ∀ q ∈ ["mine", "plant"], ¬ Suffixed p q := by
    intro p hp q hq hs
    have hl : q.toList.length ≥ p.toList.length + 6 := by
      rcases hs with rfl | ⟨l, rfl⟩
      · simp [String.toList_append]
      · simp [String.toList_append]
    have : ∀ p ∈ ["mine", "plant"], ∀ q ∈ ["mine", "plant"],
        ¬ q.toList.length ≥ p.toList.length + 6 := by decide
    exact this p hp q hq hl
  intro d hd e he p hp q hq
  have sub : ∀ d ∈ exInsts, ∀ p ∈ d.prototypes, p ∈ ["mine", "plant"] := by decide
  exact key p (sub d hd p hp) q (sub e he q hq)

theorem exKnown (u : Bool) : ∀ d ∈ exInsts, Known (exCtx u).protos d := by
  intro d hd p hp
  have : ∀ d ∈ exInsts, ∀ p ∈ d.prototypes, (Map.get? exProtos p).isSome = true := by decide
  exact Option.isSome_iff_exists.1 (this d hd p hp)

/-- The schedules are accepted, also where names must be unique, and the agents built at time 3 are
two plants of lifetime 60 and one of 40 by the first institution, and one of 40 by the second. -/
example : ∃ x', deployAll exInsts (exCtx true) = .ok x' ∧
    doBuild x' 3 = .ok [(7, ⟨2, 60⟩), (7, ⟨2, 60⟩), (7, ⟨2, 40⟩), (8, ⟨2, 40⟩)] := by
  have h : (deployAll exInsts (exCtx true)).toOption.isSome = true := by decide +kernel
  obtain ⟨x', hx⟩ : ∃ x', deployAll exInsts (exCtx true) = .ok x' := by
    cases hd : deployAll exInsts (exCtx true) with
    | error e => rw [hd] at h; simp [Except.toOption] at h
    | ok x' => exact ⟨x', rfl⟩
  refine ⟨x', hx, ?_⟩
  rw [C61_schedule_partial rfl (exKnown true) exPlain hx]
  decide +kernel

/-- The hypotheses of `C61_accepted` are met by the schedules of the examples. -/
example : ∃ x', deployAll exInsts (exCtx false) = .ok x' := by
  apply C61_accepted rfl (exKnown false) exPlain
  · intro d hd
    have : ∀ d ∈ exInsts, d.buildTimes.length = d.prototypes.length ∧
      d.nBuild.length = d.prototypes.length ∧
      (d.lifetimes = [] ∨ d.lifetimes.length = d.prototypes.length) := by decide
    exact this d hd
  · have : ∀ d ∈ exInsts, ∀ e ∈ entries d, 0 < e.number → (0 : ℤ) < due 0 e.time := by decide
    exact this
  · intro h; exact absurd h (by decide)

/-- C61 fails when a prototype is named like another one with the suffix of a lifetime. An
institution deploys `plant` with lifetime 60 and `plant_life_60`, a prototype of another kind, both at
time 3. Where names need not be unique, a copy of `plant` is built for the second one; where they
must be, the simulation ends with an error. -/
theorem C61_counterexample :
    ∃ (T : List (String × Proto)) (d : Inst), Known T d ∧ Consistent d ∧ Future 0 d ∧
      (∃ x', deployAll [d] ⟨T, [], 0, false⟩ = .ok x' ∧
        doBuild x' 3 = .ok [(7, ⟨2, 60⟩), (7, ⟨2, 20⟩)] ∧
        planned T 0 3 d = [(7, ⟨2, 60⟩), (7, ⟨9, 20⟩)]) ∧
      deployAll [d] ⟨T, [], 0, true⟩ = .error .key := by
  refine ⟨[("plant", ⟨2, 40⟩), ("plant_life_60", ⟨9, 20⟩)],
    ⟨7, ["plant", "plant_life_60"], [3, 3], [1, 1], [60, 20]⟩, ?_, ⟨rfl, rfl, Or.inr rfl⟩, ?_,
    ⟨⟨[("plant", ⟨2, 40⟩), ("plant_life_60", ⟨2, 60⟩), ("plant_life_60_life_20", ⟨2, 20⟩)],
      [⟨7, "plant_life_60", 3⟩, ⟨7, "plant_life_60_life_20", 3⟩], 0, false⟩, ?_, ?_, ?_⟩, ?_⟩
  · intro p hp
    have : ∀ p ∈ ["plant", "plant_life_60"], (Map.get? [("plant", (⟨2, 40⟩ : Proto)),
      ("plant_life_60", ⟨9, 20⟩)] p).isSome = true := by decide
    exact Option.isSome_iff_exists.1 (this p hp)
  · have : ∀ e ∈ entries ⟨7, ["plant", "plant_life_60"], [3, 3], [1, 1], [60, 20]⟩,
      0 < e.number → (0 : ℤ) < due 0 e.time := by decide
    exact this
  all_goals decide +kernel

/-- C61 fails where names must be unique: two institutions that deploy the same prototype with the
same other lifetime cannot both enter. -/
theorem C61_shared : ∃ (T : List (String × Proto)) (d d' : Inst), Known T d ∧ Known T d' ∧
    Consistent d ∧ Consistent d' ∧ Future 0 d ∧ Future 0 d' ∧ Plain [d, d'] ∧
    deployAll [d, d'] ⟨T, [], 0, true⟩ = .error .key := by
  refine ⟨[("plant", ⟨2, 40⟩)], ⟨7, ["plant"], [3], [1], [60]⟩, ⟨8, ["plant"], [5], [1], [60]⟩, ?_, ?_,
    ⟨rfl, rfl, Or.inr rfl⟩, ⟨rfl, rfl, Or.inr rfl⟩, ?_, ?_, ?_, ?_⟩
  · intro p hp
    obtain rfl : p = "plant" := by simpa using hp
    exact ⟨⟨2, 40⟩, by decide⟩
  · intro p hp
    obtain rfl : p = "plant" := by simpa using hp
    exact ⟨⟨2, 40⟩, by decide⟩
  · have : ∀ e ∈ entries ⟨7, ["plant"], [3], [1], [60]⟩, 0 < e.number → (0 : ℤ) < due 0 e.time := by
      decide
    exact this
  · have : ∀ e ∈ entries ⟨8, ["plant"], [5], [1], [60]⟩, 0 < e.number → (0 : ℤ) < due 0 e.time := by
      decide
    exact this
  · intro d hd e he p hp q hq hs
    have sub : ∀ d ∈ [(⟨7, ["plant"], [3], [1], [60]⟩ : Inst), ⟨8, ["plant"], [5], [1], [60]⟩],
        ∀ p ∈ d.prototypes, p = "plant" := by decide
    rw [sub d hd p hp, sub e he q hq] at hs
    have hl : "plant".toList.length ≥ "plant".toList.length + 6 := by
      rcases hs with h | ⟨l, h⟩
      · have := congrArg (fun z => z.toList.length) h
        revert this; decide
      · have := congrArg (fun z => z.toList.length) h
        simp [String.toList_append] at this
    omega
  · decide +kernel

/-! ## C62 -/

/-- C62: a schedule whose lists do not fit together is never accepted. -/
theorem C62_accepted {d : Inst} {x x' : Ctx} (h : deploy d x = .ok x') : Consistent d :=
  enter_ok (deploy_ok.1 h).2

private theorem schedMany_defined {id : Nat} {name : String} {t : ℤ} {n : Nat} {x : Ctx} :
    schedMany id name t n x ≠ .error .ub := by
  induction n generalizing x with
  | zero => simp [schedMany]
  | succ n ih =>
    simp only [schedMany, schedBuild_eq]
    split
    · simp
    · exact ih

private theorem choose_defined {d : Inst} {i : Nat} {p : String} {seen : List String} {x : Ctx}
    (hi : i < d.prototypes.length) : choose d i p seen x ≠ .error .ub := by
  unfold choose
  split
  · rename_i hl
    unfold createAgent
    split
    · rw [ok_bind, at!_ok.2 (List.getElem?_eq_getElem (by omega)), ok_bind]
      split
      · unfold register addPrototype
        split
        · simp
        · split <;> simp
      · simp
    · simp
  · simp

private theorem buildLoop_defined {d : Inst} {ps : List String} {i : Nat} {seen : List String}
    {x : Ctx} (hi : i + ps.length ≤ d.prototypes.length)
    (h1 : d.prototypes.length ≤ d.buildTimes.length) (h2 : d.prototypes.length ≤ d.nBuild.length) :
    buildLoop d ps i seen x ≠ .error .ub := by
  induction ps generalizing i seen x with
  | nil => simp [buildLoop]
  | cons p ps ih =>
    rw [List.length_cons] at hi
    unfold buildLoop
    cases hc : choose d i p seen x with
    | error e =>
      have := choose_defined (d := d) (i := i) (p := p) (seen := seen) (x := x) (by omega)
      rw [hc] at this
      simpa using this
    | ok r =>
      obtain ⟨name, seen', y⟩ := r
      rw [ok_bind]
      simp only
      rw [at!_ok.2 (List.getElem?_eq_getElem (by omega : i < d.buildTimes.length)), ok_bind,
        at!_ok.2 (List.getElem?_eq_getElem (by omega : i < d.nBuild.length)), ok_bind]
      cases hs : schedMany d.id name d.buildTimes[i] (d.nBuild[i]).toNat y with
      | error e =>
        have := schedMany_defined (id := d.id) (name := name) (t := d.buildTimes[i])
          (n := (d.nBuild[i]).toNat) (x := y)
        rw [hs] at this
        simpa using this
      | ok z =>
        rw [ok_bind]
        exact ih (by omega)

/-- C62, unless the list of times or of numbers is too short: a schedule whose lists do not fit
together ends with an error, not with undefined behaviour. -/
theorem C62_rejected_partial {d : Inst} {x : Ctx} (hc : ¬ Consistent d)
    (h1 : d.prototypes.length ≤ d.buildTimes.length) (h2 : d.prototypes.length ≤ d.nBuild.length) :
    ∃ e, deploy d x = .error e ∧ e ≠ .ub := by
  cases hb : build d x with
  | error e =>
    refine ⟨e, by simp [deploy, hb], ?_⟩
    have := buildLoop_defined (d := d) (ps := d.prototypes) (i := 0) (seen := []) (x := x)
      (by omega) h1 h2
    rintro rfl
    exact this hb
  | ok y =>
    refine ⟨.value, ?_, by decide⟩
    have : enter d = .error .value := by
      cases he : enter d with
      | ok _ => exact absurd (enter_ok he) hc
      | error e =>
        unfold enter at he
        split at he
        · exact he.symm ▸ rfl
        · split at he
          · exact he.symm ▸ rfl
          · split at he
            · exact he.symm ▸ rfl
            · simp at he
    simp [deploy, hb, this]

/-- The hypotheses are met: too many times, or lifetimes for some of the prototypes only. -/
example : (∃ e, deploy ⟨7, ["mine", "plant"], [1, 3, 4], [1, 2], []⟩ (exCtx false) = .error e ∧ e ≠ .ub) ∧
    ∃ e, deploy ⟨7, ["mine", "plant"], [1, 3], [1, 2], [60]⟩ (exCtx false) = .error e ∧ e ≠ .ub := by
  refine ⟨C62_rejected_partial ?_ (by decide) (by decide),
    C62_rejected_partial ?_ (by decide) (by decide)⟩ <;> unfold Consistent <;> decide

/-- C62 fails for short lists: with fewer times than prototypes, or fewer numbers, `Build` reads
beyond the end of the list before `EnterNotify` compares the lengths. -/
theorem C62_counterexample :
    deploy ⟨7, ["mine", "plant"], [1], [1, 2], []⟩ (exCtx false) = .error .ub ∧
      deploy ⟨7, ["mine", "plant"], [1, 3], [1], []⟩ (exCtx false) = .error .ub := by
  constructor <;> decide +kernel

/-- C62: the undefined behaviour is not limited to that case; it is met by every schedule with known
prototypes, builds in the future and no lifetimes that has too few times. -/
theorem C62_short {d : Inst} {x : Ctx} (hl : d.lifetimes = [])
    (hs : d.buildTimes.length < d.prototypes.length)
    (hb : d.buildTimes.length ≤ d.nBuild.length) (ht : ∀ t ∈ d.buildTimes, x.time < due x.time t) :
    deploy d x = .error .ub := by
  have key : ∀ (ps : List String) (i : Nat) (seen : List String) (y : Ctx), y.time = x.time →
      ps = d.prototypes.drop i → i ≤ d.buildTimes.length → buildLoop d ps i seen y = .error .ub := by
    intro ps
    induction ps with
    | nil =>
      intro i seen y _ hps hi
      have := congrArg List.length hps
      simp at this; omega
    | cons p ps ih =>
      intro i seen y hy hps hi
      have hlt : i < d.prototypes.length := by omega
      rw [List.drop_eq_getElem_cons hlt, List.cons.injEq] at hps
      have hc : choose d i p seen y = .ok (p, seen, y) := by
        unfold choose
        rw [hl, if_neg]
        simp only [List.length_nil]; omega
      unfold buildLoop
      rw [hc, ok_bind]
      simp only
      by_cases hi' : i < d.buildTimes.length
      · rw [at!_ok.2 (List.getElem?_eq_getElem hi'), ok_bind,
          at!_ok.2 (List.getElem?_eq_getElem (by omega : i < d.nBuild.length)), ok_bind,
          schedMany_ok (by intro _; rw [hy]; exact ht _ (List.getElem_mem hi')), ok_bind]
        exact ih (i + 1) seen _ hy hps.2 hi'
      · have : at! d.buildTimes i = .error .ub := by
          unfold at!
          rw [List.getElem?_eq_none (by omega)]
        rw [this]
        rfl
  unfold deploy build
  rw [key d.prototypes 0 [] x rfl rfl (Nat.zero_le _)]
  rfl

end Cyc.Deploy
