import Verif.Age.Basic
import Verif.Deploy.Props

/-!
# A schedule at another time: C121 for `DeployInst`
-/

namespace Cyc.Deploy

/-- The same schedule `k` steps later; -1 stands for the step after the institution enters. -/
def Inst.later (k : Nat) (d : Inst) : Inst :=
  { d with buildTimes := d.buildTimes.map fun t => if t = -1 then -1 else t + k }

/-- The same simulation `k` steps later. -/
def Ctx.later (k : Nat) (x : Ctx) : Ctx :=
  { x with queue := x.queue.map fun b => { b with time := b.time + k }, time := x.time + k }

variable {k : Nat} {x : Ctx}

theorem createAgent_later (name : String) : createAgent (x.later k) name = createAgent x name := rfl

theorem schedBuild_later {p : Nat} {name : String} {t : ℤ} (ht : t = -1 ∨ t + (k : ℤ) ≠ -1) :
    schedBuild (x.later k) p name (if t = -1 then -1 else t + k) =
      R.then (Ctx.later k) (schedBuild x p name t) := by
  have e : (if (if t = -1 then -1 else t + (k : ℤ)) = -1 then (x.later k).time + 1
      else (if t = -1 then -1 else t + (k : ℤ))) = (if t = -1 then x.time + 1 else t) + k := by
    by_cases h : t = -1
    · simp only [h, if_true]
      show x.time + k + 1 = x.time + 1 + k
      ring
    · have h' := ht.resolve_left h
      rw [if_neg h, if_neg h, if_neg h']
  unfold schedBuild
  rw [e, then_ite]
  refine if_congr (by show _ ≤ x.time + (k : ℤ) ↔ _; omega) rfl ?_
  show Except.ok _ = Except.ok _
  unfold Ctx.later
  simp

theorem schedMany_later {p : Nat} {name : String} {t : ℤ} (ht : t = -1 ∨ t + (k : ℤ) ≠ -1) (n : Nat) :
    schedMany p name (if t = -1 then -1 else t + k) n (x.later k) =
      R.then (Ctx.later k) (schedMany p name t n x) := by
  induction n generalizing x with
  | zero => rfl
  | succ n ih => simp only [schedMany, schedBuild_later ht, bind_then, then_bind, ih]

theorem register_later (name : String) (p : Proto) (seen : List String) :
    register name p seen (x.later k) = R.then (fun r => (r.1, r.2.later k)) (register name p seen x) := by
  unfold register addPrototype
  simp only [then_ite, then_bind]
  refine if_congr Iff.rfl rfl ?_
  show ((if (x.unique && (Map.get? x.protos name).isSome) = true then _ else _) >>= _) = _
  by_cases h : (x.unique && (Map.get? x.protos name).isSome) = true
  · simp only [h, if_true]; rfl
  · simp only [h, if_false]; rfl

theorem choose_later (d : Inst) (i : Nat) (proto : String) (seen : List String) :
    choose (d.later k) i proto seen (x.later k) =
      R.then (fun r => (r.1, r.2.1, r.2.2.later k)) (choose d i proto seen x) := by
  unfold choose
  simp only [then_ite, then_bind, register_later, createAgent_later, bind_then]
  rfl

/-- Times of builds, `k` steps later, do not become -1, which stands for the next step. Times that are -1
or not negative, for example. -/
def Sensible (k : Nat) (d : Inst) : Prop := ∀ t ∈ d.buildTimes, t = -1 ∨ t + (k : ℤ) ≠ -1

theorem buildLoop_later {d : Inst} (S : Sensible k d) (ps : List String) (i : Nat) (seen : List String) :
    buildLoop (d.later k) ps i seen (x.later k) = R.then (Ctx.later k) (buildLoop d ps i seen x) := by
  induction ps generalizing x i seen with
  | nil => rfl
  | cons p ps ih =>
    have h : at! (d.later k).buildTimes i =
        R.then (fun t => if t = -1 then -1 else t + (k : ℤ)) (at! d.buildTimes i) := by
      unfold at! Inst.later
      simp only [List.getElem?_map]
      cases d.buildTimes[i]? <;> rfl
    simp only [buildLoop, choose_later, h, bind_then, then_bind]
    refine bind_congr_ok fun r _ => ?_
    refine bind_congr_ok fun t ht => ?_
    have ht := S t (List.mem_of_getElem? (at!_ok.1 ht))
    refine bind_congr_ok fun n _ => ?_
    refine (congrArg (· >>= _) (schedMany_later ht _)).trans ?_
    simp only [bind_then, ih]
    rfl

theorem deploy_later {d : Inst} (S : Sensible k d) :
    deploy (d.later k) (x.later k) = R.then (Ctx.later k) (deploy d x) := by
  have h : enter (d.later k) = enter d := by
    unfold enter Inst.later
    simp only [List.length_map]
  unfold deploy build
  have := buildLoop_later (x := x) (k := k) S d.prototypes 0 []
  simp only [show (d.later k).prototypes = d.prototypes from rfl, this, h, bind_then, then_bind]
  rfl

/-- C121: institutions that enter `k` steps later, with their schedules `k` steps later, are accepted or
refused as before, and the same agents are built `k` steps later.
Missing: schedules with negative times that become -1 (`Sensible`), for which it is false
(`C121_deploy_counterexample`). -/
theorem C121_deploy_partial {ds : List Inst} (k : Nat) (S : ∀ d ∈ ds, Sensible k d) (x : Ctx) :
    deployAll (ds.map (Inst.later k)) (x.later k) = R.then (Ctx.later k) (deployAll ds x) ∧
      ∀ t : ℤ, doBuild (x.later k) (t + k) = doBuild x t := by
  constructor
  · induction ds generalizing x with
    | nil => rfl
    | cons d ds ih =>
      simp only [List.map_cons, deployAll, deploy_later (S d (by simp)), bind_then, then_bind,
        ih (fun e he => S e (by simp [he]))]
  · intro t
    have h : ∀ l : List Build, createAll (x.later k)
        ((l.map fun b => { b with time := b.time + (k : ℤ) }).filter fun b => decide (b.time = t + k)) =
          createAll x (l.filter fun b => decide (b.time = t)) := by
      intro l
      induction l with
      | nil => rfl
      | cons b l ih =>
        by_cases hb : b.time = t
        · have hb' : b.time + (k : ℤ) = t + k := by rw [hb]
          simp only [List.map_cons, List.filter_cons, hb, decide_true, if_true, createAll, ih,
            createAgent_later]
        · have hb' : ¬ b.time + (k : ℤ) = t + k := by omega
          simp only [List.map_cons, List.filter_cons, hb, hb', decide_false, Bool.false_eq_true, if_false, ih]
    exact h x.queue

/-- The example institutions, 100 steps later. -/
example : ((deployAll (exInsts.map (Inst.later 100)) ((exCtx true).later 100)).toOption.map Ctx.queue) =
      ((deployAll exInsts (exCtx true)).toOption.map fun x =>
        x.queue.map fun b => { b with time := b.time + 100 }) ∧
    ((deployAll exInsts (exCtx true)).toOption.map fun x => x.queue.length) ≠ none ∧
    exInsts.all (fun d => d.buildTimes.all fun t => decide (t = -1 ∨ 0 ≤ t)) = true := by
  decide +kernel

/-- C121 fails for times that become -1: a build at time -2 is refused, but one step later its time is -1,
which stands for the next step, and it is accepted. -/
theorem C121_deploy_counterexample :
    (deploy ⟨1, ["a"], [-2], [1], []⟩ ⟨[("a", ⟨0, 5⟩)], [], 0, true⟩).toOption.isSome = false ∧
    (deploy (Inst.later 1 ⟨1, ["a"], [-2], [1], []⟩)
      (Ctx.later 1 ⟨[("a", ⟨0, 5⟩)], [], 0, true⟩)).toOption.map Ctx.queue = some [⟨1, "a", 2⟩] := by
  decide +kernel

end Cyc.Deploy
