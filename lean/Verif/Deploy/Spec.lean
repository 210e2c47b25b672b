import Verif.Deploy.Model

/-!
# Vocabulary for the properties of the deployment schedule of `DeployInst`

Independent of how the model computes: the entries of a schedule, what they stand for, consistent
schedules, names that could be confused.
-/

namespace Cyc.Deploy

/-- One line of a schedule: prototype, time, number, lifetime (if given). -/
structure Entry where
  proto : String
  time : ℤ
  number : ℤ
  life : Option ℤ
  deriving DecidableEq

/-- The lists of a schedule have the same length; the lifetimes may be left out. -/
def Consistent (d : Inst) : Prop :=
  d.buildTimes.length = d.prototypes.length ∧ d.nBuild.length = d.prototypes.length ∧
    (d.lifetimes = [] ∨ d.lifetimes.length = d.prototypes.length)

/-- The lines of a consistent schedule: the k-th members of the lists. -/
def entries (d : Inst) : List Entry :=
  (d.prototypes.zip (d.buildTimes.zip d.nBuild)).zipIdx.map fun (⟨p, t, n⟩, i) =>
    ⟨p, t, n, d.lifetimes[i]?⟩

/-- The time of a build that is scheduled for `t` at time `now`; -1 stands for the next step. -/
def due (now t : ℤ) : ℤ := if t = -1 then now + 1 else t

/-- A prototype with the lifetime of the schedule, if there is one. -/
def withLife (p : Proto) : Option ℤ → Proto
  | none => p
  | some l => { p with lifetime := l }

/-- The agents that an entry stands for, if it is its time, with prototypes `T`. -/
def agents (T : List (String × Proto)) (now t : ℤ) (e : Entry) : List Proto :=
  if due now e.time = t then
    match Map.get? T e.proto with
    | some p => List.replicate e.number.toNat (withLife p e.life)
    | none => []
  else []

/-- The agents that an institution is to have built at time `t`. -/
def planned (T : List (String × Proto)) (now t : ℤ) (d : Inst) : List (Nat × Proto) :=
  ((entries d).flatMap (agents T now t)).map fun p => (d.id, p)

/-- The prototypes of a schedule exist. -/
def Known (T : List (String × Proto)) (d : Inst) : Prop :=
  ∀ p ∈ d.prototypes, ∃ q, Map.get? T p = some q

/-- `name` is made of the name `p` with the suffix of some lifetime. -/
def Suffixed (p name : String) : Prop :=
  name = p ++ "_life_forever" ∨ ∃ l : ℤ, name = p ++ "_life_" ++ toString l

/-- No prototype of the schedules is named like another one of them with the suffix of a lifetime. -/
def Plain (ds : List Inst) : Prop :=
  ∀ d ∈ ds, ∀ e ∈ ds, ∀ p ∈ d.prototypes, ∀ q ∈ e.prototypes, ¬ Suffixed p q

/-- All builds are in the future. -/
def Future (now : ℤ) (d : Inst) : Prop := ∀ e ∈ entries d, 0 < e.number → now < due now e.time

end Cyc.Deploy
