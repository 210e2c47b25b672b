import Verif.Toolkit.Map

/-!
# Model of `cycamore::DeployInst` (`src/deploy_inst.cc`, `src/deploy_inst.h`): the schedule

The part of the cyclus kernel that `Build` calls is modelled too: the table of prototypes, the queue
of builds, and the execution of the builds of a step. The registration of producers is in
`Verif/Region/Model.lean`. The position has no effect on the modelled behaviour.
-/

namespace Cyc.Deploy

/-- A prototype, and each agent cloned from it: `kind` stands for the archetype and all its
parameters except the lifetime; a lifetime of -1 is unlimited. -/
structure Proto where
  kind : Nat
  lifetime : ℤ
  deriving DecidableEq

/-- A scheduled build: the institution, the name of the prototype, the time. -/
structure Build where
  parent : Nat
  proto : String
  time : ℤ
  deriving DecidableEq

/-- The kernel: the prototypes by name, the scheduled builds in order, the current time. `unique`
tells whether a prototype with an existing name is refused (later versions of cyclus) or replaces
the existing one (earlier versions). -/
structure Ctx where
  protos : List (String × Proto)
  queue : List Build
  time : ℤ
  unique : Bool
  deriving DecidableEq

/-- `Context::CreateAgent`: a clone of the prototype; an unknown name throws. -/
def createAgent (x : Ctx) (name : String) : R Proto :=
  match Map.get? x.protos name with
  | some p => .ok p
  | none => .error .key

/-- `Context::AddPrototype`. -/
def addPrototype (x : Ctx) (name : String) (p : Proto) : R Ctx :=
  if x.unique && (Map.get? x.protos name).isSome then .error .key
  else .ok { x with protos := Map.set x.protos name p }

/-- `Context::SchedBuild` and `Timer::SchedBuild`: -1 stands for the next step; a time that is not in
the future throws. The name of the prototype is not checked. -/
def schedBuild (x : Ctx) (parent : Nat) (name : String) (t : ℤ) : R Ctx :=
  if (if t = -1 then x.time + 1 else t) ≤ x.time then .error .value
  else .ok { x with queue := x.queue ++ [⟨parent, name, if t = -1 then x.time + 1 else t⟩] }

/-- The user input (`deploy_inst.h:68-101`), and the identifier of the institution. -/
structure Inst where
  id : Nat
  prototypes : List String
  buildTimes : List ℤ
  nBuild : List ℤ
  lifetimes : List ℤ
  deriving DecidableEq

/-- The name of a prototype with another lifetime (`deploy_inst.cc:18-31`). `int`s are written in
decimal. -/
def nameFor (proto : String) (life : ℤ) : String :=
  if life = -1 then proto ++ "_life_forever" else proto ++ "_life_" ++ toString life

/-- The new prototype (`deploy_inst.cc:32-35`): registered unless this call of `Build` has already
registered one of the name. -/
def register (name : String) (p : Proto) (seen : List String) (x : Ctx) : R (List String × Ctx) :=
  if name ∈ seen then .ok (seen, x)
  else do
    let x ← addPrototype x name p
    pure (name :: seen, x)

/-- The choice of the prototype of entry `i` (`deploy_inst.cc:16-37`). -/
def choose (d : Inst) (i : Nat) (proto : String) (seen : List String) (x : Ctx) :
    R (String × List String × Ctx) :=
  if d.lifetimes.length = d.prototypes.length then do
    let a ← createAgent x proto
    let l ← at! d.lifetimes i
    if a.lifetime ≠ l then do
      let (seen, x) ← register (nameFor proto l) { a with lifetime := l } seen x
      pure (nameFor proto l, seen, x)
    else pure (proto, seen, x)
  else .ok (proto, seen, x)

/-- `n` builds of the same kind (`deploy_inst.cc:40-42`). -/
def schedMany (parent : Nat) (name : String) (t : ℤ) : Nat → Ctx → R Ctx
  | 0, x => .ok x
  | n + 1, x => do
    let x ← schedBuild x parent name t
    schedMany parent name t n x

/-- The loop of `Build` (`deploy_inst.cc:15-43`), from entry `i` on. A negative number of builds is
no build. -/
def buildLoop (d : Inst) : List String → Nat → List String → Ctx → R Ctx
  | [], _, _, x => .ok x
  | proto :: ps, i, seen, x => do
    let (name, seen, x) ← choose d i proto seen x
    let t ← at! d.buildTimes i
    let n ← at! d.nBuild i
    let x ← schedMany d.id name t n.toNat x
    buildLoop d ps (i + 1) seen x

/-- `Build` (`deploy_inst.cc:11-44`). -/
def build (d : Inst) (x : Ctx) : R Ctx := buildLoop d d.prototypes 0 [] x

/-- `EnterNotify` (`deploy_inst.cc:46-67`). -/
def enter (d : Inst) : R Unit :=
  if d.buildTimes.length ≠ d.prototypes.length then .error .value
  else if d.nBuild.length ≠ d.prototypes.length then .error .value
  else if d.lifetimes.length > 0 ∧ d.lifetimes.length ≠ d.prototypes.length then .error .value
  else .ok ()

/-- An institution enters: the kernel calls `Build` and then `EnterNotify` (DESIGN.md, section 3). -/
def deploy (d : Inst) (x : Ctx) : R Ctx := do
  let x ← build d x
  enter d
  pure x

/-- Several institutions enter, one after another. -/
def deployAll : List Inst → Ctx → R Ctx
  | [], x => .ok x
  | d :: ds, x => do
    let x ← deploy d x
    deployAll ds x

/-- The loop of `Timer::DoBuild`: every scheduled build creates an agent from the prototype of the
name. -/
def createAll (x : Ctx) : List Build → R (List (Nat × Proto))
  | [] => .ok []
  | b :: bs => do
    let a ← createAgent x b.proto
    let l ← createAll x bs
    pure ((b.parent, a) :: l)

/-- `Timer::DoBuild` at time `t`: the agents that are built, with the institution that is told. -/
def doBuild (x : Ctx) (t : ℤ) : R (List (Nat × Proto)) :=
  createAll x (x.queue.filter fun b => decide (b.time = t))

end Cyc.Deploy
