import Verif.Deploy.Model
import Verif.Region.Model

/-!
# The unit tests of the institutions and of `GrowthRegion`, replayed on the model

`src/deploy_inst_tests.cc`, `src/manager_inst_tests.cc`, `src/growth_region_tests.cc`. These are tests
of the model, not proofs. The tests of positions are covered by `Verif/Position`. `producerexists`
loops over an empty set, and `init` of `GrowthRegion` tests a class of cyclus only; they are not
replayed.
-/

namespace Cyc.Deploy.Tests

/-- `DummyProto("foobar")`. The name that an agent records is that of the prototype it was first made
from, and so part of the `kind`. -/
def ctx : Ctx := ⟨[("foobar", ⟨7, -1⟩)], [], 0, true⟩

/-- What is built in a simulation of five steps: times, kinds and lifetimes. -/
def entries (d : Inst) : Option (List (ℤ × Nat × ℤ)) :=
  (deploy d ctx >>= fun x => [1, 2, 3, 4].mapM fun t => do
    let l ← doBuild x t
    pure (l.map fun a => (t, a.2.kind, a.2.lifetime))).toOption.map List.flatten

/-- The time at which an agent of a limited lifetime leaves: `EnterTime + Lifetime - 1`. -/
def exits (l : List (ℤ × Nat × ℤ)) : List ℤ :=
  (l.filter fun e => e.2.2 ≠ -1).map fun e => e.1 + e.2.2 - 1

/-- `ProtoNames` (`deploy_inst_tests.cc:28-46`) -/
example : (entries ⟨1, ["foobar"], [1], [3], [2]⟩).map (fun l => (l.filter fun e => e.2.1 = 7).length) =
    some 3 := by decide +kernel

/-- `BuildTimes` (`deploy_inst_tests.cc:48-71`) -/
example : (entries ⟨1, ["foobar", "foobar"], [1, 3], [1, 7], []⟩).map (fun l =>
    ((l.filter fun e => e.1 = 1).length, (l.filter fun e => e.1 = 3).length)) = some (1, 7) := by
  decide +kernel

/-- `FiniteLifetimes` (`deploy_inst_tests.cc:75-126`) -/
example : (entries ⟨1, ["foobar", "foobar", "foobar"], [1, 1, 2], [1, 7, 3], [1, 2, -1]⟩).map (fun l =>
    (l.count (1, 7, 1), l.count (1, 7, 2), l.count (2, 7, -1),
      (exits l).count 1, (exits l).count 2, (exits l).length)) = some (1, 7, 3, 1, 7, 8) := by
  decide +kernel

/-- `NoDupProtos` (`deploy_inst_tests.cc:128-155`) -/
example : (deploy ⟨1, ["foobar", "foobar", "foobar"], [1, 1, 2], [1, 7, 3], [1, 1, -1]⟩ ctx).toOption.map
    (fun x => ((x.protos.map Prod.fst).count "foobar_life_1", (x.protos.map Prod.fst).count "foobar")) =
    some (1, 1) := by decide +kernel

/-- `productioncapacity` (`deploy_inst_tests.cc:207-213`; the same in `manager_inst_tests.cc:47-53`) -/
example : Region.totalCapacity ⟨1, .deploy, [], [], []⟩ "commod" = 0 ∧
    Region.totalCapacity (Region.buildNotify ⟨1, .deploy, [], [], []⟩ ⟨9, some [("commod", 5)]⟩) "commod" = 5 ∧
    Region.totalCapacity (Region.decomNotify
      (Region.buildNotify ⟨1, .deploy, [], [], []⟩ ⟨9, some [("commod", 5)]⟩)
      ⟨9, some [("commod", 5)]⟩) "commod" = 0 := by decide +kernel

end Cyc.Deploy.Tests
