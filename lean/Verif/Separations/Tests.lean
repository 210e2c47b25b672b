import Verif.Separations.Model

/-!
# The unit tests of `Separations`, replayed on the model

`src/separations_tests.cc`. These are tests of the model, not proofs. The tests of positions are covered
by `Verif/Position`. In the tests that simulate, a source and sinks take and give as much as is asked
for and offered, one trade per commodity and step.
-/

namespace Cyc.Separations.Tests

/-- The material of `SepMaterial`, as given: 108.8 parts. -/
def mat : NMat := ⟨[(922350000, 10), (922380000, 90), (942390000, 1), (942400000, 2), (952410000, 3),
  (952420000, 28/10)]⟩

/-- `SepMaterial` (`separations_tests.cc:17-44`) -/
example : let sep := sepMaterial [(920000000, 7/10), (940000000, 4/10), (952410000, 4/10)] mat
    sep.mass 922350000 = 7/10 * mat.mass 922350000 ∧ sep.mass 922380000 = 7/10 * mat.mass 922380000 ∧
    sep.mass 942390000 = 4/10 * mat.mass 942390000 ∧ sep.mass 942400000 = 4/10 * mat.mass 942400000 ∧
    sep.mass 952410000 = 4/10 * mat.mass 952410000 ∧ sep.mass 952420000 = 0 := by decide +kernel

/-- The facility of the tests, with the given streams and life. -/
def cfg (streams : List (String × List (Nat × ℚ))) (exit : Option Nat) : Cfg where
  feedCommods := ["feed"]
  feedPrefs := []
  feedbufSize := 100
  throughput := 100
  leftoverCommod := "waste"
  leftoverCap := none
  streams := streams.map fun x => (x.1, ⟨-1, x.2⟩)
  enterTime := 0
  exitTime := exit
  eps := 1/1000000
  lo := 1/1000000

/-- What deployment says: nothing, or an error. -/
def verdict (streams : List (String × List (Nat × ℚ))) : Option Fault :=
  match enter (cfg streams none) with
  | .ok _ => none
  | .error e => some e

/-- `SeparationEfficiency` (`separations_tests.cc:48-138`). The streams of the test have the same name; a map keeps the last. -/
example : verdict [("stream1", [(942390000, 5/10)])] = none ∧
    verdict [("stream1", [(942390000, 2/10)]), ("stream2", [(942390000, 1/10)]),
      ("stream3", [(942390000, 5/10)])] = none ∧
    verdict [("stream1", [(920000000, 1/10), (942390000, 2/10)]),
      ("stream2", [(920000000, 2/10), (942390000, 1/10)]),
      ("stream3", [(920000000, 7/10), (942390000, 5/10)])] = none := by decide +kernel

/-- `SeparationEfficiencyThrowing` (`separations_tests.cc:141-237`) -/
example : verdict [("stream1", [(920000000, 16/10), (942390000, 7/10)])] = some .value ∧
    verdict [("stream1", [(920000000, 6/10), (942390000, 7/10)]),
      ("stream2", [(920000000, 1/10), (942390000, 7/10)])] = some .value ∧
    verdict [("stream1", [(920000000, 6/10), (942390000, 7/10)]),
      ("stream2", [(920000000, 6/10), (942390000, 7/10)])] = some .value := by decide +kernel

/-- One step among a source of a recipe and sinks of the given capacities; the number of receipts, and
the sales. -/
def mockStep (c : Cfg) (recipe : ℚ → NMat) (sinks : List (String × ℚ)) (s : State) :
    R (Nat × List NMat × Bool × State) := do
  let (_, s1) ← tick c s
  let (_, rq) ← requests c s1
  let reqs := fun k => match Map.get? sinks k with | some q => [q] | none => []
  let ps := bids c s1 reqs
  let sells := ps.map fun p => (p.commod, min p.cap ((reqs p.commod).getD 0 0))
  let buys := match rq with | some r => [recipe r.amount] | none => []
  let (o, s2) ← step c s ⟨reqs, sells, buys⟩
  pure (buys.length, o.sold, o.retire, s2)

/-- A simulation of `n` steps; the facility leaves at the first step, from its exit time on, at the end
of which it may. -/
def mockRun (c : Cfg) (recipe : ℚ → NMat) (sinks : List (String × ℚ)) : Nat → State → R (Nat × List NMat)
  | 0, _ => .ok (0, [])
  | n + 1, s => do
    let (k, sold, ret, s') ← mockStep c recipe sinks s
    let (k', sold') ← if ret && c.exitTime.any (fun te => decide (te ≤ s.time)) then pure (0, [])
      else mockRun c recipe sinks n s'
    pure (k + k', sold ++ sold')

/-- The recipe of `SepMixElemAndNuclide`. -/
def spent (q : ℚ) : NMat := ⟨[(922350000, 8/100 * q), (922380000, 9/10 * q), (942390000, 1/100 * q),
  (942400000, 1/100 * q)]⟩

/-- `SepMixElemAndNuclide` (`separations_tests.cc:239-282`) -/
example : (enter (cfg [("stream1", [(920000000, 6/10), (942390000, 7/10)])] none) >>= fun s =>
    mockRun (cfg [("stream1", [(920000000, 6/10), (942390000, 7/10)])] none) spent [("stream1", 100)] 2 s
    ).toOption.map (fun x => x.2.map fun m =>
      (m.mass 922350000, m.mass 922380000, m.mass 942390000, m.mass 942400000)) =
    some [(8/100 * (6/10) * 100, 9/10 * (6/10) * 100, 1/100 * (7/10) * 100, 0)] := by decide +kernel

/-- The recipe of `Retire`. -/
def fresh (q : ℚ) : NMat := ⟨[(922350000, 1/10 * q), (922380000, 9/10 * q)]⟩

/-- `Retire` (`separations_tests.cc:284-342`): one receipt, three sales, 100 kg in all. A facility of life 2 leaves at time 1. -/
example : (enter (cfg [("stream1", [(922350000, 1)])] (some 1)) >>= fun s =>
    mockRun (cfg [("stream1", [(922350000, 1)])] (some 1)) fresh [("stream1", 100), ("waste", 70)] 5 s
    ).toOption.map (fun x => (x.1, x.2.length, (x.2.map qty).sum)) = some (1, 3, 100) := by decide +kernel

end Cyc.Separations.Tests
