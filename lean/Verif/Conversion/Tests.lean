import Verif.Conversion.Model

/-!
# The unit tests of `Conversion`, replayed on the model

`src/conversion_tests.cc`, from line 83 on. These are tests of the model, not proofs.
-/

namespace Cyc.Conversion.Tests

/-- The facility of the tests (`conversion_tests.h:28-46`). -/
def cfg : Cfg where
  incommods := ["incommod1"]
  outcommod := "outcommod"
  throughput := 10
  capacity := 50
  eps := 1/1000000
  lo := 1/1000000

/-- Blank material. -/
def mat (q : ℚ) : NMat := ⟨[(0, q)]⟩

/-- A facility with the given quantities in its input and output. -/
def holding (i o : List ℚ) : State := ⟨⟨some 50, i.map mat⟩, ⟨none, o.map mat⟩⟩

/-- The quantities in input and output. -/
def amounts (r : R State) : Option (ℚ × ℚ) := r.toOption.map fun s => (s.input.quantity, s.output.quantity)

/-- `AvailableFeedstockCapacity` (`conversion_tests.cc:83-96`). -/
example : available cfg (enter cfg) = 50 := by decide +kernel
example : available cfg (holding [10] []) = 50 - 10 := by decide +kernel

/-- `GetMatlRequests` (`conversion_tests.cc:98-120`). -/
example : (requests cfg (enter cfg)).map (fun p => (p.reqs.length, p.cap)) = some (1, 50) := by decide +kernel

/-- `GetMatlRequestsWhenFull` (`conversion_tests.cc:122-138`). -/
example : requests cfg (holding [50] []) = none := by decide +kernel

/-- `GetMatlBids` (`conversion_tests.cc:140-178`). -/
example : (bids cfg [⟨1, "outcommod", 10⟩] (holding [] [10])).toOption.map
    (Option.map fun p => (p.bids.length, p.cap)) = some (some (1, 10)) := by decide +kernel

/-- `GetMatlBidsWhenEmpty` (`conversion_tests.cc:180-202`). -/
example : (bids cfg [⟨1, "outcommod", 10⟩] (enter cfg)).toOption = some none := by decide +kernel

/-- `AcceptMatlTrades` (`conversion_tests.cc:204-230`). -/
example : amounts (accept cfg [mat 10] (enter cfg)) = some (10, 0) := by decide +kernel

/-- `GetMatlTrades` (`conversion_tests.cc:232-268`). -/
example : (sell cfg [10] (holding [] [10])).toOption.map
    (fun x => (x.1.map qty, x.2.output.quantity)) = some ([10], 0) := by decide +kernel

/-- `Convert`, `ConvertWithLessThanThroughput`, `ConvertWithEmptyInput`, `Tick`
(`conversion_tests.cc:270-328`). -/
example : amounts (tick cfg (holding [20] [])) = some (10, 10) := by decide +kernel
example : amounts (tick cfg (holding [5] [])) = some (0, 5) := by decide +kernel
example : amounts (tick cfg (enter cfg)) = some (0, 0) := by decide +kernel

end Cyc.Conversion.Tests
