import Verif.Mixer.Model

/-!
# The unit tests of `Mixer`, replayed on the model

`src/mixer_tests.cc`. These are tests of the model, not proofs. The tests of positions are
covered by `Verif/Position`. In the tests that simulate, sources of 1 kg per step and a sink give and
take what is asked for and offered.
-/

namespace Cyc.Mixer.Tests

/-- The compositions of the tests (`mixer_tests.cc:21-48`), `q` kg of each. -/
def pu (q : ℚ) : NMat := ⟨[(942390000, 100 * (q / 112)), (942400000, 10 * (q / 112)), (942410000, q / 112),
  (942420000, q / 112)]⟩
def natu (q : ℚ) : NMat := ⟨[(922350000, 7/1000 * q), (922380000, 993/1000 * q)]⟩
def uox (q : ℚ) : NMat := ⟨[(922350000, 4/100 * q), (922380000, 96/100 * q)]⟩

/-- The facility of the tests (`mixer_tests.cc:57-82`), with given ratios and throughput. -/
def cfg (rs : List ℚ) (thr : ℚ) : Cfg where
  streams := (rs.zip [("in_c1", 30), ("in_c2", 20), ("in_c3", 10)]).map fun x => ⟨x.1, x.2.2, [(x.2.1, 1)]⟩
  outCommod := "out_com"
  outSize := 50
  throughput := thr
  eps := 1/1000000
  lo := 1/1000000

/-- `StreamDefaultRatio` (`mixer_tests.cc:177-189`). -/
example : (enter (cfg [1, 1, 1] (10 ^ 20))).ratios = [1/3, 1/3, 1/3] := by decide +kernel

/-- `StreamRatio` (`mixer_tests.cc:192-229`). -/
example : (enter (cfg [2, 1, 5] (10 ^ 20))).ratios.sum = 1 := by decide +kernel
example : (enter (cfg [1/10, 2/10, 5/10] (10 ^ 20))).ratios.sum = 1 := by decide +kernel

/-- A facility with full input buffers after `Tick`. -/
def mixed (c : Cfg) : Option State :=
  (tick c { enter c with bufs := [("in_stream_0", ⟨some 30, [natu 30]⟩), ("in_stream_1", ⟨some 20, [pu 20]⟩),
    ("in_stream_2", ⟨some 10, [uox 10]⟩)] }).toOption

/-- What is mixed in `MixingComposition`. -/
def blend (q : ℚ) : NMat := (natu (80/100 * q)).absorb ((pu (15/100 * q)).absorb (uox (5/100 * q)))

/-- `MixingComposition` (`mixer_tests.cc:232-275`). -/
example : (mixed (cfg [80/100, 15/100, 5/100] (10 ^ 20))).map (fun s => s.output.items.map fun m =>
    [922350000, 922380000, 942390000, 942400000, 942410000, 942420000].all fun n =>
      m.mass n / qty m = (blend 1).mass n / qty (blend 1)) = some [true] := by decide +kernel

/-- `Throughput` (`mixer_tests.cc:278-321`). -/
example : (mixed (cfg [80/100, 15/100, 5/100] (1/2))).map (fun s =>
    (s.output.quantity, (List.range 3).map fun i => (getBuf s.bufs (name i)).quantity)) =
    some (1/2, [30 - 1/2 * (80/100), 20 - 1/2 * (15/100), 10 - 1/2 * (5/100)]) := by decide +kernel

/-- The facility of the tests that simulate. -/
def cfgSim (out thr : ℚ) : Cfg where
  streams := [⟨8/10, 5/2, [("stream1", 1)]⟩, ⟨15/100, 3, [("stream2", 1)]⟩, ⟨5/100, 5, [("stream3", 1)]⟩]
  outCommod := "mixedstream"
  outSize := out
  throughput := thr
  eps := 1/1000000
  lo := 1/1000000

/-- One step: for each portfolio, in order of the sources, a delivery of at most 1 kg; the sink takes
the whole output. The deliveries by commodity, and the sales. -/
def mockStep (c : Cfg) (s : State) : R (List String × List NMat × State) := do
  let s1 ← tick c s
  let a := (requests c (fun i _ => i) s1).1
  let rs := a.flatMap fun p => match p with
    | some r => r.reqs.map fun q => (q, min 1 (r.amount.getD 1))
    | none => []
  let give := fun (k : String) (q : ℚ) => if k = "stream1" then natu q else if k = "stream2" then pu q else uox q
  let (o, s2) ← step c s ⟨fun i _ => i, if s1.output.quantity > 0 then [s1.output.quantity] else [],
    rs.map fun x => (x.1.id, give x.1.commod x.2)⟩
  pure (rs.map fun x => x.1.commod, o.sold, s2)

/-- `MultipleFissStreams` (`mixer_tests.cc:325-395`) -/
example : (mockStep (cfgSim 0 0) (enter (cfgSim 0 0))).toOption.map (fun x => (x.1, x.2.1)) =
    some (["stream1", "stream2", "stream3"], []) := by decide +kernel

/-- `CompleteMixingProcess` (`mixer_tests.cc:399-462`) -/
example : (mockStep (cfgSim 10 1) (enter (cfgSim 10 1)) >>= fun x => do
    let y ← mockStep (cfgSim 10 1) x.2.2
    pure (x.2.1 ++ y.2.1)).toOption.map (List.map qty) = some [1] := by decide +kernel

end Cyc.Mixer.Tests
