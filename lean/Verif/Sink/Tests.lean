import Verif.Sink.Model

/-!
# The unit tests of `Sink`, replayed on the model

`src/sink_tests.cc`. These are tests of the model, not proofs. What the random number generator of cyclus
returns is taken from the expectations of the tests; the arguments with which it is called, and what is
made of the result, are the model's.
-/

namespace Cyc.Sink.Tests

/-- The facility of the tests (`sink_tests.cc:26-41`). -/
def cfg : Cfg where
  commods := ["acommod", "bcommod"]
  prefs := []
  recipe := none
  maxInv := 10
  capacity := 5
  sizeType := "None"
  sizeMean := 1
  sizeStd := 1/10
  freqType := "None"
  freqMean := 2
  freqStd := 1
  freqMin := 1
  freqMax := 2147483647
  defaultPref := 1
  eps := 1/1000000
  epsRsrc := 1/1000000

/-- No random numbers. -/
def still : Rng := ⟨fun _ _ => .error .ub, fun _ _ _ _ => .error .ub, fun _ _ => .error .ub,
  fun _ _ _ _ => .error .ub⟩

/-- `InitialState` (`sink_tests.cc:44-58`). -/
example : (enter cfg still 0).toOption.map
    (fun s => (s.inventory.quantity, s.inventory.cap, spaceAvailable cfg s, s.prefs)) =
    some (0, some 10, 5, [1, 1]) := by decide +kernel

/-- The requests of the first step. -/
def asked (c : Cfg) : Option (Option MatlPort) := ((enter c still 0).toOption.bind fun s =>
  (matlRequests c still s).toOption).map Prod.fst

/-- `Requests` (`sink_tests.cc:112-140`). -/
example : (asked cfg).map (Option.map fun p => (qty p.target, p.reqs.map Prod.fst)) =
    some (some (5, ["acommod", "bcommod"])) := by decide +kernel

/-- `EmptyRequests` (`sink_tests.cc:143-151`). -/
example : asked { cfg with capacity := 0 } = some none := by decide +kernel

/-- `Accept` (`sink_tests.cc:154-183`). -/
example : ((enter cfg still 0).toOption.bind fun s =>
    (accept cfg [.mat ⟨[(922350000, 5/2)]⟩, .mat ⟨[(922350000, 5/2)]⟩] s).toOption).map
      (fun s => s.inventory.quantity) = some 5 := by decide +kernel

/-- `InRecipe` (`sink_tests.cc:186-219`). -/
example : (asked { cfg with commods := ["some_u"] }).map (Option.map fun p => p.reqs.map Prod.fst) =
    some (some ["some_u"]) := by decide +kernel

/-- `n` steps from time `t` on, in which `k` is asked for what the random functions `g t` return and all that
is requested is delivered: the step and the quantity of each delivery. -/
def purchases (c : Cfg) (g : Nat → Rng) : Nat → Nat → State → R (List (Nat × ℚ))
  | 0, _, _ => .ok []
  | n + 1, t, s => do
    let s ← tickAmt c (g t) t s
    let (p, s) ← matlRequests c (g t) s
    let q := (p.map fun p => qty p.target).getD 0
    let s ← if q = 0 then pure s else accept c [.mat ⟨[(0, q)]⟩] s
    let l ← purchases c g n (t + 1) s
    pure (if q = 0 then l else (t, q) :: l)

/-- The deliveries in `n` steps; `g0` are the random functions at deployment. -/
def bought (c : Cfg) (g0 : Rng) (g : Nat → Rng) (n : Nat) : Option (List (Nat × ℚ)) :=
  ((enter c g0 0).toOption.bind fun s => (purchases c g n 0 s).toOption)

/-- The input of the random tests. -/
def random : Cfg := { cfg with commods := ["commods_1"], capacity := 10, maxInv := 10 ^ 20 }

/-- Random numbers that are `q` if the arguments are those given, else undefined. -/
def uniformReal (a b q : ℚ) : Rng where
  __ := still
  uniformReal := fun x y => if x = a ∧ y = b then .ok q else .error .ub

def normalReal (m d a b q : ℚ) : Rng where
  __ := still
  normalReal := fun x e y z => if x = m ∧ e = d ∧ y = a ∧ z = b then .ok q else .error .ub

def uniformInt (a b : ℤ) (n : ℤ) : Rng where
  __ := still
  uniformInt := fun x y => if x = a ∧ y = b then .ok n else .error .ub

def normalInt (m d : ℚ) (a b : ℤ) (n : ℤ) : Rng where
  __ := still
  normalInt := fun x e y z => if x = m ∧ e = d ∧ y = a ∧ z = b then .ok n else .error .ub

/-- Sizes from one, times from the other. -/
def both (g h : Rng) : Rng := ⟨g.uniformReal, g.normalReal, h.uniformInt, h.normalInt⟩

/-- `RandomUniformSize` (`sink_tests.cc:345-365`): drawn from 0 to the capacity. -/
example : bought { random with sizeType := "UniformReal" } (uniformReal 0 10 (941273/100000))
    (fun _ => uniformReal 0 10 (941273/100000)) 1 = some [(0, 941273/100000)] := by decide +kernel

/-- `RandomNormalSize` (`sink_tests.cc:369-389`): mean 1 and deviation 0.1 of the capacity. -/
example : bought { random with sizeType := "NormalReal" } (normalReal 10 1 0 10 (960929/100000))
    (fun _ => normalReal 10 1 0 10 (960929/100000)) 1 = some [(0, 960929/100000)] := by decide +kernel

/-- `RandomNormalSizeWithMeanSttdev` (`sink_tests.cc:393-415`). -/
example : bought { random with sizeType := "NormalReal", sizeMean := 1/2, sizeStd := 1/5 }
    (normalReal 5 2 0 10 (152979/100000)) (fun _ => normalReal 5 2 0 10 (152979/100000)) 1 =
    some [(0, 152979/100000)] := by decide +kernel

/-- `RandomUniformFreq` (`sink_tests.cc:419-444`): one purchase in three steps, in step 2. -/
example : bought { random with freqType := "UniformInt", freqMin := 2, freqMax := 4 }
    (uniformInt 2 4 2) (fun _ => uniformInt 2 4 3) 3 = some [(2, 10)] := by decide +kernel

/-- `RandomNormalFreq` and `RandomNormalFreqWithMeanSttdev` (`sink_tests.cc:448-500`). -/
example : bought { random with freqType := "NormalInt" } (normalInt 2 1 1 2147483647 2)
    (fun _ => normalInt 2 1 1 2147483647 3) 3 = some [(2, 10)] := by decide +kernel
example : bought { random with freqType := "NormalInt", freqMean := 2, freqStd := 1/5 }
    (normalInt 2 (1/5) 1 2147483647 2) (fun _ => normalInt 2 (1/5) 1 2147483647 3) 3 =
    some [(2, 10)] := by decide +kernel

/-- `RandomNormalFreqMultipleCycles` (`sink_tests.cc:503-534`): purchases in steps 5, 7 and 11. -/
example : (bought { random with freqType := "NormalInt", freqMean := 4, freqStd := 1 }
    (normalInt 4 1 1 2147483647 5) (fun t => normalInt 4 1 1 2147483647 (if t = 5 then 2 else 4)) 12).map
      (List.map Prod.fst) = some [5, 7, 11] := by decide +kernel

/-- `RandomNormalSizeUniformFreq` (`sink_tests.cc:538-569`): two purchases in six steps, the first in step
3. -/
example : (bought
    { random with sizeType := "NormalReal", sizeMean := 4/5, sizeStd := 1/5
                  freqType := "UniformInt", freqMin := 2, freqMax := 4 }
    (both (normalReal 8 2 0 10 7) (uniformInt 2 4 3))
    (fun _ => both (normalReal 8 2 0 10 (654143/100000)) (uniformInt 2 4 2)) 6) =
    some [(3, 654143/100000), (5, 654143/100000)] := by decide +kernel

end Cyc.Sink.Tests
