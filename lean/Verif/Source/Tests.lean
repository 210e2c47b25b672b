import Verif.Source.Model

/-!
# The unit tests of `Source`, replayed on the model

`src/source_tests.cc`. These are tests of the model, not proofs.
-/

namespace Cyc.Source.Tests

/-- The facility of the tests (`source_tests.cc:26-41`): neither package nor transport unit. The inventory
is 10^20 kg here in place of the default 10^299. -/
def cfg : Cfg where
  outcommod := "commod"
  recipe := some ⟨[(922350000, 1)]⟩
  size := 10 ^ 20
  throughput := 5
  fill := fun q => [q]
  ship := id
  eps := 1/1000000
  epsRsrc := 1/1000000
  lo := 1/1000000

/-- `get_mat()`: 1 kg of uranium-235. -/
def mat (q : ℚ) : NMat := ⟨[(922350000, q)]⟩

/-- `AddBids` (`source_tests.cc:58-86`): a bid for each of five requests, and the capacity. -/
example : (build cfg).toOption.map (fun s =>
    (bids cfg ((List.range 5).map fun i => ⟨i, "commod", mat 1⟩) s).map fun p => (p.bids.length, p.cap)) =
    some (some (5, 5)) := by decide +kernel

/-- `Response` (`source_tests.cc:88-129`): no trade, one, and two. -/
def answers (ts : List Trade) : Option (List (Option ℚ)) := ((build cfg).toOption.bind fun s =>
  (sell cfg ts s).toOption).map fun x => x.1.map (Option.map qty)

example : answers [] = some [] := by decide +kernel
example : answers [⟨mat 1, 5/3⟩] = some [some (5/3)] := by decide +kernel
example : answers [⟨mat 1, 5/3⟩, ⟨mat 1, 5/3⟩] = some [some (5/3), some (5/3)] := by decide +kernel

/-- A package of cyclus, filled with 3 to 4 kg, strategy `first`: as many full packages as possible, and the
rest if it is enough. -/
def first (q : ℚ) : List ℚ :=
  let n := (q / 4).floor.toNat
  List.replicate n 4 ++ if 3 ≤ q - 4 * n then [q - 4 * n] else []

/-- The same with strategy `equal`: equal packages, as few as possible. -/
def equal (q : ℚ) : List ℚ :=
  let n := (q / 4).ceil.toNat
  if n = 0 ∨ q / n < 3 then List.replicate (q / 4).floor.toNat 4 else List.replicate n (q / n)

/-- `n` steps in which every bid for a request of 10^6 kg is accepted: what is sent, by step. -/
def sales (c : Cfg) : Nat → State → R (List (List (Option NMat)))
  | 0, _ => .ok []
  | n + 1, s => do
    let ts := ((bids c [⟨1, "commod", mat (10 ^ 6)⟩] s).map fun p => p.bids.map fun b =>
      (⟨mat (10 ^ 6), qty b.offer⟩ : Trade)).getD []
    let (l, s) ← sell c ts s
    let r ← sales c n s
    pure (l :: r)

/-- The quantities sent. -/
def sent (c : Cfg) (n : Nat) : Option (List (List (Option ℚ))) := ((build c).toOption.bind fun s =>
  (sales c n s).toOption).map fun l => l.map fun x => x.map (Option.map qty)

/-- `Package` (`source_tests.cc:161-190`): three packages in three steps. -/
example : sent { cfg with fill := first } 3 = some [[some 4], [some 4], [some 4]] := by decide +kernel

/-- `TransportUnit` (`source_tests.cc:192-224`): units for two packages; four packages in two steps. -/
example : sent { cfg with throughput := 10, fill := equal, ship := fun n => n / 2 * 2 } 2 =
    some [[some (10/3), some (10/3)], [some (10/3), some (10/3)]] := by decide +kernel

end Cyc.Source.Tests
