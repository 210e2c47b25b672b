import Verif.Sim.Actors

/-!
# The life of a facility in a simulation

What the claims about single facilities call a history.
-/

namespace Cyc.Sim

/-- In every step, what `FuelFab` is given is what an exchange can make of its requests, and what it
sells is what an exchange can make of its bids. -/
def fuelFed (c : FuelFab.Cfg) : FuelFab.State → List FuelFab.In → Prop
  | _, [] => True
  | s, i :: is => (∀ a s₁, FuelFab.requests c i.addr s = .ok (a, s₁) →
      FuelFab.Distinct a ∧ FuelFab.HonestBuys a i.buys ∧ ∀ p, FuelFab.bids c i.reqs s₁ = .ok p →
        FuelFab.HonestSales c (i.reqs c.outCommod) p i.sells) ∧
    ∀ o s', FuelFab.step c s i = .ok (o, s') → fuelFed c s' is

/-- In every step a storage facility is given no more than its buy policy asks for. -/
def stocked (c : Storage.Cfg) (want : Storage.State Nat → ℚ) :
    Storage.State Nat → List (Storage.In Nat) → Prop
  | _, [] => True
  | s, i :: is => totalQty i.buys ≤ max 0 (want s) ∧
    ∀ o s', Storage.step c s i = .ok (o, s') → stocked c want s' is

/-- The assemblies a reactor receives in successive steps, numbered in the order of arrival. -/
def numbered (enc : NMat → Nat) : Nat → List (List NMat) → List (List Reactor.Assem)
  | _, [] => []
  | k, ms :: got => (ms.zipIdx k).map (fun x => ⟨x.2, qty x.1, enc x.1⟩) :: numbered enc (k + ms.length) got

/-- The state is that of a facility that was deployed and went through `n` steps in a market that
respects its requests and offers. It received `got` and handed over `gave`: one list for every step.
The assemblies of a reactor are numbered in the order of arrival. -/
def Lived : (k : Kind) → (act k).S → Nat → List (List NMat) → List (List NMat) → Prop
  | .conversion c => fun (s : Conversion.State) n got gave => ∃ is os,
    Conversion.History c is os s ∧ Conversion.HonestRun c (Conversion.enter c) is ∧ is.length = n ∧
    is.map Conversion.In.buys = got ∧ os.map Conversion.Out.sold = gave
  | .enrichment c => fun (s : Enrichment.State) n got gave => ∃ s₀ is os,
    Enrichment.build c = .ok s₀ ∧ Enrichment.run c s₀ is = .ok (os, s) ∧ Enrichment.HonestRun c s₀ is ∧
    is.length = n ∧ is.map Enrichment.In.buys = got ∧ os.map Enrichment.Out.sold = gave
  | .fuelFab c => fun (s : FuelFab.State) n got gave => ∃ s₀ is os,
    FuelFab.enter c = .ok s₀ ∧ FuelFab.run c s₀ is = .ok (os, s) ∧ fuelFed c s₀ is ∧
    is.length = n ∧ is.map (fun i => i.buys.map Prod.snd) = got ∧ os.map FuelFab.Out.sold = gave
  | .mixer c => fun (s : Mixer.State) n got gave => ∃ is os,
    Mixer.History c is os s ∧ Mixer.HonestRun c (Mixer.enter c) is ∧ is.length = n ∧
    is.map (fun i => i.buys.map Prod.snd) = got ∧ os.map Mixer.Out.sold = gave
  | .reactor c enc dec => fun (s : Reactor.State × Nat) n got gave => ∃ is os,
    Reactor.History c is os s.1 ∧ is.length = n ∧
    is.map (fun i => i.buys.map Prod.snd) = numbered enc 0 got ∧
    os.map (fun o => material dec (o.shipped.map Prod.snd)) = gave ∧ s.2 = got.flatten.length
  | .separations c => fun (s : Separations.State) n got gave => ∃ s₀ is os,
    Separations.enter c = .ok s₀ ∧ Separations.run c s₀ is = .ok (os, s) ∧
    Separations.HonestRun c s₀ is ∧ is.length = n ∧
    is.map Separations.In.buys = got ∧ os.map Separations.Out.sold = gave
  | .sink c => fun (s : ℤ × Sink.State) n got gave => ∃ s₀ is os,
    Sink.enter c noRng 0 = .ok s₀ ∧ Sink.run c 0 s₀ is = .ok (os, s.2) ∧ Sink.HonestRun c 0 s₀ is ∧
    Sink.AllSound noRng is ∧ s.1 = n ∧ is.length = n ∧ is.map Sink.In.mats = got ∧
    (∀ i ∈ is, i.prods = []) ∧ gave = List.replicate n []
  | .source c => fun (s : Source.State) n got gave => ∃ s₀ is os,
    Source.build c = .ok s₀ ∧ Source.run c s₀ is = .ok (os, s) ∧ Source.HonestRun c s₀ is ∧
    is.length = n ∧ got = List.replicate n [] ∧ os.map Source.sentIn = gave
  | .storage c want => fun (s : Storage.State Nat) n got gave => ∃ p s₀ is os,
    Storage.enter c = .ok (p, s₀) ∧ Storage.run c s₀ is = .ok (os, s) ∧ Storage.HonestRun c s₀ is ∧
    stocked c want s₀ is ∧ is.length = n ∧ is.map Storage.In.buys = got ∧ os.map Storage.Out.sold = gave

end Cyc.Sim
