import Verif.Sim.Example

/-!
# Where C125 fails: simulations that stop with an error

One simulation for each assumption on the input of a prototype that is not about the exchange. In each of them
all other prototypes are sensible (`Sensible`), and the exchange respects requests and offers (`greedy_fair`).
-/

namespace Cyc.Sim

/-- The prototypes `ks` can be deployed, the first `n` steps of the simulation go well, and the next is an
error. -/
def Stops (ks : List Kind) (n : Nat) (f : Fault) : Prop :=
  ∃ ps l ps', deployAll ks = .ok ps ∧ simulate (fun _ => greedy) n 0 ps = .ok (l, ps') ∧
    simulate (fun _ => greedy) (n + 1) 0 ps = .error f

theorem stops {ks : List Kind} {n : Nat} {f : Fault}
    (h : (match deployAll ks with
      | .error _ => none
      | .ok ps => match simulate (fun _ => greedy) n 0 ps, simulate (fun _ => greedy) (n + 1) 0 ps with
        | .ok _, .error f => some f
        | _, _ => none) = some f) : Stops ks n f := by
  cases h1 : deployAll ks with
  | error e => rw [h1] at h; cases h
  | ok ps =>
    rw [h1] at h
    dsimp only at h
    split at h
    · rename_i r f' h2 h3
      cases h
      exact ⟨ps, r.1, r.2, h1, h2, h3⟩
    · cases h

/-- C125 fails with a conversion of throughput zero, which the input allows: it cannot remove zero from its
input (C88). -/
theorem C125_conversion_counterexample :
    Stops [.source exMine, .conversion { exConversion with throughput := 0 }] 1 .value :=
  stops (by decide +kernel)

/-- C125 fails with a conversion that receives less than the smallest amount that can be removed from a
buffer (C88). -/
theorem C125_crumbs_counterexample :
    Stops [.source { exMine with size := 1/10 }, .conversion { exConversion with lo := 1 }] 1 .value :=
  stops (by decide +kernel)

/-- C125 fails with a mixer that has a stream of ratio zero beside another (C85). -/
theorem C125_mixer_counterexample :
    Stops [.source { exMine with outcommod := "pu" }, .source { exMine with outcommod := "u" },
      .mixer { exMixer with streams := [⟨1, 5, [("pu", 1)]⟩, ⟨0, 5, [("u", 1)]⟩] }] 1 .value :=
  stops (by decide +kernel)

/-- C125 fails with a separations facility whose leftover inventory is limited (C70). -/
theorem C125_separations_counterexample :
    Stops [.source exSpent, .separations { exSeparations with leftoverCap := some 1 }] 1 .value :=
  stops (by decide +kernel)

/-- C125 fails with an enrichment facility that is asked for uranium poorer than its feed: it offers it and
cannot deliver it (C37). -/
theorem C125_enrichment_counterexample :
    Stops [.source { exMine with outcommod := "feed" }, .enrichment exEnrichment,
      .sink { exBuyer with recipe := some ⟨[(922350000, 5), (922380000, 995)]⟩ }] 0 .value :=
  stops (by decide +kernel)

end Cyc.Sim
