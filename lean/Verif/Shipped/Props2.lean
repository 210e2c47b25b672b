import Verif.Shipped.Props
import Verif.Sim.Props24

/-!
# The input files as they are written, with `order_prefs`

None of the files sets `order_prefs`, which is then on.
-/

namespace Cyc.Shipped

open Cyc.Sim

theorem ranking_since (t : Nat) (k : Kind) : k.ranking.since t = (k.since t).ranking := by cases k <;> rfl

theorem sellsOf_ranking (k : Kind) : sellsOf k.ranking = sellsOf k := by cases k <;> rfl

theorem built_ranking (plan : Plan) (t n : Nat) :
    (plan.map Kind.ranking).built t n = (plan.built t n).map Kind.ranking := by
  simp only [Plan.built, Plan.map, List.map_flatMap, List.map_map]
  congr 1; funext u
  exact List.map_congr_left fun k _ => ranking_since u k

theorem plain_ranking {k : Kind} (h : Sensible k) : k.ranking.plain = k := by
  cases k with
  | enrichment c =>
    have hc : c.orderPrefs = false := h.2.2.2
    simp only [Kind.ranking, Kind.plain]
    rw [← hc]
  | _ => rfl

/-- In the files, the feed of enrichment facilities comes from sources. -/
theorem feed_mined {W : World} {f : File} (hf : f ∈ files W) {p : Proto} (hp : p ∈ f.protos)
    {c : Enrichment.Cfg} (hc : p.input.kind = .enrichment c) :
    ∀ q ∈ f.protos, c.feedCommod ∈ sellsOf q.input.kind → ∃ x, q.input.kind = .source x := by
  intro q hq hs
  simp only [files, List.mem_cons, List.not_mem_nil, or_false] at hf
  rcases hf with rfl | rfl | rfl | rfl | rfl | rfl | rfl | rfl | rfl | rfl | rfl | rfl | rfl | rfl | rfl | rfl
  all_goals
    simp only [recycle, physorEnrichment, physorSources, enrichmentOne, enrichmentLinear, enrichmentNatu,
      enrichmentSwu, enrichmentProtos, minimal, minimalLife, minimalThree, minimalThreeLife, deployed,
      growthLinear, growthDeploy, capacitated, growth, List.mem_cons, List.not_mem_nil, or_false] at hp hq
  all_goals rcases hp with rfl | rfl | rfl | rfl | rfl | rfl
  all_goals first
    | (cases hc; done)
    | (cases hc
       rcases hq with rfl | rfl | rfl | rfl | rfl | rfl
       all_goals first
         | exact ⟨_, rfl⟩
         | exact absurd hs (of_decide_eq_false rfl))

/-- C157, the files as they are written, that is, with the default of `order_prefs`: with the facilities that
the file builds, whatever leaves, and whatever an exchange decides that is fair for any preferences, the
simulation runs.

Partial: as C125. -/
theorem C157_as_written_partial {W : World} (hW : W.Sound) {f : File} (hf : f ∈ files W)
    (leaves : Nat → Nat → Bool) {ex : Nat → Ranked} (hex : ∀ t ranks, (ex t ranks).Fair) (n : Nat) :
    ∃ l gone ps, rankedLive ex ((f.plan leaves).map Kind.ranking) n 0 [] = .ok (l, gone, ps) := by
  obtain ⟨A, hA⟩ := files_fine hW f hf
  have hS : ∀ t, ∀ k ∈ (f.plan leaves).builds t, Sensible k ∧ Suits A k := by
    intro t k hk
    obtain ⟨p, h, rfl⟩ := plan_plays f leaves t k hk
    exact ⟨sensible_until _ (hA p h).1, suits_until _ (hA p h).2⟩
  refine C158_one_seller_partial (A := A) ?_ hex ?_
  · intro t k hk
    obtain ⟨k, hk', rfl⟩ := List.mem_map.1 hk
    rw [plain_ranking (hS t k hk').1]
    exact hS t k hk'
  · intro c hc _
    rw [built_ranking] at hc ⊢
    have hmade : ∀ k ∈ (f.plan leaves).built 0 n, ∃ p ∈ f.protos,
        sellsOf k = sellsOf p.input.kind ∧ (∀ c, k = .enrichment c ↔ p.input.kind = .enrichment c) ∧
          ∀ x, p.input.kind = .source x → k = .source x := by
      intro k hk
      obtain ⟨t, -, hk⟩ := List.mem_flatMap.1 hk
      obtain ⟨k, hk', rfl⟩ := List.mem_map.1 hk
      obtain ⟨p, h, rfl⟩ := plan_plays f leaves t k hk'
      refine ⟨p, h, ?_⟩
      unfold Proto.made
      cases p.input.kind <;> refine ⟨rfl, ?_, ?_⟩ <;> simp [Kind.until, Kind.since]
    obtain ⟨k, hk, hkc⟩ := List.mem_map.1 hc
    obtain ⟨c', rfl, hf'⟩ : ∃ c', k = .enrichment c' ∧ c.feedCommod = c'.feedCommod := by
      cases k with
      | enrichment c' =>
        simp only [Kind.ranking, Kind.enrichment.injEq] at hkc
        exact ⟨c', rfl, by rw [← hkc]⟩
      | _ => cases hkc
    obtain ⟨p, hp, -, h2, -⟩ := hmade _ hk
    have hpc := (h2 c').1 rfl
    rw [hf']
    constructor
    · have := C157_one_seller hf hp hpc leaves n
      rw [List.filter_map, List.length_map]
      refine le_trans (le_of_eq ?_) this
      congr 1
      refine List.filter_congr fun k _ => ?_
      simp only [Function.comp_apply, sellsOf_ranking]
    · intro k' hk' hs
      obtain ⟨k₀, hk₀, rfl⟩ := List.mem_map.1 hk'
      rw [sellsOf_ranking] at hs
      obtain ⟨q, hq, q1, -, q3⟩ := hmade _ hk₀
      rw [q1] at hs
      obtain ⟨x, hx⟩ := feed_mined hf hp hpc q hq hs
      rw [q3 x hx]
      trivial

/-- For instance, `1_src_enr_rxtr_sink.xml`: the same as without `order_prefs`. -/
example : ((rankedLive (fun _ _ => greedy) (((enrichmentOne exWorld).plan fun _ _ => false).map Kind.ranking) 5 0
    []).toOption.map fun r => r.1.map fun gs => gs.map fun g => qty g.2) =
    some [[500], [2], [21, 2], [21, 2], [21, 2]] := by
  decide +kernel

end Cyc.Shipped
