import Verif.Sim.Props18

/-!
# The lifetime of a reactor (C148)
-/

namespace Cyc.Sim

variable {A : Agreement}

/-- C148, from the lifetime. A reactor without storage for fresh fuel that is built in step `T` with a lifetime of
`L` steps, under the hypotheses of `C148_shut_down_partial`: it runs on schedule in the `L` steps from `T` on, and
in no other; so its energy is that of `L` steps of an uninterrupted run, and then it gives all its fuel away.

Partial: as C125. -/
theorem C148_lifetime_partial {plan : Plan}
    (hb : ∀ t, ∀ k ∈ plan.builds t, Sensible k ∧ Suits A k)
    {ex : Nat → Exchange} (hex : ∀ t, (ex t).Fair) (hea : ∀ t, (ex t).Eager) {n : Nat}
    {i : Nat} {f : Source.Cfg} (hi : (plan.builds 0)[i]? = some (.source f))
    (hS : Supplies (plan.built 0 n) f n) {y : Nat} {w : Sink.Cfg}
    (hy : (plan.builds 0)[y]? = some (.sink w)) (hD : Drains (plan.built 0 n) w n)
    (hl : ∀ t x, x ≤ i ∨ x ≤ y → plan.leaves t x = false) {T L : Nat} {c : Reactor.Cfg}
    {enc : NMat → Nat} {dec : Nat → NMat}
    (hk : (Kind.reactor c enc dec).until (lastStep T L) ∈ plan.builds T)
    (h1 : f.outcommod ∈ c.inCommods) (h2 : ∀ x ∈ c.outCommods, x ∈ w.commods)
    (h3 : f.lo ≤ c.assemSize) (hL : 0 < L) (hn : T + L + c.nCore ≤ n)
    (hf : c.nFresh = 0) (hz : c.cycleStep = 0) (hsp : c.nBatch ≤ c.nSpent) (hc : 0 < c.nCore)
    {G B : List Book} (h : chronicle ex plan n 0 [] = .ok (G, B)) :
    ∃ b ∈ G ++ B, b.since = T ∧ L < b.got.length ∧ b.gave.length = b.got.length ∧
      holdings b.p.k b.p.s = [] ∧ totalQty b.gave.flatten = totalQty b.got.flatten ∧
      ∃ (is : List Reactor.In) (os : List Reactor.Out) (s : Reactor.State × Nat),
        b.p = ⟨((Kind.reactor c enc dec).until (lastStep T L)).since T, s⟩ ∧
        Reactor.History { c with enterTime := T, exitTime := lastStep T L } is os s.1 ∧ os.length = b.got.length ∧
        is.map (fun i => i.buys.map Prod.snd) = numbered enc 0 b.got ∧
        os.map (fun o => material dec (o.shipped.map Prod.snd)) = b.gave ∧
        (∀ (t : Nat) got gave o, b.got[t]? = some got → b.gave[t]? = some gave → os[t]? = some o →
          (t < L → Punctual c t got gave o) ∧
          (L ≤ t → got = [] ∧ Reactor.powers o.recs = [])) ∧
        Reactor.energy os = c.powerCap * Reactor.ideal c L := by
  have he : lastStep T L = some (T + L - 1) := by
    unfold lastStep
    rw [if_neg (by omega)]
    congr 1
    omega
  obtain ⟨b, hbm, b1, b2, b3, b4, b5, is, os, s, q1, q2, q3, q4, q5, q6, q7⟩ :=
    C148_shut_down_partial hb hex hea hi hS hy hD hl (c := { c with exitTime := lastStep T L }) hk h1 h2 h3 he
      (by omega) (by dsimp only; omega) hf hz hsp hc h
  refine ⟨b, hbm, b1, by omega, b3, b4, b5, is, os, s, q1, q2, q3, q4, q5, ?_, ?_⟩
  · intro t got gave o g1 g2 g3
    obtain ⟨p1, p2⟩ := q6 t got gave o g1 g2 g3
    refine ⟨fun ht => ?_, fun ht => p2 (by omega)⟩
    obtain ⟨p1, p2, p3, p4, p5⟩ := p1 (by omega)
    exact ⟨p1, p2, p3, p4, p5⟩
  · rw [q7, show T + L - 1 + 1 - T = L by omega]
    rfl

/-- The reactor of the example of `C148_shut_down_partial` is one with a lifetime of four steps, so that the
hypotheses can be met. -/
example : exShut.builds 3 = [(Kind.reactor { exLast with exitTime := none } (fun _ => 1) exDec).until
    (lastStep 3 (4 : Nat))] := rfl

end Cyc.Sim
