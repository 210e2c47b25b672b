import Verif.Order.Props
import Verif.Separations.Props1

/-!
# The order of the trades: C119 for `Separations`
-/

namespace Cyc

open Mat (massOf)

namespace Separations

theorem tradedIn_perm {k : String} {a b : List (String × ℚ)} (h : a.Perm b) :
    tradedIn k a = tradedIn k b := sum_perm ((h.filter _).map _)

private theorem accept_feed {c : Cfg} {l : List NMat} {s s' t : State}
    (h : l.foldlM (accept c) s = .ok s') (e : t.feed = s.feed) :
    l.foldlM (accept c) t = .ok { t with feed := s'.feed } ∧ s' = { s with feed := s'.feed } := by
  induction l generalizing s t with
  | nil =>
    simp only [List.foldlM_nil, pure_eq_ok, Except.ok.injEq] at h ⊢
    subst h
    exact ⟨by rw [← e], rfl⟩
  | cons m l ih =>
    rw [List.foldlM_cons] at h ⊢
    simp only [bind_ok] at h
    obtain ⟨s1, h1, h⟩ := h
    simp only [accept, bind_ok] at h1
    obtain ⟨b, hb, h1⟩ := h1
    simp only [pure_eq_ok, Except.ok.injEq] at h1
    subst h1
    obtain ⟨f1, f2⟩ := ih (t := { t with feed := b }) h rfl
    refine ⟨?_, ?_⟩
    · have : accept c t m = .ok { t with feed := b } := by simp [accept, e, hb]
      rw [this, ok_bind, f1]
    · rw [f2]

/-- C119: a step that succeeds with honest sales succeeds with the same sales in any other order. The
feed is the same, and for every commodity so is what is left of it (up to items of quantity zero) and
what was handed over of it, nuclide by nuclide; each trade is answered with its amount, and the
records, the request and the bids are the same. -/
theorem C119_separations {c : Cfg} (V : Valid c) {is : List In} {os : List Out} {s s₁ s' : State}
    {r : Option TickRec} {i : In} {o : Out} (h : History c is os s) (hd : Substantial is)
    (ht : tick c s = .ok (r, s₁)) (H : Honest c s₁ i) (hs : step c s i = .ok (o, s'))
    {l : List (String × ℚ)} (hl : i.sells.Perm l) :
    ∃ o' s'', step c s { i with sells := l } = .ok (o', s'') ∧
      s''.feed = s'.feed ∧ s''.time = s'.time ∧ s''.prefs = s'.prefs ∧
      (∀ k, solid (stock c s'' k) = solid (stock c s' k)) ∧
      o.sold.map qty = i.sells.map Prod.snd ∧ o'.sold.map qty = l.map Prod.snd ∧
      (∀ k n, massOf (soldIn k l o'.sold) n = massOf (soldIn k i.sells o.sold) n) ∧
      o' = { o with sold := o'.sold, retire := o'.retire } := by
  have I := tick_inv V (history_inv V h hd) ht
  have h0 : ∀ t ∈ i.sells, 0 < t.2 ∧ c.lo ≤ t.2 := fun t ht => ⟨(H.sells t ht).1, (H.sells t ht).2.1⟩
  have hq := traded_le V I H
  obtain ⟨ms, s2, e1, e2, e3, e4, -, -, e5, e6, e7⟩ := sellLoop_ok V I h0 hq
  obtain ⟨ms', s2', f1, f2, f3, f4, -, -, f5, f6, f7⟩ := sellLoop_ok (ts := l) V I
    (fun t ht => h0 t (hl.mem_iff.2 ht)) (fun k => by rw [← tradedIn_perm hl]; exact hq k)
  simp only [step, ht, e1, f1, ok_bind, bind_ok] at hs ⊢
  obtain ⟨⟨d, rq⟩, h1, u, h2, s3, h3, h4⟩ := hs
  simp only [pure_eq_ok, Except.ok.injEq, Prod.mk.injEq] at h4
  obtain ⟨rfl, rfl⟩ := h4
  obtain ⟨g1, g2⟩ := accept_feed (t := s2') h3 (f5.trans e5.symm)
  refine ⟨_, _, ⟨(d, rq), h1, u, h2, _, g1, rfl⟩, rfl, ?_, ?_, fun k => ?_, e2, f2, fun k n => ?_, rfl⟩
  · rw [g2]; simp only; rw [f6, e6]
  · rw [g2]; simp only; rw [f7, e7]
  · have a : stock c { s3 with time := s3.time + 1 } k = stock c s2 k := by
      rw [g2]; rfl
    have b : stock c { s2' with feed := s3.feed, time := s2'.time + 1 } k = stock c s2' k := rfl
    rw [a, b, e4, f4, tradedIn_perm hl]
  · show massOf (soldIn k l ms') n = massOf (soldIn k i.sells ms) n
    rw [e3, f3, tradedIn_perm hl]

/-- The example history with its last sales in both orders. -/
example : ((play exCfg (exIn.take 2 ++ [⟨fun _ => [], [("u", 1), ("pu", 1), ("u", 1)], []⟩])).toOption.map
      fun r => ((r.1.map fun o => o.sold.map qty).getLast?, r.2.feed,
        totalQty (stock exCfg r.2 "u"), totalQty (stock exCfg r.2 "pu"))) =
    ((play exCfg (exIn.take 2 ++ [⟨fun _ => [], [("pu", 1), ("u", 1), ("u", 1)], []⟩])).toOption.map
      fun r => ((r.1.map fun o => o.sold.map qty).getLast?, r.2.feed,
        totalQty (stock exCfg r.2 "u"), totalQty (stock exCfg r.2 "pu"))) ∧
    ((play exCfg (exIn.take 2 ++ [⟨fun _ => [], [("u", 1), ("pu", 1), ("u", 1)], []⟩])).toOption.map
      fun r => (r.1.map fun o => o.sold.map qty).getLast?) = some (some [1, 1, 1]) := by
  decide +kernel

end Separations

end Cyc
