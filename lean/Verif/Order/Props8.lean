import Verif.Order.Props2
import Verif.Order.Props7
import Verif.Mixer.Props2

/-!
# The order of the deliveries: C120 for `Mixer` and `Separations`
-/

namespace Cyc

open Mat (massOf)

namespace Mixer

theorem answers_perm (asks : List (Option ReqPort)) (k : Nat) {a b : List (Nat × NMat)}
    (h : a.Perm b) : (answers asks k a).Perm (answers asks k b) := (h.filter _).map _

theorem Honest.perm {c : Cfg} {s : State} {i : In} (H : Honest c s i) {l : List (Nat × NMat)}
    (hl : i.buys.Perm l) : Honest c s { i with buys := l } where
  solid d hd := H.solid d (hl.mem_iff.2 hd)
  distinct := H.distinct
  answered d hd := H.answered d (hl.mem_iff.2 hd)
  amounts k := by
    intro x a hx ha
    rw [← totalQty_perm (answers_perm _ k hl)]
    exact H.amounts k x a hx ha
  sells := H.sells
  total := H.total

/-- C120: after an honest history, an honest step that succeeds does so with its deliveries in any other
order. What can be observed is the same, every stream holds the same materials, and the mixed material is
the same. -/
theorem C120_mixer {c : Cfg} (V : Valid c) {is : List In} {os : List Out} {s s₁ s' : State} {i : In}
    {o : Out} (h : History c is os s) (hr : HonestRun c (enter c) is) (hd : Substantial is)
    (ht : tick c s = .ok s₁) (H : Honest c s₁ i) (hs : step c s i = .ok (o, s'))
    {l : List (Nat × NMat)} (hl : i.buys.Perm l) :
    ∃ s'', step c s { i with buys := l } = .ok (o, s'') ∧
      (∀ k, (held s' k).Perm (held s'' k)) ∧ s''.output = s'.output ∧ s''.ratios = s'.ratios := by
  have I := history_inv V hd h
  obtain ⟨-, -, -, I1⟩ := tick_inv V I ht
  obtain ⟨o', s'', e, -, -⟩ := honest_step V I (honest_run V (enter_inv V) (enter_sizes c) hr h) ht
    (H.perm hl)
  obtain ⟨t1, s2, S⟩ := step_stages hs
  obtain ⟨t1', s2', S'⟩ := step_stages e
  have x1 : s₁ = t1 := Except.ok.inj (ht.symm.trans S.tick)
  subst x1
  have x2 : s₁ = t1' := Except.ok.inj (ht.symm.trans S'.tick)
  subst x2
  have x3 := Except.ok.inj (S.sells.symm.trans S'.sells)
  rw [Prod.mk.injEq] at x3
  obtain ⟨x3, x4⟩ := x3
  subst x4
  have hi := (requests_inv (addr := i.addr) I1).1
  obtain ⟨I3, -⟩ := sellLoop_inv V.eps hi S.sells
  obtain ⟨I4, p1, p2, -⟩ := accept_inv I3 H.solid S.accept
  obtain ⟨I4', q1, q2, -⟩ := accept_inv I3 (fun d hd => H.solid d (hl.mem_iff.2 hd)) S'.accept
  refine ⟨s'', ?_, fun k => ?_, q1.trans p1.symm, I4'.ratios.trans I4.ratios.symm⟩
  · rw [e]
    have : o' = o := by
      have a1 := S.offered; have a2 := S.demand; have a3 := S.asks
      have b1 := S'.offered; have b2 := S'.demand; have b3 := S'.asks
      cases o; cases o'
      simp_all
    rw [this]
  · rw [p2, q2]
    exact List.Perm.append_left _ ((hl.filter _).map _)

/-- Three deliveries, two of them for one stream, in two orders. -/
example : ((step exCfg (enter exCfg) ⟨fun i j => 10 * i + j, [],
      [(0, only 922380000 10), (10, only 942390000 60), (1, only 922350000 5)]⟩).toOption.map
        fun r => (held r.2 0, held r.2 1)) =
      some ([only 922380000 10, only 922350000 5], [only 942390000 60]) ∧
    ((step exCfg (enter exCfg) ⟨fun i j => 10 * i + j, [],
      [(1, only 922350000 5), (0, only 922380000 10), (10, only 942390000 60)]⟩).toOption.map
        fun r => (held r.2 0, held r.2 1)) =
      some ([only 922350000 5, only 922380000 10], [only 942390000 60]) := by
  decide +kernel

end Mixer

namespace Separations

/-- C120: an honest step that succeeds does so with its deliveries in any other order. What can be
observed is the same; the feed consists of the same materials, and everything else the facility holds
is the same. -/
theorem C120_separations {c : Cfg} (V : Valid c) {is : List In} {os : List Out} {s s₁ s' : State}
    {r : Option TickRec} {i : In} {o : Out} (h : History c is os s) (hd : Substantial is)
    (ht : tick c s = .ok (r, s₁)) (H : Honest c s₁ i) (hs : step c s i = .ok (o, s'))
    {l : List NMat} (hl : i.buys.Perm l) :
    ∃ s'', step c s { i with buys := l } = .ok (o, s'') ∧ s'.feed.items.Perm s''.feed.items ∧
      s'' = { s' with feed := { s'.feed with items := s''.feed.items } } := by
  have I := tick_inv V (history_inv V h hd) ht
  simp only [step, ht, ok_bind, bind_ok] at hs ⊢
  obtain ⟨⟨d, rq⟩, h1, u, h2, ⟨ms, s2⟩, h3, s3, h4, h5⟩ := hs
  simp only [pure_eq_ok, Except.ok.injEq, Prod.mk.injEq] at h5
  obtain ⟨rfl, rfl⟩ := h5
  obtain ⟨I2, e2⟩ := sellLoop_inv V.eps I h3
  have hm : ∀ m ∈ l, 0 < qty m ∧ Mat.Nonneg m := fun m hm => H.buys m (hl.mem_iff.2 hm)
  have hr := (H.room d rq h1).trans (request_amount h1)
  rw [totalQty_perm hl, feedSpace_eq I] at hr
  obtain ⟨s3', h4'⟩ : ∃ s3', l.foldlM (accept c) s2 = .ok s3' := by
    rcases le_total c.feedbufSize s₁.feed.quantity with hc | hc
    · rw [max_eq_left (by linarith)] at hr
      cases l with
      | nil => exact ⟨s2, rfl⟩
      | cons m l =>
        exfalso
        have h0 : 0 ≤ totalQty l := AllPos.total_nonneg (fun x hx => (hm x (by simp [hx])).1)
        have := (hm m (by simp)).1
        rw [totalQty_cons] at hr
        linarith
    · rw [max_eq_right (by linarith)] at hr
      exact accept_ok V.eps I2.feedCap (fun m h => (hm m h).2) (by rw [e2]; linarith)
  obtain ⟨-, a2, a3, a4, a5, a6, a7⟩ := accept_conserve h4
  obtain ⟨-, b2, b3, b4, b5, b6, b7⟩ := accept_conserve h4'
  refine ⟨{ s3' with time := s3'.time + 1 }, ⟨(d, rq), h1, u, h2, (ms, s2), h3, s3', h4', ?_⟩, ?_, ?_⟩
  · have : mayRetire s3' = mayRetire s3 := by unfold mayRetire; rw [a4, a5, b4, b5]
    rw [this]; rfl
  · show s3.feed.items.Perm s3'.feed.items
    rw [a2, b2]; exact List.Perm.append_left _ hl
  · cases s3; cases s3'
    rename_i t f lo bu pr t' f' lo' bu' pr'
    cases f; cases f'
    simp_all

/-- Two deliveries in both orders. -/
example : ((play exCfg [⟨fun _ => [], [], [spent, ⟨[(922350000, 3)]⟩]⟩]).toOption.map
      fun r => r.2.feed.items) = some [spent, ⟨[(922350000, 3)]⟩] ∧
    ((play exCfg [⟨fun _ => [], [], [⟨[(922350000, 3)]⟩, spent]⟩]).toOption.map
      fun r => r.2.feed.items) = some [⟨[(922350000, 3)]⟩, spent] := by
  decide +kernel

/-- What is separated in the next step does depend on the order: the feed is first in, first out. -/
theorem C120_separations_fifo :
    ((play exCfg [⟨fun _ => [], [], [spent, ⟨[(922350000, 6)]⟩]⟩, ⟨fun _ => [], [], []⟩]).toOption.map
      fun r => totalQty (stock exCfg r.2 "pu")) ≠
    ((play exCfg [⟨fun _ => [], [], [⟨[(922350000, 6)]⟩, spent]⟩, ⟨fun _ => [], [], []⟩]).toOption.map
      fun r => totalQty (stock exCfg r.2 "pu")) := by
  decide +kernel

end Separations

end Cyc
