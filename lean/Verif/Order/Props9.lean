import Verif.Order.Props6
import Verif.Order.Props7

/-!
# The order of the deliveries: C120 for `Storage` and `FuelFab`
-/

namespace Cyc

open Mat (massOf)

namespace Storage

variable {ν : Type}

/-- A state with other material under way. -/
private def put (p : Buf (Mat ν)) (s : State ν) : State ν := { s with processing := p }

private theorem discreteLoop_put {c : Cfg} {q : ℚ} (p : Buf (Mat ν)) {n : Nat} {x : ℚ}
    {s s' : State ν} (h : discreteLoop c q n x s = .ok s') :
    discreteLoop c q n x (put p s) = .ok (put p s') ∧ s'.processing = s.processing ∧
      s'.entryTimes = s.entryTimes := by
  induction n generalizing x s with
  | zero =>
    simp only [discreteLoop, Except.ok.injEq] at h ⊢
    subst h; exact ⟨rfl, rfl, rfl⟩
  | succ n ih =>
    unfold discreteLoop at h ⊢
    by_cases hc : x ≤ q ∧ s.ready.empty = false
    · rw [if_pos hc] at h
      rw [if_pos (show x ≤ q ∧ (put p s).ready.empty = false from hc)]
      simp only [bind_ok] at h ⊢
      obtain ⟨⟨m, rd⟩, h1, st, h2, h3⟩ := h
      obtain ⟨a, b, d⟩ := ih h3
      exact ⟨⟨(m, rd), h1, st, h2, a⟩, b, d⟩
    · rw [if_neg hc] at h
      rw [if_neg (show ¬ (x ≤ q ∧ (put p s).ready.empty = false) from hc)]
      simp only [Except.ok.injEq] at h ⊢
      subst h; exact ⟨rfl, rfl, rfl⟩

private theorem processMat_put {c : Cfg} {q : ℚ} (p : Buf (Mat ν)) {s s' : State ν}
    (h : processMat c q s = .ok s') :
    processMat c q (put p s) = .ok (put p s') ∧ s'.processing = s.processing ∧
      s'.entryTimes = s.entryTimes := by
  have hr : (put p s).ready = s.ready := rfl
  unfold processMat at h ⊢
  rw [hr]
  split at h
  · simp only [Except.ok.injEq] at h ⊢
    subst h; exact ⟨rfl, rfl, rfl⟩
  · dsimp only at h ⊢
    split at h
    · split at h
      · rename_i h1 h2
        rw [if_pos h1, if_pos h2]
        simp only [bind_ok] at h ⊢
        obtain ⟨⟨m, rd⟩, h1, st, h2, h3⟩ := h
        simp only [pure_eq_ok, Except.ok.injEq] at h3
        subst h3
        exact ⟨⟨(m, rd), h1, st, h2, rfl⟩, rfl, rfl⟩
      · rename_i h1 h2
        rw [if_pos h1, if_neg h2]
        exact discreteLoop_put p h
    · rename_i h1
      rw [if_neg h1]
      simp only [bind_ok] at h ⊢
      obtain ⟨⟨m, rd⟩, h1, st, h2, h3⟩ := h
      simp only [pure_eq_ok, Except.ok.injEq] at h3
      subst h3
      exact ⟨⟨(m, rd), h1, st, h2, rfl⟩, rfl, rfl⟩

/-- C120, residence time of at least one step: a step that succeeds does so with its deliveries in any
other order. What can be observed is the same; the same materials are under way, since the same times,
and everything else the facility holds is the same. Missing: no residence time, see the next two theorems. -/
theorem C120_storage_partial [DecidableEq ν] {c : Cfg} (hε : 0 ≤ c.eps) (hres : 0 < c.residence)
    {is : List (In ν)} {os : List (Out ν)} {s s' : State ν} {i : In ν} {o : Out ν}
    (h : History c is os s) (hd : Substantial is) (hs : step c s i = .ok (o, s'))
    {l : List (Mat ν)} (hl : i.buys.Perm l) :
    ∃ s'', step c s { i with buys := l } = .ok (o, s'') ∧
      s'.processing.items.Perm s''.processing.items ∧
      s'' = { s' with processing := { s'.processing with items := s''.processing.items } } := by
  have H := (history_inv hε h hd).1
  simp only [step, bind_ok] at hs ⊢
  obtain ⟨⟨ms, s1⟩, h1, s2, h2, ⟨rep, s3⟩, h3, h4⟩ := hs
  simp only [pure_eq_ok, Except.ok.injEq, Prod.mk.injEq] at h4
  obtain ⟨rfl, rfl⟩ := h4
  have hpres := h1
  obtain ⟨lf, rfl, -⟩ := sellLoop_inv hε H.stockPos h1
  rw [addMat_fold (by exact H.isOpen.inventory)] at h2
  cases h2
  -- what `Tock` does with deliveries `b`
  have key : ∀ b : List (Mat ν), tockReady c { s with
        stocks := ⟨s.stocks.cap, lf⟩
        inventory := ⟨s.inventory.cap, []⟩
        processing := ⟨s.processing.cap, s.processing.items ++ b⟩
        entryTimes := s.entryTimes ++ b.map fun _ => s.time } =
      .ok { s with
        stocks := ⟨s.stocks.cap, lf⟩
        inventory := ⟨s.inventory.cap, []⟩
        processing := ⟨s.processing.cap, mats ((recent c s.time
          (arrivals c.enterTime is)).filter fun p => s.time + 1 ≤ p.1 + c.residence) ++ b⟩
        ready := ⟨s.ready.cap, s.ready.items ++ mats ((recent c s.time
          (arrivals c.enterTime is)).filter fun p => p.1 + c.residence < s.time + 1)⟩
        entryTimes := ((recent c s.time (arrivals c.enterTime is)).filter
          fun p => s.time + 1 ≤ p.1 + c.residence).map Prod.fst ++ b.map fun _ => s.time } := by
    intro b
    have hP : (recent c s.time (arrivals c.enterTime is) ++ batch s.time b).Pairwise
        fun a b => a.1 ≤ b.1 := by
      refine sorted_append (H.sorted.filter _) ?_
      intro p hp; exact H.past p (List.mem_filter.1 hp).1
    rw [tockReady_eq (P := recent c s.time (arrivals c.enterTime is) ++ batch s.time b)
      (by exact H.isOpen.ready) hP
      (by simp [H.proc, mats, batch, Function.comp_def])
      (by simp [H.times, batch, Function.comp_def])]
    have f1 : (batch s.time b).filter (fun p => decide (p.1 + c.residence < s.time + 1)) = [] := by
      rw [List.filter_eq_nil_iff]
      intro p hp
      simp only [batch, List.mem_map] at hp
      obtain ⟨m, -, rfl⟩ := hp
      simp; omega
    have f2 : (batch s.time b).filter (fun p => decide (s.time + 1 ≤ p.1 + c.residence)) =
        batch s.time b := by
      rw [List.filter_eq_self]
      intro p hp
      simp only [batch, List.mem_map] at hp
      obtain ⟨m, -, rfl⟩ := hp
      simp; omega
    simp only [List.filter_append, f1, f2, List.map_append, List.append_nil, mats]
    simp [batch, Function.comp_def]
  have hlen : (l.map fun _ => s.time) = i.buys.map fun _ => s.time := by
    rw [List.map_const', List.map_const', hl.length_eq]
  simp only [tock, bind_ok] at h3
  obtain ⟨t1, b1, t2, b2, t3, b3, d, b4, oc, b5, b6⟩ := h3
  simp only [pure_eq_ok, Except.ok.injEq, Prod.mk.injEq] at b6
  obtain ⟨rfl, rfl⟩ := b6
  rw [beginProcessing_eq (by exact H.isOpen.processing) (by rfl)] at b1
  cases b1
  simp only [H.inv, List.nil_append] at b2
  rw [key] at b2
  cases b2
  obtain ⟨p1, p2, p3⟩ := processMat_put ⟨s.processing.cap, mats ((recent c s.time
          (arrivals c.enterTime is)).filter fun p => s.time + 1 ≤ p.1 + c.residence) ++ l⟩ b3
  have hperm : t3.processing.items.Perm (mats ((recent c s.time
          (arrivals c.enterTime is)).filter fun p => s.time + 1 ≤ p.1 + c.residence) ++ l) := by
    rw [p2]; exact List.Perm.append_left _ hl
  have hcap : capacity c (put ⟨s.processing.cap, mats ((recent c s.time
          (arrivals c.enterTime is)).filter fun p => s.time + 1 ≤ p.1 + c.residence) ++ l⟩ t3) =
      capacity c t3 := by
    have := totalQty_perm hperm
    unfold capacity held Buf.quantity
    rw [this]
    rfl
  refine ⟨{ (put ⟨s.processing.cap, mats ((recent c s.time
          (arrivals c.enterTime is)).filter fun p => s.time + 1 ≤ p.1 + c.residence) ++ l⟩ t3) with
      time := t3.time + 1 },
    ⟨(ms, _), hpres, _, addMat_fold (by exact H.isOpen.inventory),
      (⟨d, capacity c t3, oc, t3.stocks.quantity⟩, put ⟨s.processing.cap, mats ((recent c s.time
          (arrivals c.enterTime is)).filter fun p => s.time + 1 ≤ p.1 + c.residence) ++ l⟩ t3), ?_, rfl⟩, hperm, ?_⟩
  · simp only [tock, bind_ok]
    refine ⟨_, beginProcessing_eq (by exact H.isOpen.processing) (by rfl), _, ?_, _, p1, d, b4, oc, b5, ?_⟩
    · simp only [H.inv, List.nil_append]
      rw [key, hlen]
      rfl
    · rw [hcap]; rfl
  · have : t3.processing.cap = s.processing.cap := by rw [p2]
    rw [this]; rfl

/-- Two deliveries in both orders: the same is offered later, in another order. -/
example : ((play exCfg [⟨[], [⟨[(2, 1)]⟩, ⟨[(3, 2)]⟩]⟩]).toOption.map fun r =>
      (r.2.processing.items, r.2.entryTimes)) = some ([⟨[(2, 1)]⟩, ⟨[(3, 2)]⟩], [5, 5]) ∧
    ((play exCfg [⟨[], [⟨[(3, 2)]⟩, ⟨[(2, 1)]⟩]⟩]).toOption.map fun r =>
      (r.2.processing.items, r.2.entryTimes)) = some ([⟨[(3, 2)]⟩, ⟨[(2, 1)]⟩], [5, 5]) := by
  decide +kernel

/-- C120, continuous handling and any residence time: an honest step succeeds with its deliveries in any
order. The same is sold and left, the same amount is for sale afterwards, the report is the same, and the
facility holds the same in total, label by label. Missing: what exactly is for sale, as the throughput cuts
the deliveries in their order. -/
theorem C120_storage_continuous_partial [DecidableEq ν] {c : Cfg} (hε : 0 ≤ c.eps) (hw : WellFormed c)
    (hc : c.discrete = false) (ht : 0 < c.throughput ∧ c.lo ≤ c.throughput)
    {is : List (In ν)} {os : List (Out ν)} {s : State ν} {i : In ν}
    (h : History c is os s) (hd : Substantial is) (H : Honest c s i)
    {l : List (Mat ν)} (hl : i.buys.Perm l) :
    ∃ o s' o' s'', step c s i = .ok (o, s') ∧ step c s { i with buys := l } = .ok (o', s'') ∧
      o'.offered = o.offered ∧ o'.sold = o.sold ∧ o'.left = o.left ∧ o'.report = o.report ∧
      totalQty o'.stock = totalQty o.stock ∧ (∀ n, massOf (contents s'') n = massOf (contents s') n) := by
  have I := (history_inv hε h hd).1
  have H' : Honest c s { i with buys := l } := ⟨fun m hm => H.buys m (hl.mem_iff.2 hm), H.sells, H.total⟩
  obtain ⟨o, s', e, -⟩ := step_ok hε hw (Or.inr ht) I H
  obtain ⟨o', s'', e', -⟩ := step_ok hε hw (Or.inr ht) I H'
  obtain ⟨-, F⟩ := step_inv hε I H.buys e
  obtain ⟨-, F'⟩ := step_inv hε I H'.buys e'
  have hsub : ∀ b : List (Mat ν), (∀ m ∈ b, 0 < qty m) → Substantial (is ++ [⟨i.sells, b⟩]) := by
    intro b hb j hj m hm
    rcases List.mem_append.1 hj with hj | hj
    · exact hd j hj m hm
    · rw [List.mem_singleton] at hj; subst hj; exact hb m hm
  obtain ⟨C1, C2⟩ := C19_conserved hε (history_snoc.2 ⟨os, o, s, rfl, h, e⟩)
    (hsub i.buys H.buys)
  obtain ⟨C1', C2'⟩ := C19_conserved hε (history_snoc.2 ⟨os, o', s, rfl, h, e'⟩)
    (hsub l H'.buys)
  simp only [received_append, sold_append, totalQty_append, Mat.massOf_append] at C1 C2 C1' C2'
  have hsame : o'.sold = o.sold ∧ o'.left = o.left := by
    simp only [step, bind_ok] at e e'
    obtain ⟨⟨ms, s1⟩, h1, a2, -, a3, -, h4⟩ := e
    obtain ⟨⟨ms', s1'⟩, h1', a2', -, a3', -, h4'⟩ := e'
    simp only [pure_eq_ok, Except.ok.injEq, Prod.mk.injEq] at h4 h4'
    rw [h1] at h1'
    simp only [Except.ok.injEq, Prod.mk.injEq] at h1'
    obtain ⟨rfl, rfl⟩ := h1'
    rw [← h4.1, ← h4'.1]
    exact ⟨rfl, rfl⟩
  have hstock : totalQty o'.stock = totalQty o.stock := by
    obtain ⟨rel, rd, r1, r2, r3, -⟩ := F.rel
    obtain ⟨rel', rd', r1', r2', r3', -⟩ := F'.rel
    rw [r1, r1', totalQty_append, totalQty_append, hsame.2, r2.continuous hc, r2'.continuous hc,
      r3, r3', totalQty_append, totalQty_append]
    have : (mats (aged c (s.time + 1)
          (recent c s.time (arrivals c.enterTime is) ++ batch s.time l))).Perm
        (mats (aged c (s.time + 1)
          (recent c s.time (arrivals c.enterTime is) ++ batch s.time i.buys))) :=
      ((List.Perm.append_left _ (hl.symm.map _)).filter _).map _
    rw [totalQty_perm this]
  have htot : totalQty (contents s'') = totalQty (contents s') := by
    rw [hsame.1, ← totalQty_perm hl] at C2'
    linarith
  have hheld : ∀ x : State ν, held x = totalQty (contents x) := by
    intro x; simp only [held, contents, totalQty_append, Buf.quantity]; ring
  refine ⟨o, s', o', s'', e, e', by rw [F.offered, F'.offered], hsame.1, hsame.2, ?_, hstock,
    fun n => ?_⟩
  · obtain ⟨q1, q2, q3, q4⟩ := F.report
    obtain ⟨q1', q2', q3', q4'⟩ := F'.report
    have a1 : o'.report.demand = o.report.demand := by
      rw [q2, q2']; unfold capacity; rw [hheld, hheld, htot]
    have a2 : o'.report.supply = o.report.supply := by rw [q1, q1', hstock]
    have a3 : o'.report.supplyOf = o.report.supplyOf := Option.some.inj (q3'.symm.trans q3)
    have a4 : o'.report.demandOf = o.report.demandOf := Option.some.inj (q4'.symm.trans q4)
    revert a1 a2 a3 a4
    generalize o'.report = a
    generalize o.report = b
    cases a; cases b
    simp_all
  · have h1 := C1 n
    have h2 := C1' n
    rw [hsame.1, ← massOf_perm hl] at h2
    linarith

/-- With discrete handling and without residence time the order decides what is for sale: a large item in
front holds back a small one. -/
theorem C120_storage_counterexample :
    ((play { exDisc with residence := 0 } [(⟨[], [⟨[(1, 5)]⟩, ⟨[(2, 1)]⟩]⟩ : In Nat)]).toOption.map fun r =>
      r.1.map Out.stock) = some [[]] ∧
    ((play { exDisc with residence := 0 } [(⟨[], [⟨[(2, 1)]⟩, ⟨[(1, 5)]⟩]⟩ : In Nat)]).toOption.map fun r =>
      r.1.map Out.stock) = some [[⟨[(2, 1)]⟩]] := by
  decide +kernel

end Storage

namespace FuelFab

theorem HonestBuys.perm {a : Asks} {ds l : List (Nat × NMat)} (H : HonestBuys a ds)
    (hl : ds.Perm l) : HonestBuys a l where
  mass d hd := H.mass d (hl.mem_iff.2 hd)
  req d hd := H.req d (hl.mem_iff.2 hd)
  fiss := by unfold answers; rw [← totalQty_perm ((hl.filter _).map _)]; exact H.fiss
  fill := by unfold answers; rw [← totalQty_perm ((hl.filter _).map _)]; exact H.fill
  topup := by unfold answers; rw [← totalQty_perm ((hl.filter _).map _)]; exact H.topup

/-- C120: a step with honest deliveries that succeeds does so with the deliveries in any other order. What
can be observed is the same, and each of the three streams holds the same, nuclide by nuclide, as a single
material. -/
theorem C120_fuelfab {c : Cfg} (V : Valid c) {s s' : State} (h : Reachable c s) {i : In} {o : Out}
    (hs : step c s i = .ok (o, s')) (hd : Distinct o.asks) (B : HonestBuys o.asks i.buys)
    {l : List (Nat × NMat)} (hl : i.buys.Perm l) :
    ∃ s'', step c s { i with buys := l } = .ok (o, s'') ∧
      (∀ n, massOf s''.fill.items n = massOf s'.fill.items n) ∧
      (∀ n, massOf s''.fiss.items n = massOf s'.fiss.items n) ∧
      (∀ n, massOf s''.topup.items n = massOf s'.topup.items n) ∧
      s''.fill.items.length ≤ 1 ∧ s''.fiss.items.length ≤ 1 ∧ s''.topup.items.length ≤ 1 := by
  have I := reachable_inv V h
  obtain ⟨s1, s2, h1, h2, h3, h4⟩ := FuelFab.step_inv hs
  obtain ⟨s3, h4'⟩ := C81_accepts V h h1 hd h3 (B.perm hl)
  have I1 := I.same (requests_same I h1)
  obtain ⟨wl, wf, wt, h3'⟩ := sell_inv h3
  obtain ⟨I2, -⟩ := sellLoop_inv V I1 h3'
  obtain ⟨I3, -, a1, a2, a3⟩ := accept_inv I2 B.mass h4
  obtain ⟨I3', -, b1, b2, b3⟩ := accept_inv I2 (B.perm hl).mass h4'
  have hp : ∀ name n, massOf (routed s2.reqInv name l) n = massOf (routed s2.reqInv name i.buys) n :=
    fun name n => massOf_perm ((hl.symm.filter _).map _) n
  refine ⟨s3, ?_, fun n => by rw [a1, b1, hp], fun n => by rw [a2, b2, hp],
    fun n => by rw [a3, b3, hp], ?_, ?_, ?_⟩
  · simp only [step, h1, h2, h3, h4', ok_bind, pure_eq_ok]
  · rcases I3'.fill with e | ⟨x, -, e⟩ <;> rw [e] <;> simp
  · rcases I3'.fiss with e | ⟨x, -, e⟩ <;> rw [e] <;> simp
  · rcases I3'.topup with e | ⟨x, -, e⟩ <;> rw [e] <;> simp

/-- The example facility is stocked up with its deliveries in both orders. -/
example : ((play exCfg [stockUp]).toOption.map fun r =>
      (r.2.fiss.items.map qty, r.2.fill.items.map qty, r.2.topup.items.map qty)) =
    ((play exCfg [{ stockUp with buys := [(4, puw), (2, du), (0, pu)] }]).toOption.map fun r =>
      (r.2.fiss.items.map qty, r.2.fill.items.map qty, r.2.topup.items.map qty)) ∧
    ((play exCfg [stockUp]).toOption.map fun r => r.2.fiss.items.length) = some 1 := by
  decide +kernel

end FuelFab

end Cyc
