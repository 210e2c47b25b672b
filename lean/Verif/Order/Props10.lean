import Mathlib.Data.List.Perm.Basic
import Verif.Order.Props3

/-!
# The order of the deliveries: C120 for `Reactor`
-/

namespace Cyc.Reactor

theorem Honest.perm {c : Cfg} {s : State} {o : Offer} {i : In} (H : Honest c s o i)
    {l : List (String × Assem)} (hl : i.buys.Perm l) : Honest c s o { i with buys := l } where
  asked := by
    obtain ⟨ps, h1, h2⟩ := H.asked
    obtain ⟨ps', h3, h4⟩ := List.perm_comp_forall₂ hl.symm h2
    exact ⟨ps', h4.subperm.trans h1, h3⟩
  distinct := (hl.map _).nodup_iff.1 H.distinct
  notHeld d hd := H.notHeld d (hl.mem_iff.2 hd)
  offered := H.offered

theorem indexed_perm {c : Cfg} {a b : List (String × Assem)} (h : a.Perm b)
    (hn : (a.map fun d => d.2.id).Nodup) (f : Nat → Nat) : indexed c a f = indexed c b f := by
  unfold indexed
  refine h.foldl_eq' ?_ f
  intro x hx y hy z
  by_cases e : x.2.id = y.2.id
  · have : x = y := List.inj_on_of_nodup_map hn hx hy e
    rw [this]
  · funext n
    by_cases h1 : n = x.2.id
    · subst h1; simp [e]
    · simp [h1]

/-- What deliveries that are accepted do. -/
theorem acceptLoop_inv {c : Cfg} {l : List (String × Assem)} {s s' : State}
    (h : acceptLoop c l s = .ok s') : s' = acceptedState c l s := by
  induction l generalizing s with
  | nil =>
    simp only [acceptLoop, Except.ok.injEq] at h
    subst h
    simp [acceptedState, indexed]
  | cons d l ih =>
    obtain ⟨k, a⟩ := d
    simp only [acceptLoop, bind_ok] at h
    obtain ⟨s1, h1, h⟩ := h
    have e1 : s1 = { s with resIdx := fun x => if x = a.id then fuelIndex c k else s.resIdx x } := by
      unfold indexRes at h1
      split at h1
      · rename_i j hj
        simp only [Except.ok.injEq] at h1
        rw [← h1]
        simp [fuelIndex, hj]
      · cases h1
    subst e1
    split at h
    · rename_i hlt
      have hlt : s.core.items.length < c.nCore := hlt
      rw [bind_ok] at h
      obtain ⟨b, h2, h⟩ := h
      obtain ⟨_, rfl⟩ := Buf.push_ok.1 h2
      rw [ih h]
      have e : c.nCore - s.core.items.length = (c.nCore - (s.core.items.length + 1)) + 1 := by omega
      simp only [acceptedState, List.length_append, List.length_singleton, List.map_cons]
      rw [e, List.take_succ_cons, List.drop_succ_cons]
      simp [indexed]
    · rename_i hlt
      have hlt : ¬ s.core.items.length < c.nCore := hlt
      rw [bind_ok] at h
      obtain ⟨b, h2, h⟩ := h
      obtain ⟨_, rfl⟩ := Buf.push_ok.1 h2
      rw [ih h]
      have e : c.nCore - s.core.items.length = 0 := by omega
      simp [acceptedState, e, indexed]

/-- The end of a step only looks at the number of assemblies in the core. -/
theorem tock_swap {c : Cfg} (hw : WellFormed c) {s s' : State} (h : tock c s = .ok s') (b f : Buf Assem)
    (hb : b.items.length = s.core.items.length) :
    tock c { s with core := b, fresh := f } = .ok { s' with core := b, fresh := f } ∧
      s'.core = s.core ∧ s'.fresh = s.fresh := by
  cases hr : retired c s with
  | true =>
    rw [tock_retired hr] at h
    have hr' : retired c { s with core := b, fresh := f } = true := hr
    rw [tock_retired hr']
    simp only [Except.ok.injEq] at h ⊢
    subst h
    exact ⟨rfl, rfl, rfl⟩
  | false =>
    rw [tock_ok hw hr] at h
    have hr' : retired c { s with core := b, fresh := f } = false := hr
    rw [tock_ok hw hr']
    simp only [Except.ok.injEq] at h ⊢
    subst h
    refine ⟨?_, rfl, rfl⟩
    have e1 : restarts c { s with core := b, fresh := f } = restarts c s := by
      unfold restarts; simp only [hb]
    have e2 : tockStep c { s with core := b, fresh := f } = tockStep c s := by
      unfold tockStep; rw [e1]
    have e3 : tockOn c { s with core := b, fresh := f } = tockOn c s := by
      unfold tockOn; rw [e2]; simp only [hb]
    have e4 : tockRecs c { s with core := b, fresh := f } = tockRecs c s := by
      unfold tockRecs; rw [e2, e3]; simp only [hb]; rfl
    simp only [tockedState, e1, e2, e4, hb]

/-- The parts of the second half of a step. -/
theorem settle_inv {c : Cfg} {sells : List String} {buys : List (String × Assem)} {s s' : State}
    {r : List (String × Assem)} (h : settlePhase c sells buys s = .ok (r, s')) :
    ∃ t1 t2 t3, (if sells = [] then pure ([], s) else getMatlTrades c sells s :
        R (List (String × Assem) × State)) = .ok (r, t1) ∧ acceptMatlTrades c buys t1 = .ok t2 ∧
      tock c t2 = .ok t3 ∧ s' = { t3 with time := t3.time + 1 } := by
  unfold settlePhase at h
  by_cases he : sells = []
  · simp only [he, if_true, pure_eq_ok, ok_bind, bind_ok, Except.ok.injEq, Prod.mk.injEq] at h ⊢
    obtain ⟨t2, h2, t3, h3, rfl, rfl⟩ := h
    exact ⟨s, t2, t3, ⟨rfl, rfl⟩, h2, h3, rfl⟩
  · simp only [he, if_false, pure_eq_ok, bind_ok, Except.ok.injEq, Prod.mk.injEq] at h ⊢
    obtain ⟨⟨q, t1⟩, h1, t2, h2, t3, h3, rfl, rfl⟩ := h
    exact ⟨t1, t2, t3, h1, h2, h3, rfl⟩

/-- C120: a step in a market that honours the contract succeeds with its deliveries in any other order.
What can be observed is the same; core and fresh storage together hold the same assemblies, and each of
them the same number; the reactor knows the same of each assembly, and everything else is the same. -/
theorem C120_reactor {c : Cfg} (hw : WellFormed c) {is : List In} {os : List Out} {s s' : State} {i : In}
    {o : Out} (h : History c is os s)
    (hh : ∀ p s1, offerPhase c i.reqs s = .ok (p, s1) → Honest c s p i)
    (hs : step c s i = .ok (o, s')) {l : List (String × Assem)} (hl : i.buys.Perm l) :
    ∃ s'', step c s { i with buys := l } = .ok (o, s'') ∧
      (s'.core.items ++ s'.fresh.items).Perm (s''.core.items ++ s''.fresh.items) ∧
      s''.core.items.length = s'.core.items.length ∧
      s''.fresh.items.length = s'.fresh.items.length ∧
      s'' = { s' with core := { s'.core with items := s''.core.items },
                      fresh := { s'.fresh with items := s''.fresh.items } } := by
  obtain ⟨s0, h0, h1, h2⟩ := h
  have G := run_good hw (enter_good hw h0) h1 h2
  clear h1 h2
  obtain ⟨o', s'', -, -, -, e, -⟩ := step_ok hw G (i := { i with buys := l })
    (fun p s1 hp => (hh p s1 hp).perm hl)
  simp only [step, bind_ok] at hs e ⊢
  obtain ⟨⟨p, s1⟩, h1, ⟨r, s2⟩, h2, h3⟩ := hs
  obtain ⟨⟨p', s1'⟩, h1', ⟨r', s2'⟩, h2', h3'⟩ := e
  have hn := (hh p s1 h1).distinct
  rw [h1] at h1'
  simp only [Except.ok.injEq, Prod.mk.injEq] at h1'
  obtain ⟨rfl, rfl⟩ := h1'
  simp only [pure_eq_ok, Except.ok.injEq, Prod.mk.injEq] at h3 h3'
  obtain ⟨rfl, rfl⟩ := h3
  obtain ⟨rfl, rfl⟩ := h3'
  have h2c := h2'
  obtain ⟨t1, t2, t3, a1, a2, a3, rfl⟩ := settle_inv h2
  obtain ⟨t1', t2', t3', b1, b2, b3, rfl⟩ := settle_inv h2'
  rw [a1] at b1
  simp only [Except.ok.injEq, Prod.mk.injEq] at b1
  obtain ⟨rfl, rfl⟩ := b1
  have hlen := hl.length_eq
  -- the deliveries
  have key : t2' = { t2 with core := t2'.core, fresh := t2'.fresh } ∧
      t2'.core.items.length = t2.core.items.length ∧ t2'.fresh.items.length = t2.fresh.items.length ∧
      (t2.core.items ++ t2.fresh.items).Perm (t2'.core.items ++ t2'.fresh.items) ∧
      t2'.core.cap = t2.core.cap ∧ t2'.fresh.cap = t2.fresh.cap := by
    unfold acceptMatlTrades at a2 b2
    rw [← hlen] at b2
    generalize hg : (if min (i.buys.length : ℤ) ((c.nCore : ℤ) - t1.core.count) > 0 then
      t1.record (.load (min (i.buys.length : ℤ) ((c.nCore : ℤ) - t1.core.count)).toNat) else t1) = g at a2 b2
    rw [acceptLoop_inv a2, acceptLoop_inv b2]
    refine ⟨?_, ?_, ?_, ?_, rfl, rfl⟩
    · simp only [acceptedState, indexed_perm hl hn]
    · simp [acceptedState, hlen]
    · simp [acceptedState, hlen]
    · simp only [acceptedState]
      have : ∀ x y : List Assem, ∀ n, ∀ z : List Assem,
          ((x ++ z.take n) ++ (y ++ z.drop n)).Perm (x ++ y ++ z) := by
        intro x y n z
        calc ((x ++ z.take n) ++ (y ++ z.drop n)).Perm (x ++ ((z.take n ++ y) ++ z.drop n)) := by
              simp
          _ |>.Perm (x ++ ((y ++ z.take n) ++ z.drop n)) :=
              List.Perm.append_left _ (List.Perm.append_right _ List.perm_append_comm)
          _ |>.Perm (x ++ y ++ z) := by simp
      exact (this _ _ _ _).trans ((List.Perm.append_left _ (hl.map _)).trans (this _ _ _ _).symm)
  obtain ⟨k1, k2, k3, k4, k5, k6⟩ := key
  obtain ⟨m1, m2, m3⟩ := tock_swap hw a3 t2'.core t2'.fresh k2
  rw [← k1, b3, Except.ok.injEq] at m1
  refine ⟨{ t3' with time := t3'.time + 1, log := [] }, ⟨(p, s1), h1, _, h2c, ?_⟩, ?_, ?_, ?_, ?_⟩
  · rw [m1]; rfl
  · show (t3.core.items ++ t3.fresh.items).Perm (t3'.core.items ++ t3'.fresh.items)
    rw [m1, m2, m3]; exact k4
  · show t3'.core.items.length = t3.core.items.length
    rw [m1, m2]; exact k2
  · show t3'.fresh.items.length = t3.fresh.items.length
    rw [m1, m3]; exact k3
  · rw [m1, m2, m3]
    show _ = _
    simp only [← k5, ← k6]

/-- Four assemblies are delivered in two orders: three go to the core, one to fresh storage. -/
example : ((play exCfg [supply [0, 1, 2, 3]]).toOption.map fun r =>
      (r.2.core.items.map Assem.id, r.2.fresh.items.map Assem.id)) = some ([0, 1, 2], [3]) ∧
    ((play exCfg [supply [3, 1, 0, 2]]).toOption.map fun r =>
      (r.2.core.items.map Assem.id, r.2.fresh.items.map Assem.id)) = some ([3, 1, 0], [2]) := by
  decide +kernel

end Cyc.Reactor
