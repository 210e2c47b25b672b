import Verif.Region.Props2

/-!
# Restart, builders, counterexamples and examples: C107, C109; C63, C106, C107 (counterexamples)
-/

namespace Cyc.Region

/-! ## C107 -/

/-- Two worlds with the same agents, the same builds to come and the same demands; what institutions
and region have registered may differ. -/
private structure Same (w v : World) : Prop where
  living : v.living = w.living
  queue : v.queue = w.queue
  next : v.next = w.next
  insts : v.insts.map (fun i => (i.id, i.kind)) = w.insts.map (fun i => (i.id, i.kind))
  demands : v.region.demands = w.region.demands

private theorem Same.ids {w v : World} (h : Same w v) : v.insts.map Inst.id = w.insts.map Inst.id := by
  have := congrArg (List.map Prod.fst) h.insts
  simpa [List.map_map, Function.comp_def] using this

private theorem seen_same {n : Nat} {a b : List Inst} (x : Nat × Fac)
    (h : a.map (fun i => (i.id, i.kind)) = b.map (fun i => (i.id, i.kind))) :
    seen n a x = seen n b x := by
  have key : ∀ l : List Inst, seen n l x = (l.map fun i => (i.id, i.kind)).any fun p =>
      decide (p.1 = x.1 ∧ p.1 < n ∧ (p.2 = .deploy → n ≤ x.2.id)) := by
    intro l
    unfold seen
    rw [List.any_map]
    rfl
  rw [key, key, h]

/-- Nobody entered while the identifiers went from `n` to `m`, and before that only `ManagerInst`s. -/
private def Gap (n m : Nat) (w : World) : Prop :=
  ∀ i ∈ w.insts, (i.kind = .manager ∧ i.id < n) ∨ m ≤ i.id

private theorem supply_same {n m : Nat} {w v : World} (hnm : n ≤ m) (I : Inv n w) (J : Inv m v)
    (hs : Same w v) (hg : Gap n m w) : supply v.region v.insts = supply w.region w.insts := by
  funext k
  rw [supply_eq I, supply_eq J, hs.living]
  congr 1
  apply List.filter_congr
  intro x hx
  rw [seen_same x hs.insts]
  unfold seen
  rw [Bool.eq_iff_iff]
  simp only [List.any_eq_true, decide_eq_true_eq]
  constructor
  · rintro ⟨i, hi, e1, e2, -⟩
    rcases hg i hi with ⟨g1, g2⟩ | g
    · exact ⟨i, hi, e1, g2, fun h => by rw [g1] at h; cases h⟩
    · omega
  · rintro ⟨i, hi, e1, e2, -⟩
    rcases hg i hi with ⟨g1, g2⟩ | g
    · exact ⟨i, hi, e1, by omega, fun h => by rw [g1] at h; cases h⟩
    · omega

private theorem arrive_same {T : Protos} {l : List (Kind × List String)} {w v w' : World}
    (hs : Same w v) (h : arrive T l w = .ok w') : ∃ v', arrive T l v = .ok v' ∧ Same w' v' := by
  induction l generalizing w v with
  | nil =>
    simp only [arrive, Except.ok.injEq] at h
    exact ⟨v, rfl, h ▸ hs⟩
  | cons x l ih =>
    obtain ⟨k, ps⟩ := x
    simp only [arrive, bind_ok] at h
    obtain ⟨j, hj, h⟩ := h
    obtain ⟨v', h1, h2⟩ := ih (w := { w with insts := w.insts ++ [j], next := w.next + 1 })
      (v := { v with insts := v.insts ++ [j], next := v.next + 1 })
      ⟨hs.living, hs.queue, by simp only [hs.next], by simp only [List.map_append, hs.insts], hs.demands⟩ h
    refine ⟨v', ?_, h2⟩
    simp only [arrive]
    rw [hs.next, hj, ok_bind, ← hs.next]
    exact h1

private theorem pair_notify {is : List Inst} {b : Nat} {f : Inst → Inst}
    (hf : ∀ i, (f i).id = i.id ∧ (f i).kind = i.kind) :
    (notify is b f).map (fun i => (i.id, i.kind)) = is.map (fun i => (i.id, i.kind)) := by
  unfold notify
  rw [List.map_map]
  apply List.map_congr_left
  intro i _
  simp only [Function.comp]
  split
  · rw [(hf i).1, (hf i).2]
  · rfl

private theorem build_same' (a : Fac) (i : Inst) :
    (buildNotify i a).id = i.id ∧ (buildNotify i a).kind = i.kind := by
  unfold buildNotify register
  split <;> exact ⟨rfl, rfl⟩

private theorem decom_same' (a : Fac) (i : Inst) :
    (decomNotify i a).id = i.id ∧ (decomNotify i a).kind = i.kind := by
  unfold decomNotify unregister
  split <;> exact ⟨rfl, rfl⟩

private theorem doBuild_same {T : Protos} {q : List (Nat × String)} {w v w' : World}
    (hs : Same w v) (h : doBuild T q w = .ok w') : ∃ v', doBuild T q v = .ok v' ∧ Same w' v' := by
  induction q generalizing w v with
  | nil =>
    simp only [doBuild, Except.ok.injEq] at h
    exact ⟨v, rfl, h ▸ hs⟩
  | cons x q ih =>
    obtain ⟨b, p⟩ := x
    unfold doBuild at h ⊢
    split at h
    · cases h
    · rename_i c hc
      split at h
      · rename_i hb
        rw [if_pos (by rw [hs.ids]; exact hb)]
        refine (fun k => ih k h) ⟨?_, hs.queue, ?_, ?_, hs.demands⟩
        · simp only [hs.living, hs.next]
        · simp only [hs.next]
        · simp only
          rw [pair_notify (build_same' _), pair_notify (build_same' _), hs.insts]
      · cases h

private theorem doDecom_same2 {l : List (Nat × Fac)} {w v : World} (hs : Same w v) :
    Same (doDecom l w) (doDecom l v) := by
  induction l generalizing w v with
  | nil => exact hs
  | cons x l ih =>
    obtain ⟨b, a⟩ := x
    unfold doDecom
    refine ih ⟨by simp only [hs.living], hs.queue, hs.next, ?_, hs.demands⟩
    simp only
    rw [pair_notify (decom_same' _), pair_notify (decom_same' _), hs.insts]

private theorem unregister_demands' {l : List Inst} {r : Reg} :
    (l.foldl unregisterInst r).demands = r.demands := by
  induction l generalizing r with
  | nil => rfl
  | cons i l ih => rw [List.foldl_cons, ih]; rfl

private theorem leave_same2 {l : List Nat} {w v : World} (hs : Same w v) :
    Same (leave l w) (leave l v) := by
  induction l generalizing w v with
  | nil => exact hs
  | cons b l ih =>
    unfold leave
    refine ih ⟨by simp only [hs.living], hs.queue, hs.next, ?_, ?_⟩
    · have key : ∀ a : List Inst, (a.filter fun i => decide (i.id ≠ b)).map (fun i => (i.id, i.kind)) =
          (a.map fun i => (i.id, i.kind)).filter fun p => decide (p.1 ≠ b) := by
        intro a
        rw [List.filter_map]
        rfl
      simp only
      rw [key, key, hs.insts]
    · simp only
      rw [unregister_demands', unregister_demands', hs.demands]

private theorem tick_same {r r' : Reg} {is is' : List Inst} {t : ℤ} {d : String → ℚ → List Order}
    (hd : r'.demands = r.demands) (hs : supply r' is' = supply r is) (ks : List String) :
    tick r' is' t d ks = tick r is t d ks := by
  induction ks with
  | nil => rfl
  | cons k ks ih =>
    have : tickOne r' is' t d k = tickOne r is t d k := by
      unfold tickOne demandOf
      rw [hd, hs]
    simp only [tick, this, ih]

private theorem pair_maps {a b : List Inst} (h1 : a.map Inst.id = b.map Inst.id)
    (h2 : a.map Inst.kind = b.map Inst.kind) :
    a.map (fun i => (i.id, i.kind)) = b.map (fun i => (i.id, i.kind)) := by
  induction a generalizing b with
  | nil =>
    cases b with
    | nil => rfl
    | cons y b => simp at h1
  | cons x a ih =>
    cases b with
    | nil => simp at h1
    | cons y b =>
      simp only [List.map_cons, List.cons.injEq, Prod.mk.injEq] at h1 h2 ⊢
      exact ⟨⟨h1.1, h2.1⟩, ih h1.2 h2.2⟩

private theorem gap_of_pairs {n m : Nat} {w v : World}
    (h : v.insts.map (fun i => (i.id, i.kind)) = w.insts.map (fun i => (i.id, i.kind)))
    (hg : Gap n m w) : Gap n m v := by
  intro i hi
  have : (i.id, i.kind) ∈ w.insts.map (fun i => (i.id, i.kind)) := by
    rw [← h]; exact List.mem_map_of_mem hi
  obtain ⟨j, hj, e⟩ := List.mem_map.1 this
  simp only [Prod.mk.injEq] at e
  rcases hg j hj with g | g
  · exact Or.inl (by rw [← e.1, ← e.2]; exact g)
  · exact Or.inr (by rw [← e.1]; exact g)

private theorem arrive_gap {T : Protos} {n m : Nat} {l : List (Kind × List String)} {w w' : World}
    (hm : m ≤ w.next) (hg : Gap n m w) (h : arrive T l w = .ok w') : Gap n m w' ∧ m ≤ w'.next := by
  induction l generalizing w with
  | nil =>
    simp only [arrive, Except.ok.injEq] at h
    exact h ▸ ⟨hg, hm⟩
  | cons x l ih =>
    obtain ⟨k, ps⟩ := x
    simp only [arrive, bind_ok] at h
    obtain ⟨j, hj, h⟩ := h
    refine ih (Nat.le_succ_of_le hm) ?_ h
    intro i hi
    rcases List.mem_append.1 hi with hi | hi
    · exact hg i hi
    · obtain rfl := List.mem_singleton.1 hi
      have := (enterInst_spec rfl hj).1
      exact Or.inr (by rw [this]; exact hm)

private theorem doBuild_next {T : Protos} {q : List (Nat × String)} {w w' : World}
    (h : doBuild T q w = .ok w') : w.next ≤ w'.next := by
  induction q generalizing w with
  | nil => simp only [doBuild, Except.ok.injEq] at h; rw [h]
  | cons x q ih =>
    obtain ⟨b, p⟩ := x
    unfold doBuild at h
    split at h
    · cases h
    · split at h
      · exact (Nat.le_succ _).trans (ih h)
      · cases h

private theorem doDecom_next {l : List (Nat × Fac)} {w : World} : (doDecom l w).next = w.next := by
  induction l generalizing w with
  | nil => rfl
  | cons x l ih => obtain ⟨b, a⟩ := x; unfold doDecom; rw [ih]

private theorem leave_next {l : List Nat} {w : World} : (leave l w).next = w.next := by
  induction l generalizing w with
  | nil => rfl
  | cons b l ih => unfold leave; rw [ih]

private theorem step_same {c : Cfg} {T : Protos} {n m : Nat} {t : ℤ} {w v w' : World} {i : In} {o : Out}
    (hnm : n ≤ m) (I : Inv n w) (J : Inv m v) (hs : Same w v) (hg : Gap n m w) (hm : m ≤ w.next)
    (h : step c T t w i = .ok (o, w')) :
    ∃ v', step c T t v i = .ok (o, v') ∧ Same w' v' ∧ Gap n m w' ∧ m ≤ w'.next := by
  obtain ⟨w₁, w₂, S⟩ := step_stages h
  obtain ⟨v₁, a1, a2⟩ := arrive_same (v := { v with queue := [] })
    (w := { w with queue := [] }) ⟨hs.living, rfl, hs.next, hs.insts, hs.demands⟩ S.arrive
  obtain ⟨v₂, b1, b2⟩ := doBuild_same a2 S.build
  obtain ⟨I1, -⟩ := arrive_inv (I.queue []) S.arrive
  obtain ⟨J1, -⟩ := arrive_inv (J.queue []) a1
  obtain ⟨I2, -, -, e4, e5, -⟩ := doBuild_spec I1 S.build
  obtain ⟨J2, -⟩ := doBuild_spec J1 b1
  obtain ⟨g1, m1⟩ := arrive_gap (w := { w with queue := [] }) hm hg S.arrive
  have g2 : Gap n m w₂ := gap_of_pairs (pair_maps e4 e5) g1
  have es := supply_same hnm I2 J2 b2 g2
  have et := tick_same (t := t) (d := i.decision) b2.demands es (c.demand.map Prod.fst)
  rw [S.tick] at et
  refine ⟨leave i.leave (doDecom i.decom { v₂ with queue := o.ordered }), ?_, ?_, ?_, ?_⟩
  · simp only [step, a1, ok_bind, hs.queue, b1, et, pure_eq_ok, Except.ok.injEq, Prod.mk.injEq, and_true]
    rw [es, b2.living, ← S.supply, ← S.living]
  · rw [S.last]
    exact leave_same2 (doDecom_same2 ⟨b2.living, rfl, b2.next, b2.insts, b2.demands⟩)
  · obtain ⟨d1, -, -, d4, d5, -⟩ := doDecom_spec (l := i.decom) (I2.queue o.ordered)
    obtain ⟨-, -, -, l4, -⟩ := leave_spec (l := i.leave) d1
    intro j hj
    rw [S.last, l4] at hj
    exact gap_of_pairs (w := w₂) (pair_maps d4 d5) g2 j (List.mem_filter.1 hj).1
  · rw [S.last, leave_next, doDecom_next]
    exact m1.trans (doBuild_next (w' := w₂) S.build)

private theorem run_same {c : Cfg} {T : Protos} {n m : Nat} {t : ℤ} {w v w' : World} {ins : List In}
    {os : List Out} (hnm : n ≤ m) (I : Inv n w) (J : Inv m v) (hs : Same w v) (hg : Gap n m w)
    (hm : m ≤ w.next) (h : run c T t w ins = .ok (os, w')) :
    ∃ v', run c T t v ins = .ok (os, v') := by
  induction ins generalizing w v t os with
  | nil =>
    simp only [run, Except.ok.injEq, Prod.mk.injEq] at h
    exact ⟨v, by rw [run, h.1]⟩
  | cons i ins ih =>
    simp only [run, bind_ok] at h
    obtain ⟨⟨o, w₁⟩, h1, ⟨os', w₂⟩, h2, h⟩ := h
    simp only [pure_eq_ok, Except.ok.injEq, Prod.mk.injEq] at h
    obtain ⟨rfl, rfl⟩ := h
    obtain ⟨v₁, g1, g2, g3, g4⟩ := step_same hnm I J hs hg hm h1
    obtain ⟨v₂, g⟩ := ih (step_inv I h1).1 (step_inv J g1).1 g2 g3 g4 h2
    exact ⟨v₂, by simp only [run, g1, g, ok_bind, pure_eq_ok]⟩

private theorem enterRegion_demands {c : Cfg} {is js : List Inst} {r r' : Reg}
    (h : enterRegion c is = .ok r) (h' : enterRegion c js = .ok r') : r'.demands = r.demands := by
  have key : ∀ (l : List (String × List PieceCfg)) (r s r' s' : Reg), r.demands = s.demands →
      addDemands c.fn l r = .ok r' → addDemands c.fn l s = .ok s' → s'.demands = r'.demands := by
    intro l
    induction l with
    | nil =>
      intro r s r' s' e h h'
      simp only [addDemands, Except.ok.injEq] at h h'
      rw [← h, ← h', e]
    | cons x l ih =>
      intro r s r' s' e h h'
      obtain ⟨k, ps⟩ := x
      simp only [addDemands, bind_ok] at h h'
      obtain ⟨f, hf, h⟩ := h
      obtain ⟨g, hg, h'⟩ := h'
      rw [hf] at hg
      simp only [Except.ok.injEq] at hg
      subst hg
      exact ih _ _ _ _ (by simp only [e]) h h'
  refine key _ _ _ _ _ ?_ h h'
  rw [(registerInst_fold (is := is) (r := ⟨[], [], []⟩)).1, (registerInst_fold (is := js) (r := ⟨[], [], []⟩)).1]

/-- The prototypes of every `ManagerInst` exist. -/
private def Known (T : Protos) (is : List Inst) : Prop :=
  ∀ i ∈ is, i.kind = .manager → ∀ p ∈ i.prototypes, Exists T p

private theorem registerPrototypes_known {T : Protos} {ps : List String} {i j : Inst}
    (h : registerPrototypes T ps i = .ok j) : ∀ p ∈ ps, Exists T p := by
  induction ps generalizing i with
  | nil => simp
  | cons p ps ih =>
    unfold registerPrototypes at h
    split at h
    · cases h
    · rename_i c hc
      intro q hq
      rcases List.mem_cons.1 hq with rfl | hq
      · unfold Exists; rw [hc]; rfl
      · exact ih h q hq

private theorem enterInst_known {T : Protos} {ch : List Fac} {i j : Inst} (hp : i.producers = [])
    (h : enterInst T ch i = .ok j) : j.kind = .manager → ∀ p ∈ j.prototypes, Exists T p := by
  obtain ⟨-, h2, h3, -⟩ := enterInst_spec hp h
  rw [h2, h3]
  intro hk
  unfold enterInst at h
  rw [hk] at h
  exact registerPrototypes_known h

private theorem enterInsts_known {T : Protos} {l : List (Nat × Fac)} {is js : List Inst}
    (hp : ∀ i ∈ is, i.producers = []) (h : enterInsts T l is = .ok js) : Known T js := by
  induction is generalizing js with
  | nil =>
    simp only [enterInsts, Except.ok.injEq] at h
    rw [← h]; intro i hi; simp at hi
  | cons i is ih =>
    simp only [enterInsts, bind_ok] at h
    obtain ⟨j, h1, ks, h2, h⟩ := h
    simp only [pure_eq_ok, Except.ok.injEq] at h
    rw [← h]
    intro k hk
    rcases List.mem_cons.1 hk with rfl | hk
    · exact enterInst_known (hp i (by simp)) h1
    · exact ih (fun i hi => hp i (by simp [hi])) h2 k hk

private theorem notify_known {T : Protos} {is : List Inst} {b : Nat} {f : Inst → Inst}
    (hf : ∀ i, (f i).kind = i.kind ∧ (f i).prototypes = i.prototypes) (h : Known T is) :
    Known T (notify is b f) := by
  intro i hi
  obtain ⟨j, hj, rfl⟩ := List.mem_map.1 hi
  split
  · rw [(hf j).1, (hf j).2]; exact h j hj
  · exact h j hj

private theorem step_known {c : Cfg} {T : Protos} {t : ℤ} {w w' : World} {i : In} {o : Out}
    (hk : Known T w.insts) (h : step c T t w i = .ok (o, w')) : Known T w'.insts := by
  obtain ⟨w₁, w₂, S⟩ := step_stages h
  have k1 : ∀ (l : List (Kind × List String)) (w w' : World), Known T w.insts →
      arrive T l w = .ok w' → Known T w'.insts := by
    intro l
    induction l with
    | nil =>
      intro w w' hk h
      simp only [arrive, Except.ok.injEq] at h
      exact h ▸ hk
    | cons x l ih =>
      intro w w' hk h
      obtain ⟨k, ps⟩ := x
      simp only [arrive, bind_ok] at h
      obtain ⟨j, hj, h⟩ := h
      refine ih _ _ ?_ h
      intro i hi
      rcases List.mem_append.1 hi with hi | hi
      · exact hk i hi
      · obtain rfl := List.mem_singleton.1 hi
        exact enterInst_known rfl hj
  have k2 : ∀ (q : List (Nat × String)) (w w' : World), Known T w.insts →
      doBuild T q w = .ok w' → Known T w'.insts := by
    intro q
    induction q with
    | nil =>
      intro w w' hk h
      simp only [doBuild, Except.ok.injEq] at h
      exact h ▸ hk
    | cons x q ih =>
      intro w w' hk h
      obtain ⟨b, p⟩ := x
      unfold doBuild at h
      split at h
      · cases h
      · split at h
        · refine ih _ _ (notify_known (fun i => ?_) hk) h
          unfold buildNotify register
          split <;> exact ⟨rfl, rfl⟩
        · cases h
  have k3 : ∀ (l : List (Nat × Fac)) (w : World), Known T w.insts → Known T (doDecom l w).insts := by
    intro l
    induction l with
    | nil => intro w hk; exact hk
    | cons x l ih =>
      intro w hk
      obtain ⟨b, a⟩ := x
      unfold doDecom
      refine ih _ (notify_known (fun i => ?_) hk)
      unfold decomNotify unregister
      split <;> exact ⟨rfl, rfl⟩
  have k4 : ∀ (l : List Nat) (w : World), Known T w.insts → Known T (leave l w).insts := by
    intro l
    induction l with
    | nil => intro w hk; exact hk
    | cons b l ih =>
      intro w hk
      unfold leave
      exact ih _ fun i hi => hk i (List.mem_filter.1 hi).1
  rw [S.last]
  exact k4 _ _ (k3 _ _ (k2 _ _ w₂ (k1 _ { w with queue := [] } _ hk S.arrive) S.build))

private theorem run_known {c : Cfg} {T : Protos} {t : ℤ} {w w' : World} {ins : List In} {os : List Out}
    (hk : Known T w.insts) (h : run c T t w ins = .ok (os, w')) : Known T w'.insts := by
  induction ins generalizing w t os with
  | nil =>
    simp only [run, Except.ok.injEq, Prod.mk.injEq] at h
    exact h.2 ▸ hk
  | cons i ins ih =>
    simp only [run, bind_ok] at h
    obtain ⟨⟨o, w₁⟩, h1, ⟨os', w₂⟩, h2, h⟩ := h
    simp only [pure_eq_ok, Except.ok.injEq, Prod.mk.injEq] at h
    obtain ⟨-, rfl⟩ := h
    exact ih (step_known hk h1) h2

private theorem enterRegion_again {c : Cfg} {is : List Inst} {r : Reg} (h : enterRegion c is = .ok r)
    (js : List Inst) : ∃ r', enterRegion c js = .ok r' := by
  have key : ∀ (l : List (String × List PieceCfg)) (r s r' : Reg),
      addDemands c.fn l r = .ok r' → ∃ s', addDemands c.fn l s = .ok s' := by
    intro l
    induction l with
    | nil => intro r s r' _; exact ⟨s, rfl⟩
    | cons x l ih =>
      intro r s r' h
      obtain ⟨k, ps⟩ := x
      simp only [addDemands, bind_ok] at h
      obtain ⟨f, hf, h⟩ := h
      obtain ⟨s', h'⟩ := ih _ { s with demands := Map.set s.demands k f } _ h
      exact ⟨s', by simp only [addDemands, hf, ok_bind, h']⟩
  exact key _ _ _ _ h

/-- C107, if all institutions are `ManagerInst`s that are there from the start: a simulation can be
restarted after every step, with the agents and the builds to come that it had, and then goes on with
the same facilities, supply and orders as if it had not been interrupted, whatever happens from then
on. -/
theorem C107_restart_partial {c : Cfg} {T : Protos} {is : List Inst} {l : List (Nat × Fac)}
    {q : List (Nat × String)} {n : Nat} {t₀ : ℤ} {ins : List In} {os : List Out}
    {w : World} (h : History c T is l q n t₀ ins os w) (hd : Settled is ins) :
    ∃ v, enter c T w.insts w.living w.queue w.next = .ok v ∧
      ∀ (t : ℤ) (more : List In) (more' : List Out) (w' : World),
        run c T t w more = .ok (more', w') → ∃ v', run c T t v more = .ok (more', v') := by
  obtain ⟨I, O⟩ := history_settled h hd
  have st : Start w.insts w.living w.next := ⟨I.ids, I.insts, I.nodup, I.living⟩
  obtain ⟨s0, w₀, h0, h⟩ := h
  have e0 := (run_inv (enter_inv s0 h0).1 h).2
  simp only [enter, bind_ok] at h0
  obtain ⟨js, k0, r, h1, h0⟩ := h0
  simp only [pure_eq_ok, Except.ok.injEq] at h0
  have kn : Known T w.insts := run_known (w := w₀) (by
    rw [← h0]
    refine enterInsts_known (fun i hi => ?_) k0
    obtain ⟨j, -, rfl⟩ := List.mem_map.1 hi
    rfl) h
  obtain ⟨ks, hks⟩ := enterInsts_ok (T := T) (l := w.living)
    (is := w.insts.map fun i => { i with producers := [], builds := [] }) (by
      intro i hi hk p hp
      obtain ⟨j, hj, rfl⟩ := List.mem_map.1 hi
      exact kn j hj hk p hp)
  obtain ⟨r', h2⟩ := enterRegion_again h1 ks
  have hv : enter c T w.insts w.living w.queue w.next = .ok ⟨r', ks, w.living, w.queue, w.next⟩ := by
    simp only [enter, hks, ok_bind, h2, pure_eq_ok]
  refine ⟨_, hv, fun t more more' w' hr => ?_⟩
  obtain ⟨J, j1, j2, j3, j4, j5, -⟩ := enter_inv st hv
  refine run_same I.start I J ⟨j1, j2, j3, pair_maps j4 j5, ?_⟩ (fun i hi => Or.inl (O i hi)) le_rfl hr
  rw [e0, ← h0]
  exact enterRegion_demands h1 h2

end Cyc.Region
