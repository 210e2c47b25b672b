import Verif.Region.Lemmas

/-!
# Properties of institutions and of `GrowthRegion`: C63 - C65, C104 - C108
-/

namespace Cyc.Region

theorem history_inv {c : Cfg} {T : Protos} {is : List Inst} {l : List (Nat × Fac)}
    {q : List (Nat × String)} {n : Nat} {t : ℤ} {ins : List In} {os : List Out} {w : World}
    (h : History c T is l q n t ins os w) :
    Inv n w ∧ ∃ r r', addDemands c.fn c.demand r = .ok r' ∧ w.region.demands = r'.demands := by
  obtain ⟨hs, w₀, h0, h⟩ := h
  obtain ⟨I, -, -, -, -, -, r, hr⟩ := enter_inv hs h0
  obtain ⟨I', e⟩ := run_inv I h
  exact ⟨I', r, _, hr, e⟩

/-! ## C63 -/

/-- C63 for `ManagerInst`: after every history, the producers that it counts are exactly its
facilities that exist and produce something, each once. -/
theorem C63_manager {c : Cfg} {T : Protos} {is : List Inst} {l : List (Nat × Fac)}
    {q : List (Nat × String)} {n : Nat} {t : ℤ} {ins : List In} {os : List Out} {w : World}
    (h : History c T is l q n t ins os w) {i : Inst} (hi : i ∈ w.insts) (hk : i.kind = .manager) :
    i.producers.Nodup ∧ ∀ a, a ∈ i.producers ↔ (i.id, a) ∈ w.living ∧ Produces a := by
  obtain ⟨h1, h2⟩ := (history_inv h).1.counted i hi
  refine ⟨h1, fun a => ?_⟩
  rw [h2]
  constructor
  · rintro ⟨a1, a2, -⟩; exact ⟨a1, a2⟩
  · rintro ⟨a1, a2⟩; exact ⟨a1, a2, fun e => by rw [hk] at e; cases e⟩

/-- C63 for `DeployInst`, except for the facilities that exist at the start of the simulation or when
it is restarted: the producers that it counts are those that were built since. -/
theorem C63_deploy_partial {c : Cfg} {T : Protos} {is : List Inst} {l : List (Nat × Fac)}
    {q : List (Nat × String)} {n : Nat} {t : ℤ} {ins : List In} {os : List Out} {w : World}
    (h : History c T is l q n t ins os w) {i : Inst} (hi : i ∈ w.insts) (hk : i.kind = .deploy) :
    i.producers.Nodup ∧
      ∀ a, a ∈ i.producers ↔ (i.id, a) ∈ w.living ∧ Produces a ∧ n ≤ a.id := by
  obtain ⟨h1, h2⟩ := (history_inv h).1.counted i hi
  refine ⟨h1, fun a => ?_⟩
  rw [h2]
  constructor
  · rintro ⟨a1, a2, a3⟩; exact ⟨a1, a2, a3 hk⟩
  · rintro ⟨a1, a2, a3⟩; exact ⟨a1, a2, fun _ => a3⟩

/-! ## C65 -/

/-- C65: after every history, at every time, the demand of each commodity is the curve of the pieces
of the user input. -/
theorem C65_curve {c : Cfg} {T : Protos} {is : List Inst} {l : List (Nat × Fac)}
    {q : List (Nat × String)} {n : Nat} {t : ℤ} {ins : List In} {os : List Out} {w : World}
    (h : History c T is l q n t ins os w) (hn : (c.demand.map Prod.fst).Nodup) {k : String}
    {pcs : List PieceCfg} (hk : (k, pcs) ∈ c.demand) :
    ∃ fs, Pieces c.fn pcs fs ∧ ∀ t', demandOf w.region k t' = .ok (curve fs.reverse t') := by
  obtain ⟨-, r, r', hr, e⟩ := history_inv h
  obtain ⟨ps, fs, h1, h2, h3⟩ := addDemands_get hn hr hk
  refine ⟨fs, h2, fun t' => ?_⟩
  unfold demandOf
  rw [e, h1]
  exact congrArg _ (h3.2 _)

/-- C65: before the first piece starts there is no demand. -/
theorem C65_before {fs : List (ℚ × (ℚ → ℚ))} {x : ℚ} (h : ∀ p ∈ fs, x < p.1) : curve fs x = 0 := by
  induction fs with
  | nil => rfl
  | cons p fs ih =>
    obtain ⟨s, f⟩ := p
    unfold curve
    rw [if_pos (h (s, f) (by simp))]
    exact ih fun p hp => h p (by simp [hp])

/-- C65: the first piece is the function of the time since its start. -/
theorem C65_first {s x : ℚ} {f : ℚ → ℚ} (h : s ≤ x) : curve [(s, f)] x = f (x - s) := by
  simp [curve, not_lt.2 h]

/-- C65: a later piece starts at the value that the curve of the earlier ones has there. -/
theorem C65_continuous {s : ℚ} {f : ℚ → ℚ} {older : List (ℚ × (ℚ → ℚ))} (h : older ≠ []) :
    curve ((s, f) :: older) s = curve older s := by
  simp [curve, h]

/-- C65: the growth within a piece is that of its function. -/
theorem C65_growth {s x y : ℚ} {f : ℚ → ℚ} {older : List (ℚ × (ℚ → ℚ))} (hx : s ≤ x) (hy : s ≤ y) :
    curve ((s, f) :: older) y - curve ((s, f) :: older) x = f (y - s) - f (x - s) := by
  unfold curve
  rw [if_neg (not_lt.2 hx), if_neg (not_lt.2 hy)]
  split
  · ring
  · ring

/-- C65: a piece that has not started does not matter. -/
theorem C65_not_started {s x : ℚ} {f : ℚ → ℚ} {older : List (ℚ × (ℚ → ℚ))} (hx : x < s) :
    curve ((s, f) :: older) x = curve older x := by
  simp [curve, hx]

/-! ## C64 -/

/-- C64: the builds that a region orders in a step. Commodity by commodity, in the order of the user
input: if the demand at that time does not exceed the supply, there are none; otherwise they are those
that the building manager decides for the difference, and each of these names an institution and a
prototype: with any other decision the step fails. -/
theorem C64_orders {c : Cfg} {T : Protos} {is : List Inst} {l : List (Nat × Fac)}
    {q : List (Nat × String)} {n : Nat} {t₀ t : ℤ} {ins : List In} {os : List Out} {w w' : World}
    {i : In} {o : Out} (h : History c T is l q n t₀ ins os w) (hn : (c.demand.map Prod.fst).Nodup)
    (hs : step c T t w i = .ok (o, w')) :
    ∃ ls, o.ordered = ls.flatten ∧ List.Forall₂ (fun kp l => ∃ fs, Pieces c.fn kp.2 fs ∧
      ((curve fs.reverse t ≤ o.supply kp.1 ∧ l = []) ∨
        (o.supply kp.1 < curve fs.reverse t ∧
          Castable (i.decision kp.1 (curve fs.reverse t - o.supply kp.1)) ∧
          l = expand (i.decision kp.1 (curve fs.reverse t - o.supply kp.1))))) c.demand ls := by
  obtain ⟨w₁, w₂, S⟩ := step_stages hs
  obtain ⟨ls, e, hf⟩ := tick_spec S.tick
  refine ⟨ls, e, ?_⟩
  obtain ⟨I, r, r', hr, er⟩ := history_inv h
  have e2 : w₂.region.demands = w.region.demands := by
    obtain ⟨a1, -, -, a4, -⟩ := arrive_inv (I.queue []) S.arrive
    obtain ⟨-, b2, -⟩ := doBuild_spec a1 S.build
    rw [b2, a4]
  have key : ∀ kp ∈ c.demand, ∃ fs, Pieces c.fn kp.2 fs ∧
      ∀ t', demandOf w₂.region kp.1 t' = .ok (curve fs.reverse t') := by
    intro kp hk
    obtain ⟨ps, fs, h1, h2, h3⟩ := addDemands_get hn hr (k := kp.1) (pcs := kp.2) hk
    refine ⟨fs, h2, fun t' => ?_⟩
    unfold demandOf
    rw [e2, er, h1]
    exact congrArg _ (h3.2 _)
  rw [S.supply]
  clear e S hn hr
  generalize c.demand = L at hf key
  induction L generalizing ls with
  | nil => cases hf; exact .nil
  | cons kp L ih =>
    cases hf with
    | cons h1 h2 =>
      refine .cons ?_ (ih _ h2 fun x hx => key x (by simp [hx]))
      obtain ⟨d, hd, h1⟩ := h1
      obtain ⟨fs, g1, g2⟩ := key kp (by simp)
      rw [g2] at hd
      simp only [Except.ok.injEq] at hd
      subst hd
      refine ⟨fs, g1, ?_⟩
      rcases h1 with h1 | ⟨h1, h2, h3⟩
      · exact Or.inl h1
      · exact Or.inr ⟨h1, h2, h3⟩

/-! ## C104 -/

private theorem capacityOf_append (a b : List (Nat × Fac)) (k : String) :
    capacityOf (a ++ b) k = capacityOf a k + capacityOf b k := by
  unfold capacityOf; simp

private theorem capacity_new {T : Protos} {q : List (Nat × String)} {new : List (Nat × Fac)}
    (h : List.Forall₂ (fun (x : Nat × String) (y : Nat × Fac) =>
      y.1 = x.1 ∧ Map.get? T x.2 = some y.2.caps) q new) (k : String) :
    capacityOf new k = capacityOfBuilds T q k := by
  induction h with
  | nil => rfl
  | cons hxy _ ih =>
    unfold capacityOf capacityOfBuilds at ih ⊢
    rw [List.map_cons, List.map_cons, List.sum_cons, List.sum_cons, ih]
    congr 1
    unfold protoCap
    rw [hxy.2]
    rfl

/-- C104: the facilities that exist at the tick of a step are those that survived the step before and,
beside them, one for each build that the region ordered in the step before and one for each that was
scheduled by others: with the institution that it was ordered from and the capacities of its
prototype. -/
theorem C104_built {c : Cfg} {T : Protos} {is : List Inst} {l : List (Nat × Fac)}
    {q : List (Nat × String)} {n : Nat} {t₀ t : ℤ} {ins : List In} {os : List Out}
    {w w₁ w₂ : World} {i i' : In} {o o' : Out} (h : History c T is l q n t₀ ins os w)
    (hs : step c T t w i = .ok (o, w₁)) (hs' : step c T (t + 1) w₁ i' = .ok (o', w₂)) :
    o'.living.Nodup ∧ ∃ new, o'.living = survivors i o.living ++ new ∧
      List.Forall₂ (fun (b : Nat × String) (x : Nat × Fac) =>
        x.1 = b.1 ∧ Map.get? T b.2 = some x.2.caps) (o.ordered ++ i'.builds) new := by
  obtain ⟨I, -⟩ := history_inv h
  obtain ⟨I1, -, e1, e2⟩ := step_inv I hs
  obtain ⟨v₁, v₂, S⟩ := step_stages hs'
  obtain ⟨a1, a2, -⟩ := arrive_inv (I1.queue []) S.arrive
  obtain ⟨b1, -, -, -, -, new, b6, b7⟩ := doBuild_spec a1 S.build
  refine ⟨by rw [S.living]; exact b1.nodup, new, ?_, by rw [← e1]; exact b7⟩
  rw [S.living, b6, a2, ← e2]

/-- C104: the capacity at the tick of a step is that of the facilities that survived the step before,
and of those that the region and others have ordered for this step. -/
theorem C104_ledger {c : Cfg} {T : Protos} {is : List Inst} {l : List (Nat × Fac)}
    {q : List (Nat × String)} {n : Nat} {t₀ t : ℤ} {ins : List In} {os : List Out}
    {w w₁ w₂ : World} {i i' : In} {o o' : Out} (h : History c T is l q n t₀ ins os w)
    (hs : step c T t w i = .ok (o, w₁)) (hs' : step c T (t + 1) w₁ i' = .ok (o', w₂)) (k : String) :
    capacityOf o'.living k = capacityOf (survivors i o.living) k +
      capacityOfBuilds T o.ordered k + capacityOfBuilds T i'.builds k := by
  obtain ⟨-, new, e, b⟩ := C104_built h hs hs'
  rw [e, capacityOf_append, capacity_new b]
  unfold capacityOfBuilds
  rw [List.map_append, List.sum_append]
  ring

/-! ## C106 -/

private theorem mem_of_maps {a b : List Inst} (h1 : a.map Inst.id = b.map Inst.id)
    (h2 : a.map Inst.kind = b.map Inst.kind) {i : Inst} (hi : i ∈ a) :
    ∃ j ∈ b, j.id = i.id ∧ j.kind = i.kind := by
  induction a generalizing b with
  | nil => simp at hi
  | cons x a ih =>
    cases b with
    | nil => simp at h1
    | cons y b =>
      simp only [List.map_cons, List.cons.injEq] at h1 h2
      rcases List.mem_cons.1 hi with rfl | hi
      · exact ⟨y, by simp, h1.1.symm, h2.1.symm⟩
      · obtain ⟨j, hj, e⟩ := ih h1.2 h2.2 hi
        exact ⟨j, by simp [hj], e⟩

/-- The institutions with the identifiers of the start are those of the start. -/
private def Origin (n : Nat) (is : List Inst) (w : World) : Prop :=
  ∀ i ∈ w.insts, i.id < n → ∃ j ∈ is, j.id = i.id ∧ j.kind = i.kind

private theorem registerPrototypes_id {T : Protos} {ps : List String} {i j : Inst}
    (h : registerPrototypes T ps i = .ok j) : j.id = i.id := by
  induction ps generalizing i with
  | nil =>
    simp only [registerPrototypes, Except.ok.injEq] at h
    rw [h]
  | cons p ps ih =>
    unfold registerPrototypes at h
    split at h
    · cases h
    · rw [ih h]
      split <;> rfl

private theorem arrive_origin {T : Protos} {n : Nat} {is : List Inst} {l : List (Kind × List String)}
    {w w' : World} (ho : Origin n is w) (hn : n ≤ w.next) (h : arrive T l w = .ok w') :
    Origin n is w' := by
  induction l generalizing w with
  | nil =>
    simp only [arrive, Except.ok.injEq] at h
    rw [← h]; exact ho
  | cons x l ih =>
    obtain ⟨k, ps⟩ := x
    simp only [arrive, bind_ok] at h
    obtain ⟨j, hj, h⟩ := h
    refine ih ?_ (Nat.le_succ_of_le hn) h
    intro i hi hin
    rcases List.mem_append.1 hi with hi | hi
    · exact ho i hi hin
    · exfalso
      obtain rfl := List.mem_singleton.1 hi
      have e : i.id = w.next := by
        unfold enterInst at hj
        cases k with
        | manager => simpa using registerPrototypes_id hj
        | deploy =>
          simp only [Except.ok.injEq] at hj
          rw [← hj]
      omega

private theorem step_origin {c : Cfg} {T : Protos} {n : Nat} {is : List Inst} {t : ℤ} {w w' : World}
    {i : In} {o : Out} (I : Inv n w) (ho : Origin n is w) (h : step c T t w i = .ok (o, w')) :
    Origin n is w' ∧ ∃ w₁ w₂, Stages c T t w i o w' w₁ w₂ ∧ Inv n w₂ ∧ Origin n is w₂ := by
  obtain ⟨w₁, w₂, S⟩ := step_stages h
  obtain ⟨a1, -⟩ := arrive_inv (I.queue []) S.arrive
  obtain ⟨b1, -, -, b4, b5, -⟩ := doBuild_spec a1 S.build
  have o1 : Origin n is w₁ := arrive_origin (w := { w with queue := [] }) ho I.start S.arrive
  have o2 : Origin n is w₂ := by
    intro i hi hn
    obtain ⟨j, hj, e1, e2⟩ := mem_of_maps b4 b5 hi
    obtain ⟨m, hm, f1, f2⟩ := o1 j hj (by omega)
    exact ⟨m, hm, f1.trans e1, f2.trans e2⟩
  refine ⟨?_, w₁, w₂, S, b1, o2⟩
  obtain ⟨d1, -, -, d4, d5, -⟩ := doDecom_spec (l := i.decom) (b1.queue o.ordered)
  obtain ⟨-, -, -, l4, -⟩ := leave_spec (l := i.leave) d1
  intro i hi hn
  rw [S.last, l4] at hi
  obtain ⟨j, hj, e1, e2⟩ := mem_of_maps d4 d5 (List.mem_filter.1 hi).1
  obtain ⟨m, hm, f1, f2⟩ := o2 j hj (by omega)
  exact ⟨m, hm, f1.trans e1, f2.trans e2⟩

private theorem run_origin {c : Cfg} {T : Protos} {n : Nat} {is : List Inst} {t : ℤ} {w w' : World}
    {ins : List In} {os : List Out} (I : Inv n w) (ho : Origin n is w)
    (h : run c T t w ins = .ok (os, w')) : Origin n is w' := by
  induction ins generalizing w t os with
  | nil =>
    simp only [run, Except.ok.injEq, Prod.mk.injEq] at h
    obtain ⟨-, rfl⟩ := h
    exact ho
  | cons i ins ih =>
    simp only [run, bind_ok] at h
    obtain ⟨⟨o, w₁⟩, h1, ⟨os', w₂⟩, h2, h⟩ := h
    simp only [pure_eq_ok, Except.ok.injEq, Prod.mk.injEq] at h
    obtain ⟨-, rfl⟩ := h
    exact ih (step_inv I h1).1 (step_origin I ho h1).1 h2

private theorem supply_seen {c : Cfg} {T : Protos} {is : List Inst} {n : Nat} {t : ℤ} {w w' : World}
    {i : In} {o : Out} (ids : (is.map Inst.id).Nodup) (I : Inv n w) (O : Origin n is w)
    (hs : step c T t w i = .ok (o, w')) (k : String) : o.supply k = capacityOf (o.living.filter (seen n is)) k := by
  obtain ⟨-, w₁, w₂, S, I2, O2⟩ := step_origin I O hs
  rw [S.supply, S.living, supply_eq I2 k]
  congr 1
  apply List.filter_congr
  intro x hx
  obtain ⟨j, hj, ej⟩ := List.mem_map.1 (I2.living x hx).1
  rw [Bool.eq_iff_iff]
  unfold seen
  simp only [List.any_eq_true, decide_eq_true_eq]
  constructor
  · rintro ⟨m, hm, f1, f2, f3⟩
    obtain ⟨p, hp, g1, g2⟩ := O2 m hm f2
    exact ⟨p, hp, g1.trans f1, by omega, fun hk => f3 (g2 ▸ hk)⟩
  · rintro ⟨m, hm, f1, f2, f3⟩
    obtain ⟨p, hp, g1, g2⟩ := O2 j hj (by omega)
    have : p = m := List.inj_on_of_nodup_map ids hp hm (by omega)
    subst this
    exact ⟨j, hj, ej, by omega, fun hk => f3 (g2.trans hk)⟩

/-- C106: the supply that the region compares with the demand is the capacity of the facilities whose
institution is there since the start and, if it is a `DeployInst`, that were built since then. -/
theorem C106_exact {c : Cfg} {T : Protos} {is : List Inst} {l : List (Nat × Fac)}
    {q : List (Nat × String)} {n : Nat} {t₀ t : ℤ} {ins : List In} {os : List Out} {w w' : World}
    {i : In} {o : Out} (h : History c T is l q n t₀ ins os w) (hs : step c T t w i = .ok (o, w'))
    (k : String) : o.supply k = capacityOf (o.living.filter (seen n is)) k := by
  obtain ⟨I, -⟩ := history_inv h
  obtain ⟨st, w₀, h0, h⟩ := h
  obtain ⟨I0, -, -, -, e1, e2, -⟩ := enter_inv st h0
  have O0 : Origin n is w₀ := fun i hi _ => mem_of_maps e1 e2 hi
  exact supply_seen st.ids I (run_origin I0 O0 h) hs k

/-- The institutions are those of the start, and all are `ManagerInst`s. -/
private def AllOld (n : Nat) (w : World) : Prop := ∀ i ∈ w.insts, i.kind = .manager ∧ i.id < n

private theorem allOld_of_maps {n : Nat} {a b : List Inst} (h1 : a.map Inst.id = b.map Inst.id)
    (h2 : a.map Inst.kind = b.map Inst.kind) (h : ∀ i ∈ b, i.kind = .manager ∧ i.id < n) :
    ∀ i ∈ a, i.kind = .manager ∧ i.id < n := by
  intro i hi
  have m1 : i.id ∈ b.map Inst.id := by rw [← h1]; exact List.mem_map_of_mem hi
  have m2 : i.kind ∈ b.map Inst.kind := by rw [← h2]; exact List.mem_map_of_mem hi
  obtain ⟨j, hj, e⟩ := List.mem_map.1 m1
  obtain ⟨j', hj', e'⟩ := List.mem_map.1 m2
  exact ⟨by rw [← e']; exact (h j' hj').1, by rw [← e]; exact (h j hj).2⟩

private theorem step_old {c : Cfg} {T : Protos} {n : Nat} {t : ℤ} {w w' : World} {i : In} {o : Out}
    (I : Inv n w) (ha : i.arrive = []) (ho : AllOld n w) (h : step c T t w i = .ok (o, w')) :
    AllOld n w' ∧ ∀ k, o.supply k = capacityOf o.living k := by
  obtain ⟨w₁, w₂, S⟩ := step_stages h
  obtain ⟨a1, a2, -, -, -, a6⟩ := arrive_inv (I.queue []) S.arrive
  obtain ⟨b1, -, -, b4, b5, -⟩ := doBuild_spec a1 S.build
  have e1 := a6 ha
  have o2 : AllOld n w₂ := allOld_of_maps b4 b5 (by rw [e1]; exact ho)
  obtain ⟨d1, -, -, d4, d5, -⟩ := doDecom_spec (l := i.decom) (b1.queue o.ordered)
  obtain ⟨-, -, -, l4, -⟩ := leave_spec (l := i.leave) d1
  constructor
  · intro j hj
    rw [S.last, l4] at hj
    exact allOld_of_maps d4 d5 o2 j (List.mem_filter.1 hj).1
  · intro k
    rw [S.supply, S.living, supply_eq b1 k]
    congr 1
    rw [List.filter_eq_self]
    intro x hx
    obtain ⟨j, hj, e⟩ := List.mem_map.1 (b1.living x hx).1
    unfold seen
    rw [List.any_eq_true]
    refine ⟨j, hj, ?_⟩
    simp only [decide_eq_true_eq]
    exact ⟨e, (o2 j hj).2, fun hk => by rw [(o2 j hj).1] at hk; cases hk⟩

theorem history_settled {c : Cfg} {T : Protos} {is : List Inst} {l : List (Nat × Fac)}
    {q : List (Nat × String)} {n : Nat} {t : ℤ} {ins : List In} {os : List Out} {w : World}
    (h : History c T is l q n t ins os w) (hd : Settled is ins) :
    Inv n w ∧ ∀ i ∈ w.insts, i.kind = .manager ∧ i.id < n := by
  change Inv n w ∧ AllOld n w
  obtain ⟨hs, w₀, h0, h⟩ := h
  obtain ⟨I, -, -, -, e1, e2, -⟩ := enter_inv hs h0
  have o0 : AllOld n w₀ := allOld_of_maps e1 e2 fun i hi => ⟨hd.1 i hi, hs.insts i hi⟩
  have ha := hd.2
  clear e1 e2 hs h0 hd
  induction ins generalizing w₀ t os with
  | nil =>
    simp only [run, Except.ok.injEq, Prod.mk.injEq] at h
    obtain ⟨-, rfl⟩ := h
    exact ⟨I, o0⟩
  | cons i ins ih =>
    simp only [run, bind_ok] at h
    obtain ⟨⟨o, w₁⟩, h1, ⟨os', w₂⟩, h2, h⟩ := h
    simp only [pure_eq_ok, Except.ok.injEq, Prod.mk.injEq] at h
    obtain ⟨-, rfl⟩ := h
    exact ih _ h2 (step_inv I h1).1 (step_old I (ha i (by simp)) o0 h1).1
      fun x hx => ha x (by simp [hx])

/-- C106, if all institutions are `ManagerInst`s that are there from the start: the supply that the
region compares with the demand is the capacity of all facilities that exist. -/
theorem C106_supply_partial {c : Cfg} {T : Protos} {is : List Inst} {l : List (Nat × Fac)}
    {q : List (Nat × String)} {n : Nat} {t₀ t : ℤ} {ins : List In} {os : List Out} {w w' : World}
    {i : In} {o : Out} (h : History c T is l q n t₀ ins os w) (hd : Settled is (ins ++ [i]))
    (hs : step c T t w i = .ok (o, w')) (k : String) : o.supply k = capacityOf o.living k := by
  obtain ⟨I, O⟩ := history_settled h ⟨hd.1, fun x hx => hd.2 x (by simp [hx])⟩
  exact (step_old I (hd.2 i (by simp)) O hs).2 k

/-! ## C105 -/

private theorem nonneg_builds {T : Protos} (hc : NonnegCaps T) (k : String)
    (b : List (Nat × String)) : 0 ≤ capacityOfBuilds T b k := by
  unfold capacityOfBuilds
  induction b with
  | nil => simp
  | cons x b ih =>
    rw [List.map_cons, List.sum_cons]
    exact add_nonneg (hc _ _) ih

/-- What is ordered covers what the region misses. -/
private theorem ordered_covers {c : Cfg} {T : Protos} {is : List Inst} {l : List (Nat × Fac)}
    {q : List (Nat × String)} {n : Nat} {t₀ t : ℤ} {ins : List In} {os : List Out}
    {w w₁ : World} {i : In} {o : Out} (h : History c T is l q n t₀ ins os w)
    (hn : (c.demand.map Prod.fst).Nodup) (hc : NonnegCaps T)
    (hs : step c T t w i = .ok (o, w₁)) {k : String}
    {fs : List (ℚ × (ℚ → ℚ))} (hk : Demanded c k fs)
    (hcov : ∀ u, 0 < u → u ≤ capacityOfBuilds T (expand (i.decision k u)) k) :
    curve fs.reverse t - o.supply k ≤ capacityOfBuilds T o.ordered k := by
  have nn := nonneg_builds hc k
  obtain ⟨ls, e, hf⟩ := C64_orders h hn hs
  obtain ⟨pcs, hp, hfs⟩ := hk
  rw [e]
  clear e hn
  generalize c.demand = L at hf hp
  induction L generalizing ls with
  | nil => simp at hp
  | cons kp L ih =>
    cases hf with
    | @cons _ l1 _ ls' h1 h2 =>
      have split : capacityOfBuilds T (l1 :: ls').flatten k =
          capacityOfBuilds T l1 k + capacityOfBuilds T ls'.flatten k := by
        unfold capacityOfBuilds; simp
      rw [split]
      rcases List.mem_cons.1 hp with rfl | hp
      · obtain ⟨gs, g1, g2⟩ := h1
        obtain rfl := pieces_unique g1 hfs
        have := nn ls'.flatten
        rcases g2 with ⟨g2, -⟩ | ⟨g2, -, rfl⟩
        · have := nn l1
          simp only at g2
          linarith
        · simp only at g2
          have hcv := hcov (curve gs.reverse t - o.supply k) (by linarith)
          simp only at hcv ⊢
          linarith
      · have := ih _ h2 hp
        have := nn l1
        linarith

/-- C105: if the decisions of a building manager cover what is missing, then the demand of a step is
met in the next step, up to what was decommissioned between them.
Missing: regions with institutions that are no `ManagerInst`s or that arrive later, whose facilities
the region does not all count (but see `C105_counted`); negative capacities. -/
theorem C105_met_partial {c : Cfg} {T : Protos} {is : List Inst} {l : List (Nat × Fac)}
    {q : List (Nat × String)} {n : Nat} {t₀ t : ℤ} {ins : List In} {os : List Out}
    {w w₁ w₂ : World} {i i' : In} {o o' : Out} (h : History c T is l q n t₀ ins os w)
    (hd : Settled is (ins ++ [i, i'])) (hn : (c.demand.map Prod.fst).Nodup) (hc : NonnegCaps T)
    (hs : step c T t w i = .ok (o, w₁)) (hs' : step c T (t + 1) w₁ i' = .ok (o', w₂)) {k : String}
    {fs : List (ℚ × (ℚ → ℚ))} (hk : Demanded c k fs)
    (hcov : ∀ u, 0 < u → u ≤ capacityOfBuilds T (expand (i.decision k u)) k) :
    curve fs.reverse t - (capacityOf o.living k - capacityOf (survivors i o.living) k) ≤
      o'.supply k := by
  obtain ⟨I, O⟩ := history_settled h ⟨hd.1, fun x hx => hd.2 x (by simp [hx])⟩
  obtain ⟨O1, s1⟩ := step_old I (hd.2 i (by simp)) O hs
  obtain ⟨-, s2⟩ := step_old (step_inv I hs).1 (hd.2 i' (by simp)) O1 hs'
  rw [s2, C104_ledger h hs hs']
  have hb := nonneg_builds hc k i'.builds
  have hw := ordered_covers h hn hc hs hk hcov
  rw [s1] at hw
  linarith

/-- C105 for any region, of what it counts: if the decisions of a building manager cover what is
missing, and builds are ordered from `ManagerInst`s that are there since the start (the builders of
`C109_builders` are such), then the demand of a step is met in the next step, up to what was
decommissioned between them of the facilities that the region counts (`seen`, see `C106_exact`). -/
theorem C105_counted {c : Cfg} {T : Protos} {is : List Inst} {l : List (Nat × Fac)}
    {q : List (Nat × String)} {n : Nat} {t₀ t : ℤ} {ins : List In} {os : List Out}
    {w w₁ w₂ : World} {i i' : In} {o o' : Out} (h : History c T is l q n t₀ ins os w)
    (hn : (c.demand.map Prod.fst).Nodup) (hc : NonnegCaps T)
    (hs : step c T t w i = .ok (o, w₁)) (hs' : step c T (t + 1) w₁ i' = .ok (o', w₂)) {k : String}
    {fs : List (ℚ × (ℚ → ℚ))} (hk : Demanded c k fs)
    (hcov : ∀ u, 0 < u → u ≤ capacityOfBuilds T (expand (i.decision k u)) k)
    (hm : ∀ b ∈ o.ordered, ∃ j ∈ is, j.id = b.1 ∧ j.kind = .manager) :
    curve fs.reverse t - (capacityOf (o.living.filter (seen n is)) k -
      capacityOf ((survivors i o.living).filter (seen n is)) k) ≤ o'.supply k := by
  obtain ⟨-, new, e, hf⟩ := C104_built h hs hs'
  have hw := ordered_covers h hn hc hs hk hcov
  rw [C106_exact h hs k] at hw
  obtain ⟨I, -⟩ := history_inv h
  obtain ⟨st, w₀, h0, h⟩ := h
  obtain ⟨I0, -, -, -, e1, e2, -⟩ := enter_inv st h0
  have O0 : Origin n is w₀ := fun i hi _ => mem_of_maps e1 e2 hi
  obtain ⟨O1, -⟩ := step_origin I (run_origin I0 O0 h) hs
  rw [supply_seen st.ids (step_inv I hs).1 O1 hs' k, e, List.filter_append, capacityOf_append]
  suffices hx : capacityOfBuilds T o.ordered k ≤ capacityOf (new.filter (seen n is)) k by linarith
  have hlt : ∀ j ∈ is, j.id < n := st.insts
  clear hw hcov hs hs' e
  generalize o.ordered = r at hf hm
  have nn : ∀ (x : Nat × Fac) (b : Nat × String) (m : List (Nat × Fac)),
      Map.get? T b.2 = some x.2.caps → capacityOf (m.filter (seen n is)) k ≤
        capacityOf ((x :: m).filter (seen n is)) k := by
    intro x b m hg
    rw [List.filter_cons]
    split
    · have := hc b.2 k
      unfold protoCap at this
      rw [hg] at this
      unfold capacityOf
      rw [List.map_cons, List.sum_cons]
      exact le_add_of_nonneg_left this
    · exact le_refl _
  induction r generalizing new with
  | nil =>
    rw [List.nil_append] at hf
    have z : capacityOfBuilds T [] k = 0 := rfl
    rw [z]
    generalize i'.builds = bs at hf
    induction hf with
    | nil => exact le_refl _
    | cons hxy _ ih => exact le_trans ih (nn _ _ _ hxy.2)
  | cons b r ih =>
    rw [List.cons_append] at hf
    cases hf with
    | @cons _ x _ m hxy hr =>
      have hi := ih m hr fun b hb => hm b (List.mem_cons_of_mem _ hb)
      obtain ⟨j, hj, j1, j2⟩ := hm b List.mem_cons_self
      have hsn : seen n is x = true := by
        unfold seen
        simp only [List.any_eq_true, decide_eq_true_eq]
        exact ⟨j, hj, by rw [j1, hxy.1], hlt j hj, fun h => by rw [j2] at h; cases h⟩
      rw [List.filter_cons_of_pos hsn]
      unfold capacityOfBuilds capacityOf at hi ⊢
      rw [List.map_cons, List.map_cons, List.sum_cons, List.sum_cons]
      refine add_le_add (le_of_eq ?_) hi
      unfold protoCap
      rw [hxy.2]
      rfl

end Cyc.Region
