import Verif.Region.Props

/-!
# More properties of institutions and of `GrowthRegion`: C107 - C109, C65 (accepted input)
-/

namespace Cyc.Region

/-! ## C65: which input is accepted -/

private theorem addPieces_ok {fn : String → String → R (ℚ → ℚ)} {pcs : List PieceCfg} {b : Bool}
    {ps : List Piece} (hf : ∀ p ∈ pcs, ∃ f, fn p.type p.params = .ok f) :
    (∃ ps', addPieces fn pcs b ps = .ok ps') ↔
      (∀ a, ps.head? = some a → ∀ p, pcs.head? = some p → a.start < p.start) ∧
        (pcs.map PieceCfg.start).IsChain (· < ·) := by
  induction pcs generalizing b ps with
  | nil => simp [addPieces]
  | cons p pcs ih =>
    obtain ⟨f, hp⟩ := hf p (by simp)
    have ih := fun b ps => @ih b ps fun q hq => hf q (by simp [hq])
    simp only [addPieces, hp, ok_bind, addFunction]
    have hc : tooEarly ps p.start = true ↔ ∃ a, ps.head? = some a ∧ ((p.start : ℚ)) ≤ a.start := by
      cases ps with
      | nil => simp [tooEarly]
      | cons a ps => simp [tooEarly]
    by_cases h : tooEarly ps p.start = true
    · rw [if_pos h]
      obtain ⟨a, h1, h2⟩ := hc.1 h
      simp only [error_bind, reduceCtorEq, exists_false, false_iff]
      rintro ⟨h3, -⟩
      have := h3 a h1 p rfl
      linarith
    · rw [if_neg h, ok_bind, ih]
      have hh : ∀ a, ps.head? = some a → a.start < (p.start : ℚ) := by
        intro a ha
        by_contra hlt
        exact h (hc.2 ⟨a, ha, not_lt.1 hlt⟩)
      constructor
      · rintro ⟨h1, h2⟩
        refine ⟨fun a ha q hq => by simp at hq; rw [← hq]; exact hh a ha, ?_⟩
        rw [List.map_cons]
        cases pcs with
        | nil => simp
        | cons q pcs =>
          simp only [List.map_cons] at h2 ⊢
          rw [List.isChain_cons_cons]
          refine ⟨?_, h2⟩
          have := h1 _ rfl q rfl
          simp only at this
          exact_mod_cast this
      · rintro ⟨h1, h2⟩
        rw [List.map_cons] at h2
        cases pcs with
        | nil => simp
        | cons q pcs =>
          simp only [List.map_cons] at h2 ⊢
          rw [List.isChain_cons_cons] at h2
          refine ⟨?_, h2.2⟩
          intro a ha q' hq'
          simp only [List.head?_cons, Option.some.injEq] at ha hq'
          subst ha hq'
          simp only
          exact_mod_cast h2.1

private theorem addDemands_ok {fn : String → String → R (ℚ → ℚ)} {l : List (String × List PieceCfg)}
    {r : Reg} (hf : ∀ kp ∈ l, ∀ p ∈ kp.2, ∃ f, fn p.type p.params = .ok f) :
    (∃ r', addDemands fn l r = .ok r') ↔ ∀ kp ∈ l, (kp.2.map PieceCfg.start).IsChain (· < ·) := by
  induction l generalizing r with
  | nil => simp [addDemands]
  | cons x l ih =>
    obtain ⟨k, pcs⟩ := x
    have h1 := addPieces_ok (fn := fn) (pcs := pcs) (b := false) (ps := []) (hf (k, pcs) (by simp))
    simp only [List.head?_nil, reduceCtorEq, false_implies, implies_true, true_and] at h1
    simp only [addDemands, bind_ok, List.forall_mem_cons]
    constructor
    · rintro ⟨r', ps, h2, h3⟩
      exact ⟨h1.1 ⟨ps, h2⟩, (ih fun kp hk => hf kp (by simp [hk])).1 ⟨r', h3⟩⟩
    · rintro ⟨h2, h3⟩
      obtain ⟨ps, h2⟩ := h1.2 h2
      obtain ⟨r', h3⟩ := (ih (r := { r with demands := Map.set r.demands k ps })
        fun kp hk => hf kp (by simp [hk])).2 h3
      exact ⟨r', ps, h2, h3⟩

/-- C65: the demands are accepted if and only if the pieces of each commodity start in increasing
order (when all functions can be made). -/
theorem C65_accepted (c : Cfg) (is : List Inst)
    (hf : ∀ kp ∈ c.demand, ∀ p ∈ kp.2, ∃ f, c.fn p.type p.params = .ok f) :
    (∃ r, enterRegion c is = .ok r) ↔
      ∀ kp ∈ c.demand, (kp.2.map PieceCfg.start).IsChain (· < ·) := addDemands_ok hf

/-! ## C108 -/

/-- The prototype exists. -/
def Exists (T : Protos) (p : String) : Prop := (Map.get? T p).isSome = true

/-- The user input can be used: the pieces of each commodity start in increasing order, all functions
can be made, and the prototypes of every `ManagerInst` exist. -/
structure Valid (c : Cfg) (T : Protos) (is : List Inst) : Prop where
  functions : ∀ kp ∈ c.demand, ∀ p ∈ kp.2, ∃ f, c.fn p.type p.params = .ok f
  starts : ∀ kp ∈ c.demand, (kp.2.map PieceCfg.start).IsChain (· < ·)
  protos : ∀ i ∈ is, i.kind = .manager → ∀ p ∈ i.prototypes, Exists T p

/-- The build can be done: its prototype exists, and its institution is one of `ids`. -/
def Buildable (T : Protos) (ids : List Nat) (b : Nat × String) : Prop := b.1 ∈ ids ∧ Exists T b.2

/-- The surroundings behave in a step that begins with institutions `ids`: those that enter have
prototypes that exist, and all builds can be done, and so can all orders in the next step. -/
structure Behaved (T : Protos) (ids : List Nat) (i : In) : Prop where
  arrive : ∀ x ∈ i.arrive, x.1 = .manager → ∀ p ∈ x.2, Exists T p
  builds : ∀ b ∈ i.builds, Buildable T ids b
  decision : ∀ k u, ∀ o ∈ i.decision k u, ∃ b p, o.builder = some b ∧ o.producer = some p ∧
    Buildable T ids (b, p) ∧ b ∉ i.leave

/-- The surroundings behave in all steps, as institutions leave. -/
def Behaves (T : Protos) : List Nat → List In → Prop
  | _, [] => True
  | ids, i :: ins => Behaved T ids i ∧ Behaves T (ids.filter fun b => decide (b ∉ i.leave)) ins

theorem registerPrototypes_ok {T : Protos} {ps : List String} {i : Inst}
    (h : ∀ p ∈ ps, Exists T p) : ∃ j, registerPrototypes T ps i = .ok j := by
  induction ps generalizing i with
  | nil => exact ⟨_, rfl⟩
  | cons p ps ih =>
    unfold registerPrototypes
    obtain ⟨c, hc⟩ := Option.isSome_iff_exists.1 (h p (by simp))
    rw [hc]
    exact ih fun q hq => h q (by simp [hq])

private theorem enterInst_ok {T : Protos} {ch : List Fac} {i : Inst}
    (h : i.kind = .manager → ∀ p ∈ i.prototypes, Exists T p) : ∃ j, enterInst T ch i = .ok j := by
  unfold enterInst
  split
  · rename_i hk
    exact registerPrototypes_ok (h hk)
  · exact ⟨_, rfl⟩

theorem enterInsts_ok {T : Protos} {l : List (Nat × Fac)} {is : List Inst}
    (h : ∀ i ∈ is, i.kind = .manager → ∀ p ∈ i.prototypes, Exists T p) :
    ∃ js, enterInsts T l is = .ok js := by
  induction is with
  | nil => exact ⟨_, rfl⟩
  | cons i is ih =>
    obtain ⟨j, hj⟩ := enterInst_ok (ch := (l.filter fun x => decide (x.1 = i.id)).map Prod.snd)
      (h i (by simp))
    obtain ⟨js, hjs⟩ := ih fun i hi => h i (by simp [hi])
    exact ⟨j :: js, by simp [enterInsts, hj, hjs, ok_bind, pure_eq_ok]⟩

theorem arrive_ok {T : Protos} {l : List (Kind × List String)} {w : World}
    (h : ∀ x ∈ l, x.1 = .manager → ∀ p ∈ x.2, Exists T p) :
    ∃ w', arrive T l w = .ok w' ∧ w.insts.map Inst.id ⊆ w'.insts.map Inst.id ∧
      w'.region = w.region := by
  induction l generalizing w with
  | nil => exact ⟨w, rfl, fun _ h => h, rfl⟩
  | cons x l ih =>
    obtain ⟨k, ps⟩ := x
    obtain ⟨j, hj⟩ := enterInst_ok (T := T) (ch := []) (i := ⟨w.next, k, ps, [], []⟩) (h (k, ps) (by simp))
    obtain ⟨w', h1, h2, h3⟩ := ih (w := { w with insts := w.insts ++ [j], next := w.next + 1 })
      fun x hx => h x (by simp [hx])
    refine ⟨w', by simp only [arrive, hj, ok_bind, h1], fun b hb => h2 ?_, h3⟩
    rw [List.map_append]
    exact List.mem_append_left _ hb

private theorem map_notify_id {is : List Inst} {b : Nat} {a : Fac} :
    (notify is b (buildNotify · a)).map Inst.id = is.map Inst.id := by
  unfold notify
  rw [List.map_map]
  apply List.map_congr_left
  intro i _
  simp only [Function.comp]
  split
  · unfold buildNotify register
    split <;> rfl
  · rfl

theorem doBuild_ok {T : Protos} {is : List Nat} {q : List (Nat × String)} {w : World}
    (hs : is ⊆ w.insts.map Inst.id) (h : ∀ b ∈ q, Buildable T is b) :
    ∃ w', doBuild T q w = .ok w' ∧ w'.insts.map Inst.id = w.insts.map Inst.id ∧
      w'.region = w.region := by
  induction q generalizing w with
  | nil => exact ⟨w, rfl, rfl, rfl⟩
  | cons x q ih =>
    obtain ⟨b, p⟩ := x
    obtain ⟨h1, h2⟩ := h (b, p) (by simp)
    obtain ⟨c, hc⟩ := Option.isSome_iff_exists.1 h2
    unfold doBuild
    simp only [hc]
    rw [if_pos (hs h1)]
    obtain ⟨w', e1, e2, e3⟩ := ih
      (w := { w with
        insts := notify w.insts b (buildNotify · ⟨w.next, c⟩)
        living := w.living ++ [(b, ⟨w.next, c⟩)]
        next := w.next + 1 }) (by rw [map_notify_id]; exact hs) fun x hx => h x (by simp [hx])
    exact ⟨w', e1, by rw [e2, map_notify_id], e3⟩

theorem tick_ok {P : Nat × String → Prop} {js : List Inst} {r : Reg} {t : ℤ}
    {dec : String → ℚ → List Order} {ks : List String}
    (hk : ∀ k ∈ ks, (Map.get? r.demands k).isSome = true)
    (hd : ∀ k u, ∀ o ∈ dec k u, ∃ b p, o.builder = some b ∧ o.producer = some p ∧
      P (b, p)) :
    ∃ l, tick r js t dec ks = .ok l ∧ ∀ b ∈ l, P b := by
  induction ks with
  | nil => exact ⟨[], rfl, by simp⟩
  | cons k ks ih =>
    obtain ⟨l, h1, h2⟩ := ih fun k hk' => hk k (by simp [hk'])
    obtain ⟨ps, hps⟩ := Option.isSome_iff_exists.1 (hk k (by simp))
    have : ∃ m, tickOne r js t dec k = .ok m ∧ ∀ b ∈ m, P b := by
      unfold tickOne demandOf
      rw [hps, ok_bind]
      split
      · refine ⟨_, orderBuilds_ok.2 ⟨?_, rfl⟩, ?_⟩
        · intro o ho
          obtain ⟨b, p, e1, e2, -⟩ := hd _ _ o ho
          rw [e1, e2]; exact ⟨rfl, rfl⟩
        · intro x hx
          unfold expand at hx
          obtain ⟨o, ho, hx⟩ := List.mem_flatMap.1 hx
          obtain ⟨b, p, e1, e2, e3⟩ := hd _ _ o ho
          rw [e1, e2] at hx
          rw [List.eq_of_mem_replicate hx]
          exact e3
      · exact ⟨[], rfl, by simp⟩
    obtain ⟨m, g1, g2⟩ := this
    refine ⟨m ++ l, by simp only [tick, g1, h1, ok_bind, pure_eq_ok], fun b hb => ?_⟩
    rcases List.mem_append.1 hb with hb | hb
    · exact g2 b hb
    · exact h2 b hb

theorem doDecom_same {l : List (Nat × Fac)} {w : World} :
    (doDecom l w).insts.map Inst.id = w.insts.map Inst.id ∧ (doDecom l w).region = w.region ∧
      (doDecom l w).queue = w.queue := by
  induction l generalizing w with
  | nil => exact ⟨rfl, rfl, rfl⟩
  | cons x l ih =>
    obtain ⟨b, a⟩ := x
    unfold doDecom
    obtain ⟨h1, h2, h3⟩ := ih (w := { w with
        insts := notify w.insts b (decomNotify · a)
        living := w.living.filter fun x => decide (x ≠ (b, a)) })
    refine ⟨h1.trans ?_, h2, h3⟩
    simp only [notify, List.map_map]
    apply List.map_congr_left
    intro i _
    simp only [Function.comp]
    split
    · unfold decomNotify unregister
      split <;> rfl
    · rfl

private theorem unregister_demands {l : List Inst} {r : Reg} :
    (l.foldl unregisterInst r).demands = r.demands := by
  induction l generalizing r with
  | nil => rfl
  | cons i l ih => rw [List.foldl_cons, ih]; rfl

private theorem leave_same {l : List Nat} {w : World} :
    (leave l w).insts.map Inst.id = (w.insts.map Inst.id).filter (fun b => decide (b ∉ l)) ∧
      (leave l w).region.demands = w.region.demands ∧ (leave l w).queue = w.queue := by
  induction l generalizing w with
  | nil => exact ⟨(List.filter_eq_self.2 (by simp)).symm, rfl, rfl⟩
  | cons b l ih =>
    unfold leave
    obtain ⟨h1, h2, h3⟩ := ih (w := without w b)
    refine ⟨h1.trans ?_, h2.trans unregister_demands, h3⟩
    unfold without
    simp only [List.filter_map, List.filter_filter]
    congr 1
    apply List.filter_congr
    intro i _
    simp [Function.comp, Bool.and_comm]

/-- C108: if the user input can be used and the surroundings behave, then the simulation starts and no
step fails. -/
theorem C108_runs {c : Cfg} {T : Protos} {is : List Inst} {l : List (Nat × Fac)}
    {q : List (Nat × String)} {n : Nat} (hs : Start is l n) (hv : Valid c T is)
    (hq : ∀ b ∈ q, Buildable T (is.map Inst.id) b) (hn : (c.demand.map Prod.fst).Nodup) (t : ℤ)
    (ins : List In) (hb : Behaves T (is.map Inst.id) ins) :
    ∃ os w, History c T is l q n t ins os w := by
  obtain ⟨js, hj⟩ := enterInsts_ok (T := T) (l := l)
    (is := is.map fun i => { i with producers := [], builds := [] }) (by
      intro i hi hk p hp
      obtain ⟨j, hj, rfl⟩ := List.mem_map.1 hi
      exact hv.protos j hj hk p hp)
  obtain ⟨r, hr⟩ := (C65_accepted c js hv.functions).2 hv.starts
  have he : enter c T is l q n = .ok ⟨r, js, l, q, n⟩ := by
    simp only [enter, hj, ok_bind, hr, pure_eq_ok]
  obtain ⟨-, -, -, -, e1, -⟩ := enter_inv hs he
  have hk : ∀ k ∈ c.demand.map Prod.fst, (Map.get? r.demands k).isSome = true := by
    intro k hk
    obtain ⟨⟨k', pcs⟩, h1, rfl⟩ := List.mem_map.1 hk
    obtain ⟨ps, -, h2, -⟩ := addDemands_get hn hr h1
    rw [h2]; rfl
  have key : ∀ (ins : List In) (t : ℤ) (w : World) (ids : List Nat), Behaves T ids ins →
      ids ⊆ w.insts.map Inst.id → (∀ b ∈ w.queue, Buildable T ids b) →
      (∀ k ∈ c.demand.map Prod.fst, (Map.get? w.region.demands k).isSome = true) →
      ∃ os w', run c T t w ins = .ok (os, w') := by
    intro ins
    induction ins with
    | nil => intro t w _ _ _ _ _; exact ⟨[], w, rfl⟩
    | cons i ins ih =>
      intro t w ids hb hi hq hk
      obtain ⟨B, hb⟩ := hb
      obtain ⟨w₁, a1, a2, a3⟩ := arrive_ok (w := { w with queue := [] }) B.arrive
      obtain ⟨w₂, b1, b2, b3⟩ := doBuild_ok (T := T) (is := ids) (q := w.queue ++ i.builds) (w := w₁)
        (fun x hx => a2 (hi hx)) (by
          intro b hb
          rcases List.mem_append.1 hb with hb | hb
          · exact hq b hb
          · exact B.builds b hb)
      obtain ⟨o, g1, g2⟩ := tick_ok (P := fun x => Buildable T ids x ∧ x.1 ∉ i.leave) (js := w₂.insts)
        (r := w₂.region) (t := t) (ks := c.demand.map Prod.fst) (by rw [b3, a3]; exact hk) B.decision
      obtain ⟨d1, d2, d3⟩ := doDecom_same (l := i.decom) (w := { w₂ with queue := o })
      obtain ⟨f1, f2, f3⟩ := leave_same (l := i.leave) (w := doDecom i.decom { w₂ with queue := o })
      obtain ⟨os, w', h⟩ := ih (t + 1) (leave i.leave (doDecom i.decom { w₂ with queue := o })) _ hb
        (by
          intro x hx
          obtain ⟨h1, h2⟩ := List.mem_filter.1 hx
          rw [f1, d1]
          refine List.mem_filter.2 ⟨?_, h2⟩
          rw [b2]; exact a2 (hi h1))
        (by
          rw [f3, d3]
          intro b hb
          obtain ⟨⟨h1, h2⟩, h3⟩ := g2 b hb
          exact ⟨List.mem_filter.2 ⟨h1, by simpa using h3⟩, h2⟩)
        (by rw [f2, d2, b3, a3]; exact hk)
      refine ⟨⟨w₂.living, supply w₂.region w₂.insts, o⟩ :: os, w', ?_⟩
      simp only [run, step, a1, b1, g1, ok_bind, pure_eq_ok, h]
  obtain ⟨os, w', h⟩ := key ins t ⟨r, js, l, q, n⟩ _ hb (by rw [← e1]; exact fun _ h => h) hq hk
  exact ⟨os, w', hs, _, he, h⟩

end Cyc.Region
