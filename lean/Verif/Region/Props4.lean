import Verif.Region.Props3
import Mathlib.Data.Rat.Floor

/-!
# Builders (C109), counterexamples and examples
-/

namespace Cyc.Region

/-! ## C109 -/

/-- Facilities of the prototype produce commodities. -/
def ProtoProduces (T : Protos) (p : String) : Prop := ∃ caps, Map.get? T p = some (some caps)

private def BuildsOk (T : Protos) (is : List Inst) : Prop :=
  ∀ i ∈ is, i.kind = .manager → ∀ p, p ∈ i.builds ↔ p ∈ i.prototypes ∧ ProtoProduces T p

private structure BInv (T : Protos) (n : Nat) (w : World) : Prop where
  builders : ∀ b, b ∈ w.region.builders ↔ ∃ i ∈ w.insts, i.id = b ∧ i.kind = .manager ∧ b < n
  builds : BuildsOk T w.insts

private theorem registerPrototypes_builds {T : Protos} {ps : List String} {i j : Inst}
    (h : registerPrototypes T ps i = .ok j) :
    ∀ p, p ∈ j.builds ↔ p ∈ i.builds ∨ p ∈ ps ∧ ProtoProduces T p := by
  induction ps generalizing i with
  | nil =>
    simp only [registerPrototypes, Except.ok.injEq] at h
    rw [h]; simp
  | cons q ps ih =>
    unfold registerPrototypes at h
    split at h
    · cases h
    · rename_i c hc
      intro p
      rw [ih h p]
      by_cases hs : c.isSome = true
      · obtain ⟨d, hd⟩ := Option.isSome_iff_exists.1 hs
        subst hd
        simp only [Option.isSome_some, if_true, mem_insert, List.mem_cons]
        constructor
        · rintro ((h1 | rfl) | ⟨h1, h2⟩)
          · exact Or.inl h1
          · exact Or.inr ⟨Or.inl rfl, d, hc⟩
          · exact Or.inr ⟨Or.inr h1, h2⟩
        · rintro (h1 | ⟨rfl | h1, h2⟩)
          · exact Or.inl (Or.inl h1)
          · exact Or.inl (Or.inr rfl)
          · exact Or.inr ⟨h1, h2⟩
      · rw [if_neg hs]
        simp only [List.mem_cons]
        constructor
        · rintro (h1 | ⟨h1, h2⟩)
          · exact Or.inl h1
          · exact Or.inr ⟨Or.inr h1, h2⟩
        · rintro (h1 | ⟨rfl | h1, h2⟩)
          · exact Or.inl h1
          · obtain ⟨d, hd⟩ := h2
            rw [hc] at hd
            simp only [Option.some.injEq] at hd
            rw [hd] at hs
            exact absurd rfl hs
          · exact Or.inr ⟨h1, h2⟩

private theorem foldl_register_builds {l : List Fac} {i : Inst} :
    (l.foldl register i).builds = i.builds := by
  induction l generalizing i with
  | nil => rfl
  | cons a l ih =>
    rw [List.foldl_cons, ih]
    unfold register
    split <;> rfl

private theorem enterInst_builds {T : Protos} {ch : List Fac} {i j : Inst} (hp : i.producers = [])
    (hb : i.builds = []) (h : enterInst T ch i = .ok j) :
    j.kind = .manager → ∀ p, p ∈ j.builds ↔ p ∈ j.prototypes ∧ ProtoProduces T p := by
  obtain ⟨-, h2, h3, -⟩ := enterInst_spec hp h
  rw [h2, h3]
  intro hk p
  unfold enterInst at h
  rw [hk] at h
  rw [registerPrototypes_builds h, foldl_register_builds, hb]
  simp

private theorem enterInsts_builds {T : Protos} {l : List (Nat × Fac)} {is js : List Inst}
    (hp : ∀ i ∈ is, i.producers = [] ∧ i.builds = []) (h : enterInsts T l is = .ok js) :
    BuildsOk T js := by
  induction is generalizing js with
  | nil =>
    simp only [enterInsts, Except.ok.injEq] at h
    rw [← h]; intro i hi; simp at hi
  | cons i is ih =>
    simp only [enterInsts, bind_ok] at h
    obtain ⟨j, h1, ks, h2, h⟩ := h
    simp only [pure_eq_ok, Except.ok.injEq] at h
    rw [← h]
    intro k hk
    rcases List.mem_cons.1 hk with rfl | hk
    · exact enterInst_builds (hp i (by simp)).1 (hp i (by simp)).2 h1
    · exact ih (fun i hi => hp i (by simp [hi])) h2 k hk

private theorem registerInst_builders {is : List Inst} {r : Reg} (b : Nat) :
    b ∈ (is.foldl registerInst r).builders ↔
      b ∈ r.builders ∨ ∃ i ∈ is, i.id = b ∧ i.kind = .manager := by
  induction is generalizing r with
  | nil => simp
  | cons i is ih =>
    rw [List.foldl_cons, ih]
    simp only [registerInst]
    by_cases hk : i.kind = .manager
    · rw [if_pos hk, mem_insert]
      constructor
      · rintro ((h | rfl) | ⟨j, hj, e⟩)
        · exact Or.inl h
        · exact Or.inr ⟨i, by simp, rfl, hk⟩
        · exact Or.inr ⟨j, by simp [hj], e⟩
      · rintro (h | ⟨j, hj, e1, e2⟩)
        · exact Or.inl (Or.inl h)
        · rcases List.mem_cons.1 hj with rfl | hj
          · exact Or.inl (Or.inr e1.symm)
          · exact Or.inr ⟨j, hj, e1, e2⟩
    · rw [if_neg hk]
      constructor
      · rintro (h | ⟨j, hj, e⟩)
        · exact Or.inl h
        · exact Or.inr ⟨j, by simp [hj], e⟩
      · rintro (h | ⟨j, hj, e1, e2⟩)
        · exact Or.inl h
        · rcases List.mem_cons.1 hj with rfl | hj
          · exact absurd e2 hk
          · exact Or.inr ⟨j, hj, e1, e2⟩

private theorem unregisterInst_builders {is : List Inst} {r : Reg} (b : Nat) :
    b ∈ (is.foldl unregisterInst r).builders ↔
      b ∈ r.builders ∧ ∀ i ∈ is, i.kind = .manager → i.id ≠ b := by
  induction is generalizing r with
  | nil => simp
  | cons i is ih =>
    rw [List.foldl_cons, ih, List.forall_mem_cons]
    simp only [unregisterInst]
    by_cases hk : i.kind = .manager
    · rw [if_pos hk]
      simp only [remove, List.mem_filter, decide_eq_true_eq]
      constructor
      · rintro ⟨⟨h1, h2⟩, h3⟩; exact ⟨h1, fun _ => Ne.symm h2, h3⟩
      · rintro ⟨h1, h2, h3⟩; exact ⟨⟨h1, Ne.symm (h2 hk)⟩, h3⟩
    · rw [if_neg hk]
      constructor
      · rintro ⟨h1, h3⟩; exact ⟨h1, fun h => absurd h hk, h3⟩
      · rintro ⟨h1, h2, h3⟩; exact ⟨h1, h3⟩

private theorem notify_builds {T : Protos} {is : List Inst} {b : Nat} {f : Inst → Inst}
    (hf : ∀ i, (f i).kind = i.kind ∧ (f i).prototypes = i.prototypes ∧ (f i).builds = i.builds)
    (h : BuildsOk T is) : BuildsOk T (notify is b f) := by
  intro i hi
  obtain ⟨j, hj, rfl⟩ := List.mem_map.1 hi
  split
  · rw [(hf j).1, (hf j).2.1, (hf j).2.2]; exact h j hj
  · exact h j hj

private theorem notify_mem {is : List Inst} {b : Nat} {f : Inst → Inst}
    (hf : ∀ i, (f i).id = i.id ∧ (f i).kind = i.kind) {P : Nat → Kind → Prop} :
    (∃ i ∈ notify is b f, P i.id i.kind) ↔ ∃ i ∈ is, P i.id i.kind := by
  constructor
  · rintro ⟨i, hi, h⟩
    obtain ⟨j, hj, rfl⟩ := List.mem_map.1 hi
    refine ⟨j, hj, ?_⟩
    split at h
    · rwa [(hf j).1, (hf j).2] at h
    · exact h
  · rintro ⟨j, hj, h⟩
    refine ⟨_, List.mem_map_of_mem hj, ?_⟩
    split
    · rwa [(hf j).1, (hf j).2]
    · exact h

private theorem notify_binv {T : Protos} {n : Nat} {w : World} {b : Nat} {f : Inst → Inst}
    {l : List (Nat × Fac)} {m : Nat} (hf : ∀ i, (f i).id = i.id ∧ (f i).kind = i.kind ∧
      (f i).prototypes = i.prototypes ∧ (f i).builds = i.builds) (h : BInv T n w) :
    BInv T n { w with insts := notify w.insts b f, living := l, next := m } := by
  refine ⟨fun b' => ?_, notify_builds (fun i => (hf i).2) h.builds⟩
  rw [h.builders b']
  exact (notify_mem (fun i => ⟨(hf i).1, (hf i).2.1⟩) (P := fun x k => x = b' ∧ k = .manager ∧ b' < n)).symm

private theorem step_binv {c : Cfg} {T : Protos} {n : Nat} {t : ℤ} {w w' : World} {i : In} {o : Out}
    (hn : n ≤ w.next) (hk : BInv T n w) (h : step c T t w i = .ok (o, w')) : BInv T n w' := by
  obtain ⟨w₁, w₂, S⟩ := step_stages h
  have k1 : ∀ (l : List (Kind × List String)) (w w' : World), n ≤ w.next → BInv T n w →
      arrive T l w = .ok w' → BInv T n w' := by
    intro l
    induction l with
    | nil =>
      intro w w' _ hk h
      simp only [arrive, Except.ok.injEq] at h
      exact h ▸ hk
    | cons x l ih =>
      intro w w' hn hk h
      obtain ⟨k, ps⟩ := x
      simp only [arrive, bind_ok] at h
      obtain ⟨j, hj, h⟩ := h
      refine ih _ _ (Nat.le_succ_of_le hn) ⟨fun b => ?_, ?_⟩ h
      · rw [hk.builders b]
        have e := (enterInst_spec rfl hj).1
        constructor
        · rintro ⟨i, hi, g⟩; exact ⟨i, List.mem_append_left _ hi, g⟩
        · rintro ⟨i, hi, g1, g2, g3⟩
          rcases List.mem_append.1 hi with hi | hi
          · exact ⟨i, hi, g1, g2, g3⟩
          · obtain rfl := List.mem_singleton.1 hi
            simp only at e
            omega
      · intro i hi
        rcases List.mem_append.1 hi with hi | hi
        · exact hk.builds i hi
        · obtain rfl := List.mem_singleton.1 hi
          exact enterInst_builds rfl rfl hj
  have k2 : ∀ (q : List (Nat × String)) (w w' : World), BInv T n w →
      doBuild T q w = .ok w' → BInv T n w' := by
    intro q
    induction q with
    | nil =>
      intro w w' hk h
      simp only [doBuild, Except.ok.injEq] at h
      exact h ▸ hk
    | cons x q ih =>
      intro w w' hk h
      obtain ⟨b, p⟩ := x
      unfold doBuild at h
      split at h
      · cases h
      · split at h
        · refine ih _ _ (notify_binv (fun i => ?_) hk) h
          unfold buildNotify register
          split <;> exact ⟨rfl, rfl, rfl, rfl⟩
        · cases h
  have k3 : ∀ (l : List (Nat × Fac)) (w : World), BInv T n w → BInv T n (doDecom l w) := by
    intro l
    induction l with
    | nil => intro w hk; exact hk
    | cons x l ih =>
      intro w hk
      obtain ⟨b, a⟩ := x
      unfold doDecom
      refine ih _ (notify_binv (m := w.next) (fun i => ?_) hk)
      unfold decomNotify unregister
      split <;> exact ⟨rfl, rfl, rfl, rfl⟩
  have k4 : ∀ (l : List Nat) (w : World), BInv T n w → BInv T n (leave l w) := by
    intro l
    induction l with
    | nil => intro w hk; exact hk
    | cons b l ih =>
      intro w hk
      unfold leave
      refine ih _ ⟨fun b' => ?_, fun i hi => hk.builds i (List.mem_filter.1 hi).1⟩
      rw [unregisterInst_builders, hk.builders b']
      constructor
      · rintro ⟨⟨i, hi, g1, g2, g3⟩, h⟩
        refine ⟨i, List.mem_filter.2 ⟨hi, ?_⟩, g1, g2, g3⟩
        simp only [ne_eq, decide_eq_true_eq]
        intro e
        exact h i (List.mem_filter.2 ⟨hi, by simpa using e⟩) g2 g1
      · rintro ⟨i, hi, g1, g2, g3⟩
        obtain ⟨h1, h2⟩ := List.mem_filter.1 hi
        simp only [ne_eq, decide_eq_true_eq] at h2
        refine ⟨⟨i, h1, g1, g2, g3⟩, fun j hj _ e => ?_⟩
        obtain ⟨-, h3⟩ := List.mem_filter.1 hj
        simp only [decide_eq_true_eq] at h3
        omega
  have k0 : BInv T n { w with queue := [] } := ⟨hk.builders, hk.builds⟩
  have k := k2 _ _ w₂ (k1 _ { w with queue := [] } _ hn k0 S.arrive) S.build
  rw [S.last]
  exact k4 _ _ (k3 _ _ ⟨k.builders, k.builds⟩)

private theorem run_binv {c : Cfg} {T : Protos} {n : Nat} {t : ℤ} {w w' : World} {ins : List In}
    {os : List Out} (I : Inv n w) (hk : BInv T n w) (h : run c T t w ins = .ok (os, w')) :
    BInv T n w' := by
  induction ins generalizing w t os with
  | nil =>
    simp only [run, Except.ok.injEq, Prod.mk.injEq] at h
    exact h.2 ▸ hk
  | cons i ins ih =>
    simp only [run, bind_ok] at h
    obtain ⟨⟨o, w₁⟩, h1, ⟨os', w₂⟩, h2, h⟩ := h
    simp only [pure_eq_ok, Except.ok.injEq, Prod.mk.injEq] at h
    obtain ⟨-, rfl⟩ := h
    exact ih (step_inv I h1).1 (step_binv I.start hk h1) h2

/-- C109: after every history, the builders among which the region's building manager chooses are the
`ManagerInst`s that are there since the start and have not left, and each offers exactly those of its
prototypes that produce something. -/
theorem C109_builders {c : Cfg} {T : Protos} {is : List Inst} {l : List (Nat × Fac)}
    {q : List (Nat × String)} {n : Nat} {t : ℤ} {ins : List In} {os : List Out} {w : World}
    (h : History c T is l q n t ins os w) :
    (∀ b, b ∈ w.region.builders ↔ ∃ i ∈ w.insts, i.id = b ∧ i.kind = .manager ∧ b < n) ∧
      ∀ i ∈ w.insts, i.kind = .manager →
        ∀ p, p ∈ i.builds ↔ p ∈ i.prototypes ∧ ProtoProduces T p := by
  obtain ⟨s0, w₀, h0, h⟩ := h
  obtain ⟨I0, -, -, -, e1, e2, -⟩ := enter_inv s0 h0
  suffices hb : BInv T n w₀ by
    obtain ⟨b1, b2⟩ := run_binv I0 hb h
    exact ⟨b1, b2⟩
  have hlt := I0.insts
  simp only [enter, bind_ok] at h0
  obtain ⟨js, k0, r, h1, h0⟩ := h0
  simp only [pure_eq_ok, Except.ok.injEq] at h0
  subst h0
  refine ⟨fun b => ?_, ?_⟩
  · simp only
    rw [(addDemands_same h1).2.1, registerInst_builders]
    simp only [List.not_mem_nil, false_or]
    constructor
    · rintro ⟨i, hi, g1, g2⟩; exact ⟨i, hi, g1, g2, g1 ▸ hlt i hi⟩
    · rintro ⟨i, hi, g1, g2, -⟩; exact ⟨i, hi, g1, g2⟩
  · refine enterInsts_builds (fun i hi => ?_) k0
    obtain ⟨j, -, rfl⟩ := List.mem_map.1 hi
    exact ⟨rfl, rfl⟩

private theorem registerPrototypes_unknown {T : Protos} {ps : List String} {i : Inst} {p : String}
    (hp : p ∈ ps) (h : Map.get? T p = none) : registerPrototypes T ps i = .error .key := by
  induction ps generalizing i with
  | nil => simp at hp
  | cons q ps ih =>
    unfold registerPrototypes
    cases hq : Map.get? T q with
    | none => rfl
    | some c =>
      rcases List.mem_cons.1 hp with rfl | hp
      · rw [h] at hq; cases hq
      · exact ih hp

private theorem registerPrototypes_error {T : Protos} {ps : List String} {i : Inst} {e : Fault}
    (h : registerPrototypes T ps i = .error e) : e = .key := by
  induction ps generalizing i with
  | nil => cases h
  | cons q ps ih =>
    unfold registerPrototypes at h
    cases hq : Map.get? T q with
    | none => rw [hq] at h; cases h; rfl
    | some c => rw [hq] at h; exact ih h

private theorem enterInsts_unknown {T : Protos} {l : List (Nat × Fac)} {is : List Inst}
    (h : ∃ i ∈ is, i.kind = .manager ∧ ∃ p ∈ i.prototypes, Map.get? T p = none) :
    enterInsts T l is = .error .key := by
  have same : ∀ (as : List Fac) (i : Inst), (as.foldl register i).kind = i.kind := by
    intro as
    induction as with
    | nil => intro i; rfl
    | cons a as ih =>
      intro i
      rw [List.foldl_cons, ih]
      unfold register
      split <;> rfl
  induction is with
  | nil => obtain ⟨i, hi, -⟩ := h; simp at hi
  | cons j is ih =>
    simp only [enterInsts]
    obtain ⟨i, hi, hk, p, hp, hu⟩ := h
    rcases List.mem_cons.1 hi with rfl | hi
    · have : enterInst T ((l.filter fun x => decide (x.1 = i.id)).map Prod.snd) i = .error .key := by
        unfold enterInst
        rw [hk]
        exact registerPrototypes_unknown hp hu
      rw [this]; rfl
    · cases hj : enterInst T ((l.filter fun x => decide (x.1 = j.id)).map Prod.snd) j with
      | error e =>
        unfold enterInst at hj
        split at hj
        · rw [registerPrototypes_error hj]; rfl
        · cases hj
      | ok j' =>
        rw [ok_bind, ih ⟨i, hi, hk, p, hp, hu⟩]; rfl

private theorem arrive_unknown {T : Protos} {l : List (Kind × List String)} {w : World}
    (h : ∃ x ∈ l, x.1 = .manager ∧ ∃ p ∈ x.2, Map.get? T p = none) : arrive T l w = .error .key := by
  induction l generalizing w with
  | nil => obtain ⟨x, hx, -⟩ := h; simp at hx
  | cons y l ih =>
    obtain ⟨k, ps⟩ := y
    simp only [arrive]
    cases hj : enterInst T [] ⟨w.next, k, ps, [], []⟩ with
    | error e =>
      unfold enterInst at hj
      split at hj
      · rw [registerPrototypes_error hj]; rfl
      · cases hj
    | ok j =>
      rw [ok_bind]
      apply ih
      obtain ⟨x, hx, hk, p, hp, hu⟩ := h
      rcases List.mem_cons.1 hx with rfl | hx
      · simp only at hk hp
        subst hk
        unfold enterInst at hj
        simp only at hj
        rw [registerPrototypes_unknown hp hu] at hj
        cases hj
      · exact ⟨x, hx, hk, p, hp, hu⟩

/-- C109: a `ManagerInst` with a prototype that does not exist cannot enter, at the start or later:
the simulation ends with an error that says so. -/
theorem C109_unknown (c : Cfg) (T : Protos) :
    (∀ (is : List Inst) (l : List (Nat × Fac)) (q : List (Nat × String)) (n : Nat),
      (∃ i ∈ is, i.kind = .manager ∧ ∃ p ∈ i.prototypes, Map.get? T p = none) →
      enter c T is l q n = .error .key) ∧
    ∀ (t : ℤ) (w : World) (i : In),
      (∃ x ∈ i.arrive, x.1 = .manager ∧ ∃ p ∈ x.2, Map.get? T p = none) →
      step c T t w i = .error .key := by
  refine ⟨fun is l q n h => ?_, fun t w i h => ?_⟩
  · unfold enter
    rw [enterInsts_unknown]
    · rfl
    · obtain ⟨i, hi, h⟩ := h
      exact ⟨_, List.mem_map_of_mem hi, h⟩
  · unfold step
    rw [arrive_unknown h]; rfl

example (c : Cfg) : enter c [("plant", none)] [⟨0, .manager, ["plants"], [], []⟩] [] [] 1 =
    .error .key :=
  (C109_unknown c _).1 _ _ _ _ ⟨_, List.mem_singleton_self _, rfl, "plants", by simp, by
    decide +kernel⟩

/-! ## Concrete histories -/

/-- What is seen at a tick for one commodity: the facilities that exist, the supply and the orders. -/
abbrev Obs := List (Nat × Fac) × ℚ × List (Nat × String)

instance : DecidableEq Obs := inferInstance

instance : DecidableEq (List Obs × List (Nat × List Fac)) := inferInstance

/-- What can be seen of a simulation for one commodity: at each tick the facilities that exist, the
supply and the orders; and at the end the counted producers of each institution. -/
def observe (c : Cfg) (T : Protos) (is : List Inst) (l : List (Nat × Fac)) (q : List (Nat × String))
    (n : Nat) (t : ℤ) (ins : List In) (k : String) :
    Option (List Obs × List (Nat × List Fac)) :=
  match enter c T is l q n with
  | .error _ => none
  | .ok w₀ =>
    match run c T t w₀ ins with
    | .error _ => none
    | .ok (os, w) => some (os.map fun o => (o.living, o.supply k, o.ordered),
        w.insts.map fun i => (i.id, i.producers))

theorem history_of_observe {c : Cfg} {T : Protos} {is : List Inst} {l : List (Nat × Fac)}
    {q : List (Nat × String)} {n : Nat} {t : ℤ} {ins : List In} {k : String}
    {x : List Obs} {y : List (Nat × List Fac)}
    (hs : Start is l n) (h : observe c T is l q n t ins k = some (x, y)) :
    ∃ os w, History c T is l q n t ins os w ∧
      os.map (fun o => (o.living, o.supply k, o.ordered)) = x ∧
        w.insts.map (fun i => (i.id, i.producers)) = y := by
  unfold observe at h
  split at h
  · cases h
  · rename_i w₀ h0
    split at h
    · cases h
    · rename_i os w h1
      simp only [Option.some.injEq, Prod.mk.injEq] at h
      exact ⟨os, w, ⟨hs, w₀, h0, h1⟩, h.1, h.2⟩

/-- Linear functions, by their slope. -/
def exFn (type _params : String) : R (ℚ → ℚ) :=
  if type = "flat" then .ok fun _ => 10
  else if type = "steep" then .ok fun x => 2 * x
  else .error .value

/-- Demand for power: 10 from time 1 on, and from time 3 on two more in each step. -/
def exCfg : Cfg := ⟨[("power", [⟨1, "flat", ""⟩, ⟨3, "steep", ""⟩])], exFn⟩

/-- A plant produces 4, a store nothing. -/
def exProtos : Protos := [("plant", some [("power", 4)]), ("store", none)]

/-- A `ManagerInst` that can build both. -/
def exInst : Inst := ⟨1, .manager, ["plant", "store"], [], []⟩

/-- A `DeployInst`. -/
def exDeploy : Inst := ⟨2, .deploy, [], [], []⟩

/-- A building manager that orders plants until the demand is met. -/
def exDecide (_k : String) (u : ℚ) : List Order := [⟨some 1, some "plant", Int.ceil (u / 4)⟩]

/-- A step in which nothing else happens. -/
def exIn : In := ⟨[], [], exDecide, [], []⟩

/-- A plant. -/
def plant (i : Nat) : Fac := ⟨i, some [("power", 4)]⟩

private theorem exStart : Start [exInst, exDeploy] [(1, plant 3)] 4 :=
  ⟨by decide, by decide, by decide, by decide⟩

private theorem exStart2 : Start [exInst, exDeploy] [(1, plant 3), (2, plant 4)] 5 :=
  ⟨by decide, by decide, by decide, by decide⟩

private theorem exStart1 : Start [exInst] [(1, plant 3)] 4 :=
  ⟨by decide, by decide, by decide, by decide⟩

/-- A history with one plant at the start, five steps, the build of a store and a decommissioning: the
region orders two plants at time 1, none at times 2 and 3, and one at time 4, when the demand is 12 and
the supply, after the decommissioning, 8. -/
example : ∃ os w, History exCfg exProtos [exInst] [(1, plant 3)] [] 4 0
      [exIn, exIn, exIn, ⟨[], [(1, "store")], exDecide, [(1, plant 3)], []⟩, exIn] os w ∧
    os.map (fun o => (o.living, o.supply "power", o.ordered)) =
      [([(1, plant 3)], 4, []), ([(1, plant 3)], 4, [(1, "plant"), (1, "plant")]),
        ([(1, plant 3), (1, plant 4), (1, plant 5)], 12, []),
        ([(1, plant 3), (1, plant 4), (1, plant 5), (1, ⟨6, none⟩)], 12, []),
        ([(1, plant 4), (1, plant 5), (1, ⟨6, none⟩)], 8, [(1, "plant")])] ∧
    w.insts.map (fun i => (i.id, i.producers)) = [(1, [plant 4, plant 5])] :=
  history_of_observe exStart1 (by decide +kernel)

/-- The hypotheses of C108 hold for that history and for every longer one. -/
example : Valid exCfg exProtos [exInst] :=
  ⟨by
    intro kp hk p hp
    have hk : kp = ("power", [⟨1, "flat", ""⟩, ⟨3, "steep", ""⟩]) := List.mem_singleton.1 hk
    subst hk
    rcases List.mem_cons.1 hp with rfl | hp
    · exact ⟨fun _ => 10, rfl⟩
    · obtain rfl := List.mem_singleton.1 hp
      exact ⟨fun x => 2 * x, rfl⟩,
   by
    intro kp hk
    have hk : kp = ("power", [⟨1, "flat", ""⟩, ⟨3, "steep", ""⟩]) := List.mem_singleton.1 hk
    subst hk
    simp,
   by
    intro i hi _ p hp
    obtain rfl := List.mem_singleton.1 hi
    rcases List.mem_cons.1 hp with rfl | hp
    · rfl
    · obtain rfl := List.mem_singleton.1 hp
      rfl⟩

theorem exBehaves (m : Nat) : Behaves exProtos [1] (List.replicate m exIn) := by
  induction m with
  | zero => trivial
  | succ m ih =>
    rw [List.replicate_succ]
    refine ⟨⟨by simp [exIn], by simp [exIn], ?_⟩, ih⟩
    intro k u o ho
    have ho : o = ⟨some 1, some "plant", Int.ceil (u / 4)⟩ := List.mem_singleton.1 ho
    exact ⟨1, "plant", by rw [ho], by rw [ho], ⟨by simp, rfl⟩, by simp [exIn]⟩

/-- The decisions of the example cover what is missing (C105), and no capacity is negative. -/
example : (∀ u, 0 < u → u ≤ capacityOfBuilds exProtos (expand (exDecide "power" u)) "power") ∧
    NonnegCaps exProtos := by
  constructor
  · intro u hu
    have h1 : protoCap exProtos "power" "plant" = 4 := by decide +kernel
    have h2 : u / 4 ≤ (Int.ceil (u / 4) : ℚ) := Int.le_ceil _
    have h3 : (0 : ℚ) < u / 4 := by linarith
    have h4 : 0 < Int.ceil (u / 4) := Int.ceil_pos.2 h3
    have h5 : ((Int.ceil (u / 4)).toNat : ℚ) = (Int.ceil (u / 4) : ℚ) := by
      have : ((Int.ceil (u / 4)).toNat : ℤ) = Int.ceil (u / 4) := Int.toNat_of_nonneg h4.le
      exact_mod_cast this
    unfold capacityOfBuilds expand exDecide
    simp only [List.flatMap_cons, List.flatMap_nil, List.append_nil, List.map_replicate,
      List.sum_replicate, Option.getD_some, h1, nsmul_eq_mul, h5]
    linarith
  · intro p k
    unfold protoCap exProtos
    by_cases h1 : "plant" = p
    · subst h1
      simp only [Map.get?, if_true, Option.join_some, produced, Option.getD_some, List.find?]
      split <;> norm_num
    · by_cases h2 : "store" = p
      · subst h2
        simp [Map.get?, produced]
      · simp [Map.get?, h1, h2, produced]

/-- A region with a `DeployInst` whose plant is not counted, and with an institution that arrives later:
the builds are all ordered from the `ManagerInst` of the start (the hypothesis of `C105_counted`), and the
demand of time 1, which is 10, is met at time 2 in what is counted. -/
example : ∃ os w, History exCfg exProtos [exInst, exDeploy] [(1, plant 3), (2, plant 4)] [] 5 0
      [exIn, exIn, ⟨[(.manager, ["plant"])], [], exDecide, [], []⟩] os w ∧
    os.map (fun o => (o.living, o.supply "power", o.ordered)) =
      [([(1, plant 3), (2, plant 4)], 4, []),
        ([(1, plant 3), (2, plant 4)], 4, [(1, "plant"), (1, "plant")]),
        ([(1, plant 3), (2, plant 4), (1, plant 6), (1, plant 7)], 12, [])] ∧
    w.insts.map (fun i => (i.id, i.producers)) = [(1, [plant 3, plant 6, plant 7]), (2, []), (5, [])] :=
  history_of_observe exStart2 (by decide +kernel)

/-! ## Counterexamples -/

/-- A building manager that orders plants from institution 5 until the demand is met. -/
def lateDecide (_k : String) (u : ℚ) : List Order := [⟨some 5, some "plant", Int.ceil (u / 4)⟩]

/-- C105 fails if builds are ordered from an institution that entered after the start: at time 1 the
demand is 10 and the supply 4, and the decision covers the difference; at time 2 the two plants exist,
but the supply is still 4, and two more are ordered. -/
theorem C105_counterexample : ∃ os w, History exCfg exProtos [exInst, exDeploy]
      [(1, plant 3), (2, plant 4)] [] 5 0
      [⟨[(.manager, ["plant"])], [], lateDecide, [], []⟩, ⟨[], [], lateDecide, [], []⟩,
        ⟨[], [], lateDecide, [], []⟩] os w ∧
    os.map (fun o => (o.living, o.supply "power", o.ordered)) =
      [([(1, plant 3), (2, plant 4)], 4, []),
        ([(1, plant 3), (2, plant 4)], 4, [(5, "plant"), (5, "plant")]),
        ([(1, plant 3), (2, plant 4), (5, plant 6), (5, plant 7)], 4, [(5, "plant"), (5, "plant")])] ∧
    w.insts.map (fun i => (i.id, i.producers)) =
      [(1, [plant 3]), (2, []), (5, [plant 6, plant 7])] :=
  history_of_observe exStart2 (by decide +kernel)

/-- C63 fails for a `DeployInst` with a facility at the start: it is never counted. -/
theorem C63_counterexample : ∃ os w, History exCfg exProtos [exInst, exDeploy]
      [(1, plant 3), (2, plant 4)] [] 5 0 [exIn] os w ∧ (2, plant 4) ∈ w.living ∧
    Produces (plant 4) ∧ ∀ i ∈ w.insts, i.id = 2 → i.producers = [] := by
  obtain ⟨os, w, h, h1, h2⟩ := history_of_observe
    (x := [([(1, plant 3), (2, plant 4)], 4, [])]) (y := [(1, [plant 3]), (2, [])])
    exStart2 (c := exCfg) (T := exProtos) (q := []) (t := 0) (ins := [exIn]) (k := "power")
    (by decide +kernel)
  refine ⟨os, w, h, ?_, rfl, ?_⟩
  · obtain ⟨hs, w₀, h0, hr⟩ := h
    obtain ⟨I, -⟩ := enter_inv hs h0
    simp only [run, bind_ok] at hr
    obtain ⟨⟨o, w₁⟩, g1, ⟨os', w₂⟩, g2, hr⟩ := hr
    simp only [pure_eq_ok, Except.ok.injEq, Prod.mk.injEq] at g2 hr
    obtain ⟨rfl, rfl⟩ := g2
    obtain ⟨rfl, rfl⟩ := hr
    rw [(step_inv I g1).2.2.2]
    simp only [List.map_cons, List.map_nil, List.cons.injEq, Prod.mk.injEq] at h1
    rw [h1.1.1]
    decide +kernel
  · intro i hi hid
    have : (i.id, i.producers) ∈ w.insts.map (fun i => (i.id, i.producers)) := List.mem_map_of_mem hi
    rw [h2, hid] at this
    simpa using this

/-- C106 fails for the same reason: a plant of a `DeployInst` exists, but the supply does not include
it. -/
theorem C106_counterexample : ∃ os w, History exCfg exProtos [exInst, exDeploy]
      [(1, plant 3), (2, plant 4)] [] 5 0 [exIn] os w ∧
    os.map (fun o => (o.living, o.supply "power", o.ordered)) =
      [([(1, plant 3), (2, plant 4)], 4, [])] ∧
    capacityOf [(1, plant 3), (2, plant 4)] "power" = 8 := by
  obtain ⟨os, w, h, h1, -⟩ := history_of_observe
    (x := [([(1, plant 3), (2, plant 4)], 4, [])]) (y := [(1, [plant 3]), (2, [])])
    exStart2 (c := exCfg) (T := exProtos) (q := []) (t := 0) (ins := [exIn]) (k := "power")
    (by decide +kernel)
  exact ⟨os, w, h, h1, by decide +kernel⟩

/-- C106 also fails for an institution that enters later: at time 1 it has three plants, which meet the
demand, but the supply does not include them, and the region orders three more. -/
theorem C106_late : ∃ os w, History exCfg exProtos [exInst] [] [] 4 0
      [⟨[(.manager, ["plant"])], [], exDecide, [], []⟩, ⟨[], [(4, "plant"), (4, "plant"), (4, "plant")],
        exDecide, [], []⟩] os w ∧
    os.map (fun o => (o.living, o.supply "power", o.ordered)) =
      [([], 0, []), ([(4, plant 5), (4, plant 6), (4, plant 7)], 0,
        [(1, "plant"), (1, "plant"), (1, "plant")])] ∧
    capacityOf [(4, plant 5), (4, plant 6), (4, plant 7)] "power" = 12 := by
  obtain ⟨os, w, h, h1, -⟩ := history_of_observe
    (x := [([], 0, []), ([(4, plant 5), (4, plant 6), (4, plant 7)], 0,
        [(1, "plant"), (1, "plant"), (1, "plant")])])
    (y := [(1, []), (4, [plant 5, plant 6, plant 7])])
    (is := [exInst]) (l := []) (n := 4) ⟨by decide, by decide, by decide, by decide⟩ (c := exCfg)
    (T := exProtos) (q := []) (t := 0)
    (ins := [⟨[(.manager, ["plant"])], [], exDecide, [], []⟩, ⟨[], [(4, "plant"), (4, "plant"),
      (4, "plant")], exDecide, [], []⟩]) (k := "power") (by decide +kernel)
  exact ⟨os, w, h, h1, by decide +kernel⟩

/-- C107 fails for a `DeployInst`: three plants that it built are part of the supply at time 1, and the
region orders nothing; if the simulation is restarted with the same agents at that time, they are not,
and the region orders three plants. -/
theorem C107_counterexample :
    (∃ os w, History exCfg exProtos [exInst, exDeploy] [] [] 4 0
        [⟨[], [(2, "plant"), (2, "plant"), (2, "plant")], exDecide, [], []⟩, exIn] os w ∧
      os.map (fun o => (o.living, o.supply "power", o.ordered)) =
        [([(2, plant 4), (2, plant 5), (2, plant 6)], 12, []),
          ([(2, plant 4), (2, plant 5), (2, plant 6)], 12, [])]) ∧
    ∃ os w, History exCfg exProtos [exInst, exDeploy] [(2, plant 4), (2, plant 5), (2, plant 6)] [] 7 1
        [exIn] os w ∧
      os.map (fun o => (o.living, o.supply "power", o.ordered)) =
        [([(2, plant 4), (2, plant 5), (2, plant 6)], 0, [(1, "plant"), (1, "plant"), (1, "plant")])] := by
  constructor
  · obtain ⟨os, w, h, h1, -⟩ := history_of_observe
      (x := [([(2, plant 4), (2, plant 5), (2, plant 6)], 12, []),
          ([(2, plant 4), (2, plant 5), (2, plant 6)], 12, [])])
      (y := [(1, []), (2, [plant 4, plant 5, plant 6])])
      (is := [exInst, exDeploy]) (l := []) (n := 4) ⟨by decide, by decide, by decide, by decide⟩
      (c := exCfg) (T := exProtos) (q := []) (t := 0)
      (ins := [⟨[], [(2, "plant"), (2, "plant"), (2, "plant")], exDecide, [], []⟩, exIn]) (k := "power")
      (by decide +kernel)
    exact ⟨os, w, h, h1⟩
  · obtain ⟨os, w, h, h1, -⟩ := history_of_observe
      (x := [([(2, plant 4), (2, plant 5), (2, plant 6)], 0, [(1, "plant"), (1, "plant"), (1, "plant")])])
      (y := [(1, []), (2, [])])
      (is := [exInst, exDeploy]) (l := [(2, plant 4), (2, plant 5), (2, plant 6)]) (n := 7)
      ⟨by decide, by decide, by decide, by decide⟩
      (c := exCfg) (T := exProtos) (q := []) (t := 1) (ins := [exIn]) (k := "power") (by decide +kernel)
    exact ⟨os, w, h, h1⟩

end Cyc.Region
