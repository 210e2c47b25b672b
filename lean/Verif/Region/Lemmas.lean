import Verif.Region.Spec
import Mathlib.Data.List.Nodup
import Mathlib.Algebra.BigOperators.Group.List.Basic

/-!
# Lemmas about institutions and `GrowthRegion`
-/

namespace Cyc.Region

/-! ## Demand -/

/-- The pieces `ps` of the model stand for the curve of `fs`. -/
def Rep (ps : List Piece) (fs : List (ℚ × (ℚ → ℚ))) : Prop :=
  ps.map (fun p => (p.start, p.f)) = fs ∧ ∀ x, value ps x = curve fs x

theorem addFunction_rep {ps ps' : List Piece} {fs : List (ℚ × (ℚ → ℚ))} {f : ℚ → ℚ} {s : ℚ} {b : Bool}
    (hr : Rep ps fs) (hb : b = true ↔ ps ≠ []) (h : addFunction ps f s b = .ok ps') :
    Rep ps' ((s, f) :: fs) ∧ ps' ≠ [] := by
  unfold addFunction at h
  split at h
  · simp at h
  · simp only [Except.ok.injEq] at h
    subst h
    refine ⟨⟨by simp [hr.1], fun x => ?_⟩, by simp⟩
    · simp only [value, curve]
      split
      · exact hr.2 x
      · have hn : fs = [] ↔ ps = [] := by rw [← hr.1]; simp
        by_cases hp : ps = []
        · have : b = false := by
            rw [← Bool.not_eq_true, hb]; simpa using hp
          rw [if_pos (hn.2 hp), this]; simp
        · rw [if_neg (fun e => hp (hn.1 e)), hb.2 hp, if_pos rfl, hr.2]
          ring

theorem addPieces_rep {fn : String → String → R (ℚ → ℚ)} {pcs : List PieceCfg} {b : Bool}
    {ps ps' : List Piece} {fs : List (ℚ × (ℚ → ℚ))} (hr : Rep ps fs) (hb : b = true ↔ ps ≠ [])
    (h : addPieces fn pcs b ps = .ok ps') :
    ∃ gs, Pieces fn pcs gs ∧ Rep ps' (gs.reverse ++ fs) := by
  induction pcs generalizing b ps fs with
  | nil =>
    simp only [addPieces, Except.ok.injEq] at h
    subst h
    exact ⟨[], .nil, by simpa using hr⟩
  | cons p pcs ih =>
    simp only [addPieces, bind_ok] at h
    obtain ⟨f, hf, q, hq, h⟩ := h
    obtain ⟨h1, h2⟩ := addFunction_rep hr hb hq
    obtain ⟨gs, g1, g2⟩ := ih h1 (by simpa using h2) h
    exact ⟨(p.start, f) :: gs, .cons ⟨rfl, hf⟩ g1, by simpa using g2⟩

theorem pieces_unique {fn : String → String → R (ℚ → ℚ)} {pcs : List PieceCfg}
    {fs gs : List (ℚ × (ℚ → ℚ))} (h : Pieces fn pcs fs) (h' : Pieces fn pcs gs) : fs = gs := by
  unfold Pieces at h h'
  induction h generalizing gs with
  | nil => cases h'; rfl
  | cons hp _ ih =>
    cases h' with
    | cons hq ht =>
      rw [ih ht]
      obtain ⟨a1, a2⟩ := hp
      obtain ⟨b1, b2⟩ := hq
      have : (_ : R (ℚ → ℚ)) = _ := a2.symm.trans b2
      simp only [Except.ok.injEq] at this
      congr 1
      exact Prod.ext (a1.trans b1.symm) this

/-- The managers and builders of a region do not depend on the demand. -/
theorem addDemands_same {fn : String → String → R (ℚ → ℚ)} {l : List (String × List PieceCfg)}
    {r r' : Reg} (h : addDemands fn l r = .ok r') :
    r'.managers = r.managers ∧ r'.builders = r.builders ∧
      (∀ k, k ∉ l.map Prod.fst → Map.get? r'.demands k = Map.get? r.demands k) := by
  induction l generalizing r with
  | nil =>
    simp only [addDemands, Except.ok.injEq] at h
    subst h; exact ⟨rfl, rfl, fun _ _ => rfl⟩
  | cons x l ih =>
    obtain ⟨k, ps⟩ := x
    simp only [addDemands, bind_ok] at h
    obtain ⟨f, -, h⟩ := h
    obtain ⟨h1, h2, h3⟩ := ih h
    refine ⟨h1, h2, fun m hm => ?_⟩
    simp only [List.map_cons, List.mem_cons, not_or] at hm
    rw [h3 m hm.2]
    exact Map.get?_set_ne (Ne.symm hm.1) _

theorem addDemands_get {fn : String → String → R (ℚ → ℚ)} {l : List (String × List PieceCfg)}
    {r r' : Reg} (hn : (l.map Prod.fst).Nodup) (h : addDemands fn l r = .ok r') {k : String}
    {pcs : List PieceCfg} (hk : (k, pcs) ∈ l) :
    ∃ ps fs, Map.get? r'.demands k = some ps ∧ Pieces fn pcs fs ∧ Rep ps fs.reverse := by
  induction l generalizing r with
  | nil => simp at hk
  | cons x l ih =>
    obtain ⟨m, qcs⟩ := x
    simp only [addDemands, bind_ok] at h
    obtain ⟨f, hf, h⟩ := h
    simp only [List.map_cons, List.nodup_cons] at hn
    rcases List.mem_cons.1 hk with e | hk
    · simp only [Prod.mk.injEq] at e
      obtain ⟨rfl, rfl⟩ := e
      obtain ⟨-, -, h3⟩ := addDemands_same h
      obtain ⟨gs, g1, g2⟩ := addPieces_rep (ps := []) (fs := []) ⟨rfl, fun _ => rfl⟩ (by simp) hf
      exact ⟨f, gs, by rw [h3 k hn.1]; simp, g1, by simpa using g2⟩
    · exact ih hn.2 h hk

/-! ## Sets -/

theorem mem_insert {α : Type} [DecidableEq α] {l : List α} {a b : α} :
    b ∈ insert l a ↔ b ∈ l ∨ b = a := by
  unfold insert
  split
  · rename_i h
    constructor
    · exact Or.inl
    · rintro (h' | rfl)
      · exact h'
      · exact h
  · simp

theorem nodup_insert {α : Type} [DecidableEq α] {l : List α} {a : α} (h : l.Nodup) :
    (insert l a).Nodup := by
  unfold insert
  split
  · exact h
  · rename_i ha
    rw [List.nodup_append]
    refine ⟨h, by simp, ?_⟩
    intro x hx y hy
    simp only [List.mem_singleton] at hy
    subst hy
    rintro rfl
    exact ha hx

theorem mem_remove {α : Type} [DecidableEq α] {l : List α} {a b : α} :
    b ∈ remove l a ↔ b ∈ l ∧ b ≠ a := by
  simp [remove]

theorem nodup_remove {α : Type} [DecidableEq α] {l : List α} {a : α} (h : l.Nodup) :
    (remove l a).Nodup := h.filter _

/-! ## Institutions -/

theorem register_same (i : Inst) (a : Fac) :
    (register i a).id = i.id ∧ (register i a).kind = i.kind ∧
      (register i a).prototypes = i.prototypes ∧ (register i a).builds = i.builds := by
  unfold register; split <;> exact ⟨rfl, rfl, rfl, rfl⟩

theorem mem_register {i : Inst} {a b : Fac} :
    b ∈ (register i a).producers ↔ b ∈ i.producers ∨ b = a ∧ Produces b := by
  unfold register Produces
  split
  · rename_i h
    rw [mem_insert]
    constructor
    · rintro (h' | rfl)
      · exact Or.inl h'
      · exact Or.inr ⟨rfl, h⟩
    · rintro (h' | ⟨rfl, -⟩)
      · exact Or.inl h'
      · exact Or.inr rfl
  · rename_i h
    constructor
    · exact Or.inl
    · rintro (h' | ⟨rfl, h'⟩)
      · exact h'
      · exact absurd h' h

theorem nodup_register {i : Inst} {a : Fac} (h : i.producers.Nodup) :
    (register i a).producers.Nodup := by
  unfold register; split
  · exact nodup_insert h
  · exact h

theorem unregister_same (i : Inst) (a : Fac) :
    (unregister i a).id = i.id ∧ (unregister i a).kind = i.kind ∧
      (unregister i a).prototypes = i.prototypes ∧ (unregister i a).builds = i.builds := by
  unfold unregister; split <;> exact ⟨rfl, rfl, rfl, rfl⟩

theorem mem_unregister {i : Inst} {a b : Fac} (hi : ∀ b ∈ i.producers, Produces b) :
    b ∈ (unregister i a).producers ↔ b ∈ i.producers ∧ b ≠ a := by
  unfold unregister
  split
  · exact mem_remove
  · rename_i h
    constructor
    · intro hb
      refine ⟨hb, ?_⟩
      rintro rfl
      exact h (hi b hb)
    · exact And.left

theorem nodup_unregister {i : Inst} {a : Fac} (h : i.producers.Nodup) :
    (unregister i a).producers.Nodup := by
  unfold unregister; split
  · exact nodup_remove h
  · exact h

theorem foldl_register {l : List Fac} {i : Inst} :
    (l.foldl register i).id = i.id ∧ (l.foldl register i).kind = i.kind ∧
      (l.foldl register i).prototypes = i.prototypes ∧ (l.foldl register i).builds = i.builds ∧
      (i.producers.Nodup → (l.foldl register i).producers.Nodup) ∧
      ∀ b, b ∈ (l.foldl register i).producers ↔ b ∈ i.producers ∨ b ∈ l ∧ Produces b := by
  induction l generalizing i with
  | nil => simp
  | cons a l ih =>
    rw [List.foldl_cons]
    obtain ⟨h1, h2, h3, h4, h5, h6⟩ := ih (i := register i a)
    obtain ⟨r1, r2, r3, r4⟩ := register_same i a
    refine ⟨h1.trans r1, h2.trans r2, h3.trans r3, h4.trans r4, fun h => h5 (nodup_register h), ?_⟩
    intro b
    rw [h6, mem_register, List.mem_cons]
    tauto

theorem registerPrototypes_same {T : Protos} {ps : List String} {i j : Inst}
    (h : registerPrototypes T ps i = .ok j) :
    j.id = i.id ∧ j.kind = i.kind ∧ j.prototypes = i.prototypes ∧ j.producers = i.producers := by
  induction ps generalizing i with
  | nil =>
    simp only [registerPrototypes, Except.ok.injEq] at h
    subst h; exact ⟨rfl, rfl, rfl, rfl⟩
  | cons p ps ih =>
    unfold registerPrototypes at h
    split at h
    · simp at h
    · have := ih h
      split at this <;> exact this

theorem enterInst_spec {T : Protos} {children : List Fac} {i j : Inst} (hp : i.producers = [])
    (h : enterInst T children i = .ok j) :
    j.id = i.id ∧ j.kind = i.kind ∧ j.prototypes = i.prototypes ∧ j.producers.Nodup ∧
      ∀ a, a ∈ j.producers ↔ i.kind = .manager ∧ a ∈ children ∧ Produces a := by
  unfold enterInst at h
  split at h
  · rename_i hk
    obtain ⟨h1, h2, h3, h4⟩ := registerPrototypes_same h
    obtain ⟨f1, f2, f3, -, f5, f6⟩ := foldl_register (l := children) (i := i)
    refine ⟨h1.trans f1, h2.trans f2, h3.trans f3, ?_, fun a => ?_⟩
    · rw [h4]; exact f5 (by rw [hp]; exact List.nodup_nil)
    · rw [h4, f6, hp]; simp [hk]
  · rename_i hk
    simp only [Except.ok.injEq] at h
    subst h
    refine ⟨rfl, rfl, rfl, by rw [hp]; exact List.nodup_nil, fun a => ?_⟩
    rw [hp, hk]; simp

/-! ## The invariant -/

/-- What an institution counts. -/
def InstOk (n : Nat) (living : List (Nat × Fac)) (i : Inst) : Prop :=
  i.producers.Nodup ∧ ∀ a, a ∈ i.producers ↔
    (i.id, a) ∈ living ∧ Produces a ∧ (i.kind = .deploy → n ≤ a.id)

/-- The invariant of histories; `n` was the next free identifier at the start. -/
structure Inv (n : Nat) (w : World) : Prop where
  start : n ≤ w.next
  ids : (w.insts.map Inst.id).Nodup
  insts : ∀ i ∈ w.insts, i.id < w.next
  nodup : w.living.Nodup
  living : ∀ x ∈ w.living, x.1 ∈ w.insts.map Inst.id ∧ x.2.id < w.next
  counted : ∀ i ∈ w.insts, InstOk n w.living i
  managers : ∀ i ∈ w.insts, i.id < n → i.id ∈ w.region.managers
  early : ∀ b ∈ w.region.managers, b < n

theorem registerInst_fold {is : List Inst} {r : Reg} :
    (is.foldl registerInst r).demands = r.demands ∧
      ∀ b, b ∈ (is.foldl registerInst r).managers ↔ b ∈ r.managers ∨ b ∈ is.map Inst.id := by
  induction is generalizing r with
  | nil => simp
  | cons i is ih =>
    rw [List.foldl_cons]
    obtain ⟨h1, h2⟩ := ih (r := registerInst r i)
    refine ⟨h1, fun b => ?_⟩
    rw [h2]
    show b ∈ insert r.managers i.id ∨ _ ↔ _
    rw [mem_insert, List.map_cons, List.mem_cons]
    tauto

theorem unregisterInst_fold {is : List Inst} {r : Reg} :
    (is.foldl unregisterInst r).demands = r.demands ∧
      ∀ b, b ∈ (is.foldl unregisterInst r).managers ↔ b ∈ r.managers ∧ b ∉ is.map Inst.id := by
  induction is generalizing r with
  | nil => simp
  | cons i is ih =>
    rw [List.foldl_cons]
    obtain ⟨h1, h2⟩ := ih (r := unregisterInst r i)
    refine ⟨h1, fun b => ?_⟩
    rw [h2]
    show b ∈ remove r.managers i.id ∧ _ ↔ _
    rw [mem_remove, List.map_cons, List.mem_cons]
    tauto

theorem enterInsts_spec {T : Protos} {living : List (Nat × Fac)} {is js : List Inst}
    (hp : ∀ i ∈ is, i.producers = []) (h : enterInsts T living is = .ok js) :
    js.map Inst.id = is.map Inst.id ∧ js.map Inst.kind = is.map Inst.kind ∧
      ∀ j ∈ js, j.producers.Nodup ∧ ∀ a, a ∈ j.producers ↔
        j.kind = .manager ∧ (j.id, a) ∈ living ∧ Produces a := by
  induction is generalizing js with
  | nil =>
    simp only [enterInsts, Except.ok.injEq] at h
    subst h; simp
  | cons i is ih =>
    simp only [enterInsts, bind_ok] at h
    obtain ⟨j, hj, js', hjs, h⟩ := h
    simp only [pure_eq_ok, Except.ok.injEq] at h
    subst h
    obtain ⟨e1, e2, -, e4, e5⟩ := enterInst_spec (hp i (by simp)) hj
    obtain ⟨g1, g2, g3⟩ := ih (fun x hx => hp x (by simp [hx])) hjs
    refine ⟨by simp [e1, g1], by simp [e2, g2], ?_⟩
    intro x hx
    rcases List.mem_cons.1 hx with rfl | hx
    · refine ⟨e4, fun a => ?_⟩
      rw [e5, e1, e2]
      simp only [List.mem_map, List.mem_filter, decide_eq_true_eq, Prod.exists]
      constructor
      · rintro ⟨k, ⟨b, a', ⟨hm, rfl⟩, rfl⟩, p⟩
        exact ⟨k, hm, p⟩
      · rintro ⟨k, hm, p⟩
        exact ⟨k, ⟨i.id, a, ⟨hm, rfl⟩, rfl⟩, p⟩
    · exact g3 x hx

theorem enter_inv {c : Cfg} {T : Protos} {is : List Inst} {l : List (Nat × Fac)}
    {q : List (Nat × String)} {n : Nat} {w : World} (hs : Start is l n)
    (h : enter c T is l q n = .ok w) :
    Inv n w ∧ w.living = l ∧ w.queue = q ∧ w.next = n ∧ w.insts.map Inst.id = is.map Inst.id ∧
      w.insts.map Inst.kind = is.map Inst.kind ∧
      ∃ r, addDemands c.fn c.demand r = .ok w.region := by
  simp only [enter, bind_ok] at h
  obtain ⟨js, hj, r, hr, h⟩ := h
  simp only [pure_eq_ok, Except.ok.injEq] at h
  subst h
  obtain ⟨e1, e2, e3⟩ := enterInsts_spec (by simp) hj
  have e1' : js.map Inst.id = is.map Inst.id := by rw [e1, List.map_map]; rfl
  have e2' : js.map Inst.kind = is.map Inst.kind := by rw [e2, List.map_map]; rfl
  obtain ⟨g1, -, -⟩ := addDemands_same hr
  refine ⟨⟨le_refl n, by rw [e1']; exact hs.ids, ?_, hs.nodup, ?_, ?_, ?_, ?_⟩, rfl, rfl, rfl, e1', e2', _, hr⟩
  · intro i hi
    have : i.id ∈ is.map Inst.id := by rw [← e1']; exact List.mem_map_of_mem hi
    obtain ⟨i', hi', e⟩ := List.mem_map.1 this
    rw [← e]; exact hs.insts i' hi'
  · intro x hx
    show x.1 ∈ js.map Inst.id ∧ _
    rw [e1']; exact hs.living x hx
  · intro i hi
    obtain ⟨f1, f2⟩ := e3 i hi
    refine ⟨f1, fun a => ?_⟩
    rw [f2]
    constructor
    · rintro ⟨h1, h2, h3⟩
      exact ⟨h2, h3, fun hk => by rw [h1] at hk; cases hk⟩
    · rintro ⟨h1, h2, h3⟩
      refine ⟨?_, h1, h2⟩
      cases hk : i.kind with
      | manager => rfl
      | deploy => exact absurd (hs.living _ h1).2 (not_lt.2 (h3 hk))
  · intro i hi _
    show i.id ∈ r.managers
    rw [g1, registerInst_fold.2]
    exact Or.inr (List.mem_map_of_mem hi)
  · intro b hb
    have hb : b ∈ r.managers := hb
    rw [g1, registerInst_fold.2] at hb
    rcases hb with hb | hb
    · simp at hb
    · rw [e1'] at hb
      obtain ⟨i', hi', e⟩ := List.mem_map.1 hb
      rw [← e]; exact hs.insts i' hi'

theorem arrive_inv {T : Protos} {n : Nat} {l : List (Kind × List String)} {w w' : World}
    (I : Inv n w) (h : arrive T l w = .ok w') :
    Inv n w' ∧ w'.living = w.living ∧ w'.queue = w.queue ∧ w'.region = w.region ∧
      (∃ js, w'.insts = w.insts ++ js) ∧ (l = [] → w' = w) := by
  induction l generalizing w with
  | nil =>
    simp only [arrive, Except.ok.injEq] at h
    subst h
    exact ⟨I, rfl, rfl, rfl, ⟨[], by simp⟩, fun _ => rfl⟩
  | cons x l ih =>
    obtain ⟨k, ps⟩ := x
    simp only [arrive, bind_ok] at h
    obtain ⟨j, hj, h⟩ := h
    obtain ⟨e1, e2, -, e4, e5⟩ := enterInst_spec rfl hj
    have hfresh : ∀ a, (w.next, a) ∉ w.living := by
      intro a ha
      have := (I.living _ ha).1
      obtain ⟨i, hi, e⟩ := List.mem_map.1 this
      exact absurd (I.insts i hi) (by rw [e]; simp)
    have I' : Inv n { w with insts := w.insts ++ [j], next := w.next + 1 } := by
      refine ⟨Nat.le_succ_of_le I.start, ?_, ?_, I.nodup, ?_, ?_, ?_, I.early⟩
      · rw [List.map_append, List.nodup_append]
        refine ⟨I.ids, by simp, ?_⟩
        intro a ha b hb
        simp only [List.map_cons, List.map_nil, List.mem_singleton] at hb
        obtain ⟨i, hi, rfl⟩ := List.mem_map.1 ha
        have := I.insts i hi
        rw [hb, e1]
        exact ne_of_lt this
      · intro i hi
        rcases List.mem_append.1 hi with hi | hi
        · exact Nat.lt_succ_of_lt (I.insts i hi)
        · simp only [List.mem_singleton] at hi
          rw [hi, e1]; exact Nat.lt_succ_self _
      · intro x hx
        obtain ⟨g1, g2⟩ := I.living x hx
        exact ⟨by rw [List.map_append]; exact List.mem_append_left _ g1, Nat.lt_succ_of_lt g2⟩
      · intro i hi
        rcases List.mem_append.1 hi with hi | hi
        · exact I.counted i hi
        · simp only [List.mem_singleton] at hi
          subst hi
          refine ⟨e4, fun a => ?_⟩
          rw [e5, e1]
          constructor
          · rintro ⟨-, h, -⟩; simp at h
          · rintro ⟨h, -⟩; exact absurd h (hfresh a)
      · intro i hi hlt
        rcases List.mem_append.1 hi with hi | hi
        · exact I.managers i hi hlt
        · simp only [List.mem_singleton] at hi
          rw [hi, e1] at hlt
          exact absurd I.start (not_le.2 hlt)
    obtain ⟨f1, f2, f3, f4, ⟨js, f5⟩, -⟩ := ih I' h
    exact ⟨f1, f2, f3, f4, ⟨j :: js, by rw [f5]; simp⟩, by simp⟩

theorem map_notify {is : List Inst} {b : Nat} {f : Inst → Inst}
    (hf : ∀ i, (f i).id = i.id ∧ (f i).kind = i.kind) :
    (notify is b f).map Inst.id = is.map Inst.id ∧ (notify is b f).map Inst.kind = is.map Inst.kind := by
  unfold notify
  simp only [List.map_map]
  constructor <;>
  · apply List.map_congr_left
    intro i _
    simp only [Function.comp]
    split
    · first | exact (hf i).1 | exact (hf i).2
    · rfl

theorem mem_notify {is : List Inst} {b : Nat} {f : Inst → Inst} {j : Inst} (h : j ∈ notify is b f) :
    ∃ i ∈ is, (i.id = b ∧ j = f i) ∨ (i.id ≠ b ∧ j = i) := by
  unfold notify at h
  obtain ⟨i, hi, e⟩ := List.mem_map.1 h
  refine ⟨i, hi, ?_⟩
  split at e
  · rename_i hb; exact Or.inl ⟨hb, e.symm⟩
  · rename_i hb; exact Or.inr ⟨hb, e.symm⟩

theorem build_inv {n b : Nat} {w : World} {c : Option (List (String × ℚ))} (I : Inv n w)
    (hb : b ∈ w.insts.map Inst.id) :
    Inv n { w with insts := notify w.insts b (buildNotify · ⟨w.next, c⟩), living := w.living ++ [(b, ⟨w.next, c⟩)], next := w.next + 1 } := by
  have hf : ∀ i : Inst, (buildNotify i ⟨w.next, c⟩).id = i.id ∧ (buildNotify i ⟨w.next, c⟩).kind = i.kind :=
    fun i => ⟨(register_same i _).1, (register_same i _).2.1⟩
  obtain ⟨m1, -⟩ := map_notify (is := w.insts) (b := b) hf
  have hnew : ∀ x ∈ w.living, x ≠ (b, ⟨w.next, c⟩) := by
    rintro x hx rfl
    exact absurd (I.living _ hx).2 (lt_irrefl _)
  refine ⟨Nat.le_succ_of_le I.start, by rw [m1]; exact I.ids, ?_, ?_, ?_, ?_, ?_, I.early⟩
  · intro j hj
    obtain ⟨i, hi, ⟨-, rfl⟩ | ⟨-, rfl⟩⟩ := mem_notify hj
    · rw [(hf i).1]; exact Nat.lt_succ_of_lt (I.insts i hi)
    · exact Nat.lt_succ_of_lt (I.insts _ hi)
  · rw [List.nodup_append]
    refine ⟨I.nodup, by simp, ?_⟩
    intro x hx y hy
    simp only [List.mem_singleton] at hy
    rw [hy]; exact hnew x hx
  · intro x hx
    show x.1 ∈ (notify w.insts b _).map Inst.id ∧ x.2.id < w.next + 1
    rw [m1]
    rcases List.mem_append.1 hx with hx | hx
    · exact ⟨(I.living x hx).1, Nat.lt_succ_of_lt (I.living x hx).2⟩
    · simp only [List.mem_singleton] at hx
      rw [hx]; exact ⟨hb, Nat.lt_succ_self _⟩
  · intro j hj
    obtain ⟨i, hi, ⟨hib, rfl⟩ | ⟨hib, rfl⟩⟩ := mem_notify hj
    · obtain ⟨g1, g2⟩ := I.counted i hi
      refine ⟨nodup_register g1, fun a => ?_⟩
      rw [(hf i).1, (hf i).2]
      unfold buildNotify
      rw [mem_register, g2, List.mem_append, List.mem_singleton, hib, Prod.mk.injEq]
      constructor
      · rintro (⟨h1, h2, h3⟩ | ⟨h1, h2⟩)
        · exact ⟨Or.inl h1, h2, h3⟩
        · exact ⟨Or.inr ⟨rfl, h1⟩, h2, fun _ => by rw [h1]; exact I.start⟩
      · rintro ⟨h1 | ⟨-, h1⟩, h2, h3⟩
        · exact Or.inl ⟨h1, h2, h3⟩
        · exact Or.inr ⟨h1, h2⟩
    · obtain ⟨g1, g2⟩ := I.counted _ hi
      refine ⟨g1, fun a => ?_⟩
      rw [g2, List.mem_append, List.mem_singleton, Prod.mk.injEq]
      constructor
      · rintro ⟨h1, h2⟩; exact ⟨Or.inl h1, h2⟩
      · rintro ⟨h1 | ⟨h1, -⟩, h2⟩
        · exact ⟨h1, h2⟩
        · exact absurd h1 hib
  · intro j hj hlt
    obtain ⟨i, hi, ⟨-, rfl⟩ | ⟨-, rfl⟩⟩ := mem_notify hj
    · rw [(hf i).1] at hlt ⊢; exact I.managers i hi hlt
    · exact I.managers _ hi hlt

theorem decom_inv {n b : Nat} {a : Fac} {w : World} (I : Inv n w) :
    Inv n { w with insts := notify w.insts b (decomNotify · a), living := w.living.filter fun x => decide (x ≠ (b, a)) } := by
  have hf : ∀ i : Inst, (decomNotify i a).id = i.id ∧ (decomNotify i a).kind = i.kind :=
    fun i => ⟨(unregister_same i _).1, (unregister_same i _).2.1⟩
  obtain ⟨m1, -⟩ := map_notify (is := w.insts) (b := b) hf
  refine ⟨I.start, by rw [m1]; exact I.ids, ?_, I.nodup.filter _, ?_, ?_, ?_, I.early⟩
  · intro j hj
    obtain ⟨i, hi, ⟨-, rfl⟩ | ⟨-, rfl⟩⟩ := mem_notify hj
    · rw [(hf i).1]; exact I.insts i hi
    · exact I.insts _ hi
  · intro x hx
    show x.1 ∈ (notify w.insts b _).map Inst.id ∧ x.2.id < w.next
    rw [m1]
    exact I.living x (List.mem_filter.1 hx).1
  · intro j hj
    obtain ⟨i, hi, ⟨hib, rfl⟩ | ⟨hib, rfl⟩⟩ := mem_notify hj
    · obtain ⟨g1, g2⟩ := I.counted i hi
      refine ⟨nodup_unregister g1, fun a' => ?_⟩
      rw [(hf i).1, (hf i).2]
      unfold decomNotify
      rw [mem_unregister (fun b hb => ((g2 b).1 hb).2.1), g2, List.mem_filter, decide_eq_true_eq, hib,
        ne_eq, ne_eq, Prod.mk.injEq]
      tauto
    · obtain ⟨g1, g2⟩ := I.counted _ hi
      refine ⟨g1, fun a' => ?_⟩
      rw [g2, List.mem_filter, decide_eq_true_eq, ne_eq, Prod.mk.injEq]
      tauto
  · intro j hj hlt
    obtain ⟨i, hi, ⟨-, rfl⟩ | ⟨-, rfl⟩⟩ := mem_notify hj
    · rw [(hf i).1] at hlt ⊢; exact I.managers i hi hlt
    · exact I.managers _ hi hlt

/-- The kernel after the institution `b` has left. -/
def without (w : World) (b : Nat) : World :=
  { w with
    region := (w.insts.filter fun i => decide (i.id = b)).foldl unregisterInst w.region
    insts := w.insts.filter fun i => decide (i.id ≠ b)
    living := w.living.filter fun x => decide (x.1 ≠ b) }

theorem leave_one_inv {n b : Nat} {w : World} (I : Inv n w) : Inv n (without w b) := by
  have hids : ∀ c, c ∈ (w.insts.filter fun i => decide (i.id ≠ b)).map Inst.id ↔
      c ∈ w.insts.map Inst.id ∧ c ≠ b := by
    intro c
    simp only [List.mem_map, List.mem_filter, decide_eq_true_eq]
    constructor
    · rintro ⟨i, ⟨hi, hne⟩, rfl⟩; exact ⟨⟨i, hi, rfl⟩, hne⟩
    · rintro ⟨⟨i, hi, rfl⟩, hne⟩; exact ⟨i, ⟨hi, hne⟩, rfl⟩
  refine ⟨I.start, ?_, ?_, I.nodup.filter _, ?_, ?_, ?_, ?_⟩
  · exact I.ids.sublist (List.filter_sublist.map _)
  · intro i hi; exact I.insts i (List.mem_filter.1 hi).1
  · intro x hx
    obtain ⟨h1, h2⟩ := List.mem_filter.1 hx
    exact ⟨(hids _).2 ⟨(I.living x h1).1, by simpa using h2⟩, (I.living x h1).2⟩
  · intro i hi
    obtain ⟨h1, h2⟩ := List.mem_filter.1 hi
    obtain ⟨g1, g2⟩ := I.counted i h1
    refine ⟨g1, fun a => ?_⟩
    rw [g2]
    show _ ↔ (i.id, a) ∈ w.living.filter _ ∧ _
    rw [List.mem_filter]
    simp only [decide_eq_true_eq] at h2 ⊢
    tauto
  · intro i hi hlt
    obtain ⟨h1, h2⟩ := List.mem_filter.1 hi
    show i.id ∈ (List.foldl unregisterInst w.region _).managers
    rw [unregisterInst_fold.2]
    refine ⟨I.managers i h1 hlt, ?_⟩
    intro hm
    obtain ⟨j, hj, e⟩ := List.mem_map.1 hm
    have := (List.mem_filter.1 hj).2
    simp only [decide_eq_true_eq] at this h2
    exact h2 (by rw [← e, this])
  · intro c hc
    have hc : c ∈ (List.foldl unregisterInst w.region _).managers := hc
    rw [unregisterInst_fold.2] at hc
    exact I.early c hc.1

/-! ## The phases of a step -/

theorem doBuild_spec {T : Protos} {n : Nat} {q : List (Nat × String)} {w w' : World} (I : Inv n w)
    (h : doBuild T q w = .ok w') :
    Inv n w' ∧ w'.region = w.region ∧ w'.queue = w.queue ∧
      w'.insts.map Inst.id = w.insts.map Inst.id ∧ w'.insts.map Inst.kind = w.insts.map Inst.kind ∧
      ∃ new, w'.living = w.living ++ new ∧
        List.Forall₂ (fun (x : Nat × String) (y : Nat × Fac) =>
          y.1 = x.1 ∧ Map.get? T x.2 = some y.2.caps) q new := by
  induction q generalizing w with
  | nil =>
    simp only [doBuild, Except.ok.injEq] at h
    subst h
    exact ⟨I, rfl, rfl, rfl, rfl, [], by simp, .nil⟩
  | cons x q ih =>
    obtain ⟨b, p⟩ := x
    unfold doBuild at h
    split at h
    · simp at h
    · rename_i c hc
      split at h
      · rename_i hb
        obtain ⟨h1, h2, h3, h4, h5, new, h6, h7⟩ := ih (build_inv I hb) h
        obtain ⟨m1, m2⟩ := map_notify (is := w.insts) (b := b) (f := (buildNotify · ⟨w.next, c⟩))
          fun i => ⟨(register_same i _).1, (register_same i _).2.1⟩
        refine ⟨h1, h2, h3, h4.trans m1, h5.trans m2, (b, ⟨w.next, c⟩) :: new, ?_, ?_⟩
        · rw [h6]; simp
        · exact .cons ⟨rfl, hc⟩ h7
      · simp at h

theorem doDecom_spec {n : Nat} {l : List (Nat × Fac)} {w : World} (I : Inv n w) :
    Inv n (doDecom l w) ∧ (doDecom l w).region = w.region ∧ (doDecom l w).queue = w.queue ∧
      (doDecom l w).insts.map Inst.id = w.insts.map Inst.id ∧
      (doDecom l w).insts.map Inst.kind = w.insts.map Inst.kind ∧
      (doDecom l w).living = w.living.filter fun x => decide (x ∉ l) := by
  induction l generalizing w with
  | nil => exact ⟨I, rfl, rfl, rfl, rfl, (List.filter_eq_self.2 (by simp)).symm⟩
  | cons x l ih =>
    obtain ⟨b, a⟩ := x
    obtain ⟨h1, h2, h3, h4, h5, h6⟩ := ih (decom_inv (b := b) (a := a) I)
    obtain ⟨m1, m2⟩ := map_notify (is := w.insts) (b := b) (f := (decomNotify · a))
      fun i => ⟨(unregister_same i _).1, (unregister_same i _).2.1⟩
    unfold doDecom
    refine ⟨h1, h2, h3, h4.trans m1, h5.trans m2, h6.trans ?_⟩
    rw [List.filter_filter]
    apply List.filter_congr
    intro x _
    simp [and_comm]

theorem leave_spec {n : Nat} {l : List Nat} {w : World} (I : Inv n w) :
    Inv n (leave l w) ∧ (leave l w).region.demands = w.region.demands ∧ (leave l w).queue = w.queue ∧
      (leave l w).insts = w.insts.filter (fun i => decide (i.id ∉ l)) ∧
      (leave l w).living = w.living.filter fun x => decide (x.1 ∉ l) := by
  induction l generalizing w with
  | nil => exact ⟨I, rfl, rfl, (List.filter_eq_self.2 (by simp)).symm, (List.filter_eq_self.2 (by simp)).symm⟩
  | cons b l ih =>
    obtain ⟨h1, h2, h3, h4, h5⟩ := ih (leave_one_inv (b := b) I)
    change Inv n (leave l (without w b)) ∧ (leave l (without w b)).region.demands = _ ∧
      (leave l (without w b)).queue = _ ∧ (leave l (without w b)).insts = _ ∧
      (leave l (without w b)).living = _
    refine ⟨h1, h2.trans unregisterInst_fold.1, h3, h4.trans ?_, h5.trans ?_⟩
    · unfold without
      rw [List.filter_filter]
      apply List.filter_congr
      intro i _
      simp [Bool.and_comm]
    · unfold without
      rw [List.filter_filter]
      apply List.filter_congr
      intro i _
      simp [Bool.and_comm]

theorem orderBuilds_ok {os : List Order} {l : List (Nat × String)} :
    orderBuilds os = .ok l ↔ Castable os ∧ l = expand os := by
  induction os generalizing l with
  | nil =>
    unfold orderBuilds Castable expand
    simp only [Except.ok.injEq, List.flatMap_nil]
    constructor
    · rintro rfl; exact ⟨by simp, rfl⟩
    · rintro ⟨-, rfl⟩; rfl
  | cons o os ih =>
    obtain ⟨b, p, m⟩ := o
    unfold orderBuilds
    cases b with
    | none => simp [Castable]
    | some b =>
      cases p with
      | none => simp [Castable]
      | some p =>
        simp only [bind_ok, pure_eq_ok, Except.ok.injEq]
        constructor
        · rintro ⟨m, hm, rfl⟩
          obtain ⟨h1, rfl⟩ := ih.1 hm
          refine ⟨?_, by simp [expand]⟩
          intro o ho
          rcases List.mem_cons.1 ho with rfl | ho
          · exact ⟨rfl, rfl⟩
          · exact h1 o ho
        · rintro ⟨h1, rfl⟩
          exact ⟨expand os, ih.2 ⟨fun o ho => h1 o (by simp [ho]), rfl⟩, by simp [expand]⟩

theorem tick_spec {r : Reg} {is : List Inst} {t : ℤ} {dec : String → ℚ → List Order} {ks : List String}
    {l : List (Nat × String)} (h : tick r is t dec ks = .ok l) :
    ∃ ls, l = ls.flatten ∧ List.Forall₂ (fun k l => ∃ d, demandOf r k t = .ok d ∧
      ((d ≤ supply r is k ∧ l = []) ∨ (supply r is k < d ∧ Castable (dec k (d - supply r is k)) ∧
        l = expand (dec k (d - supply r is k))))) ks ls := by
  induction ks generalizing l with
  | nil =>
    simp only [tick, Except.ok.injEq] at h
    exact ⟨[], by simp [← h], .nil⟩
  | cons k ks ih =>
    simp only [tick, bind_ok] at h
    obtain ⟨l1, h1, l2, h2, h⟩ := h
    simp only [pure_eq_ok, Except.ok.injEq] at h
    obtain ⟨ls, e, hls⟩ := ih h2
    refine ⟨l1 :: ls, by rw [← h, e]; simp, .cons ?_ hls⟩
    simp only [tickOne, bind_ok] at h1
    obtain ⟨d, hd, h1⟩ := h1
    refine ⟨d, hd, ?_⟩
    split at h1
    · rename_i hpos
      right
      obtain ⟨g1, g2⟩ := orderBuilds_ok.1 h1
      exact ⟨by linarith, g1, g2⟩
    · rename_i hpos
      left
      simp only [pure_eq_ok, Except.ok.injEq] at h1
      exact ⟨by linarith, h1.symm⟩

/-! ## Supply -/

theorem capacity_of_not_produces {a : Fac} (h : ¬ Produces a) (k : String) : a.capacity k = 0 := by
  unfold Produces at h
  unfold Fac.capacity
  cases hc : a.caps with
  | none => rfl
  | some l => rw [hc] at h; simp at h

theorem sum_filter {α : Type} (l : List α) (p : α → Bool) (f : α → ℚ) :
    ((l.filter p).map f).sum = (l.map fun x => if p x then f x else 0).sum := by
  induction l with
  | nil => rfl
  | cons a l ih =>
    rw [List.filter_cons]
    split
    · rename_i h; simp [h, ih]
    · rename_i h; simp [h, ih]

theorem totalCapacity_eq {n : Nat} {living : List (Nat × Fac)} {i : Inst} (hn : living.Nodup)
    (h : InstOk n living i) (k : String) :
    totalCapacity i k = (living.map fun x =>
      if x.1 = i.id ∧ (i.kind = .deploy → n ≤ x.2.id) then x.2.capacity k else 0).sum := by
  obtain ⟨h1, h2⟩ := h
  have hp : i.producers.Perm ((living.filter fun x => decide (x.1 = i.id ∧ x.2.caps.isSome = true ∧
      (i.kind = .deploy → n ≤ x.2.id))).map Prod.snd) := by
    rw [List.perm_ext_iff_of_nodup h1]
    · intro a
      rw [h2]
      simp only [List.mem_map, List.mem_filter, decide_eq_true_eq, Prod.exists, Produces]
      constructor
      · rintro ⟨a1, a2, a3⟩; exact ⟨i.id, a, ⟨a1, rfl, a2, a3⟩, rfl⟩
      · rintro ⟨b, a', ⟨a1, rfl, a2, a3⟩, rfl⟩; exact ⟨a1, a2, a3⟩
    · apply List.Nodup.map_on _ (hn.filter _)
      intro x hx y hy e
      simp only [List.mem_filter, decide_eq_true_eq] at hx hy
      exact Prod.ext (hx.2.1.trans hy.2.1.symm) e
  unfold totalCapacity
  rw [(hp.map _).sum_eq, List.map_map, sum_filter]
  congr 1
  apply List.map_congr_left
  intro x _
  simp only [decide_eq_true_eq, Function.comp]
  by_cases hc : Produces x.2
  · unfold Produces at hc; simp [hc]
  · rw [capacity_of_not_produces hc]; simp

theorem sum_map_add {α : Type} (l : List α) (f g : α → ℚ) :
    (l.map fun x => f x + g x).sum = (l.map f).sum + (l.map g).sum := by
  induction l with
  | nil => simp
  | cons a l ih => simp only [List.map_cons, List.sum_cons, ih]; ring

theorem sum_unique {insts : List Inst} (hn : (insts.map Inst.id).Nodup) (b : Nat) (p : Inst → Prop)
    [DecidablePred p] (v : ℚ) :
    (insts.map fun i => if b = i.id ∧ p i then v else 0).sum =
      if insts.any (fun i => decide (i.id = b ∧ p i)) then v else 0 := by
  induction insts with
  | nil => simp
  | cons i is ih =>
    simp only [List.map_cons, List.nodup_cons] at hn
    simp only [List.map_cons, List.sum_cons, ih hn.2, List.any_cons]
    by_cases hb : b = i.id
    · have : is.any (fun i => decide (i.id = b ∧ p i)) = false := by
        rw [List.any_eq_false]
        intro j hj
        simp only [decide_eq_true_eq, not_and]
        intro e
        exact absurd (by rw [← hb, ← e]; exact List.mem_map_of_mem hj) hn.1
      simp only [this]
      by_cases hp : p i <;> simp [hb, hp]
    · have : ¬ i.id = b := fun e => hb e.symm
      simp [hb, this]

/-- The supply that the region sees is the capacity of the facilities that it sees. -/
theorem supply_eq {n : Nat} {w : World} (I : Inv n w) (k : String) :
    supply w.region w.insts k = capacityOf (w.living.filter (seen n w.insts)) k := by
  have e1 : supply w.region w.insts k = (w.insts.map fun i => (w.living.map fun x =>
      if x.1 = i.id ∧ i.id < n ∧ (i.kind = .deploy → n ≤ x.2.id) then x.2.capacity k else 0).sum).sum := by
    unfold supply
    rw [sum_filter]
    congr 1
    apply List.map_congr_left
    intro i hi
    have hm : i.id ∈ w.region.managers ↔ i.id < n := ⟨I.early _, I.managers i hi⟩
    by_cases hlt : i.id < n
    · simp only [hm, hlt, decide_true, if_true, true_and]
      exact totalCapacity_eq I.nodup (I.counted i hi) k
    · simp only [hm, hlt, decide_false, false_and, and_false, if_false]
      simp
  rw [e1]
  unfold capacityOf
  simp only [produced_eq]
  rw [sum_filter]
  generalize w.living = l
  induction l with
  | nil => simp
  | cons x l ih =>
    simp only [List.map_cons, List.sum_cons, sum_map_add]
    rw [ih, sum_unique I.ids x.1 (fun i => i.id < n ∧ (i.kind = .deploy → n ≤ x.2.id))]
    rfl

/-! ## Steps and histories -/

/-- The stages of a step: after the institutions have entered, after the builds, after the
facilities have left. -/
structure Stages (c : Cfg) (T : Protos) (t : ℤ) (w : World) (i : In) (o : Out) (w' w₁ w₂ : World) :
    Prop where
  arrive : arrive T i.arrive { w with queue := [] } = .ok w₁
  build : doBuild T (w.queue ++ i.builds) w₁ = .ok w₂
  tick : tick w₂.region w₂.insts t i.decision (c.demand.map Prod.fst) = .ok o.ordered
  living : o.living = w₂.living
  supply : o.supply = supply w₂.region w₂.insts
  last : w' = leave i.leave (doDecom i.decom { w₂ with queue := o.ordered })

theorem step_stages {c : Cfg} {T : Protos} {t : ℤ} {w w' : World} {i : In} {o : Out}
    (h : step c T t w i = .ok (o, w')) : ∃ w₁ w₂, Stages c T t w i o w' w₁ w₂ := by
  simp only [step, bind_ok] at h
  obtain ⟨w₁, h1, w₂, h2, l, h3, h⟩ := h
  simp only [pure_eq_ok, Except.ok.injEq, Prod.mk.injEq] at h
  obtain ⟨rfl, rfl⟩ := h
  exact ⟨w₁, w₂, h1, h2, h3, rfl, rfl, rfl⟩

theorem Inv.queue {n : Nat} {w : World} (I : Inv n w) (q : List (Nat × String)) :
    Inv n { w with queue := q } :=
  ⟨I.start, I.ids, I.insts, I.nodup, I.living, I.counted, I.managers, I.early⟩

theorem step_inv {c : Cfg} {T : Protos} {n : Nat} {t : ℤ} {w w' : World} {i : In} {o : Out}
    (I : Inv n w) (h : step c T t w i = .ok (o, w')) :
    Inv n w' ∧ w'.region.demands = w.region.demands ∧ w'.queue = o.ordered ∧
      w'.living = survivors i o.living := by
  obtain ⟨w₁, w₂, S⟩ := step_stages h
  obtain ⟨a1, a2, a3, a4, -⟩ := arrive_inv (I.queue []) S.arrive
  obtain ⟨b1, b2, b3, -⟩ := doBuild_spec a1 S.build
  obtain ⟨d1, d2, d3, d4, d5, d6⟩ := doDecom_spec (l := i.decom) (b1.queue o.ordered)
  obtain ⟨l1, l2, l3, l4, l5⟩ := leave_spec (l := i.leave) d1
  rw [S.last]
  refine ⟨l1, ?_, l3.trans d3, ?_⟩
  · rw [l2, d2]
    show w₂.region.demands = _
    rw [b2, a4]
  · rw [l5, d6, S.living]
    unfold survivors
    rw [List.filter_filter]
    apply List.filter_congr
    intro x _
    simp [and_comm]

theorem run_inv {c : Cfg} {T : Protos} {n : Nat} {t : ℤ} {w w' : World} {is : List In} {os : List Out}
    (I : Inv n w) (h : run c T t w is = .ok (os, w')) :
    Inv n w' ∧ w'.region.demands = w.region.demands := by
  induction is generalizing w t os with
  | nil =>
    simp only [run, Except.ok.injEq, Prod.mk.injEq] at h
    obtain ⟨-, rfl⟩ := h
    exact ⟨I, rfl⟩
  | cons i is ih =>
    simp only [run, bind_ok] at h
    obtain ⟨⟨o, w₁⟩, h1, ⟨os', w₂⟩, h2, h⟩ := h
    simp only [pure_eq_ok, Except.ok.injEq, Prod.mk.injEq] at h
    obtain ⟨-, rfl⟩ := h
    obtain ⟨I1, e1, -⟩ := step_inv I h1
    obtain ⟨I2, e2⟩ := ih I1 h2
    exact ⟨I2, e2.trans e1⟩

end Cyc.Region
