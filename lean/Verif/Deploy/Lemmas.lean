import Verif.Deploy.Spec
import Std.Data.String.ToInt

/-!
# Lemmas about the deployment schedule of `DeployInst`
-/

namespace Cyc.Deploy

/-! ## Names -/

/-- The end of the name of a prototype with lifetime `l`. -/
def suf (l : ℤ) : List Char := if l = -1 then "forever".toList else (toString l).toList

theorem nameFor_toList (p : String) (l : ℤ) :
    (nameFor p l).toList = (p.toList ++ "_life".toList) ++ '_' :: suf l := by
  unfold nameFor suf
  split
  · simp [String.toList_append]
  · simp [String.toList_append]

theorem isDigit_of_mem_repr {n : Nat} {ch : Char} (h : ch ∈ n.repr.toList) : ch.isDigit = true := by
  rw [Nat.toList_repr] at h
  exact Nat.isDigit_of_mem_toDigits (by decide) (by decide) h

theorem mem_toString_int {l : ℤ} {ch : Char} (h : ch ∈ (toString l).toList) :
    ch.isDigit = true ∨ ch = '-' := by
  rw [Int.toString_eq_repr, Int.repr_eq_if] at h
  split at h
  · exact Or.inl (isDigit_of_mem_repr h)
  · rw [String.toList_append, List.mem_append] at h
    rcases h with h | h
    · right; simpa using h
    · exact Or.inl (isDigit_of_mem_repr h)

theorem not_mem_suf (l : ℤ) : '_' ∉ suf l := by
  unfold suf
  split
  · decide
  · intro h
    rcases mem_toString_int h with h | h
    · revert h; decide
    · revert h; decide

theorem suf_inj {l m : ℤ} (h : suf l = suf m) : l = m := by
  have key : ∀ k : ℤ, "forever".toList ≠ (toString k).toList := by
    intro k e
    have : 'f' ∈ (toString k).toList := by rw [← e]; decide
    rcases mem_toString_int this with h | h
    · revert h; decide
    · revert h; decide
  unfold suf at h
  split at h <;> split at h
  · omega
  · exact absurd h (key m)
  · exact absurd h.symm (key l)
  · rw [String.toList_inj, Int.toString_eq_repr, Int.toString_eq_repr] at h
    exact Int.repr_injective h

theorem last_split {α : Type} {x : α} {a a' b b' : List α} (hb : x ∉ b) (hb' : x ∉ b')
    (h : a ++ x :: b = a' ++ x :: b') : a = a' ∧ b = b' := by
  rcases List.append_eq_append_iff.1 h with ⟨l, h1, h2⟩ | ⟨l, h1, h2⟩
  · cases l with
    | nil => simp at h1 h2; exact ⟨h1.symm, h2⟩
    | cons y l =>
      simp only [List.cons_append, List.cons.injEq] at h2
      exact absurd (by rw [h2.2]; simp) hb
  · cases l with
    | nil => simp at h1 h2; exact ⟨h1, h2.symm⟩
    | cons y l =>
      simp only [List.cons_append, List.cons.injEq] at h2
      exact absurd (by rw [h2.2]; simp) hb'

theorem nameFor_inj {p q : String} {l m : ℤ} (h : nameFor p l = nameFor q m) : p = q ∧ l = m := by
  have h' : (nameFor p l).toList = (nameFor q m).toList := by rw [h]
  rw [nameFor_toList, nameFor_toList] at h'
  obtain ⟨h1, h2⟩ := last_split (not_mem_suf l) (not_mem_suf m) h'
  exact ⟨String.toList_inj.1 (List.append_cancel_right h1), suf_inj h2⟩

theorem suffixed_nameFor (p : String) (l : ℤ) : Suffixed p (nameFor p l) := by
  unfold nameFor
  split
  · exact Or.inl rfl
  · exact Or.inr ⟨l, rfl⟩

/-! ## The prototypes that names stand for -/

/-- In the table `T'`, which the institutions have extended from `T`, `name` stands for `P`: an
original prototype of the schedules, or one with another lifetime. -/
def Resolves (T : List (String × Proto)) (names : List String) (T' : List (String × Proto))
    (name : String) (P : Proto) : Prop :=
  (name ∈ names ∧ Map.get? T name = some P) ∨
    ∃ p ∈ names, ∃ l q, name = nameFor p l ∧ Map.get? T p = some q ∧
      P = { q with lifetime := l } ∧ Map.get? T' name = some P

/-- The originals are untouched. -/
def Kept (T : List (String × Proto)) (names : List String) (T' : List (String × Proto)) : Prop :=
  ∀ p ∈ names, Map.get? T' p = Map.get? T p

/-- The names that were registered by the current call. -/
def SeenOk (T : List (String × Proto)) (names : List String) (T' : List (String × Proto))
    (seen : List String) : Prop :=
  ∀ n ∈ seen, ∃ p ∈ names, ∃ l q, n = nameFor p l ∧ Map.get? T p = some q ∧
    Map.get? T' n = some { q with lifetime := l }

theorem Resolves.get {T T' : List (String × Proto)} {names : List String} {name : String} {P : Proto}
    (h : Resolves T names T' name P) (k : Kept T names T') : Map.get? T' name = some P := by
  rcases h with ⟨h1, h2⟩ | ⟨p, _, l, q, _, _, _, h⟩
  · rw [k _ h1, h2]
  · exact h

/-- The extension of the table by one new prototype. -/
theorem set_ok {T T' : List (String × Proto)} {names : List String}
    (hp : ∀ p ∈ names, ∀ q ∈ names, ¬ Suffixed p q) (k : Kept T names T') {p : String} {l : ℤ}
    {q : Proto} (hn : p ∈ names) (hq : Map.get? T p = some q) :
    Kept T names (Map.set T' (nameFor p l) { q with lifetime := l }) ∧
      ∀ name P, Resolves T names T' name P →
        Resolves T names (Map.set T' (nameFor p l) { q with lifetime := l }) name P := by
  constructor
  · intro a ha
    rw [Map.get?_set_ne, k a ha]
    rintro rfl
    exact hp p hn _ ha (suffixed_nameFor p l)
  · rintro name P (⟨h1, h2⟩ | ⟨p', hp', l', q', rfl, h2, h3, h4⟩)
    · exact Or.inl ⟨h1, h2⟩
    · refine Or.inr ⟨p', hp', l', q', rfl, h2, h3, ?_⟩
      rw [Map.get?_set]
      split
      · rename_i e
        obtain ⟨rfl, rfl⟩ := nameFor_inj e
        rw [h2] at hq
        simp only [Option.some.injEq] at hq
        rw [h3, hq]
      · exact h4

theorem choose_spec {T : List (String × Proto)} {names : List String} {d : Inst} {i : Nat}
    {p name : String} {seen seen' : List String} {x x' : Ctx}
    (hp : ∀ p ∈ names, ∀ q ∈ names, ¬ Suffixed p q) (hn : p ∈ names)
    (hT : ∃ q, Map.get? T p = some q) (hc : d.lifetimes = [] ∨ d.lifetimes.length = d.prototypes.length)
    (k : Kept T names x.protos) (ks : SeenOk T names x.protos seen)
    (h : choose d i p seen x = .ok (name, seen', x')) :
    x'.queue = x.queue ∧ x'.time = x.time ∧ x'.unique = x.unique ∧ Kept T names x'.protos ∧
      SeenOk T names x'.protos seen' ∧
      (∀ n P, Resolves T names x.protos n P → Resolves T names x'.protos n P) ∧
      ∃ q, Map.get? T p = some q ∧ Resolves T names x'.protos name (withLife q d.lifetimes[i]?) := by
  obtain ⟨q, hq⟩ := hT
  unfold choose at h
  split at h
  · rename_i hl
    simp only [bind_ok] at h
    obtain ⟨a, ha, l, hl', h⟩ := h
    have ha' : a = q := by
      unfold createAgent at ha
      rw [k p hn, hq] at ha
      simpa using ha.symm
    subst ha'
    have hl' : d.lifetimes[i]? = some l := at!_ok.1 hl'
    split at h
    · simp only [bind_ok, register] at h
      obtain ⟨⟨sn, y⟩, hr, h⟩ := h
      simp only [pure_eq_ok, Except.ok.injEq, Prod.mk.injEq] at h
      obtain ⟨rfl, rfl, rfl⟩ := h
      split at hr
      · rename_i hs
        simp only [Except.ok.injEq, Prod.mk.injEq] at hr
        obtain ⟨rfl, rfl⟩ := hr
        refine ⟨rfl, rfl, rfl, k, ks, fun _ _ h => h, a, hq, ?_⟩
        obtain ⟨p', hp', l', q', e, h2, h3⟩ := ks _ hs
        obtain ⟨rfl, rfl⟩ := nameFor_inj e
        rw [hq] at h2
        simp only [Option.some.injEq] at h2
        subst h2
        exact Or.inr ⟨p, hn, l, a, rfl, hq, by rw [hl']; rfl, by rw [hl']; exact h3⟩
      · simp only [bind_ok, addPrototype] at hr
        obtain ⟨z, hz, hr⟩ := hr
        simp only [pure_eq_ok, Except.ok.injEq, Prod.mk.injEq] at hr
        obtain ⟨rfl, rfl⟩ := hr
        split at hz
        · simp at hz
        · simp only [Except.ok.injEq] at hz
          subst hz
          obtain ⟨s1, s2⟩ := set_ok (l := l) hp k hn hq
          refine ⟨rfl, rfl, rfl, s1, ?_, s2, a, hq, ?_⟩
          · intro n hn'
            rcases List.mem_cons.1 hn' with rfl | hn'
            · exact ⟨p, hn, l, a, rfl, hq, by simp⟩
            · obtain ⟨p', hp', l', q', rfl, h2, h3⟩ := ks n hn'
              have := s2 (nameFor p' l') _ (Or.inr ⟨p', hp', l', q', rfl, h2, rfl, h3⟩)
              exact ⟨p', hp', l', q', rfl, h2, this.get s1⟩
          · exact Or.inr ⟨p, hn, l, a, rfl, hq, by rw [hl']; rfl, by rw [hl']; simp [withLife]⟩
    · rename_i he
      simp only [pure_eq_ok, Except.ok.injEq, Prod.mk.injEq] at h
      obtain ⟨rfl, rfl, rfl⟩ := h
      refine ⟨rfl, rfl, rfl, k, ks, fun _ _ h => h, a, hq, Or.inl ⟨hn, ?_⟩⟩
      simp only [ne_eq, not_not] at he
      rw [hl', hq, ← he]
      rfl
  · rename_i hl
    simp only [Except.ok.injEq, Prod.mk.injEq] at h
    obtain ⟨rfl, rfl, rfl⟩ := h
    have : d.lifetimes = [] := by tauto
    refine ⟨rfl, rfl, rfl, k, ks, fun _ _ h => h, q, hq, Or.inl ⟨hn, ?_⟩⟩
    rw [this]
    exact hq

/-- The kernel after `n` builds of the same kind were scheduled. -/
def queued (x : Ctx) (id : Nat) (name : String) (t : ℤ) (n : Nat) : Ctx :=
  { x with queue := x.queue ++ List.replicate n ⟨id, name, t⟩ }

theorem queued_one (x : Ctx) (id : Nat) (name : String) (t : ℤ) (n : Nat) :
    queued (queued x id name t 1) id name t n = queued x id name t (n + 1) := by
  simp [queued, List.replicate_succ]

theorem schedBuild_eq (x : Ctx) (id : Nat) (name : String) (t : ℤ) : schedBuild x id name t =
    if due x.time t ≤ x.time then .error .value else .ok (queued x id name (due x.time t) 1) := rfl

theorem schedMany_spec {id : Nat} {name : String} {t : ℤ} {n : Nat} {x x' : Ctx}
    (h : schedMany id name t n x = .ok x') :
    x' = queued x id name (due x.time t) n := by
  induction n generalizing x with
  | zero =>
    simp only [schedMany, Except.ok.injEq] at h
    subst h; simp [queued]
  | succ n ih =>
    simp only [schedMany, bind_ok, schedBuild_eq] at h
    obtain ⟨y, hy, h⟩ := h
    split at hy
    · simp at hy
    · simp only [Except.ok.injEq] at hy
      subst hy
      rw [ih h]
      exact queued_one _ _ _ _ _

/-! ## The queue -/

/-- What a queued build stands for. -/
def Stands (T : List (String × Proto)) (names : List String) (T' : List (String × Proto))
    (b : Build) (a : Nat × Proto × ℤ) : Prop :=
  b.parent = a.1 ∧ Resolves T names T' b.proto a.2.1 ∧ b.time = a.2.2

/-- The agents of an entry with their times. -/
def agentsOf (T : List (String × Proto)) (now : ℤ) (id : Nat) (e : Entry) : List (Nat × Proto × ℤ) :=
  match Map.get? T e.proto with
  | some p => List.replicate e.number.toNat (id, withLife p e.life, due now e.time)
  | none => []

theorem entries_get {d : Inst} {i : Nat} {p : String} {t n : ℤ} (h1 : d.prototypes[i]? = some p)
    (h2 : d.buildTimes[i]? = some t) (h3 : d.nBuild[i]? = some n) :
    (entries d)[i]? = some ⟨p, t, n, d.lifetimes[i]?⟩ := by
  unfold entries
  have e : (d.prototypes.zip (d.buildTimes.zip d.nBuild))[i]? = some (p, t, n) := by
    rw [List.getElem?_zip_eq_some]
    exact ⟨h1, List.getElem?_zip_eq_some.2 ⟨h2, h3⟩⟩
  rw [List.getElem?_map, List.getElem?_zipIdx, e]
  simp

theorem forall₂_replicate {α β : Type} {r : α → β → Prop} {a : α} {b : β} (h : r a b) (n : Nat) :
    List.Forall₂ r (List.replicate n a) (List.replicate n b) := by
  induction n with
  | zero => exact .nil
  | succ n ih => exact .cons h ih

theorem forall₂_imp {α β : Type} {r r' : α → β → Prop} {a : List α} {b : List β}
    (hr : ∀ a b, r a b → r' a b) (h : List.Forall₂ r a b) : List.Forall₂ r' a b := by
  induction h with
  | nil => exact .nil
  | cons h _ ih => exact .cons (hr _ _ h) ih

theorem forall₂_append {α β : Type} {r : α → β → Prop} {a c : List α} {b d : List β}
    (h : List.Forall₂ r a b) (h' : List.Forall₂ r c d) : List.Forall₂ r (a ++ c) (b ++ d) := by
  induction h with
  | nil => exact h'
  | cons h _ ih => exact .cons h ih

theorem buildLoop_spec {T : List (String × Proto)} {names : List String} {d : Inst}
    (hp : ∀ p ∈ names, ∀ q ∈ names, ¬ Suffixed p q) (hc : Consistent d) {ps : List String} {i : Nat}
    {seen : List String} {x x' : Ctx} (hps : ps = d.prototypes.drop i)
    (hn : ∀ p ∈ ps, p ∈ names ∧ ∃ q, Map.get? T p = some q) (k : Kept T names x.protos)
    (ks : SeenOk T names x.protos seen) {as : List (Nat × Proto × ℤ)}
    (hq : List.Forall₂ (Stands T names x.protos) x.queue as)
    (h : buildLoop d ps i seen x = .ok x') :
    x'.time = x.time ∧ x'.unique = x.unique ∧ Kept T names x'.protos ∧
      List.Forall₂ (Stands T names x'.protos) x'.queue
        (as ++ ((entries d).drop i).flatMap (agentsOf T x.time d.id)) := by
  induction ps generalizing i seen x as with
  | nil =>
    simp only [buildLoop, Except.ok.injEq] at h
    subst h
    have hle : d.prototypes.length ≤ i := by
      by_contra hlt
      have := congrArg List.length hps
      simp at this; omega
    have : (entries d).drop i = [] := by
      apply List.drop_eq_nil_of_le
      unfold entries
      simp; omega
    rw [this]
    exact ⟨rfl, rfl, k, by simpa using hq⟩
  | cons p ps ih =>
    simp only [buildLoop, bind_ok] at h
    obtain ⟨⟨name, seen', y⟩, h1, t, h2, n, h3, z, h4, h⟩ := h
    have hi : i < d.prototypes.length := by
      have := congrArg List.length hps
      simp at this; omega
    rw [List.drop_eq_getElem_cons hi, List.cons.injEq] at hps
    have hp0 : d.prototypes[i]? = some p := by rw [List.getElem?_eq_getElem hi, hps.1]
    obtain ⟨hn1, hT⟩ := hn p (by simp)
    obtain ⟨c1, c2, c3, c4, c5, c6, q, c7, c8⟩ := choose_spec hp hn1 hT hc.2.2 k ks h1
    have e := schedMany_spec h4
    have he := entries_get hp0 (at!_ok.1 h2) (at!_ok.1 h3)
    have hlt : i < (entries d).length := (List.getElem?_eq_some_iff.1 he).1
    have hd : (entries d).drop i = ⟨p, t, n, d.lifetimes[i]?⟩ :: (entries d).drop (i + 1) := by
      rw [List.drop_eq_getElem_cons hlt]
      rw [List.getElem?_eq_getElem hlt, Option.some.injEq] at he
      rw [he]
    subst e
    obtain ⟨f1, f2, f3, f4⟩ := ih (i := i + 1) (seen := seen')
      (x := queued y d.id name (due y.time t) n.toNat)
      (as := as ++ agentsOf T x.time d.id ⟨p, t, n, d.lifetimes[i]?⟩) hps.2
      (fun a ha => hn a (by simp [ha])) c4 c5 (by
        show List.Forall₂ _ (y.queue ++ _) _
        rw [c1]
        apply forall₂_append
        · exact forall₂_imp (fun b a ⟨g1, g2, g3⟩ => ⟨g1, c6 _ _ g2, g3⟩) hq
        · unfold agentsOf
          simp only [c7]
          exact forall₂_replicate ⟨rfl, c8, by rw [c2]⟩ _) h
    refine ⟨f1.trans c2, f2.trans c3, f3, ?_⟩
    rw [hd, List.flatMap_cons, ← List.append_assoc]
    have e : (queued y d.id name (due y.time t) n.toNat).time = x.time := c2
    rw [e] at f4
    exact f4

theorem enter_ok {d : Inst} (h : enter d = .ok ()) : Consistent d := by
  unfold enter at h
  split at h
  · simp at h
  · split at h
    · simp at h
    · split at h
      · simp at h
      · rename_i h1 h2 h3
        refine ⟨not_not.1 h1, not_not.1 h2, ?_⟩
        by_cases hl : d.lifetimes = []
        · exact Or.inl hl
        · right
          have : d.lifetimes.length > 0 := List.length_pos_iff.2 hl
          by_contra hne
          exact h3 ⟨this, hne⟩

theorem deploy_ok {d : Inst} {x x' : Ctx} : deploy d x = .ok x' ↔ build d x = .ok x' ∧ enter d = .ok () := by
  simp only [deploy, bind_ok, pure_eq_ok, Except.ok.injEq]
  constructor
  · rintro ⟨y, h1, _, h2, rfl⟩; exact ⟨h1, h2⟩
  · rintro ⟨h1, h2⟩; exact ⟨x', h1, (), h2, rfl⟩

theorem deployAll_spec {T : List (String × Proto)} {names : List String} {ds : List Inst}
    (hp : ∀ p ∈ names, ∀ q ∈ names, ¬ Suffixed p q) {x x' : Ctx}
    (hn : ∀ d ∈ ds, ∀ p ∈ d.prototypes, p ∈ names ∧ ∃ q, Map.get? T p = some q)
    (k : Kept T names x.protos) {as : List (Nat × Proto × ℤ)}
    (hq : List.Forall₂ (Stands T names x.protos) x.queue as)
    (h : deployAll ds x = .ok x') :
    Kept T names x'.protos ∧ List.Forall₂ (Stands T names x'.protos) x'.queue
      (as ++ ds.flatMap fun d => (entries d).flatMap (agentsOf T x.time d.id)) := by
  induction ds generalizing x as with
  | nil =>
    simp only [deployAll, Except.ok.injEq] at h
    subst h
    exact ⟨k, by simpa using hq⟩
  | cons d ds ih =>
    simp only [deployAll, bind_ok] at h
    obtain ⟨y, h1, h⟩ := h
    obtain ⟨h1, h2⟩ := deploy_ok.1 h1
    obtain ⟨e1, -, e3, e4⟩ := buildLoop_spec (i := 0) hp (enter_ok h2) rfl
      (fun p hpm => hn d (by simp) p (by simpa using hpm)) k (by intro n hn; simp at hn) hq h1
    obtain ⟨f1, f2⟩ := ih (fun a ha => hn a (by simp [ha])) e3 e4 h
    refine ⟨f1, ?_⟩
    rw [List.flatMap_cons, ← List.append_assoc]
    simpa only [e1, List.drop_zero] using f2

theorem createAll_spec {T : List (String × Proto)} {names : List String} {x : Ctx}
    (k : Kept T names x.protos) {bs : List Build} {as : List (Nat × Proto × ℤ)}
    (h : List.Forall₂ (Stands T names x.protos) bs as) (t : ℤ) :
    createAll x (bs.filter fun b => decide (b.time = t)) =
      .ok ((as.filter fun a => decide (a.2.2 = t)).map fun a => (a.1, a.2.1)) := by
  induction h with
  | nil => rfl
  | cons hab _ ih =>
    obtain ⟨h1, h2, h3⟩ := hab
    rw [List.filter_cons, List.filter_cons, h3]
    split
    · simp only [createAll, createAgent, h2.get k, ih, ok_bind, pure_eq_ok, List.map_cons, h1]
    · exact ih

theorem planned_eq (T : List (String × Proto)) (now t : ℤ) (d : Inst) :
    planned T now t d =
      (((entries d).flatMap (agentsOf T now d.id)).filter fun a => decide (a.2.2 = t)).map
        fun a => (a.1, a.2.1) := by
  unfold planned
  induction entries d with
  | nil => rfl
  | cons e es ih =>
    simp only [List.flatMap_cons, List.map_append, List.filter_append] at ih ⊢
    rw [ih]
    congr 1
    unfold agents agentsOf
    cases Map.get? T e.proto with
    | none => simp
    | some p =>
      by_cases ht : due now e.time = t
      · simp [ht]
      · simp [ht]

theorem flatMap_filter_map {α β γ : Type} (l : List α) (f : α → List β) (p : β → Bool) (g : β → γ) :
    ((l.flatMap f).filter p).map g = l.flatMap fun a => ((f a).filter p).map g := by
  induction l with
  | nil => rfl
  | cons a l ih => simp [List.flatMap_cons, ih]

/-! ## Success -/

theorem schedMany_ok {id : Nat} {name : String} {t : ℤ} {n : Nat} {x : Ctx}
    (h : 0 < n → x.time < due x.time t) :
    schedMany id name t n x =
      .ok (queued x id name (due x.time t) n) := by
  induction n generalizing x with
  | zero => simp [schedMany, queued]
  | succ n ih =>
    have h0 := h (Nat.succ_pos n)
    have e : schedBuild x id name t = .ok (queued x id name (due x.time t) 1) := by
      rw [schedBuild_eq, if_neg (by omega)]
    simp only [schedMany, e, ok_bind]
    rw [ih (x := queued x id name (due x.time t) 1) (fun _ => h0)]
    exact congrArg _ (queued_one _ _ _ _ _)

theorem choose_ok {T : List (String × Proto)} {names : List String} {d : Inst} {i : Nat}
    {p : String} {seen : List String} {x : Ctx} {q : Proto} (hn : p ∈ names)
    (hq : Map.get? T p = some q) (hi : d.prototypes[i]? = some p) (k : Kept T names x.protos)
    (hu : x.unique = true → ∀ l, d.lifetimes[i]? = some l → q.lifetime ≠ l →
      nameFor p l ∈ seen ∨ Map.get? x.protos (nameFor p l) = none) :
    ∃ name seen' x', choose d i p seen x = .ok (name, seen', x') ∧
      (∀ m ∈ seen, m ∈ seen') ∧
      (∀ m, Map.get? x.protos m = none → m ∈ seen' ∨ Map.get? x'.protos m = none) ∧
      (∀ m ∈ seen', m ∈ seen ∨ ∃ l, d.lifetimes[i]? = some l ∧ q.lifetime ≠ l ∧ m = nameFor p l) := by
  unfold choose
  split
  · rename_i hl
    have hlt : i < d.lifetimes.length := by
      rw [hl]; exact (List.getElem?_eq_some_iff.1 hi).1
    have h1 : createAgent x p = .ok q := by unfold createAgent; rw [k p hn, hq]
    have h2 : at! d.lifetimes i = .ok d.lifetimes[i] := at!_ok.2 (List.getElem?_eq_getElem hlt)
    have h3 : d.lifetimes[i]? = some d.lifetimes[i] := List.getElem?_eq_getElem hlt
    rw [h1, ok_bind, h2, ok_bind]
    split
    · rename_i hne
      unfold register
      split
      · exact ⟨_, _, _, rfl, fun _ h => h, fun _ h => Or.inr h, fun _ h => Or.inl h⟩
      · rename_i hs
        have h4 : addPrototype x (nameFor p d.lifetimes[i]) { q with lifetime := d.lifetimes[i] } =
            .ok ⟨Map.set x.protos (nameFor p d.lifetimes[i]) { q with lifetime := d.lifetimes[i] },
              x.queue, x.time, x.unique⟩ := by
          unfold addPrototype
          rw [if_neg]
          intro hb
          rw [Bool.and_eq_true] at hb
          rcases hu hb.1 _ h3 hne with h | h
          · exact hs h
          · rw [h] at hb; simp at hb
        rw [h4]
        refine ⟨_, _, _, rfl, fun _ h => List.mem_cons_of_mem _ h, fun m hm => ?_, fun m hm => ?_⟩
        · by_cases e : nameFor p d.lifetimes[i] = m
          · left; rw [e]; simp
          · right; exact (Map.get?_set_ne e _).trans hm
        · rcases List.mem_cons.1 hm with rfl | hm
          · exact Or.inr ⟨_, h3, hne, rfl⟩
          · exact Or.inl hm
    · exact ⟨_, _, _, rfl, fun _ h => h, fun _ h => Or.inr h, fun _ h => Or.inl h⟩
  · exact ⟨_, _, _, rfl, fun _ h => h, fun _ h => Or.inr h, fun _ h => Or.inl h⟩

/-- The prototype of an entry gets another lifetime, and the name `m`. -/
def Renamed (T : List (String × Proto)) (e : Entry) (m : String) : Prop :=
  ∃ q l, Map.get? T e.proto = some q ∧ e.life = some l ∧ q.lifetime ≠ l ∧ m = nameFor e.proto l

theorem buildLoop_ok {T : List (String × Proto)} {names : List String} {d : Inst}
    (hp : ∀ p ∈ names, ∀ q ∈ names, ¬ Suffixed p q) (hc : Consistent d) {ps : List String} {i : Nat}
    {seen : List String} {x : Ctx} (hps : ps = d.prototypes.drop i)
    (hn : ∀ p ∈ ps, p ∈ names ∧ ∃ q, Map.get? T p = some q) (k : Kept T names x.protos)
    (ks : SeenOk T names x.protos seen)
    (hf : ∀ e ∈ (entries d).drop i, 0 < e.number → x.time < due x.time e.time)
    (hu : x.unique = true → ∀ e ∈ (entries d).drop i, ∀ m, Renamed T e m →
      m ∈ seen ∨ Map.get? x.protos m = none) :
    ∃ x', buildLoop d ps i seen x = .ok x' ∧ ∀ m, Map.get? x.protos m = none →
      Map.get? x'.protos m = none ∨ m ∈ seen ∨ ∃ e ∈ entries d, Renamed T e m := by
  induction ps generalizing i seen x with
  | nil => exact ⟨x, rfl, fun m h => Or.inl h⟩
  | cons p ps ih =>
    have hi : i < d.prototypes.length := by
      have := congrArg List.length hps
      simp at this; omega
    rw [List.drop_eq_getElem_cons hi, List.cons.injEq] at hps
    have hp0 : d.prototypes[i]? = some p := by rw [List.getElem?_eq_getElem hi, hps.1]
    obtain ⟨hn1, q, hq⟩ := hn p (by simp)
    have hi2 : i < d.buildTimes.length := by rw [hc.1]; exact hi
    have hi3 : i < d.nBuild.length := by rw [hc.2.1]; exact hi
    have h2 : at! d.buildTimes i = .ok d.buildTimes[i] := at!_ok.2 (List.getElem?_eq_getElem hi2)
    have h3 : at! d.nBuild i = .ok d.nBuild[i] := at!_ok.2 (List.getElem?_eq_getElem hi3)
    have he := entries_get hp0 (at!_ok.1 h2) (at!_ok.1 h3)
    have hlt : i < (entries d).length := (List.getElem?_eq_some_iff.1 he).1
    have hd : (entries d).drop i =
        ⟨p, d.buildTimes[i], d.nBuild[i], d.lifetimes[i]?⟩ :: (entries d).drop (i + 1) := by
      rw [List.drop_eq_getElem_cons hlt]
      rw [List.getElem?_eq_getElem hlt, Option.some.injEq] at he
      rw [he]
    have hmem := List.mem_of_getElem? he
    obtain ⟨name, seen', y, h1, g1, g2, g3⟩ := choose_ok (seen := seen) hn1 hq hp0 k (by
      intro hx l hl hne
      exact hu hx ⟨p, d.buildTimes[i], d.nBuild[i], d.lifetimes[i]?⟩ (by rw [hd]; simp) _
        ⟨q, l, hq, hl, hne, rfl⟩)
    obtain ⟨c1, c2, c3, c4, c5, c6, -⟩ := choose_spec hp hn1 ⟨q, hq⟩ hc.2.2 k ks h1
    have h4 := schedMany_ok (id := d.id) (name := name) (t := d.buildTimes[i])
      (n := d.nBuild[i].toNat) (x := y) (by
        intro hpos
        rw [c2]
        exact hf ⟨p, d.buildTimes[i], d.nBuild[i], d.lifetimes[i]?⟩ (by rw [hd]; simp)
          (by show 0 < d.nBuild[i]; omega))
    obtain ⟨x', hx', hk⟩ := ih (i := i + 1) (seen := seen')
      (x := queued y d.id name (due y.time d.buildTimes[i]) d.nBuild[i].toNat) hps.2 (fun a ha => hn a (by simp [ha])) c4 c5
      (by
        intro e he'
        show _ → y.time < due y.time _
        rw [c2]
        exact hf e (by rw [hd]; exact List.mem_cons_of_mem _ he'))
      (by
        intro hx e he' m hm
        rcases hu (c3 ▸ hx) e (by rw [hd]; exact List.mem_cons_of_mem _ he') m hm with h | h
        · exact Or.inl (g1 m h)
        · exact g2 m h)
    refine ⟨x', ?_, ?_⟩
    · simp only [buildLoop, h1, ok_bind, h2, h3, h4]
      exact hx'
    · have back : ∀ m ∈ seen', m ∈ seen ∨ ∃ e ∈ entries d, Renamed T e m := by
        intro m hs
        rcases g3 m hs with h | ⟨l, hl, hne, rfl⟩
        · exact Or.inl h
        · exact Or.inr ⟨_, hmem, q, l, hq, hl, hne, rfl⟩
      intro m hm
      rcases g2 m hm with h | h
      · exact Or.inr (back m h)
      · rcases hk m h with h | h | h
        · exact Or.inl h
        · exact Or.inr (back m h)
        · exact Or.inr (Or.inr h)

theorem enter_of {d : Inst} (h : Consistent d) : enter d = .ok () := by
  obtain ⟨h1, h2, h3⟩ := h
  unfold enter
  rw [if_neg (by simp [h1]), if_neg (by simp [h2]), if_neg]
  rintro ⟨h4, h5⟩
  rcases h3 with h3 | h3
  · rw [h3] at h4; simp at h4
  · exact h5 h3

theorem deployAll_ok {T : List (String × Proto)} {names : List String} {ds : List Inst}
    (hp : ∀ p ∈ names, ∀ q ∈ names, ¬ Suffixed p q) {x : Ctx}
    (hn : ∀ d ∈ ds, ∀ p ∈ d.prototypes, p ∈ names ∧ ∃ q, Map.get? T p = some q)
    (hc : ∀ d ∈ ds, Consistent d) (hf : ∀ d ∈ ds, Future x.time d)
    (k : Kept T names x.protos) {as : List (Nat × Proto × ℤ)}
    (hq : List.Forall₂ (Stands T names x.protos) x.queue as)
    (hu : x.unique = true →
      (∀ d ∈ ds, ∀ e ∈ entries d, ∀ m, Renamed T e m → Map.get? x.protos m = none) ∧
      ds.Pairwise fun d d' => ∀ e ∈ entries d, ∀ e' ∈ entries d', ∀ m,
        Renamed T e m → ¬ Renamed T e' m) :
    ∃ x', deployAll ds x = .ok x' := by
  induction ds generalizing x as with
  | nil => exact ⟨x, rfl⟩
  | cons d ds ih =>
    obtain ⟨y, hy, hk⟩ := buildLoop_ok (i := 0) (seen := []) hp (hc d (by simp)) rfl
      (fun p hpm => hn d (by simp) p (by simpa using hpm)) k (by intro n hn; simp at hn)
      (fun e he => hf d (by simp) e (by simpa using he))
      (fun hx e he m hm => Or.inr ((hu hx).1 d (by simp) e (by simpa using he) m hm))
    obtain ⟨e1, e2, e3, e4⟩ := buildLoop_spec (i := 0) hp (hc d (by simp)) rfl
      (fun p hpm => hn d (by simp) p (by simpa using hpm)) k (by intro n hn; simp at hn) hq hy
    obtain ⟨x', hx'⟩ := ih (x := y) (fun a ha => hn a (by simp [ha])) (fun a ha => hc a (by simp [ha]))
      (fun a ha => by rw [e1]; exact hf a (by simp [ha])) e3 e4 (by
        intro hx
        obtain ⟨u1, u2⟩ := hu (e2 ▸ hx)
        rw [List.pairwise_cons] at u2
        refine ⟨fun a ha e he m hm => ?_, u2.2⟩
        rcases hk m (u1 a (by simp [ha]) e he m hm) with h | h | ⟨e', he', h⟩
        · exact h
        · simp at h
        · exact absurd hm (u2.1 a ha e' he' e he m h))
    refine ⟨x', ?_⟩
    have : deploy d x = .ok y := deploy_ok.2 ⟨hy, enter_of (hc d (by simp))⟩
    simp only [deployAll, this, ok_bind, hx']

end Cyc.Deploy
