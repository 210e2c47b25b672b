import Verif.Reactor.Spec

/-!
# Exact effect of the reactor's operations on well-formed states

Under the invariant `Good` every operation returns `ok` with an explicitly given state.
-/

namespace Cyc.Reactor

/-- A buffer for `n` assemblies that holds at most `n`, all of the right size. -/
structure BufOK (c : Cfg) (n : Nat) (b : Buf Assem) : Prop where
  cap : b.cap = some (n * c.assemSize)
  size : ∀ a ∈ b.items, a.qty = c.assemSize
  count : b.items.length ≤ n

theorem BufOK.quantity {c : Cfg} {n : Nat} {b : Buf Assem} (h : BufOK c n b) :
    b.quantity = b.items.length * c.assemSize :=
  totalQty_const h.size

theorem BufOK.fits {c : Cfg} {n : Nat} {b : Buf Assem} (h : BufOK c n b) (hs : 0 < c.assemSize)
    (he : 0 ≤ c.eps) {k : Nat} (hk : b.items.length + k ≤ n) :
    b.fits c.eps (k * c.assemSize) = true := by
  unfold Buf.fits Buf.space
  rw [h.cap, h.quantity]
  simp only [Option.map_some, decide_eq_true_eq]
  have h1 : ((b.items.length : ℚ) + k) ≤ n := by exact_mod_cast hk
  have h2 : (b.items.length + (k : ℚ)) * c.assemSize ≤ n * c.assemSize :=
    mul_le_mul_of_nonneg_right h1 hs.le
  have h3 := le_max_right (0 : ℚ) (n * c.assemSize - b.items.length * c.assemSize)
  nlinarith

theorem BufOK.pushAll {c : Cfg} {n : Nat} {b : Buf Assem} (h : BufOK c n b)
    (hs : 0 < c.assemSize) (he : 0 ≤ c.eps) {l : List Assem} (hl : ∀ a ∈ l, a.qty = c.assemSize)
    (hk : b.items.length + l.length ≤ n) :
    b.pushAll c.eps l = .ok { b with items := b.items ++ l } := by
  rw [Buf.pushAll_ok]
  refine ⟨?_, rfl⟩
  rw [totalQty_const (q := c.assemSize) hl]
  exact h.fits hs he hk

theorem BufOK.push {c : Cfg} {n : Nat} {b : Buf Assem} (h : BufOK c n b)
    (hs : 0 < c.assemSize) (he : 0 ≤ c.eps) {a : Assem} (ha : a.qty = c.assemSize)
    (hk : b.items.length + 1 ≤ n) :
    b.push c.eps a = .ok { b with items := b.items ++ [a] } := by
  rw [Buf.push_ok]
  refine ⟨?_, rfl⟩
  have := h.fits hs he (k := 1) hk
  simpa [qty, ha] using this

/-- The state invariant of a well-formed reactor in an honest market. -/
structure Good (c : Cfg) (s : State) : Prop where
  fresh : BufOK c c.nFresh s.fresh
  core : BufOK c c.nCore s.core
  spent : BufOK c c.nSpent s.spent
  nodup : ((held s).map Assem.id).Nodup
  idx : ∀ a ∈ held s, s.resIdx a.id < c.inCommods.length
  prefs : s.prefs.length = c.inCommods.length
  inRecipes : s.inRecipes.length = c.inCommods.length
  outRecipes : s.outRecipes.length = c.inCommods.length
  knownIn : ∀ r ∈ s.inRecipes, (c.recipe r).isSome
  knownOut : ∀ r ∈ s.outRecipes, (c.recipe r).isSome
  named : ∀ (j : Nat) (k r : String), c.inCommods[j]? = some k → s.inRecipes[j]? = some r → Names c k r

/-- Recording a row does not affect the invariant. -/
theorem Good.record {c : Cfg} {s : State} (h : Good c s) (r : Rec) : Good c (s.record r) :=
  ⟨h.fresh, h.core, h.spent, h.nodup, h.idx, h.prefs, h.inRecipes, h.outRecipes, h.knownIn,
    h.knownOut, h.named⟩

/-- The composition the output recipe in force gives an assembly. -/
def outComp (c : Cfg) (s : State) (a : Assem) : Nat :=
  ((s.outRecipes[s.resIdx a.id]?).bind c.recipe).getD 0

/-- An assembly after transmutation. -/
def burn (c : Cfg) (s : State) (a : Assem) : Assem := { a with comp := outComp c s a }

theorem outRecipe_ok {c : Cfg} {s : State} (h : Good c s) {a : Assem}
    (ha : s.resIdx a.id < c.inCommods.length) :
    ∃ name, fuelOutRecipe s a = .ok name ∧ getRecipe c name = .ok (outComp c s a) := by
  have hlt : s.resIdx a.id < s.outRecipes.length := by rw [h.outRecipes]; exact ha
  have hk := h.knownOut s.outRecipes[s.resIdx a.id] (List.getElem_mem hlt)
  obtain ⟨k, hk⟩ := Option.isSome_iff_exists.1 hk
  refine ⟨s.outRecipes[s.resIdx a.id], ?_, ?_⟩
  · simp [fuelOutRecipe, hlt]
  · simp [getRecipe, hk, outComp, hlt]

theorem transmuteLoop_ok {c : Cfg} {s : State} (h : Good c s) (old : List Assem) :
    ∀ (done rest : List Assem), ((done ++ old ++ rest).map Assem.id).Nodup →
      (∀ a ∈ old, s.resIdx a.id < c.inCommods.length) →
      transmuteLoop c s old (done ++ old ++ rest) = .ok (done ++ old.map (burn c s) ++ rest) := by
  induction old with
  | nil => intro done rest _ _; simp [transmuteLoop]
  | cons a old ih =>
    intro done rest hnd hidx
    obtain ⟨name, h1, h2⟩ := outRecipe_ok h (hidx a (by simp))
    simp only [transmuteLoop, h1, h2, ok_bind]
    have hobj : transmuteObj (done ++ (a :: old) ++ rest) a (outComp c s a) =
        (done ++ [burn c s a]) ++ old ++ rest := by
      simp only [List.map_append, List.map_cons, List.append_assoc, List.cons_append,
        List.nodup_append, List.nodup_cons, List.mem_map, List.mem_append, List.mem_cons] at hnd
      obtain ⟨_, ⟨hn1, _⟩, hd⟩ := hnd
      have e1 : done.map (fun x => if x.id = a.id then { x with comp := outComp c s a } else x)
          = done := by
        conv_rhs => rw [← List.map_id done]
        apply List.map_congr_left
        intro x hx
        have := hd x.id ⟨x, hx, rfl⟩ a.id (by simp)
        simp [this]
      have e2 : ∀ l : List Assem, (∀ x ∈ l, x.id ≠ a.id) →
          l.map (fun x => if x.id = a.id then { x with comp := outComp c s a } else x) = l := by
        intro l hl
        conv_rhs => rw [← List.map_id l]
        apply List.map_congr_left
        intro x hx
        simp [hl x hx]
      unfold transmuteObj
      simp only [List.map_append, List.map_cons, e1, if_true]
      rw [e2 old, e2 rest]
      · simp [burn]
      · intro x hx he; exact hn1 (Or.inr ⟨x, hx, he⟩)
      · intro x hx he; exact hn1 (Or.inl ⟨x, hx, he⟩)
    rw [hobj, ih (done ++ [burn c s a]) rest _ (fun x hx => hidx x (by simp [hx]))]
    · simp
    · simpa [burn] using hnd

/-- The exact effect of `Transmute(n)`. -/
theorem transmute_ok {c : Cfg} (hw : WellFormed c) {s : State} (h : Good c s) (n : Nat) :
    transmute c n s = .ok { s.record (.transmute (min n s.core.items.length)) with
      core := { s.core with
        items := (s.core.items.take n).map (burn c s) ++ s.core.items.drop n } } := by
  have hcore := h.core
  set k := min n s.core.items.length with hk
  have hkle : k ≤ s.core.items.length := by omega
  have htake : s.core.items.take k = s.core.items.take n := by
    rw [hk, List.take_eq_take_iff]; omega
  have hdrop : s.core.items.drop k = s.core.items.drop n := by
    rcases le_total n s.core.items.length with hl | hl
    · rw [hk, min_eq_left hl]
    · rw [hk, min_eq_right hl, List.drop_eq_nil_of_le le_rfl, List.drop_eq_nil_of_le hl]
  have hsz : ∀ l : List Assem, l.Sublist s.core.items → ∀ a ∈ l, a.qty = c.assemSize :=
    fun l hl a ha => hcore.size a (hl.subset ha)
  have hpop : s.core.popN (min n s.core.count) =
      .ok (s.core.items.take k, { s.core with items := s.core.items.drop k }) :=
    Buf.popN_ok.2 ⟨hkle, rfl⟩
  have hb1 : BufOK c c.nCore { s.core with items := s.core.items.drop k } :=
    ⟨hcore.cap, hsz _ (List.drop_sublist _ _), by
      have := hcore.count; simp only [List.length_drop]; omega⟩
  have hlen : (s.core.items.take k).length = k := by simp [hkle]
  have hpush : ({ s.core with items := s.core.items.drop k } : Buf Assem).pushAll c.eps
      (s.core.items.take k) =
      .ok { s.core with items := s.core.items.drop k ++ s.core.items.take k } :=
    hb1.pushAll hw.assemSize hw.eps (hsz _ (List.take_sublist _ _)) (by
      have := hcore.count; simp only [List.length_drop, hlen]; omega)
  have hcount : ({ s.core with items := s.core.items.drop k ++ s.core.items.take k } :
      Buf Assem).count = s.core.items.length := by
    simp only [Buf.count, List.length_append, List.length_drop, hlen]; omega
  have hloop : transmuteLoop c (s.record (.transmute k)) (s.core.items.take k)
      (s.core.items.take k ++ s.core.items.drop k) =
      .ok ((s.core.items.take k).map (burn c s) ++ s.core.items.drop k) := by
    have := transmuteLoop_ok (h.record (.transmute k)) (s.core.items.take k) []
      (s.core.items.drop k) (by
        simp only [List.nil_append, List.take_append_drop]
        have := h.nodup
        simp only [held, List.map_append] at this
        exact (List.nodup_append.1 (List.nodup_append.1 this).1).2.1)
      (fun a ha => h.idx a (by
        simp only [held, List.mem_append]
        exact Or.inl (Or.inr (List.mem_of_mem_take ha))))
    exact this
  unfold transmute
  rw [hpop]
  simp only [ok_bind]
  rw [hpush]
  simp only [ok_bind, hcount, hlen]
  by_cases hlt : s.core.items.length > k
  · have hpop2 : ({ s.core with items := s.core.items.drop k ++ s.core.items.take k } :
        Buf Assem).popN (s.core.items.length - k) =
        .ok (s.core.items.drop k, { s.core with items := s.core.items.take k }) := by
      rw [Buf.popN_ok]
      refine ⟨by simp only [List.length_append, List.length_drop, hlen]; omega, ?_⟩
      have : (s.core.items.drop k).length = s.core.items.length - k := by simp
      rw [← this, List.take_left, List.drop_left]
    have hpush2 : ({ s.core with items := s.core.items.take k } : Buf Assem).pushAll c.eps
        (s.core.items.drop k) =
        .ok { s.core with items := s.core.items.take k ++ s.core.items.drop k } := by
      have hb2 : BufOK c c.nCore { s.core with items := s.core.items.take k } :=
        ⟨hcore.cap, hsz _ (List.take_sublist _ _), by
          have := hcore.count; simp only [hlen]; omega⟩
      refine hb2.pushAll hw.assemSize hw.eps (hsz _ (List.drop_sublist _ _)) ?_
      have := hcore.count; simp only [hlen, List.length_drop]; omega
    simp only [hlt, if_true, hpop2, hpush2, ok_bind, hloop, pure_eq_ok]
    simp only [State.record, ← htake, ← hdrop]
  · have hke : k = s.core.items.length := by omega
    have hd : s.core.items.drop k = [] := by rw [hke]; simp
    simp only [if_neg hlt, pure_eq_ok, ok_bind]
    rw [hd, List.nil_append]
    rw [hd, List.append_nil] at hloop
    simp only [hloop, ok_bind]
    simp only [State.record, ← htake, ← hdrop, hd]

/-! ## Moving assemblies around -/

/-- The invariant survives any rearrangement of the held assemblies within the limits. -/
theorem Good.move {c : Cfg} {s s' : State} (h : Good c s) (hf : BufOK c c.nFresh s'.fresh)
    (hc : BufOK c c.nCore s'.core) (hs : BufOK c c.nSpent s'.spent)
    (hp : ((held s').map Assem.id).Perm ((held s).map Assem.id))
    (hi : s'.resIdx = s.resIdx) (h1 : s'.prefs = s.prefs) (h2 : s'.inRecipes = s.inRecipes)
    (h3 : s'.outRecipes = s.outRecipes) : Good c s' := by
  refine ⟨hf, hc, hs, hp.nodup_iff.2 h.nodup, ?_, by rw [h1, h.prefs], by rw [h2, h.inRecipes],
    by rw [h3, h.outRecipes], by rw [h2]; exact h.knownIn, by rw [h3]; exact h.knownOut,
    by rw [h2]; exact h.named⟩
  intro a ha
  have hm : a.id ∈ (held s).map Assem.id := hp.subset (List.mem_map_of_mem ha)
  obtain ⟨b, hb, he⟩ := List.mem_map.1 hm
  rw [hi, ← he]
  exact h.idx b hb

theorem BufOK.take {c : Cfg} {n : Nat} {b : Buf Assem} (h : BufOK c n b) (k : Nat) :
    BufOK c n { b with items := b.items.take k } :=
  ⟨h.cap, fun a ha => h.size a (List.mem_of_mem_take ha), by
    have := h.count; simp only [List.length_take]; omega⟩

theorem BufOK.drop {c : Cfg} {n : Nat} {b : Buf Assem} (h : BufOK c n b) (k : Nat) :
    BufOK c n { b with items := b.items.drop k } :=
  ⟨h.cap, fun a ha => h.size a (List.mem_of_mem_drop ha), by
    have := h.count; simp only [List.length_drop]; omega⟩

theorem BufOK.append {c : Cfg} {n : Nat} {b : Buf Assem} (h : BufOK c n b) {l : List Assem}
    (hl : ∀ a ∈ l, a.qty = c.assemSize) (hk : b.items.length + l.length ≤ n) :
    BufOK c n { b with items := b.items ++ l } :=
  ⟨h.cap, fun a ha => by
    rcases List.mem_append.1 ha with ha | ha
    · exact h.size a ha
    · exact hl a ha, by simpa using hk⟩

theorem Good.transmute {c : Cfg} {s : State} (h : Good c s) (n : Nat) (r : Rec) :
    Good c { s.record r with
      core := { s.core with
        items := (s.core.items.take n).map (burn c s) ++ s.core.items.drop n } } := by
  refine h.move h.fresh ⟨h.core.cap, ?_, ?_⟩ h.spent ?_ rfl rfl rfl rfl
  · intro a ha
    simp only [List.mem_append, List.mem_map] at ha
    rcases ha with ⟨b, hb, rfl⟩ | ha
    · exact h.core.size b (List.mem_of_mem_take hb)
    · exact h.core.size a (List.mem_of_mem_drop ha)
  · have := h.core.count
    simp only [List.length_append, List.length_map, List.length_take, List.length_drop]; omega
  · have : ((s.core.items.take n).map (burn c s) ++ s.core.items.drop n).map Assem.id =
        s.core.items.map Assem.id := by
      rw [List.map_append, List.map_map]
      have e : (Assem.id ∘ burn c s) = Assem.id := rfl
      rw [e, ← List.map_append, List.take_append_drop]
    simp only [held, List.map_append, State.record] at this ⊢
    rw [this]

/-! ## Grouping by commodity -/

/-- The output commodity of an assembly. -/
def outCommodOf (c : Cfg) (s : State) (a : Assem) : String :=
  c.outCommods.getD (s.resIdx a.id) ""

theorem fuelOutCommod_ok {c : Cfg} (hw : WellFormed c) {s : State} {a : Assem}
    (h : s.resIdx a.id < c.inCommods.length) :
    fuelOutCommod c s a = .ok (outCommodOf c s a) := by
  have : s.resIdx a.id < c.outCommods.length := by rw [hw.outCommods]; exact h
  simp [fuelOutCommod, outCommodOf, this]

/-- All items of a grouped map, group by group. -/
def flat (m : SMap (List Assem)) : List Assem := m.flatMap Prod.snd

theorem flat_modify (k : String) (a : Assem) (m : SMap (List Assem)) :
    (flat (SMap.modify [] k (· ++ [a]) m)).Perm (flat m ++ [a]) := by
  induction m with
  | nil => simp [flat, SMap.modify]
  | cons p m ih =>
    obtain ⟨k', v⟩ := p
    unfold SMap.modify
    split
    · simp only [flat, List.flatMap_cons, List.append_assoc]
      exact List.Perm.append_left _ List.perm_append_comm
    · split
      · simp only [flat, List.flatMap_cons, List.nil_append, ← List.append_assoc]
        rw [List.append_assoc]
        exact List.perm_append_comm
      · simp only [flat, List.flatMap_cons, List.append_assoc]
        exact List.Perm.append_left _ ih

theorem groupByCommod_ok {c : Cfg} (hw : WellFormed c) {s : State} (l : List Assem) :
    ∀ m : SMap (List Assem), SMap.Sorted m → (∀ a ∈ l, s.resIdx a.id < c.inCommods.length) →
      ∃ m', groupByCommod c s l m = .ok m' ∧ SMap.Sorted m' ∧ (flat m').Perm (flat m ++ l) ∧
        ∀ k, m'.get [] k = m.get [] k ++ l.filter (fun a => outCommodOf c s a = k) := by
  induction l with
  | nil => intro m hm _; exact ⟨m, rfl, hm, by simp, by simp⟩
  | cons a l ih =>
    intro m hm hidx
    obtain ⟨m', h1, h2, h3, h4⟩ := ih (SMap.modify [] (outCommodOf c s a) (· ++ [a]) m)
      (SMap.sorted_modify hm) (fun x hx => hidx x (by simp [hx]))
    refine ⟨m', ?_, h2, ?_, ?_⟩
    · simp [groupByCommod, fuelOutCommod_ok hw (hidx a (by simp)), h1]
    · refine h3.trans ?_
      have := (flat_modify (outCommodOf c s a) a m).append_right l
      simpa using this
    · intro k
      rw [h4, SMap.get_modify hm]
      by_cases hk : k = outCommodOf c s a
      · subst hk; simp
      · have : ¬ outCommodOf c s a = k := fun h => hk h.symm
        simp [hk, this]

/-- The held spent fuel of one output commodity, oldest first. -/
def spentOf (c : Cfg) (s : State) (k : String) : List Assem :=
  s.spent.items.filter fun a => outCommodOf c s a = k

theorem mem_held_spent {s : State} {a : Assem} (h : a ∈ s.spent.items) : a ∈ held s := by
  simp [held, h]

theorem mem_held_core {s : State} {a : Assem} (h : a ∈ s.core.items) : a ∈ held s := by
  simp [held, h]

theorem mem_held_fresh {s : State} {a : Assem} (h : a ∈ s.fresh.items) : a ∈ held s := by
  simp [held, h]

theorem peekSpent_ok {c : Cfg} (hw : WellFormed c) {s : State} (h : Good c s) :
    ∃ m, peekSpent c s = .ok (m, s) ∧ ∀ k, m.get [] k = spentOf c s k := by
  obtain ⟨m, h1, _, _, h4⟩ := groupByCommod_ok hw (s := s) s.spent.items []
    (by simp [SMap.Sorted, SMap.keys]) (fun a ha => h.idx a (mem_held_spent ha))
  refine ⟨m, ?_, fun k => by rw [h4]; simp [SMap.get, spentOf]⟩
  have hpop : s.spent.popN s.spent.count = .ok (s.spent.items, { s.spent with items := [] }) := by
    rw [Buf.popN_ok]; exact ⟨le_rfl, by simp [Buf.count]⟩
  have hb : BufOK c c.nSpent { s.spent with items := [] } :=
    ⟨h.spent.cap, by simp, by simp⟩
  have hpush := hb.pushAll hw.assemSize hw.eps h.spent.size (by simpa using h.spent.count)
  unfold peekSpent
  simp only [hpop, ok_bind, hpush, List.nil_append, h1, pure_eq_ok]

/-- The supply row written by `Discharge` for one commodity. -/
def supplyRec (c : Cfg) (s : State) (k : String) : Rec := .supply k (totalQty (spentOf c s k))

theorem Good.withLog {c : Cfg} {s : State} (h : Good c s) (l : List Rec) :
    Good c { s with log := l } :=
  ⟨h.fresh, h.core, h.spent, h.nodup, h.idx, h.prefs, h.inRecipes, h.outRecipes, h.knownIn,
    h.knownOut, h.named⟩

theorem recordSupply_ok {c : Cfg} (hw : WellFormed c) (ks : List String) :
    ∀ {s : State}, Good c s →
      recordSupply c ks s = .ok { s with log := s.log ++ ks.map (supplyRec c s) } := by
  induction ks with
  | nil => intro s _; simp [recordSupply]
  | cons k ks ih =>
    intro s h
    obtain ⟨m, h1, h2⟩ := peekSpent_ok hw h
    simp only [recordSupply, h1, ok_bind, h2]
    have := ih (h.record (supplyRec c s k))
    rw [supplyRec] at this
    rw [this]
    simp only [State.record, List.append_assoc, List.singleton_append, List.map_cons]
    rfl

/-- The state after a discharge of the oldest `n` assemblies. -/
def dischargedState (c : Cfg) (n : Nat) (s : State) : State :=
  let s1 := { s with core := { s.core with items := s.core.items.drop n }
                     spent := { s.spent with items := s.spent.items ++ s.core.items.take n } }
  { s1 with log := s.log ++ .discharge n :: c.outCommods.map (supplyRec c s1) }

theorem Good.dischargedState {c : Cfg} {s : State} (h : Good c s) {n : Nat}
    (hn : s.spent.items.length + n ≤ c.nSpent) : Good c (dischargedState c n s) := by
  refine h.move h.fresh (h.core.drop n)
    (h.spent.append (fun a ha => h.core.size a (List.mem_of_mem_take ha)) ?_) ?_ rfl rfl rfl rfl
  · simp only [List.length_take]; omega
  · refine List.Perm.map _ ?_
    simp only [held, Reactor.dischargedState, List.append_assoc]
    refine List.Perm.append_left _ ?_
    have e := List.take_append_drop n s.core.items
    calc s.core.items.drop n ++ (s.spent.items ++ s.core.items.take n)
        |>.Perm (s.core.items.drop n ++ (s.core.items.take n ++ s.spent.items)) :=
          List.Perm.append_left _ List.perm_append_comm
      _ |>.Perm ((s.core.items.take n ++ s.core.items.drop n) ++ s.spent.items) := by
          rw [← List.append_assoc]; exact List.Perm.append_right _ List.perm_append_comm
      _ |>.Perm (s.core.items ++ s.spent.items) := by rw [e]

/-- Whether spent storage has room for the next batch. -/
def roomFor (c : Cfg) (s : State) : Prop :=
  s.spent.items.length + min c.nBatch s.core.items.length ≤ c.nSpent

instance (c : Cfg) (s : State) : Decidable (roomFor c s) := by unfold roomFor; infer_instance

/-- The exact effect of `Discharge`. -/
theorem discharge_ok {c : Cfg} (hw : WellFormed c) {s : State} (h : Good c s) :
    discharge c s = .ok (if roomFor c s
      then (true, dischargedState c (min c.nBatch s.core.items.length) s)
      else (false, s.record .dischargeFailed)) := by
  unfold discharge
  set n := min c.nBatch s.core.items.length with hn
  have hn' : min c.nBatch s.core.count = n := rfl
  simp only [hn']
  by_cases hr : roomFor c s
  · have hr' : s.spent.items.length + n ≤ c.nSpent := hr
    have : ¬ ((c.nSpent : ℤ) - s.spent.count < (n : ℤ)) := by
      simp only [Buf.count]; omega
    rw [if_neg this, if_pos hr]
    have hpop : (s.record (.discharge n)).core.popN n =
        .ok (s.core.items.take n, { s.core with items := s.core.items.drop n }) :=
      Buf.popN_ok.2 ⟨by simp only [State.record]; omega, rfl⟩
    have hpush : (s.record (.discharge n)).spent.pushAll c.eps (s.core.items.take n) =
        .ok { s.spent with items := s.spent.items ++ s.core.items.take n } :=
      h.spent.pushAll hw.assemSize hw.eps
        (fun a ha => h.core.size a (List.mem_of_mem_take ha)) (by
          simp only [List.length_take]; omega)
    simp only [hpop, hpush, ok_bind]
    have hg := (h.dischargedState hr').withLog (s.log ++ [.discharge n])
    have := recordSupply_ok hw c.outCommods hg
    simp only [dischargedState] at this
    simp only [State.record]
    rw [this]
    simp only [ok_bind, pure_eq_ok, dischargedState, List.append_assoc, List.singleton_append]
    rfl
  · have hr' : ¬ s.spent.items.length + n ≤ c.nSpent := hr
    have : (c.nSpent : ℤ) - s.spent.count < (n : ℤ) := by
      simp only [Buf.count]; omega
    rw [if_pos this, if_neg hr]

end Cyc.Reactor
