import Verif.Reactor.Lemmas

/-!
# Exact effect of the reactor's operations, continued: loading, retirement, schedules, `Tick`
-/

namespace Cyc.Reactor

/-! ## `Load` -/

/-- The number of assemblies `Load` moves. -/
def nLoad (c : Cfg) (s : State) : Nat := min (c.nCore - s.core.items.length) s.fresh.items.length

/-- The state after `Load`. -/
def loadedState (c : Cfg) (s : State) : State :=
  if nLoad c s = 0 then s
  else { s.record (.load (nLoad c s)) with
    fresh := { s.fresh with items := s.fresh.items.drop (nLoad c s) }
    core := { s.core with items := s.core.items ++ s.fresh.items.take (nLoad c s) } }

theorem load_ok {c : Cfg} (hw : WellFormed c) {s : State} (h : Good c s) :
    load c s = .ok (loadedState c s) := by
  have hc := h.core.count
  have hn : min ((c.nCore : ℤ) - s.core.count) s.fresh.count = (nLoad c s : ℤ) := by
    simp only [Buf.count, nLoad]; omega
  unfold load loadedState
  simp only [hn]
  by_cases h0 : nLoad c s = 0
  · simp [h0]
  · have h1 : ¬ ((nLoad c s : ℤ) = 0) := by exact_mod_cast h0
    have h2 : ¬ ((nLoad c s : ℤ) < 0) := by omega
    rw [if_neg h1, if_neg h2, if_neg h0]
    have hle : nLoad c s ≤ s.fresh.items.length := by unfold nLoad; omega
    have hpop : (s.record (.load (nLoad c s))).fresh.popN (nLoad c s) =
        .ok (s.fresh.items.take (nLoad c s),
          { s.fresh with items := s.fresh.items.drop (nLoad c s) }) :=
      Buf.popN_ok.2 ⟨hle, rfl⟩
    have hpush : (s.record (.load (nLoad c s))).core.pushAll c.eps
        (s.fresh.items.take (nLoad c s)) =
        .ok { s.core with items := s.core.items ++ s.fresh.items.take (nLoad c s) } :=
      h.core.pushAll hw.assemSize hw.eps
        (fun a ha => h.fresh.size a (List.mem_of_mem_take ha)) (by
          simp only [List.length_take, nLoad]; omega)
    simp only [Int.toNat_natCast, hpop, hpush, ok_bind, pure_eq_ok]

theorem Good.loadedState {c : Cfg} {s : State} (h : Good c s) : Good c (loadedState c s) := by
  unfold Reactor.loadedState
  split
  · exact h
  · have hc := h.core.count
    refine h.move (h.fresh.drop _)
      (h.core.append (fun a ha => h.fresh.size a (List.mem_of_mem_take ha)) ?_) h.spent ?_
      rfl rfl rfl rfl
    · simp only [List.length_take, nLoad]; omega
    · refine List.Perm.map _ ?_
      simp only [held, State.record]
      refine List.Perm.append_right _ ?_
      have e := List.take_append_drop (nLoad c s) s.fresh.items
      calc s.fresh.items.drop (nLoad c s) ++ (s.core.items ++ s.fresh.items.take (nLoad c s))
          |>.Perm (s.fresh.items.drop (nLoad c s) ++
              (s.fresh.items.take (nLoad c s) ++ s.core.items)) :=
            List.Perm.append_left _ List.perm_append_comm
        _ |>.Perm ((s.fresh.items.take (nLoad c s) ++ s.fresh.items.drop (nLoad c s)) ++
              s.core.items) := by
            rw [← List.append_assoc]; exact List.Perm.append_right _ List.perm_append_comm
        _ |>.Perm (s.fresh.items ++ s.core.items) := by rw [e]

/-! ## The loops of a retired reactor -/

/-- What the retired discharge loop can do to a state: move a prefix of the core to the spent
storage and write rows about it. -/
structure Drained (c : Cfg) (s s' : State) : Prop where
  moved : ∃ j, s'.core.items = s.core.items.drop j ∧
    s'.spent.items = s.spent.items ++ s.core.items.take j
  coreCap : s'.core.cap = s.core.cap
  spentCap : s'.spent.cap = s.spent.cap
  rest : s'.time = s.time ∧ s'.fresh = s.fresh ∧ s'.cycleStep = s.cycleStep ∧
    s'.discharged = s.discharged ∧ s'.inRecipes = s.inRecipes ∧ s'.outRecipes = s.outRecipes ∧
    s'.prefs = s.prefs ∧ s'.resIdx = s.resIdx ∧ s'.hybrid = s.hybrid
  log : ∃ l, s'.log = s.log ++ l ∧
    ∀ r ∈ l, (∃ n, r = .discharge n) ∨ r = .dischargeFailed ∨ ∃ k q, r = .supply k q

theorem drained_record (c : Cfg) (s : State) : Drained c s (s.record .dischargeFailed) :=
  ⟨⟨0, by simp [State.record]⟩, rfl, rfl, ⟨rfl, rfl, rfl, rfl, rfl, rfl, rfl, rfl, rfl⟩,
    ⟨[.dischargeFailed], rfl, by simp⟩⟩

theorem drained_refl (c : Cfg) (s : State) : Drained c s s :=
  ⟨⟨0, by simp⟩, rfl, rfl, ⟨rfl, rfl, rfl, rfl, rfl, rfl, rfl, rfl, rfl⟩, ⟨[], by simp, by simp⟩⟩

theorem drained_discharged (c : Cfg) (n : Nat) (s : State) :
    Drained c s (dischargedState c n s) :=
  ⟨⟨n, rfl, rfl⟩, rfl, rfl, ⟨rfl, rfl, rfl, rfl, rfl, rfl, rfl, rfl, rfl⟩,
    ⟨_, rfl, by
      intro r hr
      simp only [List.mem_cons, List.mem_map] at hr
      rcases hr with rfl | ⟨k, _, rfl⟩
      · exact Or.inl ⟨n, rfl⟩
      · exact Or.inr (Or.inr ⟨_, _, rfl⟩)⟩⟩

theorem Drained.trans {c : Cfg} {s s' s'' : State} (h : Drained c s s') (h' : Drained c s' s'') :
    Drained c s s'' := by
  obtain ⟨⟨j, a1, a2⟩, b, d, ⟨e1, e2, e3, e4, e5, e6, e7, e8, e9⟩, l, l1, l2⟩ := h
  obtain ⟨⟨j', a1', a2'⟩, b', d', ⟨e1', e2', e3', e4', e5', e6', e7', e8', e9'⟩, l', l1', l2'⟩ := h'
  refine ⟨⟨j + j', ?_, ?_⟩, b'.trans b, d'.trans d, ⟨e1'.trans e1, e2'.trans e2, e3'.trans e3,
    e4'.trans e4, e5'.trans e5, e6'.trans e6, e7'.trans e7, e8'.trans e8, e9'.trans e9⟩,
    l ++ l', ?_, ?_⟩
  · rw [a1', a1, List.drop_drop]
  · rw [a2', a2, a1, List.take_add, List.append_assoc]
  · rw [l1', l1, List.append_assoc]
  · intro r hr
    rcases List.mem_append.1 hr with hr | hr
    · exact l2 r hr
    · exact l2' r hr

theorem dischargeAll_ok {c : Cfg} (hw : WellFormed c) (fuel : Nat) :
    ∀ {s : State}, Good c s → s.core.items.length ≤ fuel →
      ∃ s', dischargeAll c fuel s = .ok s' ∧ Good c s' ∧ Drained c s s' ∧
        (s'.core.items = [] ∨ ¬ roomFor c s') := by
  induction fuel with
  | zero =>
    intro s h hl
    have : s.core.items = [] := List.eq_nil_of_length_eq_zero (by omega)
    exact ⟨s, by simp [dischargeAll, Buf.count, this], h, drained_refl c s, Or.inl this⟩
  | succ fuel ih =>
    intro s h hl
    by_cases h0 : s.core.items = []
    · exact ⟨s, by simp [dischargeAll, Buf.count, h0], h, drained_refl c s, Or.inl h0⟩
    · have hlen : s.core.items.length ≠ 0 := fun e => h0 (List.eq_nil_of_length_eq_zero e)
      have h0' : ¬ s.core.count = 0 := hlen
      simp only [dischargeAll, if_neg h0', discharge_ok hw h]
      by_cases hr : roomFor c s
      · simp only [if_pos hr, ok_bind, if_true]
        have hb := hw.nBatch
        obtain ⟨s', h1, h2, h3, h4⟩ := ih (h.dischargedState hr) (by
          simp only [dischargedState, List.length_drop]; omega)
        exact ⟨s', h1, h2, (drained_discharged c _ s).trans h3, h4⟩
      · refine ⟨s.record .dischargeFailed, by simp [if_neg hr], h.record _, drained_record c s,
          Or.inr hr⟩

/-- What the loop over fresh fuel of a retired reactor can do. -/
structure Dumped (s s' : State) : Prop where
  moved : ∃ j, s'.fresh.items = s.fresh.items.drop j ∧
    s'.spent.items = s.spent.items ++ s.fresh.items.take j
  same : s'.fresh.cap = s.fresh.cap ∧ s'.spent.cap = s.spent.cap ∧ s'.core = s.core
  rest : s'.time = s.time ∧ s'.cycleStep = s.cycleStep ∧
    s'.discharged = s.discharged ∧ s'.inRecipes = s.inRecipes ∧ s'.outRecipes = s.outRecipes ∧
    s'.prefs = s.prefs ∧ s'.resIdx = s.resIdx ∧ s'.hybrid = s.hybrid ∧ s'.log = s.log

theorem dumpFresh_ok {c : Cfg} (hw : WellFormed c) (n : Nat) :
    ∀ {s : State}, Good c s → s.fresh.items.length ≤ n →
      ∃ s', dumpFresh c n s = .ok s' ∧ Good c s' ∧ Dumped s s' ∧
        (s'.fresh.items = [] ∨ s'.spent.items.length = c.nSpent) := by
  induction n with
  | zero =>
    intro s h hl
    exact ⟨s, rfl, h, ⟨⟨0, by simp⟩, ⟨rfl, rfl, rfl⟩, ⟨rfl, rfl, rfl, rfl, rfl, rfl, rfl, rfl, rfl⟩⟩,
      Or.inl (List.eq_nil_of_length_eq_zero (by omega))⟩
  | succ n ih =>
    intro s h hl
    have hself : Dumped s s :=
      ⟨⟨0, by simp⟩, ⟨rfl, rfl, rfl⟩, ⟨rfl, rfl, rfl, rfl, rfl, rfl, rfl, rfl, rfl⟩⟩
    have hsp := h.spent.count
    have hspace : s.spent.space =
        some (((c.nSpent - s.spent.items.length : ℕ) : ℚ) * c.assemSize) := by
      unfold Buf.space
      rw [h.spent.cap, h.spent.quantity]
      have h1 : ((s.spent.items.length : ℚ)) ≤ c.nSpent := by exact_mod_cast hsp
      have h2 : (s.spent.items.length : ℚ) * c.assemSize ≤ c.nSpent * c.assemSize :=
        mul_le_mul_of_nonneg_right h1 hw.assemSize.le
      simp only [Option.map_some, Nat.cast_sub hsp, sub_mul]
      rw [max_eq_right (by linarith)]
    by_cases hroom : s.spent.items.length < c.nSpent
    · cases hf : s.fresh.items with
      | nil => exact ⟨s, by simp [dumpFresh, Buf.count, hf], h, hself, Or.inl hf⟩
      | cons a l =>
        have ha : a.qty = c.assemSize := h.fresh.size a (by simp [hf])
        have hge : c.assemSize ≤ ((c.nSpent - s.spent.items.length : ℕ) : ℚ) * c.assemSize := by
          have : (1 : ℚ) ≤ ((c.nSpent - s.spent.items.length : ℕ) : ℚ) := by
            have : 1 ≤ c.nSpent - s.spent.items.length := by omega
            exact_mod_cast this
          nlinarith [hw.assemSize]
        have hpop : s.fresh.pop = .ok (a, { s.fresh with items := l }) :=
          Buf.pop_ok.2 ⟨a, l, hf, rfl⟩
        have hpush := h.spent.push hw.assemSize hw.eps ha hroom
        set s1 : State := { s with fresh := { s.fresh with items := l }
                                   spent := { s.spent with items := s.spent.items ++ [a] } } with hs1
        have hg : Good c s1 := by
          refine h.move ⟨h.fresh.cap, fun x hx => h.fresh.size x (by
              rw [hf]; exact List.mem_cons_of_mem _ hx), ?_⟩ h.core
            (h.spent.append (by simpa using ha) (by simp; omega)) ?_ rfl rfl rfl rfl
          · have := h.fresh.count
            rw [hf] at this
            simp only [List.length_cons] at this
            exact (Nat.le_succ _).trans this
          · refine List.Perm.map _ ?_
            simp only [held, hs1, hf]
            have : (l ++ s.core.items ++ (s.spent.items ++ [a])).Perm
                ([a] ++ (l ++ s.core.items ++ s.spent.items)) := by
              rw [← List.append_assoc]; exact List.perm_append_comm
            simpa using this
        obtain ⟨s', h1, h2, ⟨⟨j, m1, m2⟩, ⟨c1, c2, c3⟩, r⟩, h4⟩ := ih hg (by
          simp only [hs1]; rw [hf] at hl; simp only [List.length_cons] at hl; omega)
        refine ⟨s', ?_, h2, ⟨⟨j + 1, ?_, ?_⟩, ⟨c1, c2, c3⟩, r⟩, h4⟩
        · have hcnt : s.fresh.count > 0 := by simp [Buf.count, hf]
          simp only [dumpFresh, spaceForOne, hspace, hcnt, decide_true, hge, and_self, if_true, hpop,
            ok_bind, hpush]
          exact h1
        · rw [m1, hs1]; simp only [hf, List.drop_succ_cons]
        · rw [m2, hs1]; simp only [hf, List.take_succ_cons, List.append_assoc,
            List.singleton_append]
    · have he : s.spent.items.length = c.nSpent := by omega
      refine ⟨s, ?_, h, hself, Or.inr he⟩
      have hlt : ¬ c.assemSize ≤ 0 := not_le.2 hw.assemSize
      simp [dumpFresh, spaceForOne, hspace, he, hlt]

/-! ## Scheduled changes -/

/-- Effect of entry `i` of the preference schedule on the preferences at time `t`. -/
def prefStep (c : Cfg) (t : Nat) (p : List ℚ) (i : Nat) : List ℚ :=
  if c.prefChangeTimes.getD i 0 = t then
    match c.inCommods.findIdx? (· == c.prefChangeCommods.getD i "") with
    | some j => p.set j (c.prefChangeValues.getD i 0)
    | none => p
  else p

/-- Effect of entry `i` of the recipe schedule on one of the recipe vectors at time `t`. -/
def recipeStep (c : Cfg) (vals : List String) (t : Nat) (p : List String) (i : Nat) :
    List String :=
  if c.recipeChangeTimes.getD i 0 = t then
    match c.inCommods.findIdx? (· == c.recipeChangeCommods.getD i "") with
    | some j => p.set j (vals.getD i "")
    | none => p
  else p

/-- Preferences after the changes scheduled for time `t`. -/
def prefsAfter (c : Cfg) (t : Nat) (p : List ℚ) : List ℚ :=
  (List.range c.prefChangeTimes.length).foldl (prefStep c t) p

/-- A recipe vector after the changes scheduled for time `t`. -/
def recipesAfter (c : Cfg) (vals : List String) (t : Nat) (p : List String) : List String :=
  (List.range c.recipeChangeTimes.length).foldl (recipeStep c vals t) p

theorem at!_getD {α : Type} {l : List α} {i : Nat} (d : α) (h : i < l.length) :
    at! l i = .ok (l.getD i d) := by
  rw [at!_of_lt h]; simp [h]

theorem prefStep_length (c : Cfg) (t : Nat) (p : List ℚ) (i : Nat) :
    (prefStep c t p i).length = p.length := by
  unfold prefStep; split
  · split <;> simp
  · rfl

theorem recipeStep_length (c : Cfg) (v : List String) (t : Nat) (p : List String) (i : Nat) :
    (recipeStep c v t p i).length = p.length := by
  unfold recipeStep; split
  · split <;> simp
  · rfl

theorem prefChange_ok {c : Cfg} (hw : WellFormed c) {s : State}
    (hp : s.prefs.length = c.inCommods.length) {i : Nat} (hi : i < c.prefChangeTimes.length) :
    prefChange c s i = .ok { s with prefs := prefStep c s.time s.prefs i } := by
  unfold prefChange prefStep
  rw [at!_getD 0 hi]
  simp only [ok_bind]
  by_cases ht : c.prefChangeTimes.getD i 0 = s.time
  · simp only [ht, ne_eq, not_true_eq_false, if_false, if_true]
    rw [at!_getD "" (by rw [hw.prefChangeCommods]; exact hi)]
    simp only [ok_bind]
    cases hj : c.inCommods.findIdx? (· == c.prefChangeCommods.getD i "") with
    | none => rfl
    | some j =>
      have hlt : j < c.inCommods.length := (List.findIdx?_eq_some_iff_getElem.1 hj).1
      have hput : put! s.prefs j (c.prefChangeValues.getD i 0) =
          .ok (s.prefs.set j (c.prefChangeValues.getD i 0)) :=
        put!_ok.2 ⟨by rw [hp]; exact hlt, rfl⟩
      simp only [at!_getD 0 (show i < c.prefChangeValues.length by
        rw [hw.prefChangeValues]; exact hi), ok_bind, hput, pure_eq_ok]
  · have ht' : s.time ≠ c.prefChangeTimes.getD i 0 := fun e => ht e.symm
    simp only [if_pos ht', if_neg ht, pure_eq_ok]

theorem recipeChange_ok {c : Cfg} (hw : WellFormed c) {s : State}
    (hin : s.inRecipes.length = c.inCommods.length)
    (hout : s.outRecipes.length = c.inCommods.length)
    {i : Nat} (hi : i < c.recipeChangeTimes.length) :
    recipeChange c s i = .ok { s with
      inRecipes := recipeStep c c.recipeChangeIn s.time s.inRecipes i
      outRecipes := recipeStep c c.recipeChangeOut s.time s.outRecipes i } := by
  unfold recipeChange recipeStep
  rw [at!_getD 0 hi]
  simp only [ok_bind]
  by_cases ht : c.recipeChangeTimes.getD i 0 = s.time
  · simp only [ht, ne_eq, not_true_eq_false, if_false, if_true]
    rw [at!_getD "" (by rw [hw.recipeChangeCommods]; exact hi)]
    simp only [ok_bind]
    cases hj : c.inCommods.findIdx? (· == c.recipeChangeCommods.getD i "") with
    | none => rfl
    | some j =>
      have hlt : j < c.inCommods.length := (List.findIdx?_eq_some_iff_getElem.1 hj).1
      have hput1 : put! s.inRecipes j (c.recipeChangeIn.getD i "") =
          .ok (s.inRecipes.set j (c.recipeChangeIn.getD i "")) :=
        put!_ok.2 ⟨by rw [hin]; exact hlt, rfl⟩
      have hput2 : put! s.outRecipes j (c.recipeChangeOut.getD i "") =
          .ok (s.outRecipes.set j (c.recipeChangeOut.getD i "")) :=
        put!_ok.2 ⟨by rw [hout]; exact hlt, rfl⟩
      simp only [at!_getD "" (show i < c.recipeChangeIn.length by
        rw [hw.recipeChangeIn]; exact hi), at!_getD "" (show i < c.recipeChangeOut.length by
        rw [hw.recipeChangeOut]; exact hi), ok_bind, hput1, hput2, pure_eq_ok]
  · have ht' : s.time ≠ c.recipeChangeTimes.getD i 0 := fun e => ht e.symm
    simp only [if_pos ht', if_neg ht, pure_eq_ok]

theorem prefFold_ok {c : Cfg} (hw : WellFormed c) (l : List Nat) :
    ∀ {s : State}, s.prefs.length = c.inCommods.length →
      (∀ i ∈ l, i < c.prefChangeTimes.length) →
      l.foldlM (prefChange c) s = .ok { s with prefs := l.foldl (prefStep c s.time) s.prefs } := by
  induction l with
  | nil => intro s _ _; rfl
  | cons i l ih =>
    intro s hp hl
    simp only [List.foldlM_cons, prefChange_ok hw hp (hl i (by simp)), ok_bind, List.foldl_cons]
    rw [ih (by simp [prefStep_length, hp]) (fun x hx => hl x (by simp [hx]))]

theorem recipeFold_ok {c : Cfg} (hw : WellFormed c) (l : List Nat) :
    ∀ {s : State}, s.inRecipes.length = c.inCommods.length →
      s.outRecipes.length = c.inCommods.length →
      (∀ i ∈ l, i < c.recipeChangeTimes.length) →
      l.foldlM (recipeChange c) s = .ok { s with
        inRecipes := l.foldl (recipeStep c c.recipeChangeIn s.time) s.inRecipes
        outRecipes := l.foldl (recipeStep c c.recipeChangeOut s.time) s.outRecipes } := by
  induction l with
  | nil => intro s _ _ _; rfl
  | cons i l ih =>
    intro s h1 h2 hl
    simp only [List.foldlM_cons, recipeChange_ok hw h1 h2 (hl i (by simp)), ok_bind,
      List.foldl_cons]
    rw [ih (by simp [recipeStep_length, h1]) (by simp [recipeStep_length, h2])
      (fun x hx => hl x (by simp [hx]))]

/-- The state after the scheduled changes of its time step. -/
def changedState (c : Cfg) (s : State) : State :=
  { s with prefs := prefsAfter c s.time s.prefs
           inRecipes := recipesAfter c c.recipeChangeIn s.time s.inRecipes
           outRecipes := recipesAfter c c.recipeChangeOut s.time s.outRecipes }

theorem applyChanges_ok {c : Cfg} (hw : WellFormed c) {s : State} (h : Good c s) :
    applyChanges c s = .ok (changedState c s) := by
  unfold applyChanges
  rw [prefFold_ok hw _ h.prefs (by simp)]
  simp only [ok_bind]
  have := recipeFold_ok hw (List.range c.recipeChangeTimes.length)
    (s := { s with prefs := prefsAfter c s.time s.prefs }) h.inRecipes h.outRecipes (by simp)
  exact this

theorem prefsAfter_length (c : Cfg) (t : Nat) (p : List ℚ) :
    (prefsAfter c t p).length = p.length := by
  unfold prefsAfter
  generalize List.range c.prefChangeTimes.length = l
  induction l generalizing p with
  | nil => rfl
  | cons i l ih => rw [List.foldl_cons, ih, prefStep_length]

theorem recipesAfter_length (c : Cfg) (v : List String) (t : Nat) (p : List String) :
    (recipesAfter c v t p).length = p.length := by
  unfold recipesAfter
  generalize List.range c.recipeChangeTimes.length = l
  induction l generalizing p with
  | nil => rfl
  | cons i l ih => rw [List.foldl_cons, ih, recipeStep_length]

theorem recipesAfter_mem {c : Cfg} {v : List String} (hv : v.length = c.recipeChangeTimes.length)
    {t : Nat} {p : List String} {r : String} (h : r ∈ recipesAfter c v t p) : r ∈ p ∨ r ∈ v := by
  unfold recipesAfter at h
  have hl : ∀ i ∈ List.range c.recipeChangeTimes.length, i < v.length := by simp [hv]
  revert h hl
  generalize List.range c.recipeChangeTimes.length = l
  intro h hl
  induction l generalizing p with
  | nil => exact Or.inl h
  | cons i l ih =>
    rw [List.foldl_cons] at h
    rcases ih h (fun x hx => hl x (by simp [hx])) with h | h
    · unfold recipeStep at h
      split at h
      · split at h
        · rcases List.mem_or_eq_of_mem_set h with h | h
          · exact Or.inl h
          · right
            have hi := hl i (by simp)
            rw [h]
            simp [hi]
        · exact Or.inl h
      · exact Or.inl h
    · exact Or.inr h

/-- The recipe changes keep to the recipes the input names for each fuel. -/
theorem recipesAfter_named {c : Cfg} (hw : WellFormed c) {t : Nat} {p : List String}
    (h : ∀ (j : Nat) (k r : String), c.inCommods[j]? = some k → p[j]? = some r → Names c k r) :
    ∀ (j : Nat) (k r : String), c.inCommods[j]? = some k →
      (recipesAfter c c.recipeChangeIn t p)[j]? = some r → Names c k r := by
  unfold recipesAfter
  have hl : ∀ i ∈ List.range c.recipeChangeTimes.length, i < c.recipeChangeTimes.length := by simp
  revert hl
  generalize List.range c.recipeChangeTimes.length = l
  intro hl
  induction l generalizing p with
  | nil => exact h
  | cons i l ih =>
    rw [List.foldl_cons]
    refine ih ?_ (fun x hx => hl x (by simp [hx]))
    have hi := hl i (by simp)
    intro j k r hk hr
    unfold recipeStep at hr
    split at hr
    · split at hr
      · rename_i j' hj'
        rw [List.getElem?_set] at hr
        split at hr
        · rename_i e
          subst e
          split at hr
          · obtain ⟨h1, h2, -⟩ := List.findIdx?_eq_some_iff_getElem.1 hj'
            rw [List.getElem?_eq_getElem h1, Option.some.injEq] at hk
            rw [hk, beq_iff_eq] at h2
            refine Or.inr (List.mem_of_getElem? (i := i) (List.getElem?_zip_eq_some.2 ⟨?_, ?_⟩))
            · have := hw.recipeChangeCommods ▸ hi
              simp [h2, this]
            · have := hw.recipeChangeIn ▸ hi
              simpa [this] using hr
          · cases hr
        · exact h j k r hk hr
      · exact h j k r hk hr
    · exact h j k r hk hr

theorem Good.changedState {c : Cfg} (hw : WellFormed c) {s : State} (h : Good c s) :
    Good c (changedState c s) := by
  refine ⟨h.fresh, h.core, h.spent, h.nodup, h.idx, ?_, ?_, ?_, ?_, ?_,
    recipesAfter_named hw h.named⟩
  · simp [Reactor.changedState, prefsAfter_length, h.prefs]
  · simp [Reactor.changedState, recipesAfter_length, h.inRecipes]
  · simp [Reactor.changedState, recipesAfter_length, h.outRecipes]
  · intro r hr
    rcases recipesAfter_mem hw.recipeChangeIn hr with hr | hr
    · exact h.knownIn r hr
    · exact hw.known r (Or.inr (Or.inr (Or.inl hr)))
  · intro r hr
    rcases recipesAfter_mem hw.recipeChangeOut hr with hr | hr
    · exact h.knownOut r hr
    · exact hw.known r (Or.inr (Or.inr (Or.inr hr)))

end Cyc.Reactor
