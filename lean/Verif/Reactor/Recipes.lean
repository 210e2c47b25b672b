import Verif.Reactor.Conserve

/-!
# Where the compositions of a reactor come from

These lemmas hold for every configuration and every input, as long as the operation returns
normally: the recipes in force are among those the input names, and the assemblies held have
compositions with a property that covers the deliveries and the existing output recipes.
-/

namespace Cyc.Reactor

/-- The recipes in force are named by the input; the assemblies held have the property `A`. -/
structure Fits (c : Cfg) (A : Assem → Prop) (s : State) : Prop where
  ins : ∀ (j : Nat) (k r : String), c.inCommods[j]? = some k → s.inRecipes[j]? = some r →
    Names c k r
  outs : ∀ n ∈ s.outRecipes, n ∈ c.outRecipes ∨ n ∈ c.recipeChangeOut
  comps : ∀ a ∈ held s, A a

/-- `A` is kept when the composition becomes that of an output recipe that the input names and
that exists. -/
def Covers (c : Cfg) (A : Assem → Prop) : Prop :=
  ∀ a, A a → ∀ n, n ∈ c.outRecipes ∨ n ∈ c.recipeChangeOut → ∀ k, c.recipe n = some k →
    A { a with comp := k }

variable {c : Cfg} {A : Assem → Prop}

theorem getRecipe_ok {n : String} {k : Nat} (h : getRecipe c n = .ok k) : c.recipe n = some k := by
  unfold getRecipe at h
  split at h
  · simp only [Except.ok.injEq] at h; subst h; assumption
  · exact absurd h (by simp)

theorem Fits.move {s s' : State} (h : Fits c A s) (h1 : s'.inRecipes = s.inRecipes)
    (h2 : s'.outRecipes = s.outRecipes) (h3 : ∀ a ∈ held s', a ∈ held s) : Fits c A s' :=
  ⟨by rw [h1]; exact h.ins, by rw [h2]; exact h.outs, fun a ha => h.comps a (h3 a ha)⟩

theorem transmuteLoop_fits (hA : Covers c A) {s : State} (h : Fits c A s) (old : List Assem) :
    ∀ {items r : List Assem}, transmuteLoop c s old items = .ok r →
      (∀ a ∈ items, A a) → ∀ a ∈ r, A a := by
  induction old with
  | nil => intro items r h hi; simp only [transmuteLoop, Except.ok.injEq] at h; rw [← h]; exact hi
  | cons m ms ih =>
    intro items r hr hi
    simp only [transmuteLoop, bind_ok] at hr
    obtain ⟨name, h1, k, h2, hr⟩ := hr
    refine ih hr ?_
    have hk : ∀ a, A a → A { a with comp := k } := by
      intro a ha
      unfold fuelOutRecipe at h1
      split at h1
      · rename_i n hn
        simp only [Except.ok.injEq] at h1
        subst h1
        exact hA a ha _ (h.outs _ (List.mem_of_getElem? hn)) _ (getRecipe_ok h2)
      · exact absurd h1 (by simp)
    intro a ha
    unfold transmuteObj at ha
    obtain ⟨b, hb, rfl⟩ := List.mem_map.1 ha
    split
    · exact hk b (hi b hb)
    · exact hi b hb

theorem transmute_fits (hA : Covers c A) {n : Nat} {s s' : State} (hf : Fits c A s)
    (h : transmute c n s = .ok s') : Fits c A s' := by
  unfold transmute at h
  rw [bind_ok] at h
  obtain ⟨⟨old, core1⟩, h1, h⟩ := h
  obtain ⟨hn, h1⟩ := Buf.popN_ok.1 h1
  simp only [Prod.mk.injEq] at h1
  obtain ⟨rfl, rfl⟩ := h1
  rw [bind_ok] at h
  obtain ⟨core2, h2, h⟩ := h
  obtain ⟨_, rfl⟩ := Buf.pushAll_ok.1 h2
  have key : ∃ core3 : Buf Assem, core3.items.Perm s.core.items ∧
      (do let items ← transmuteLoop c
                (s.record (.transmute (s.core.items.take (min n s.core.count)).length))
                (s.core.items.take (min n s.core.count)) core3.items
          pure ({ s.record (.transmute (s.core.items.take (min n s.core.count)).length) with
            core := { core3 with items := items } } : State)) = (.ok s' : R State) := by
    dsimp only at h
    split at h
    · rw [bind_ok] at h
      obtain ⟨⟨rest, b⟩, h4, h⟩ := h
      dsimp only at h
      rw [bind_ok] at h
      obtain ⟨core3, h3, h⟩ := h
      obtain ⟨_, h4⟩ := Buf.popN_ok.1 h4
      simp only [Prod.mk.injEq] at h4
      obtain ⟨rfl, rfl⟩ := h4
      obtain ⟨_, rfl⟩ := Buf.pushAll_ok.1 h3
      exact ⟨_, (perm_take_drop _ _).trans (perm_take_drop _ _), h⟩
    · exact ⟨_, perm_take_drop _ _, h⟩
  obtain ⟨core3, hp, h⟩ := key
  rw [bind_ok] at h
  obtain ⟨items, h5, h⟩ := h
  simp only [pure_eq_ok, Except.ok.injEq] at h
  subst h
  have hf' : Fits c A
      (s.record (.transmute (s.core.items.take (min n s.core.count)).length)) :=
    ⟨hf.ins, hf.outs, hf.comps⟩
  have ht := transmuteLoop_fits hA hf' _ h5 fun a ha =>
    hf.comps a (by simp only [held, List.mem_append]; exact Or.inl (Or.inr (hp.mem_iff.1 ha)))
  refine ⟨hf.ins, hf.outs, ?_⟩
  intro a ha
  simp only [held, State.record, List.mem_append] at ha
  rcases ha with (ha | ha) | ha
  · exact hf.comps a (by simp only [held, List.mem_append]; exact Or.inl (Or.inl ha))
  · exact ht a ha
  · exact hf.comps a (by simp only [held, List.mem_append]; exact Or.inr ha)

theorem discharge_fits {s s' : State} {b : Bool} (hf : Fits c A s)
    (h : discharge c s = .ok (b, s')) : Fits c A s' := by
  unfold discharge at h
  dsimp only at h
  split at h
  · simp only [Except.ok.injEq, Prod.mk.injEq] at h
    rw [← h.2]; exact ⟨hf.ins, hf.outs, hf.comps⟩
  · rw [bind_ok] at h
    obtain ⟨⟨mats, core⟩, h1, h⟩ := h
    obtain ⟨_, h1⟩ := Buf.popN_ok.1 h1
    simp only [Prod.mk.injEq] at h1
    obtain ⟨rfl, rfl⟩ := h1
    rw [bind_ok] at h
    obtain ⟨sp, h2, h⟩ := h
    obtain ⟨_, rfl⟩ := Buf.pushAll_ok.1 h2
    rw [bind_ok] at h
    obtain ⟨s2, h3, h⟩ := h
    obtain ⟨l, rfl⟩ := recordSupply_items _ h3
    simp only [pure_eq_ok, Except.ok.injEq, Prod.mk.injEq] at h
    rw [← h.2]
    refine hf.move rfl rfl ?_
    intro a ha
    simp only [held, State.record, List.mem_append] at ha ⊢
    rcases ha with (ha | ha) | ha | ha
    · exact Or.inl (Or.inl ha)
    · exact Or.inl (Or.inr (List.mem_of_mem_drop ha))
    · exact Or.inr ha
    · exact Or.inl (Or.inr (List.mem_of_mem_take ha))

theorem load_fits {s s' : State} (hf : Fits c A s) (h : load c s = .ok s') : Fits c A s' := by
  unfold load at h
  dsimp only at h
  split at h
  · simp only [Except.ok.injEq] at h; subst h; exact hf
  · split at h
    · exact absurd h (by simp)
    · rw [bind_ok] at h
      obtain ⟨⟨mats, fr⟩, h1, h⟩ := h
      obtain ⟨_, h1⟩ := Buf.popN_ok.1 h1
      simp only [Prod.mk.injEq] at h1
      obtain ⟨rfl, rfl⟩ := h1
      rw [bind_ok] at h
      obtain ⟨co, h2, h⟩ := h
      obtain ⟨_, rfl⟩ := Buf.pushAll_ok.1 h2
      simp only [pure_eq_ok, Except.ok.injEq] at h
      subst h
      refine hf.move rfl rfl ?_
      intro a ha
      simp only [held, State.record, List.mem_append] at ha ⊢
      rcases ha with (ha | ha | ha) | ha
      · exact Or.inl (Or.inl (List.mem_of_mem_drop ha))
      · exact Or.inl (Or.inr ha)
      · exact Or.inl (Or.inl (List.mem_of_mem_take ha))
      · exact Or.inr ha

theorem dischargeAll_fits (fuel : Nat) :
    ∀ {s s' : State}, Fits c A s → dischargeAll c fuel s = .ok s' → Fits c A s' := by
  induction fuel with
  | zero =>
    intro s s' hf h
    unfold dischargeAll at h
    split at h
    · simp only [Except.ok.injEq] at h; subst h; exact hf
    · exact absurd h (by simp)
  | succ n ih =>
    intro s s' hf h
    unfold dischargeAll at h
    split at h
    · simp only [Except.ok.injEq] at h; subst h; exact hf
    · rw [bind_ok] at h
      obtain ⟨⟨b, s1⟩, h1, h⟩ := h
      dsimp only at h
      split at h
      · exact ih (discharge_fits hf h1) h
      · simp only [pure_eq_ok, Except.ok.injEq] at h; subst h; exact discharge_fits hf h1

theorem dumpFresh_fits (n : Nat) :
    ∀ {s s' : State}, Fits c A s → dumpFresh c n s = .ok s' → Fits c A s' := by
  induction n with
  | zero =>
    intro s s' hf h
    simp only [dumpFresh, Except.ok.injEq] at h; subst h; exact hf
  | succ n ih =>
    intro s s' hf h
    unfold dumpFresh at h
    by_cases hc : s.fresh.count > 0 ∧ spaceForOne c s.spent = true
    · rw [if_pos hc, bind_ok] at h
      obtain ⟨⟨m, fr⟩, h1, h⟩ := h
      obtain ⟨r, rs, he, h1⟩ := Buf.pop_ok.1 h1
      simp only [Prod.mk.injEq] at h1
      obtain ⟨rfl, rfl⟩ := h1
      rw [bind_ok] at h
      obtain ⟨sp, h2, h⟩ := h
      obtain ⟨_, rfl⟩ := Buf.push_ok.1 h2
      refine ih ?_ h
      refine hf.move rfl rfl ?_
      intro a ha
      simp only [held, he, List.mem_append, List.mem_cons, List.not_mem_nil, or_false] at ha ⊢
      tauto
    · rw [if_neg hc] at h
      simp only [Except.ok.injEq] at h; subst h; exact hf

theorem prefChange_fits {s s' : State} {i : Nat} (hf : Fits c A s)
    (h : prefChange c s i = .ok s') : Fits c A s' := by
  unfold prefChange at h
  rw [bind_ok] at h
  obtain ⟨t, _, h⟩ := h
  split at h
  · simp only [pure_eq_ok, Except.ok.injEq] at h; subst h; exact hf
  · rw [bind_ok] at h
    obtain ⟨_, _, h⟩ := h
    split at h
    · simp only [pure_eq_ok, Except.ok.injEq] at h; subst h; exact hf
    · simp only [bind_ok] at h
      obtain ⟨_, _, _, _, h⟩ := h
      simp only [pure_eq_ok, Except.ok.injEq] at h; subst h; exact ⟨hf.ins, hf.outs, hf.comps⟩

theorem at!_mem {α : Type} {l : List α} {i : Nat} {x : α} (h : at! l i = .ok x) : x ∈ l := by
  unfold at! at h
  split at h
  · rename_i y hy
    simp only [Except.ok.injEq] at h
    subst h
    exact List.mem_of_getElem? hy
  · exact absurd h (by simp)

theorem at!_some {α : Type} {l : List α} {i : Nat} {x : α} (h : at! l i = .ok x) :
    l[i]? = some x := by
  unfold at! at h
  split at h
  · rename_i y hy
    simp only [Except.ok.injEq] at h
    subst h
    exact hy
  · exact absurd h (by simp)

theorem put!_set {α : Type} {l l' : List α} {i : Nat} {x : α} (h : put! l i x = .ok l') :
    l' = l.set i x := by
  unfold put! at h
  split at h
  · simp only [Except.ok.injEq] at h
    exact h.symm
  · exact absurd h (by simp)

theorem recipeChange_fits {s s' : State} {i : Nat} (hf : Fits c A s)
    (h : recipeChange c s i = .ok s') : Fits c A s' := by
  unfold recipeChange at h
  rw [bind_ok] at h
  obtain ⟨t, _, h⟩ := h
  split at h
  · simp only [pure_eq_ok, Except.ok.injEq] at h; subst h; exact hf
  · rw [bind_ok] at h
    obtain ⟨commod, hc, h⟩ := h
    split at h
    · simp only [pure_eq_ok, Except.ok.injEq] at h; subst h; exact hf
    · simp only [bind_ok] at h
      rename_i j hj
      obtain ⟨vi, h1, inr, h2, vo, h3, outr, h4, h⟩ := h
      simp only [pure_eq_ok, Except.ok.injEq] at h; subst h
      refine ⟨?_, ?_, hf.comps⟩
      · intro j' k r hk hr
        rw [put!_set h2] at hr
        by_cases e : j' = j
        · subst e
          obtain ⟨hlt, hj1, _⟩ := List.findIdx?_eq_some_iff_getElem.1 hj
          rw [List.getElem?_eq_getElem hlt] at hk
          simp only [Option.some.injEq, beq_iff_eq] at hk hj1
          have hr' : r = vi := by
            rw [List.getElem?_set_self'] at hr
            cases hq : s.inRecipes[j']? with
            | none => rw [hq] at hr; simp at hr
            | some z => rw [hq] at hr; simpa using hr.symm
          rw [hr', ← hk, hj1]
          refine Or.inr (List.mem_of_getElem? (i := i) ?_)
          rw [List.getElem?_zip_eq_some]
          exact ⟨at!_some hc, at!_some h1⟩
        · rw [List.getElem?_set_ne (Ne.symm e)] at hr
          exact hf.ins j' k r hk hr
      · intro n hn
        rw [put!_set h4] at hn
        rcases List.mem_or_eq_of_mem_set hn with hn | rfl
        · exact hf.outs n hn
        · exact Or.inr (at!_mem h3)

theorem foldlM_fits {f : State → Nat → R State}
    (hff : ∀ {s s' : State} {i : Nat}, Fits c A s → f s i = .ok s' → Fits c A s') (l : List Nat) :
    ∀ {s s' : State}, Fits c A s → l.foldlM f s = .ok s' → Fits c A s' := by
  induction l with
  | nil =>
    intro s s' hf h
    simp only [List.foldlM_nil, pure_eq_ok, Except.ok.injEq] at h; subst h; exact hf
  | cons i l ih =>
    intro s s' hf h
    rw [List.foldlM_cons, bind_ok] at h
    obtain ⟨s1, h1, h⟩ := h
    exact ih (hff hf h1) h

theorem tick_fits (hA : Covers c A) {s s' : State} (hf : Fits c A s) (h : tick c s = .ok s') :
    Fits c A s' := by
  unfold tick at h
  split at h
  · unfold tickRetired at h
    simp only [bind_ok] at h
    obtain ⟨s1, h1, s2, h2, s3, h3, h⟩ := h
    have hf0 : Fits c A (s.record .retired) := ⟨hf.ins, hf.outs, hf.comps⟩
    have e1 : Fits c A s1 := by
      unfold retireTransmute at h1
      split at h1
      · exact transmute_fits hA hf0 h1
      · simp only [Except.ok.injEq] at h1; subst h1; exact hf0
    have e3 := dumpFresh_fits _ (dischargeAll_fits _ e1 h2) h3
    simp only [pure_eq_ok, Except.ok.injEq] at h
    subst h
    split
    · exact ⟨e3.ins, e3.outs, e3.comps⟩
    · exact e3
  · rw [bind_ok] at h
    obtain ⟨s1, h1, h⟩ := h
    unfold tickFuel at h1
    simp only [bind_ok] at h1
    obtain ⟨s2, h2, s3, h3, h4⟩ := h1
    have e2 : Fits c A s2 := by
      unfold tickCycleEnd at h2
      split at h2
      · rw [bind_ok] at h2
        obtain ⟨s4, h5, h2⟩ := h2
        simp only [pure_eq_ok, Except.ok.injEq] at h2
        subst h2
        have := transmute_fits hA hf h5; exact ⟨this.ins, this.outs, this.comps⟩
      · simp only [Except.ok.injEq] at h2; subst h2; exact hf
    have e3 : Fits c A s3 := by
      unfold tickDischarge at h3
      split at h3
      · rw [bind_ok] at h3
        obtain ⟨⟨b, s4⟩, h5, h3⟩ := h3
        simp only [pure_eq_ok, Except.ok.injEq] at h3
        subst h3
        have := discharge_fits e2 h5; exact ⟨this.ins, this.outs, this.comps⟩
      · simp only [Except.ok.injEq] at h3; subst h3; exact e2
    have e4 : Fits c A s1 := by
      unfold tickLoad at h4
      split at h4
      · exact load_fits e3 h4
      · simp only [Except.ok.injEq] at h4; subst h4; exact e3
    unfold applyChanges at h
    rw [bind_ok] at h
    obtain ⟨s5, h5, h⟩ := h
    exact foldlM_fits recipeChange_fits _ (foldlM_fits prefChange_fits _ e4 h5) h

/-! ## Requests -/

/-- What a portfolio contains: one request for each input commodity, for a recipe that exists. -/
def Asks (c : Cfg) (s : State) (p : List Request) : Prop :=
  p.map (·.commod) = c.inCommods ∧
    ∀ (j : Nat) (r : Request), p[j]? = some r →
      ∃ n, s.inRecipes[j]? = some n ∧ c.recipe n = some r.comp

theorem portfolio_comp {s : State} (ks : List String) :
    ∀ {j : Nat} {p : List Request}, portfolio c s ks j = .ok p → p.map (·.commod) = ks ∧
      ∀ (i : Nat) (r : Request), p[i]? = some r →
        ∃ n, s.inRecipes[j + i]? = some n ∧ c.recipe n = some r.comp := by
  induction ks with
  | nil =>
    intro j p h
    simp only [portfolio, Except.ok.injEq] at h
    subst h
    exact ⟨rfl, by simp⟩
  | cons k ks ih =>
    intro j p h
    simp only [portfolio, bind_ok] at h
    obtain ⟨_, _, name, h1, comp, h2, rest, h3, h⟩ := h
    simp only [pure_eq_ok, Except.ok.injEq] at h
    subst h
    obtain ⟨i1, i2⟩ := ih h3
    refine ⟨by simp [i1], ?_⟩
    intro i r hr
    cases i with
    | zero =>
      simp only [List.getElem?_cons_zero, Option.some.injEq] at hr
      subst hr
      exact ⟨name, at!_some h1, getRecipe_ok h2⟩
    | succ i =>
      rw [List.getElem?_cons_succ] at hr
      obtain ⟨n, e1, e2⟩ := i2 i r hr
      exact ⟨n, by rw [← e1]; congr 1; omega, e2⟩

theorem requestLoop_comp (n : Nat) :
    ∀ {s s' : State} {ps : List (List Request)}, requestLoop c n s = .ok (ps, s') →
      (∃ l, s' = { s with log := l }) ∧ ps.length = n ∧ ∀ p ∈ ps, Asks c s p := by
  induction n with
  | zero =>
    intro s s' ps h
    simp only [requestLoop, Except.ok.injEq, Prod.mk.injEq] at h
    obtain ⟨rfl, rfl⟩ := h
    exact ⟨⟨_, rfl⟩, rfl, by simp⟩
  | succ n ih =>
    intro s s' ps h
    simp only [requestLoop, bind_ok] at h
    obtain ⟨p, hp, _, _, ⟨ps', s1⟩, h1, h⟩ := h
    simp only [pure_eq_ok, Except.ok.injEq, Prod.mk.injEq] at h
    obtain ⟨rfl, rfl⟩ := h
    obtain ⟨⟨l, e⟩, i1, i2⟩ := ih h1
    refine ⟨⟨l, e⟩, by simp [i1], ?_⟩
    intro q hq
    rcases List.mem_cons.1 hq with rfl | hq
    · have := portfolio_comp _ hp
      refine ⟨this.1, fun j r hr => ?_⟩
      simpa using this.2 j r hr
    · exact i2 q hq

theorem getMatlRequests_comp {s s' : State} {ps : List (List Request)}
    (h : getMatlRequests c s = .ok (ps, s')) : (∃ l, s' = { s with log := l }) ∧
      ∀ p ∈ ps, Asks c s p := by
  unfold getMatlRequests at h
  rw [bind_ok] at h
  obtain ⟨n, _, h⟩ := h
  split at h
  · simp only [pure_eq_ok, Except.ok.injEq, Prod.mk.injEq] at h
    obtain ⟨rfl, rfl⟩ := h
    exact ⟨⟨_, rfl⟩, by simp⟩
  · split at h
    · simp only [pure_eq_ok, Except.ok.injEq, Prod.mk.injEq] at h
      obtain ⟨rfl, rfl⟩ := h
      exact ⟨⟨_, rfl⟩, by simp⟩
    · have := requestLoop_comp _ h
      exact ⟨this.1, this.2.2⟩

/-- A portfolio with one request for each input commodity, each for a recipe that the input names
for this commodity and that exists. -/
def Sound (c : Cfg) (p : List Request) : Prop :=
  p.map (·.commod) = c.inCommods ∧
    ∀ r ∈ p, ∃ n, Names c r.commod n ∧ c.recipe n = some r.comp

theorem sound_of_asks {s : State} (hf : Fits c A s) {p : List Request} (h : Asks c s p) :
    Sound c p := by
  refine ⟨h.1, ?_⟩
  intro r hr
  obtain ⟨j, hj, rfl⟩ := List.getElem_of_mem hr
  obtain ⟨n, h1, h2⟩ := h.2 j _ (List.getElem?_eq_getElem hj)
  refine ⟨n, hf.ins j _ n ?_ h1, h2⟩
  rw [← h.1, List.getElem?_map, List.getElem?_eq_getElem hj]; rfl

theorem offerPhase_comp (hA : Covers c A) {reqs : String → List ℚ} {s s' : State} {o : Offer}
    (hf : Fits c A s) (h : offerPhase c reqs s = .ok (o, s')) : Fits c A s' ∧
      ∀ p ∈ o.requests, Sound c p := by
  unfold offerPhase at h
  rw [bind_ok] at h
  obtain ⟨s1, h1, h⟩ := h
  rw [bind_ok] at h
  obtain ⟨⟨rq, s2⟩, h2, h⟩ := h
  rw [bind_ok] at h
  obtain ⟨⟨bd, s3⟩, h3, h⟩ := h
  have := bidLoop_items _ h3
  subst this
  simp only [pure_eq_ok, Except.ok.injEq, Prod.mk.injEq] at h
  obtain ⟨rfl, rfl⟩ := h
  have e1 := tick_fits hA hf h1
  obtain ⟨⟨l, rfl⟩, e2⟩ := getMatlRequests_comp h2
  exact ⟨⟨e1.ins, e1.outs, e1.comps⟩, fun p hp => sound_of_asks e1 (e2 p hp)⟩

/-! ## Trades -/

/-- The recipes in force are the same. -/
def SameRecipes (s s' : State) : Prop :=
  s'.inRecipes = s.inRecipes ∧ s'.outRecipes = s.outRecipes

theorem SameRecipes.trans {s s' s'' : State} (h : SameRecipes s s') (h' : SameRecipes s' s'') :
    SameRecipes s s'' := ⟨h'.1.trans h.1, h'.2.trans h.2⟩

theorem pushSpent_recipes (m : SMap (List Assem)) :
    ∀ {s s' : State}, pushSpent c m s = .ok s' → SameRecipes s s' := by
  induction m with
  | nil => intro s s' h; simp only [pushSpent, Except.ok.injEq] at h; subst h; exact ⟨rfl, rfl⟩
  | cons p m ih =>
    obtain ⟨k, l⟩ := p
    intro s s' h
    simp only [pushSpent, bind_ok] at h
    obtain ⟨b, _, h⟩ := h
    have := ih h
    exact ⟨this.1, this.2⟩

theorem getMatlTrades_recipes {trades : List String} {s s' : State}
    {resp : List (String × Assem)} (h : getMatlTrades c trades s = .ok (resp, s')) :
    SameRecipes s s' := by
  unfold getMatlTrades at h
  rw [bind_ok] at h
  obtain ⟨⟨m, s1⟩, h1, h⟩ := h
  rw [bind_ok] at h
  obtain ⟨⟨r, m', s2⟩, h2, h⟩ := h
  rw [bind_ok] at h
  obtain ⟨s3, h3, h⟩ := h
  simp only [pure_eq_ok, Except.ok.injEq, Prod.mk.injEq] at h
  obtain ⟨rfl, rfl⟩ := h
  obtain ⟨hs, _, e1⟩ := popSpent_spec h1
  obtain ⟨_, ⟨f, e2⟩, _⟩ := tradeLoop_flat _ h2 hs
  have e3 := pushSpent_recipes _ h3
  subst e1 e2
  exact ⟨e3.1, e3.2⟩

theorem acceptLoop_recipes (l : List (String × Assem)) :
    ∀ {s s' : State}, acceptLoop c l s = .ok s' → SameRecipes s s' := by
  induction l with
  | nil => intro s s' h; simp only [acceptLoop, Except.ok.injEq] at h; subst h; exact ⟨rfl, rfl⟩
  | cons p l ih =>
    obtain ⟨k, a⟩ := p
    intro s s' h
    simp only [acceptLoop, bind_ok] at h
    obtain ⟨s1, h1, h⟩ := h
    have e1 : SameRecipes s s1 := by
      unfold indexRes at h1
      split at h1
      · simp only [Except.ok.injEq] at h1; subst h1; exact ⟨rfl, rfl⟩
      · exact absurd h1 (by simp)
    split at h
    · rw [bind_ok] at h
      obtain ⟨b, _, h⟩ := h
      have := ih h
      exact e1.trans ⟨this.1, this.2⟩
    · rw [bind_ok] at h
      obtain ⟨b, _, h⟩ := h
      have := ih h
      exact e1.trans ⟨this.1, this.2⟩

theorem sideLoop_log {on : Bool} (ps : List String) :
    ∀ {i : Nat} {s s' : State}, sideLoop c on ps i s = .ok s' → ∃ l, s' = { s with log := l } := by
  induction ps with
  | nil => intro i s s' h; simp only [sideLoop, Except.ok.injEq] at h; subst h; exact ⟨_, rfl⟩
  | cons p ps ih =>
    intro i s s' h
    cases on with
    | true =>
      simp only [sideLoop, if_true, bind_ok] at h
      obtain ⟨_, _, h⟩ := h
      obtain ⟨l, e⟩ := ih h; exact ⟨l, e⟩
    | false =>
      simp only [sideLoop, Bool.false_eq_true, if_false, pure_eq_ok, ok_bind] at h
      obtain ⟨l, e⟩ := ih h; exact ⟨l, e⟩

theorem tock_fits {s s' : State} (hf : Fits c A s) (h : tock c s = .ok s') : Fits c A s' := by
  unfold tock at h
  split at h
  · simp only [Except.ok.injEq] at h; subst h; exact hf
  · rw [bind_ok] at h
    obtain ⟨s3, h3, h⟩ := h
    simp only [pure_eq_ok, Except.ok.injEq] at h
    subst h
    have e0 : Fits c A (tockReset c s) := by
      unfold tockReset; split
      · exact ⟨hf.ins, hf.outs, hf.comps⟩
      · exact hf
    have e1 : Fits c A (tockBegin c (tockReset c s)) := by
      unfold tockBegin; split
      · exact ⟨e0.ins, e0.outs, e0.comps⟩
      · exact e0
    have e2 : Fits c A s3 := by
      unfold recordSideProduct at h3
      generalize (if producing c (tockBegin c (tockReset c s)) = true then c.powerCap else 0) = p
        at h3
      split at h3
      · obtain ⟨l, rfl⟩ := sideLoop_log _ h3
        exact ⟨e1.ins, e1.outs, e1.comps⟩
      · simp only [Except.ok.injEq] at h3; subst h3; exact ⟨e1.ins, e1.outs, e1.comps⟩
    unfold tockCount; split
    · exact ⟨e2.ins, e2.outs, e2.comps⟩
    · exact e2

/-- What is shipped was held at the start of the step, up to the composition. -/
theorem step_shipped (hA : Covers c A) {s s' : State} {i : In} {o : Out} (hf : Fits c A s)
    (h : step c s i = .ok (o, s')) : ∀ p ∈ o.shipped, A p.2 := by
  unfold step at h
  rw [bind_ok] at h
  obtain ⟨⟨of, s1⟩, h1, h⟩ := h
  rw [bind_ok] at h
  obtain ⟨⟨resp, s2⟩, h2, h⟩ := h
  simp only [pure_eq_ok, Except.ok.injEq, Prod.mk.injEq] at h
  obtain ⟨rfl, rfl⟩ := h
  obtain ⟨f1, _⟩ := offerPhase_comp hA hf h1
  unfold settlePhase at h2
  by_cases hs : i.sells = []
  · simp only [hs, if_true, pure_eq_ok, ok_bind] at h2
    simp only [bind_ok, Except.ok.injEq, Prod.mk.injEq] at h2
    obtain ⟨_, _, _, _, rfl, _⟩ := h2
    simp
  · simp only [if_neg hs] at h2
    rw [bind_ok] at h2
    obtain ⟨⟨r, s3⟩, h3, h2⟩ := h2
    simp only [pure_eq_ok, bind_ok, Except.ok.injEq, Prod.mk.injEq] at h2
    obtain ⟨_, _, _, _, rfl, _⟩ := h2
    intro p hp
    exact f1.comps p.2 ((getMatlTrades_held h3).mem_iff.2
      (List.mem_append_right _ (List.mem_map_of_mem hp)))

/-- One step: the requests are for recipes that exist and that the input names, and what is
shipped has a composition in `A` if all deliveries do. -/
theorem step_fits (hA : Covers c A) {s s' : State} {i : In} {o : Out} (hf : Fits c A s)
    (hb : ∀ p ∈ i.buys, A p.2) (h : step c s i = .ok (o, s')) :
    Fits c A s' ∧
      (∀ p ∈ o.offer.requests, Sound c p) ∧ ∀ p ∈ o.shipped, A p.2 := by
  unfold step at h
  rw [bind_ok] at h
  obtain ⟨⟨of, s1⟩, h1, h⟩ := h
  rw [bind_ok] at h
  obtain ⟨⟨resp, s2⟩, h2, h⟩ := h
  simp only [pure_eq_ok, Except.ok.injEq, Prod.mk.injEq] at h
  obtain ⟨rfl, rfl⟩ := h
  obtain ⟨f1, hrq⟩ := offerPhase_comp hA hf h1
  unfold settlePhase at h2
  have key : ∃ s3, (held s1).Perm (held s3 ++ resp.map Prod.snd) ∧ SameRecipes s1 s3 ∧
      (do let s4 ← acceptMatlTrades c i.buys s3
          let s5 ← tock c s4
          pure (resp, ({ s5 with time := s5.time + 1 } : State)) :
        R (List (String × Assem) × State)) = .ok (resp, s2) := by
    by_cases hs : i.sells = []
    · simp only [hs, if_true, pure_eq_ok, ok_bind] at h2
      have h2' := h2
      simp only [bind_ok, Except.ok.injEq, Prod.mk.injEq] at h2'
      obtain ⟨_, _, _, _, rfl, _⟩ := h2'
      exact ⟨s1, by simp, ⟨rfl, rfl⟩, h2⟩
    · simp only [if_neg hs] at h2
      rw [bind_ok] at h2
      obtain ⟨⟨r, s3⟩, h3, h2⟩ := h2
      have h2' := h2
      simp only [pure_eq_ok, bind_ok, Except.ok.injEq, Prod.mk.injEq] at h2'
      obtain ⟨_, _, _, _, rfl, _⟩ := h2'
      exact ⟨s3, getMatlTrades_held h3, getMatlTrades_recipes h3, h2⟩
  obtain ⟨s3, hp, hr, h2⟩ := key
  rw [bind_ok] at h2
  obtain ⟨s4, h4, h2⟩ := h2
  rw [bind_ok] at h2
  obtain ⟨s5, h5, h2⟩ := h2
  simp only [pure_eq_ok, Except.ok.injEq, Prod.mk.injEq, true_and] at h2
  subst h2
  have f3 : Fits c A s3 := f1.move hr.1 hr.2 fun a ha => hp.mem_iff.2 (List.mem_append_left _ ha)
  have f4 : Fits c A s4 := by
    unfold acceptMatlTrades at h4
    have e := acceptLoop_held _ h4
    have r := acceptLoop_recipes _ h4
    refine ⟨?_, ?_, ?_⟩
    · rw [r.1]; split <;> exact f3.ins
    · rw [r.2]; split <;> exact f3.outs
    · intro a ha
      rcases List.mem_append.1 (e.mem_iff.1 ha) with ha | ha
      · refine f3.comps a ?_
        split at ha <;> exact ha
      · obtain ⟨p, hp', rfl⟩ := List.mem_map.1 ha
        exact hb p hp'
  have f5 := tock_fits f4 h5
  refine ⟨⟨f5.ins, f5.outs, f5.comps⟩, hrq, ?_⟩
  intro p hp'
  exact f1.comps p.2 (hp.mem_iff.2 (List.mem_append_right _ (List.mem_map_of_mem hp')))

end Cyc.Reactor
