import Verif.Reactor.Lemmas

/-!
# No reactor operation loses, invents or resizes an assembly

These lemmas hold for every state and every input, as long as the operation returns normally.
-/

namespace Cyc.Reactor

/-- The held assemblies of the two states have the same identities and quantities. -/
def Same (s s' : State) : Prop := ((held s').map tag).Perm ((held s).map tag)

theorem Same.rfl' (s : State) : Same s s := List.Perm.refl _

theorem Same.trans {s s' s'' : State} (h : Same s s') (h' : Same s' s'') : Same s s'' :=
  List.Perm.trans h' h

theorem same_of_items {s s' : State} (h1 : s'.fresh.items = s.fresh.items)
    (h2 : s'.core.items = s.core.items) (h3 : s'.spent.items = s.spent.items) : Same s s' := by
  unfold Same held; rw [h1, h2, h3]

theorem tag_transmuteObj (items : List Assem) (m : Assem) (k : Nat) :
    (transmuteObj items m k).map tag = items.map tag := by
  unfold transmuteObj
  rw [List.map_map]
  apply List.map_congr_left
  intro a _
  simp only [Function.comp]
  split <;> rfl

theorem transmuteLoop_tag {c : Cfg} {s : State} (old : List Assem) :
    ∀ {items r : List Assem}, transmuteLoop c s old items = .ok r → r.map tag = items.map tag := by
  induction old with
  | nil => intro items r h; simp only [transmuteLoop, Except.ok.injEq] at h; rw [h]
  | cons m ms ih =>
    intro items r h
    simp only [transmuteLoop, bind_ok] at h
    obtain ⟨_, _, _, _, h⟩ := h
    rw [ih h, tag_transmuteObj]

theorem perm_take_drop {α : Type} (n : Nat) (l : List α) : (l.drop n ++ l.take n).Perm l :=
  List.perm_append_comm.trans (by rw [List.take_append_drop])

theorem transmute_same {c : Cfg} {n : Nat} {s s' : State} (h : transmute c n s = .ok s') :
    Same s s' := by
  unfold transmute at h
  rw [bind_ok] at h
  obtain ⟨⟨old, core1⟩, h1, h⟩ := h
  obtain ⟨hn, h1⟩ := Buf.popN_ok.1 h1
  simp only [Prod.mk.injEq] at h1
  obtain ⟨rfl, rfl⟩ := h1
  rw [bind_ok] at h
  obtain ⟨core2, h2, h⟩ := h
  obtain ⟨_, rfl⟩ := Buf.pushAll_ok.1 h2
  have key : ∃ core3 : Buf Assem, core3.items.Perm s.core.items ∧
      (do let items ← transmuteLoop c
                (s.record (.transmute (s.core.items.take (min n s.core.count)).length))
                (s.core.items.take (min n s.core.count)) core3.items
          pure ({ s.record (.transmute (s.core.items.take (min n s.core.count)).length) with
            core := { core3 with items := items } } : State)) = (.ok s' : R State) := by
    dsimp only at h
    split at h
    · rw [bind_ok] at h
      obtain ⟨⟨rest, b⟩, h4, h⟩ := h
      dsimp only at h
      rw [bind_ok] at h
      obtain ⟨core3, h3, h⟩ := h
      obtain ⟨_, h4⟩ := Buf.popN_ok.1 h4
      simp only [Prod.mk.injEq] at h4
      obtain ⟨rfl, rfl⟩ := h4
      obtain ⟨_, rfl⟩ := Buf.pushAll_ok.1 h3
      exact ⟨_, (perm_take_drop _ _).trans (perm_take_drop _ _), h⟩
    · exact ⟨_, perm_take_drop _ _, h⟩
  obtain ⟨core3, hp, h⟩ := key
  rw [bind_ok] at h
  obtain ⟨items, h5, h⟩ := h
  simp only [pure_eq_ok, Except.ok.injEq] at h
  subst h
  have ht := transmuteLoop_tag _ h5
  unfold Same held
  simp only [List.map_append, State.record]
  rw [ht]
  exact ((hp.map tag).append_left _).append_right _

theorem groupByCommod_flat {c : Cfg} {s : State} (l : List Assem) :
    ∀ {m m' : SMap (List Assem)}, groupByCommod c s l m = .ok m' → (flat m').Perm (flat m ++ l) := by
  induction l with
  | nil => intro m m' h; simp only [groupByCommod, Except.ok.injEq] at h; subst h; simp
  | cons a l ih =>
    intro m m' h
    simp only [groupByCommod, bind_ok] at h
    obtain ⟨k, _, h⟩ := h
    refine (ih h).trans ?_
    have := (flat_modify k a m).append_right l
    simpa using this

theorem peekSpent_items {c : Cfg} {s s' : State} {m : SMap (List Assem)}
    (h : peekSpent c s = .ok (m, s')) : s' = s := by
  unfold peekSpent at h
  rw [bind_ok] at h
  obtain ⟨⟨mats, b⟩, h1, h⟩ := h
  obtain ⟨_, h1⟩ := Buf.popN_ok.1 h1
  simp only [Prod.mk.injEq] at h1
  obtain ⟨rfl, rfl⟩ := h1
  rw [bind_ok] at h
  obtain ⟨b', h2, h⟩ := h
  obtain ⟨_, rfl⟩ := Buf.pushAll_ok.1 h2
  rw [bind_ok] at h
  obtain ⟨_, _, h⟩ := h
  simp only [pure_eq_ok, Except.ok.injEq, Prod.mk.injEq] at h
  rw [← h.2]
  simp [Buf.count]

theorem recordSupply_items {c : Cfg} (ks : List String) :
    ∀ {s s' : State}, recordSupply c ks s = .ok s' → ∃ l, s' = { s with log := l } := by
  induction ks with
  | nil => intro s s' h; simp only [recordSupply, Except.ok.injEq] at h; exact ⟨s.log, h.symm⟩
  | cons k ks ih =>
    intro s s' h
    simp only [recordSupply, bind_ok] at h
    obtain ⟨⟨m, s1⟩, h1, h⟩ := h
    have := peekSpent_items h1
    subst this
    obtain ⟨l, h⟩ := ih h
    exact ⟨l, h⟩

theorem discharge_same {c : Cfg} {s s' : State} {b : Bool} (h : discharge c s = .ok (b, s')) :
    Same s s' := by
  unfold discharge at h
  dsimp only at h
  split at h
  · simp only [Except.ok.injEq, Prod.mk.injEq] at h
    rw [← h.2]; exact Same.rfl' _
  · rw [bind_ok] at h
    obtain ⟨⟨mats, core⟩, h1, h⟩ := h
    obtain ⟨_, h1⟩ := Buf.popN_ok.1 h1
    simp only [Prod.mk.injEq] at h1
    obtain ⟨rfl, rfl⟩ := h1
    rw [bind_ok] at h
    obtain ⟨sp, h2, h⟩ := h
    obtain ⟨_, rfl⟩ := Buf.pushAll_ok.1 h2
    rw [bind_ok] at h
    obtain ⟨s2, h3, h⟩ := h
    obtain ⟨l, rfl⟩ := recordSupply_items _ h3
    simp only [pure_eq_ok, Except.ok.injEq, Prod.mk.injEq] at h
    rw [← h.2]
    refine List.Perm.map _ ?_
    simp only [held, State.record, List.append_assoc]
    refine List.Perm.append_left _ ?_
    refine (List.Perm.append_left _ List.perm_append_comm).trans ?_
    rw [← List.append_assoc]
    exact (perm_take_drop _ _).append_right _

theorem load_same {c : Cfg} {s s' : State} (h : load c s = .ok s') : Same s s' := by
  unfold load at h
  dsimp only at h
  split at h
  · simp only [Except.ok.injEq] at h; subst h; exact Same.rfl' _
  · split at h
    · exact absurd h (by simp)
    · rw [bind_ok] at h
      obtain ⟨⟨mats, fr⟩, h1, h⟩ := h
      obtain ⟨_, h1⟩ := Buf.popN_ok.1 h1
      simp only [Prod.mk.injEq] at h1
      obtain ⟨rfl, rfl⟩ := h1
      rw [bind_ok] at h
      obtain ⟨co, h2, h⟩ := h
      obtain ⟨_, rfl⟩ := Buf.pushAll_ok.1 h2
      simp only [pure_eq_ok, Except.ok.injEq] at h
      subst h
      refine List.Perm.map _ ?_
      simp only [held, State.record]
      refine List.Perm.append_right _ ?_
      rw [← List.append_assoc]
      refine List.perm_append_comm.trans ?_
      rw [← List.append_assoc, List.take_append_drop]

theorem dischargeAll_same {c : Cfg} (fuel : Nat) :
    ∀ {s s' : State}, dischargeAll c fuel s = .ok s' → Same s s' := by
  induction fuel with
  | zero =>
    intro s s' h
    unfold dischargeAll at h
    split at h
    · simp only [Except.ok.injEq] at h; subst h; exact Same.rfl' _
    · exact absurd h (by simp)
  | succ n ih =>
    intro s s' h
    unfold dischargeAll at h
    split at h
    · simp only [Except.ok.injEq] at h; subst h; exact Same.rfl' _
    · rw [bind_ok] at h
      obtain ⟨⟨b, s1⟩, h1, h⟩ := h
      dsimp only at h
      split at h
      · exact (discharge_same h1).trans (ih h)
      · simp only [pure_eq_ok, Except.ok.injEq] at h; subst h; exact discharge_same h1

theorem dumpFresh_same {c : Cfg} (n : Nat) :
    ∀ {s s' : State}, dumpFresh c n s = .ok s' → Same s s' := by
  induction n with
  | zero =>
    intro s s' h
    simp only [dumpFresh, Except.ok.injEq] at h; subst h; exact Same.rfl' _
  | succ n ih =>
    intro s s' h
    unfold dumpFresh at h
    by_cases hc : s.fresh.count > 0 ∧ spaceForOne c s.spent = true
    · rw [if_pos hc, bind_ok] at h
      obtain ⟨⟨m, fr⟩, h1, h⟩ := h
      obtain ⟨r, rs, he, h1⟩ := Buf.pop_ok.1 h1
      simp only [Prod.mk.injEq] at h1
      obtain ⟨rfl, rfl⟩ := h1
      rw [bind_ok] at h
      obtain ⟨sp, h2, h⟩ := h
      obtain ⟨_, rfl⟩ := Buf.push_ok.1 h2
      refine Same.trans ?_ (ih h)
      refine List.Perm.map _ ?_
      simp only [held, he]
      rw [List.cons_append, List.cons_append, ← List.append_assoc]
      exact List.perm_append_singleton _ _
    · rw [if_neg hc] at h
      simp only [Except.ok.injEq] at h; subst h; exact Same.rfl' _

theorem prefChange_same {c : Cfg} {s s' : State} {i : Nat} (h : prefChange c s i = .ok s') :
    Same s s' := by
  unfold prefChange at h
  rw [bind_ok] at h
  obtain ⟨t, _, h⟩ := h
  split at h
  · simp only [pure_eq_ok, Except.ok.injEq] at h; subst h; exact Same.rfl' _
  · rw [bind_ok] at h
    obtain ⟨_, _, h⟩ := h
    split at h
    · simp only [pure_eq_ok, Except.ok.injEq] at h; subst h; exact Same.rfl' _
    · simp only [bind_ok] at h
      obtain ⟨_, _, _, _, h⟩ := h
      simp only [pure_eq_ok, Except.ok.injEq] at h; subst h; exact Same.rfl' _

theorem recipeChange_same {c : Cfg} {s s' : State} {i : Nat} (h : recipeChange c s i = .ok s') :
    Same s s' := by
  unfold recipeChange at h
  rw [bind_ok] at h
  obtain ⟨t, _, h⟩ := h
  split at h
  · simp only [pure_eq_ok, Except.ok.injEq] at h; subst h; exact Same.rfl' _
  · rw [bind_ok] at h
    obtain ⟨_, _, h⟩ := h
    split at h
    · simp only [pure_eq_ok, Except.ok.injEq] at h; subst h; exact Same.rfl' _
    · simp only [bind_ok] at h
      obtain ⟨_, _, _, _, _, _, _, _, h⟩ := h
      simp only [pure_eq_ok, Except.ok.injEq] at h; subst h; exact Same.rfl' _

theorem foldlM_same {f : State → Nat → R State}
    (hf : ∀ {s s' : State} {i : Nat}, f s i = .ok s' → Same s s') (l : List Nat) :
    ∀ {s s' : State}, l.foldlM f s = .ok s' → Same s s' := by
  induction l with
  | nil => intro s s' h; simp only [List.foldlM_nil, pure_eq_ok, Except.ok.injEq] at h; subst h; exact Same.rfl' _
  | cons i l ih =>
    intro s s' h
    rw [List.foldlM_cons, bind_ok] at h
    obtain ⟨s1, h1, h⟩ := h
    exact (hf h1).trans (ih h)

theorem tick_same {c : Cfg} {s s' : State} (h : tick c s = .ok s') : Same s s' := by
  unfold tick at h
  split at h
  · unfold tickRetired at h
    simp only [bind_ok] at h
    obtain ⟨s1, h1, s2, h2, s3, h3, h⟩ := h
    have e1 : Same s s1 := by
      unfold retireTransmute at h1
      split at h1
      · have := transmute_same h1; exact this
      · simp only [Except.ok.injEq] at h1; subst h1; exact Same.rfl' _
    have e3 := (e1.trans (dischargeAll_same _ h2)).trans (dumpFresh_same _ h3)
    simp only [pure_eq_ok, Except.ok.injEq] at h
    subst h
    split
    · exact e3
    · exact e3
  · rw [bind_ok] at h
    obtain ⟨s1, h1, h⟩ := h
    unfold tickFuel at h1
    simp only [bind_ok] at h1
    obtain ⟨s2, h2, s3, h3, h4⟩ := h1
    have e2 : Same s s2 := by
      unfold tickCycleEnd at h2
      split at h2
      · rw [bind_ok] at h2
        obtain ⟨s4, h5, h2⟩ := h2
        simp only [pure_eq_ok, Except.ok.injEq] at h2
        subst h2
        have := transmute_same h5; exact this
      · simp only [Except.ok.injEq] at h2; subst h2; exact Same.rfl' _
    have e3 : Same s2 s3 := by
      unfold tickDischarge at h3
      split at h3
      · rw [bind_ok] at h3
        obtain ⟨⟨b, s4⟩, h5, h3⟩ := h3
        simp only [pure_eq_ok, Except.ok.injEq] at h3
        subst h3
        have := discharge_same h5; exact this
      · simp only [Except.ok.injEq] at h3; subst h3; exact Same.rfl' _
    have e4 : Same s3 s1 := by
      unfold tickLoad at h4
      split at h4
      · exact load_same h4
      · simp only [Except.ok.injEq] at h4; subst h4; exact Same.rfl' _
    unfold applyChanges at h
    rw [bind_ok] at h
    obtain ⟨s5, h5, h⟩ := h
    exact (((e2.trans e3).trans e4).trans (foldlM_same prefChange_same _ h5)).trans
      (foldlM_same recipeChange_same _ h)

theorem requestLoop_same {c : Cfg} (n : Nat) :
    ∀ {s s' : State} {ps : List (List Request)}, requestLoop c n s = .ok (ps, s') → Same s s' := by
  induction n with
  | zero =>
    intro s s' ps h
    simp only [requestLoop, Except.ok.injEq, Prod.mk.injEq] at h
    rw [← h.2]; exact Same.rfl' _
  | succ n ih =>
    intro s s' ps h
    simp only [requestLoop, bind_ok] at h
    obtain ⟨_, _, _, _, ⟨ps', s1⟩, h1, h⟩ := h
    simp only [pure_eq_ok, Except.ok.injEq, Prod.mk.injEq] at h
    rw [← h.2]
    have := ih h1; exact this

theorem getMatlRequests_same {c : Cfg} {s s' : State} {ps : List (List Request)}
    (h : getMatlRequests c s = .ok (ps, s')) : Same s s' := by
  unfold getMatlRequests at h
  rw [bind_ok] at h
  obtain ⟨n, _, h⟩ := h
  split at h
  · simp only [pure_eq_ok, Except.ok.injEq, Prod.mk.injEq] at h; rw [← h.2]; exact Same.rfl' _
  · split at h
    · simp only [pure_eq_ok, Except.ok.injEq, Prod.mk.injEq] at h; rw [← h.2]; exact Same.rfl' _
    · exact requestLoop_same _ h

theorem bidLoop_items {c : Cfg} {reqs : String → List ℚ} (ks : List String) :
    ∀ {s s' : State} {ps : List BidPort}, bidLoop c reqs ks s = .ok (ps, s') → s' = s := by
  induction ks with
  | nil =>
    intro s s' ps h
    simp only [bidLoop, Except.ok.injEq, Prod.mk.injEq] at h
    exact h.2.symm
  | cons k ks ih =>
    intro s s' ps h
    unfold bidLoop at h
    split at h
    · exact ih h
    · rw [bind_ok] at h
      obtain ⟨⟨m, s1⟩, h1, h⟩ := h
      have := peekSpent_items h1
      subst this
      dsimp only at h
      split at h
      · exact ih h
      · split at h
        · exact absurd h (by simp)
        · rw [bind_ok] at h
          obtain ⟨⟨ps', s2⟩, h2, h⟩ := h
          simp only [pure_eq_ok, Except.ok.injEq, Prod.mk.injEq] at h
          rw [← h.2]; exact ih h2

theorem offerPhase_same {c : Cfg} {reqs : String → List ℚ} {s s' : State} {o : Offer}
    (h : offerPhase c reqs s = .ok (o, s')) : Same s s' := by
  unfold offerPhase at h
  rw [bind_ok] at h
  obtain ⟨s1, h1, h⟩ := h
  rw [bind_ok] at h
  obtain ⟨⟨rq, s2⟩, h2, h⟩ := h
  rw [bind_ok] at h
  obtain ⟨⟨bd, s3⟩, h3, h⟩ := h
  have := bidLoop_items _ h3
  subst this
  simp only [pure_eq_ok, Except.ok.injEq, Prod.mk.injEq] at h
  rw [← h.2]
  exact (tick_same h1).trans (getMatlRequests_same h2)

/-! ## Trades -/

theorem flat_dropLast {k : String} {a : Assem} (m : SMap (List Assem)) (hs : SMap.Sorted m)
    (h : (m.get [] k).getLast? = some a) :
    (flat m).Perm (a :: flat (SMap.modify [] k List.dropLast m)) := by
  induction m with
  | nil => simp [SMap.get] at h
  | cons p m ih =>
    obtain ⟨k', v⟩ := p
    have hs' := hs
    simp only [SMap.Sorted, SMap.keys, List.map_cons, List.pairwise_cons] at hs'
    unfold SMap.get at h
    unfold SMap.modify
    by_cases hk : k = k'
    · simp only [hk, if_true] at h ⊢
      obtain ⟨w, rfl⟩ := List.getLast?_eq_some_iff.1 h
      simp only [flat, List.flatMap_cons, List.dropLast_concat]
      rw [List.append_assoc]
      exact List.perm_middle
    · simp only [hk, if_false] at h ⊢
      have hmem : k ∈ SMap.keys m := by
        by_contra hn
        rw [SMap.get_of_not_mem hn] at h
        simp at h
      have hlt : ¬ k < k' := fun hlt => lt_asymm hlt (hs'.1 k hmem)
      rw [if_neg hlt]
      simp only [flat, List.flatMap_cons]
      exact ((ih hs'.2 h).append_left v).trans List.perm_middle

theorem groupByCommod_sorted {c : Cfg} {s : State} (l : List Assem) :
    ∀ {m m' : SMap (List Assem)}, groupByCommod c s l m = .ok m' → SMap.Sorted m →
      SMap.Sorted m' := by
  induction l with
  | nil => intro m m' h hs; simp only [groupByCommod, Except.ok.injEq] at h; subst h; exact hs
  | cons a l ih =>
    intro m m' h hs
    simp only [groupByCommod, bind_ok] at h
    obtain ⟨k, _, h⟩ := h
    exact ih h (SMap.sorted_modify hs)

/-- Each group reversed. -/
def revGroups (m : SMap (List Assem)) : SMap (List Assem) := m.map fun p => (p.1, p.2.reverse)

theorem keys_revGroups (m : SMap (List Assem)) : SMap.keys (revGroups m) = SMap.keys m := by
  simp [SMap.keys, revGroups, Function.comp_def]

theorem flat_revGroups (m : SMap (List Assem)) : (flat (revGroups m)).Perm (flat m) := by
  induction m with
  | nil => exact List.Perm.refl _
  | cons p m ih =>
    simp only [flat, revGroups, List.map_cons, List.flatMap_cons] at ih ⊢
    exact (List.reverse_perm _).append ih

theorem popSpent_spec {c : Cfg} {s s' : State} {m : SMap (List Assem)}
    (h : popSpent c s = .ok (m, s')) :
    SMap.Sorted m ∧ (flat m).Perm s.spent.items ∧
      s' = { s with spent := { s.spent with items := [] } } := by
  unfold popSpent at h
  rw [bind_ok] at h
  obtain ⟨⟨mats, b⟩, h1, h⟩ := h
  obtain ⟨_, h1⟩ := Buf.popN_ok.1 h1
  simp only [Prod.mk.injEq] at h1
  obtain ⟨rfl, rfl⟩ := h1
  rw [bind_ok] at h
  obtain ⟨g, h2, h⟩ := h
  simp only [pure_eq_ok, Except.ok.injEq, Prod.mk.injEq] at h
  obtain ⟨rfl, rfl⟩ := h
  have hg := groupByCommod_flat _ h2
  have hs := groupByCommod_sorted _ h2 (by simp [SMap.Sorted, SMap.keys])
  refine ⟨?_, ?_, by simp [Buf.count]⟩
  · have := keys_revGroups g
    unfold SMap.Sorted at hs ⊢
    rw [← this] at hs
    exact hs
  · refine (flat_revGroups g).trans (hg.trans ?_)
    simp [flat, Buf.count]

theorem tradeLoop_flat (ks : List String) :
    ∀ {m m' : SMap (List Assem)} {s s' : State} {resp : List (String × Assem)},
      tradeLoop ks m s = .ok (resp, m', s') → SMap.Sorted m →
      (flat m).Perm (resp.map Prod.snd ++ flat m') ∧ (∃ f, s' = { s with resIdx := f }) ∧
        resp.map Prod.fst = ks := by
  induction ks with
  | nil =>
    intro m m' s s' resp h hs
    simp only [tradeLoop, Except.ok.injEq, Prod.mk.injEq] at h
    obtain ⟨rfl, rfl, rfl⟩ := h
    exact ⟨List.Perm.refl _, ⟨_, rfl⟩, rfl⟩
  | cons k ks ih =>
    intro m m' s s' resp h hs
    unfold tradeLoop at h
    split at h
    · exact absurd h (by simp)
    · rename_i a ha
      rw [bind_ok] at h
      obtain ⟨⟨r, m2, s2⟩, h1, h⟩ := h
      simp only [pure_eq_ok, Except.ok.injEq, Prod.mk.injEq] at h
      obtain ⟨rfl, rfl, rfl⟩ := h
      obtain ⟨i1, ⟨f, i2⟩, i3⟩ := ih h1 (SMap.sorted_modify hs)
      refine ⟨?_, ⟨f, i2⟩, by simp [i3]⟩
      refine (flat_dropLast m hs ha).trans ?_
      simpa using i1

theorem pushSpent_spec {c : Cfg} (m : SMap (List Assem)) :
    ∀ {s s' : State}, pushSpent c m s = .ok s' →
      s' = { s with spent := { s.spent with
        items := s.spent.items ++ m.flatMap fun p => p.2.reverse } } := by
  induction m with
  | nil => intro s s' h; simp only [pushSpent, Except.ok.injEq] at h; subst h; simp
  | cons p m ih =>
    intro s s' h
    obtain ⟨k, l⟩ := p
    simp only [pushSpent, bind_ok] at h
    obtain ⟨b, h1, h⟩ := h
    obtain ⟨_, rfl⟩ := Buf.pushAll_ok.1 h1
    rw [ih h]
    simp

theorem getMatlTrades_held {c : Cfg} {trades : List String} {s s' : State}
    {resp : List (String × Assem)} (h : getMatlTrades c trades s = .ok (resp, s')) :
    (held s).Perm (held s' ++ resp.map Prod.snd) := by
  unfold getMatlTrades at h
  rw [bind_ok] at h
  obtain ⟨⟨m, s1⟩, h1, h⟩ := h
  rw [bind_ok] at h
  obtain ⟨⟨r, m', s2⟩, h2, h⟩ := h
  rw [bind_ok] at h
  obtain ⟨s3, h3, h⟩ := h
  simp only [pure_eq_ok, Except.ok.injEq, Prod.mk.injEq] at h
  obtain ⟨rfl, rfl⟩ := h
  obtain ⟨hs, hp, rfl⟩ := popSpent_spec h1
  obtain ⟨hq, ⟨f, rfl⟩, _⟩ := tradeLoop_flat _ h2 hs
  rw [pushSpent_spec _ h3]
  simp only [held, List.nil_append, List.append_assoc]
  refine List.Perm.append_left _ (List.Perm.append_left _ ?_)
  refine hp.symm.trans (hq.trans (List.perm_append_comm.trans (List.Perm.append_right _ ?_)))
  have := flat_revGroups m'
  simp only [flat, revGroups, List.flatMap_map] at this
  exact this.symm

theorem acceptLoop_held {c : Cfg} (l : List (String × Assem)) :
    ∀ {s s' : State}, acceptLoop c l s = .ok s' →
      (held s').Perm (held s ++ l.map Prod.snd) := by
  induction l with
  | nil => intro s s' h; simp only [acceptLoop, Except.ok.injEq] at h; subst h; simp
  | cons d l ih =>
    intro s s' h
    obtain ⟨k, a⟩ := d
    simp only [acceptLoop, bind_ok] at h
    obtain ⟨s1, h1, h⟩ := h
    have e1 : s1.fresh = s.fresh ∧ s1.core = s.core ∧ s1.spent = s.spent := by
      unfold indexRes at h1
      split at h1
      · simp only [Except.ok.injEq] at h1; subst h1; exact ⟨rfl, rfl, rfl⟩
      · exact absurd h1 (by simp)
    split at h
    · rw [bind_ok] at h
      obtain ⟨b, h2, h⟩ := h
      obtain ⟨_, rfl⟩ := Buf.push_ok.1 h2
      refine (ih h).trans ?_
      rw [show (List.map Prod.snd ((k, a) :: l)) = [a] ++ l.map Prod.snd from rfl,
        ← List.append_assoc]
      refine List.Perm.append_right _ ?_
      simp only [held, e1.1, e1.2.1, e1.2.2, List.append_assoc]
      refine List.Perm.append_left _ (List.Perm.append_left _ ?_)
      exact List.perm_append_comm
    · rw [bind_ok] at h
      obtain ⟨b, h2, h⟩ := h
      obtain ⟨_, rfl⟩ := Buf.push_ok.1 h2
      refine (ih h).trans ?_
      rw [show (List.map Prod.snd ((k, a) :: l)) = [a] ++ l.map Prod.snd from rfl,
        ← List.append_assoc]
      refine List.Perm.append_right _ ?_
      simp only [held, e1.1, e1.2.1, e1.2.2, List.append_assoc]
      refine List.Perm.append_left _ ?_
      rw [← List.append_assoc s.core.items]
      exact List.perm_append_comm

theorem sideLoop_same {c : Cfg} {on : Bool} (ps : List String) :
    ∀ {i : Nat} {s s' : State}, sideLoop c on ps i s = .ok s' → Same s s' := by
  induction ps with
  | nil => intro i s s' h; simp only [sideLoop, Except.ok.injEq] at h; subst h; exact Same.rfl' _
  | cons p ps ih =>
    intro i s s' h
    cases on with
    | true =>
      simp only [sideLoop, if_true, bind_ok] at h
      obtain ⟨_, _, h⟩ := h
      have := ih h; exact this
    | false =>
      simp only [sideLoop, Bool.false_eq_true, if_false, pure_eq_ok, ok_bind] at h
      have := ih h; exact this

theorem tock_same {c : Cfg} {s s' : State} (h : tock c s = .ok s') : Same s s' := by
  unfold tock at h
  split at h
  · simp only [Except.ok.injEq] at h; subst h; exact Same.rfl' _
  · rw [bind_ok] at h
    obtain ⟨s3, h3, h⟩ := h
    simp only [pure_eq_ok, Except.ok.injEq] at h
    subst h
    have e1 : Same s (tockBegin c (tockReset c s)) := by
      refine Same.trans (s' := tockReset c s) ?_ ?_
      · unfold tockReset; split <;> exact Same.rfl' _
      · unfold tockBegin; split <;> exact Same.rfl' _
    have e3 : Same s3 (tockCount c s3) := by
      unfold tockCount; split <;> exact Same.rfl' _
    have e2 : Same (tockBegin c (tockReset c s)) s3 := by
      unfold recordSideProduct at h3
      generalize (if producing c (tockBegin c (tockReset c s)) = true then c.powerCap else 0) = p
        at h3
      split at h3
      · have := sideLoop_same _ h3; exact this
      · simp only [Except.ok.injEq] at h3; subst h3; exact Same.rfl' _
    exact (e1.trans e2).trans e3

/-- What one step does to the held assemblies. -/
theorem step_held {c : Cfg} {s s' : State} {i : In} {o : Out} (h : step c s i = .ok (o, s')) :
    ((held s ++ i.buys.map Prod.snd).map tag).Perm
      ((held s' ++ o.shipped.map Prod.snd).map tag) := by
  unfold step at h
  rw [bind_ok] at h
  obtain ⟨⟨of, s1⟩, h1, h⟩ := h
  rw [bind_ok] at h
  obtain ⟨⟨resp, s2⟩, h2, h⟩ := h
  simp only [pure_eq_ok, Except.ok.injEq, Prod.mk.injEq] at h
  obtain ⟨rfl, rfl⟩ := h
  have e1 := offerPhase_same h1
  have e2 : ((held s1 ++ i.buys.map Prod.snd).map tag).Perm
      ((held s2 ++ resp.map Prod.snd).map tag) := by
    unfold settlePhase at h2
    have key : ∃ s3, (held s1).Perm (held s3 ++ resp.map Prod.snd) ∧
        (do let s4 ← acceptMatlTrades c i.buys s3
            let s5 ← tock c s4
            pure (resp, ({ s5 with time := s5.time + 1 } : State)) :
          R (List (String × Assem) × State)) = .ok (resp, s2) := by
      by_cases hs : i.sells = []
      · simp only [hs, if_true, pure_eq_ok, ok_bind] at h2
        have h2' := h2
        simp only [bind_ok, Except.ok.injEq, Prod.mk.injEq] at h2'
        obtain ⟨_, _, _, _, rfl, _⟩ := h2'
        exact ⟨s1, by simp, h2⟩
      · simp only [if_neg hs] at h2
        rw [bind_ok] at h2
        obtain ⟨⟨r, s3⟩, h3, h2⟩ := h2
        have h2' := h2
        simp only [pure_eq_ok, bind_ok, Except.ok.injEq, Prod.mk.injEq] at h2'
        obtain ⟨_, _, _, _, rfl, _⟩ := h2'
        exact ⟨s3, getMatlTrades_held h3, h2⟩
    obtain ⟨s3, hp, h2⟩ := key
    rw [bind_ok] at h2
    obtain ⟨s4, h4, h2⟩ := h2
    rw [bind_ok] at h2
    obtain ⟨s5, h5, h2⟩ := h2
    simp only [pure_eq_ok, Except.ok.injEq, Prod.mk.injEq, true_and] at h2
    subst h2
    have e4 : (held s4).Perm (held s3 ++ i.buys.map Prod.snd) := by
      unfold acceptMatlTrades at h4
      have := acceptLoop_held _ h4
      refine this.trans (List.Perm.append_right _ ?_)
      split <;> exact List.Perm.refl _
    have e5 := tock_same h5
    have e5' : ((held { s5 with time := s5.time + 1 }).map tag).Perm ((held s4).map tag) := e5
    rw [List.map_append, List.map_append]
    refine List.Perm.trans ?_ (e5'.symm.append_right _)
    have := (e4.map tag).append_right ((resp.map Prod.snd).map tag)
    refine List.Perm.trans ?_ this.symm
    rw [List.map_append]
    have h6 := (hp.map tag).append_right ((i.buys.map Prod.snd).map tag)
    refine h6.trans ?_
    rw [List.map_append, List.append_assoc, List.append_assoc]
    exact List.Perm.append_left _ List.perm_append_comm
  have e1' := List.Perm.append_right ((i.buys.map Prod.snd).map tag) e1
  rw [← List.map_append, ← List.map_append] at e1'
  exact e1'.symm.trans e2

end Cyc.Reactor
