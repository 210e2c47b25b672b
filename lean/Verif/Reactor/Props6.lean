import Verif.Reactor.Props1
import Verif.Reactor.Props2

/-!
# The events of a reactor add up, and bound its energy (C122, C123)
-/

namespace Cyc.Reactor

/-- The sizes of the loadings among the rows. -/
def loads (l : List Rec) : List Nat :=
  l.filterMap fun r => match r with
    | .load n => some n
    | _ => none

@[simp] theorem loads_append (l l' : List Rec) : loads (l ++ l') = loads l ++ loads l' := by
  simp [loads]

/-! ## Books -/

/-- The books of the core are kept: what it gained is what was recorded. -/
def Kept (s s' : State) : Prop :=
  s'.core.items.length + (discharges s'.log).sum + (loads s.log).sum =
    s.core.items.length + (discharges s.log).sum + (loads s'.log).sum

/-- The books of the fresh fuel are kept, with `n` assemblies delivered. -/
def KeptF (n : Nat) (s s' : State) : Prop :=
  s'.fresh.items.length + (loads s'.log).sum = s.fresh.items.length + (loads s.log).sum + n

theorem Kept.rfl' (s : State) : Kept s s := Eq.refl _

theorem Kept.trans {s s' s'' : State} (h : Kept s s') (h' : Kept s' s'') : Kept s s'' := by
  unfold Kept at *; omega

theorem KeptF.rfl' (s : State) : KeptF 0 s s := Eq.refl _

theorem KeptF.trans {n m : Nat} {s s' s'' : State} (h : KeptF n s s') (h' : KeptF m s' s'') :
    KeptF (n + m) s s'' := by
  unfold KeptF at *; omega

/-- Both books are kept, and nothing was delivered. -/
def Still (s s' : State) : Prop := Kept s s' ∧ KeptF 0 s s'

theorem Still.rfl' (s : State) : Still s s := ⟨Kept.rfl' s, KeptF.rfl' s⟩

theorem Still.trans {s s' s'' : State} (h : Still s s') (h' : Still s' s'') : Still s s'' :=
  ⟨h.1.trans h'.1, h.2.trans h'.2⟩

theorem Still.congr {s s' s'' : State} (h : Still s s') (h1 : s''.core = s'.core)
    (h2 : s''.fresh = s'.fresh) (h3 : s''.log = s'.log) : Still s s'' := by
  unfold Still Kept KeptF at *
  rw [h1, h2, h3]; exact h

/-- Rows about neither loading nor discharge. -/
def Other (l : List Rec) : Prop := discharges l = [] ∧ loads l = []

theorem still_of {s s' : State} {l : List Rec} (h1 : s'.core.items.length = s.core.items.length)
    (h2 : s'.fresh.items.length = s.fresh.items.length) (h3 : s'.log = s.log ++ l) (h4 : Other l) :
    Still s s' := by
  refine ⟨?_, ?_⟩
  · unfold Kept; rw [h1, h3]; simp [h4.1, h4.2]
  · unfold KeptF; rw [h2, h3]; simp [h4.2]

theorem record_still (s : State) (r : Rec) (h : Other [r]) : Still s (s.record r) :=
  still_of (l := [r]) rfl rfl rfl h

theorem transmuteLoop_length {c : Cfg} {s : State} {old items items' : List Assem}
    (h : transmuteLoop c s old items = .ok items') : items'.length = items.length := by
  have := congrArg List.length (transmuteLoop_tag old h)
  simpa using this

theorem transmute_still {c : Cfg} {n : Nat} {s s' : State} (h : transmute c n s = .ok s') :
    Still s s' := by
  unfold transmute at h
  rw [bind_ok] at h
  obtain ⟨⟨old, core1⟩, h1, h⟩ := h
  obtain ⟨hn, h1⟩ := Buf.popN_ok.1 h1
  simp only [Prod.mk.injEq] at h1
  obtain ⟨rfl, rfl⟩ := h1
  rw [bind_ok] at h
  obtain ⟨core2, h2, h⟩ := h
  obtain ⟨_, rfl⟩ := Buf.pushAll_ok.1 h2
  have key : ∃ core3 : Buf Assem, core3.items.Perm s.core.items ∧
      (do let items ← transmuteLoop c
                (s.record (.transmute (s.core.items.take (min n s.core.count)).length))
                (s.core.items.take (min n s.core.count)) core3.items
          pure ({ s.record (.transmute (s.core.items.take (min n s.core.count)).length) with
            core := { core3 with items := items } } : State)) = (.ok s' : R State) := by
    dsimp only at h
    split at h
    · rw [bind_ok] at h
      obtain ⟨⟨rest, b⟩, h4, h⟩ := h
      dsimp only at h
      rw [bind_ok] at h
      obtain ⟨core3, h3, h⟩ := h
      obtain ⟨_, h4⟩ := Buf.popN_ok.1 h4
      simp only [Prod.mk.injEq] at h4
      obtain ⟨rfl, rfl⟩ := h4
      obtain ⟨_, rfl⟩ := Buf.pushAll_ok.1 h3
      exact ⟨_, (perm_take_drop _ _).trans (perm_take_drop _ _), h⟩
    · exact ⟨_, perm_take_drop _ _, h⟩
  obtain ⟨core3, hp, h⟩ := key
  rw [bind_ok] at h
  obtain ⟨items, h5, h⟩ := h
  simp only [pure_eq_ok, Except.ok.injEq] at h
  subst h
  exact still_of ((transmuteLoop_length h5).trans hp.length_eq) rfl rfl ⟨rfl, rfl⟩

theorem recordSupply_other {c : Cfg} (ks : List String) :
    ∀ {s s' : State}, recordSupply c ks s = .ok s' →
      ∃ l, Other l ∧ s' = { s with log := s.log ++ l } := by
  induction ks with
  | nil =>
    intro s s' h
    simp only [recordSupply, Except.ok.injEq] at h
    exact ⟨[], ⟨rfl, rfl⟩, by simp [h]⟩
  | cons k ks ih =>
    intro s s' h
    simp only [recordSupply, bind_ok] at h
    obtain ⟨⟨m, s1⟩, h1, h⟩ := h
    have := peekSpent_items h1
    subst this
    obtain ⟨l, ho, h⟩ := ih h
    refine ⟨.supply k (totalQty (SMap.get [] m k)) :: l, ⟨ho.1, ho.2⟩, ?_⟩
    rw [h]
    simp only [State.record, List.append_assoc, List.cons_append, List.nil_append]

theorem discharge_still {c : Cfg} {s s' : State} {b : Bool} (h : discharge c s = .ok (b, s')) :
    Still s s' := by
  unfold discharge at h
  dsimp only at h
  split at h
  · simp only [Except.ok.injEq, Prod.mk.injEq] at h
    rw [← h.2]; exact still_of rfl rfl rfl ⟨rfl, rfl⟩
  · rw [bind_ok] at h
    obtain ⟨⟨mats, core⟩, h1, h⟩ := h
    obtain ⟨hn, h1⟩ := Buf.popN_ok.1 h1
    simp only [Prod.mk.injEq] at h1
    obtain ⟨rfl, rfl⟩ := h1
    rw [bind_ok] at h
    obtain ⟨sp, h2, h⟩ := h
    obtain ⟨_, rfl⟩ := Buf.pushAll_ok.1 h2
    rw [bind_ok] at h
    obtain ⟨s2, h3, h⟩ := h
    obtain ⟨l, ho, rfl⟩ := recordSupply_other _ h3
    simp only [pure_eq_ok, Except.ok.injEq, Prod.mk.injEq] at h
    rw [← h.2]
    have hn' : min c.nBatch s.core.count ≤ s.core.items.length := hn
    refine ⟨?_, ?_⟩
    · unfold Kept
      simp only [State.record, discharges_append, loads_append, ho.1, ho.2, List.length_drop,
        List.append_nil, List.sum_append]
      have e1 : discharges [Rec.discharge (min c.nBatch s.core.count)] = [min c.nBatch s.core.count] :=
        rfl
      have e2 : loads [Rec.discharge (min c.nBatch s.core.count)] = [] := rfl
      rw [e1, e2]
      simp only [List.sum_cons, List.sum_nil]
      omega
    · unfold KeptF
      simp only [State.record, loads_append, ho.2, List.append_nil, List.sum_append]
      rfl

theorem load_still {c : Cfg} {s s' : State} (h : load c s = .ok s') : Still s s' := by
  unfold load at h
  dsimp only at h
  split at h
  · simp only [Except.ok.injEq] at h; subst h; exact Still.rfl' _
  · split at h
    · exact absurd h (by simp)
    · rw [bind_ok] at h
      obtain ⟨⟨mats, fr⟩, h1, h⟩ := h
      obtain ⟨hn, h1⟩ := Buf.popN_ok.1 h1
      simp only [Prod.mk.injEq] at h1
      obtain ⟨rfl, rfl⟩ := h1
      rw [bind_ok] at h
      obtain ⟨co, h2, h⟩ := h
      obtain ⟨_, rfl⟩ := Buf.pushAll_ok.1 h2
      simp only [pure_eq_ok, Except.ok.injEq] at h
      subst h
      generalize (min ((c.nCore : ℤ) - s.core.count) s.fresh.count).toNat = n at *
      have hn' : n ≤ s.fresh.items.length := hn
      have e1 : discharges [Rec.load n] = [] := rfl
      have e2 : loads [Rec.load n] = [n] := rfl
      refine ⟨?_, ?_⟩
      · unfold Kept
        simp only [State.record, discharges_append, loads_append, e1, e2, List.length_append,
          List.length_take, List.sum_append, List.append_nil, List.sum_cons, List.sum_nil]
        omega
      · unfold KeptF
        simp only [State.record, loads_append, e2, List.length_drop, List.sum_append, List.sum_cons,
          List.sum_nil]
        omega

theorem dischargeAll_kept {c : Cfg} (fuel : Nat) :
    ∀ {s s' : State}, dischargeAll c fuel s = .ok s' → Kept s s' := by
  induction fuel with
  | zero =>
    intro s s' h
    unfold dischargeAll at h
    split at h
    · simp only [Except.ok.injEq] at h; subst h; exact Kept.rfl' _
    · exact absurd h (by simp)
  | succ n ih =>
    intro s s' h
    unfold dischargeAll at h
    split at h
    · simp only [Except.ok.injEq] at h; subst h; exact Kept.rfl' _
    · rw [bind_ok] at h
      obtain ⟨⟨b, s1⟩, h1, h⟩ := h
      dsimp only at h
      split at h
      · exact (discharge_still h1).1.trans (ih h)
      · simp only [pure_eq_ok, Except.ok.injEq] at h; subst h; exact (discharge_still h1).1

theorem dumpFresh_kept {c : Cfg} (n : Nat) :
    ∀ {s s' : State}, dumpFresh c n s = .ok s' → Kept s s' := by
  induction n with
  | zero =>
    intro s s' h
    simp only [dumpFresh, Except.ok.injEq] at h; subst h; exact Kept.rfl' _
  | succ n ih =>
    intro s s' h
    unfold dumpFresh at h
    by_cases hc : s.fresh.count > 0 ∧ spaceForOne c s.spent = true
    · rw [if_pos hc, bind_ok] at h
      obtain ⟨⟨m, fr⟩, h1, h⟩ := h
      obtain ⟨r, rs, he, h1⟩ := Buf.pop_ok.1 h1
      simp only [Prod.mk.injEq] at h1
      obtain ⟨rfl, rfl⟩ := h1
      rw [bind_ok] at h
      obtain ⟨sp, h2, h⟩ := h
      obtain ⟨_, rfl⟩ := Buf.push_ok.1 h2
      have e := ih h
      exact e
    · rw [if_neg hc] at h
      simp only [Except.ok.injEq] at h; subst h; exact Kept.rfl' _

theorem prefChange_books {c : Cfg} {s s' : State} {i : Nat} (h : prefChange c s i = .ok s') :
    s'.core = s.core ∧ s'.fresh = s.fresh ∧ s'.log = s.log := by
  unfold prefChange at h
  rw [bind_ok] at h
  obtain ⟨t, _, h⟩ := h
  split at h
  · simp only [pure_eq_ok, Except.ok.injEq] at h; subst h; exact ⟨rfl, rfl, rfl⟩
  · rw [bind_ok] at h
    obtain ⟨k, _, h⟩ := h
    split at h
    · simp only [pure_eq_ok, Except.ok.injEq] at h; subst h; exact ⟨rfl, rfl, rfl⟩
    · simp only [bind_ok, pure_eq_ok, Except.ok.injEq] at h
      obtain ⟨_, _, _, _, rfl⟩ := h
      exact ⟨rfl, rfl, rfl⟩

theorem recipeChange_books {c : Cfg} {s s' : State} {i : Nat} (h : recipeChange c s i = .ok s') :
    s'.core = s.core ∧ s'.fresh = s.fresh ∧ s'.log = s.log := by
  unfold recipeChange at h
  rw [bind_ok] at h
  obtain ⟨t, _, h⟩ := h
  split at h
  · simp only [pure_eq_ok, Except.ok.injEq] at h; subst h; exact ⟨rfl, rfl, rfl⟩
  · rw [bind_ok] at h
    obtain ⟨k, _, h⟩ := h
    split at h
    · simp only [pure_eq_ok, Except.ok.injEq] at h; subst h; exact ⟨rfl, rfl, rfl⟩
    · simp only [bind_ok, pure_eq_ok, Except.ok.injEq] at h
      obtain ⟨_, _, _, _, _, _, _, _, rfl⟩ := h
      exact ⟨rfl, rfl, rfl⟩

theorem foldlM_books {f : State → Nat → R State} (hf : ∀ {s s' : State} {i : Nat}, f s i = .ok s' →
      s'.core = s.core ∧ s'.fresh = s.fresh ∧ s'.log = s.log) (l : List Nat) :
    ∀ {s s' : State}, l.foldlM f s = .ok s' →
      s'.core = s.core ∧ s'.fresh = s.fresh ∧ s'.log = s.log := by
  induction l with
  | nil =>
    intro s s' h
    simp only [List.foldlM_nil, pure_eq_ok, Except.ok.injEq] at h
    subst h; exact ⟨rfl, rfl, rfl⟩
  | cons i l ih =>
    intro s s' h
    rw [List.foldlM_cons, bind_ok] at h
    obtain ⟨s1, h1, h⟩ := h
    obtain ⟨a1, a2, a3⟩ := hf h1
    obtain ⟨b1, b2, b3⟩ := ih h
    exact ⟨b1.trans a1, b2.trans a2, b3.trans a3⟩

theorem tick_kept {c : Cfg} {s s' : State} (h : tick c s = .ok s') :
    Kept s s' ∧ (retired c s = false → KeptF 0 s s') := by
  unfold tick at h
  split at h
  · rename_i hret
    refine ⟨?_, fun hx => by rw [hx] at hret; exact absurd hret (by simp)⟩
    unfold tickRetired at h
    simp only [bind_ok] at h
    obtain ⟨s1, h1, s2, h2, s3, h3, h⟩ := h
    have e0 : Kept s (s.record .retired) := (record_still _ _ ⟨rfl, rfl⟩).1
    have e1 : Kept (s.record .retired) s1 := by
      unfold retireTransmute at h1
      split at h1
      · exact (transmute_still h1).1
      · simp only [Except.ok.injEq] at h1; subst h1; exact Kept.rfl' _
    have e3 := ((e0.trans e1).trans (dischargeAll_kept _ h2)).trans (dumpFresh_kept _ h3)
    simp only [pure_eq_ok, Except.ok.injEq] at h
    subst h
    split
    · exact e3.trans (record_still _ _ ⟨rfl, rfl⟩).1
    · exact e3
  · suffices hs : Still s s' from ⟨hs.1, fun _ => hs.2⟩
    rw [bind_ok] at h
    obtain ⟨s1, h1, h⟩ := h
    unfold tickFuel at h1
    simp only [bind_ok] at h1
    obtain ⟨s2, h2, s3, h3, h4⟩ := h1
    have e2 : Still s s2 := by
      unfold tickCycleEnd at h2
      split at h2
      · rw [bind_ok] at h2
        obtain ⟨s4, h5, h2⟩ := h2
        simp only [pure_eq_ok, Except.ok.injEq] at h2
        subst h2
        exact (transmute_still h5).trans
          (record_still _ _ ⟨rfl, rfl⟩)
      · simp only [Except.ok.injEq] at h2; subst h2; exact Still.rfl' _
    have e3 : Still s2 s3 := by
      unfold tickDischarge at h3
      split at h3
      · rw [bind_ok] at h3
        obtain ⟨⟨b, s4⟩, h5, h3⟩ := h3
        simp only [pure_eq_ok, Except.ok.injEq] at h3
        subst h3
        exact (discharge_still h5).congr rfl rfl rfl
      · simp only [Except.ok.injEq] at h3; subst h3; exact Still.rfl' _
    have e4 : Still s3 s1 := by
      unfold tickLoad at h4
      split at h4
      · exact load_still h4
      · simp only [Except.ok.injEq] at h4; subst h4; exact Still.rfl' _
    unfold applyChanges at h
    rw [bind_ok] at h
    obtain ⟨s5, h5, h⟩ := h
    obtain ⟨a1, a2, a3⟩ := foldlM_books prefChange_books _ h5
    obtain ⟨b1, b2, b3⟩ := foldlM_books recipeChange_books _ h
    exact ((e2.trans e3).trans e4).trans (still_of (l := []) (by rw [b1, a1]) (by rw [b2, a2])
      (by rw [b3, a3]; simp) ⟨rfl, rfl⟩)

theorem requestLoop_still {c : Cfg} (n : Nat) :
    ∀ {s s' : State} {ps : List (List Request)}, requestLoop c n s = .ok (ps, s') → Still s s' := by
  induction n with
  | zero =>
    intro s s' ps h
    simp only [requestLoop, Except.ok.injEq, Prod.mk.injEq] at h
    rw [← h.2]; exact Still.rfl' _
  | succ n ih =>
    intro s s' ps h
    simp only [requestLoop, bind_ok] at h
    obtain ⟨_, _, k, _, ⟨ps', s1⟩, h1, h⟩ := h
    simp only [pure_eq_ok, Except.ok.injEq, Prod.mk.injEq] at h
    rw [← h.2]
    exact (record_still _ _ ⟨rfl, rfl⟩).trans (ih h1)

theorem offerPhase_kept {c : Cfg} {reqs : String → List ℚ} {s s' : State} {o : Offer}
    (h : offerPhase c reqs s = .ok (o, s')) : Kept s s' ∧ (retired c s = false → KeptF 0 s s') := by
  unfold offerPhase at h
  rw [bind_ok] at h
  obtain ⟨s1, h1, h⟩ := h
  rw [bind_ok] at h
  obtain ⟨⟨rq, s2⟩, h2, h⟩ := h
  rw [bind_ok] at h
  obtain ⟨⟨bd, s3⟩, h3, h⟩ := h
  have := bidLoop_items _ h3
  subst this
  simp only [pure_eq_ok, Except.ok.injEq, Prod.mk.injEq] at h
  rw [← h.2]
  have e2 : Still s1 s3 := by
    unfold getMatlRequests at h2
    rw [bind_ok] at h2
    obtain ⟨n, _, h2⟩ := h2
    split at h2
    · simp only [pure_eq_ok, Except.ok.injEq, Prod.mk.injEq] at h2; rw [← h2.2]; exact Still.rfl' _
    · split at h2
      · simp only [pure_eq_ok, Except.ok.injEq, Prod.mk.injEq] at h2; rw [← h2.2]
        exact Still.rfl' _
      · exact requestLoop_still _ h2
  obtain ⟨a, b⟩ := tick_kept h1
  exact ⟨a.trans e2.1, fun hr => (b hr).trans e2.2⟩

theorem getMatlTrades_books {c : Cfg} {trades : List String} {s s' : State}
    {resp : List (String × Assem)} (h : getMatlTrades c trades s = .ok (resp, s')) :
    s'.core = s.core ∧ s'.fresh = s.fresh ∧ s'.log = s.log := by
  unfold getMatlTrades at h
  rw [bind_ok] at h
  obtain ⟨⟨m, s1⟩, h1, h⟩ := h
  rw [bind_ok] at h
  obtain ⟨⟨r, m', s2⟩, h2, h⟩ := h
  rw [bind_ok] at h
  obtain ⟨s3, h3, h⟩ := h
  simp only [pure_eq_ok, Except.ok.injEq, Prod.mk.injEq] at h
  obtain ⟨rfl, rfl⟩ := h
  obtain ⟨hs, _, rfl⟩ := popSpent_spec h1
  obtain ⟨_, ⟨f, rfl⟩, _⟩ := tradeLoop_flat _ h2 hs
  rw [pushSpent_spec _ h3]
  exact ⟨rfl, rfl, rfl⟩

theorem acceptLoop_books {c : Cfg} (l : List (String × Assem)) :
    ∀ {s s' : State}, acceptLoop c l s = .ok s' →
      s'.core.items.length = s.core.items.length + min l.length (c.nCore - s.core.items.length) ∧
      s'.fresh.items.length + min l.length (c.nCore - s.core.items.length) =
        s.fresh.items.length + l.length ∧ s'.log = s.log := by
  induction l with
  | nil => intro s s' h; simp only [acceptLoop, Except.ok.injEq] at h; subst h; simp
  | cons d l ih =>
    intro s s' h
    obtain ⟨k, a⟩ := d
    simp only [acceptLoop, bind_ok] at h
    obtain ⟨s1, h1, h⟩ := h
    have e1 : s1.fresh = s.fresh ∧ s1.core = s.core ∧ s1.log = s.log := by
      unfold indexRes at h1
      split at h1
      · simp only [Except.ok.injEq] at h1; subst h1; exact ⟨rfl, rfl, rfl⟩
      · exact absurd h1 (by simp)
    split at h
    · rename_i hlt
      rw [bind_ok] at h
      obtain ⟨b, h2, h⟩ := h
      obtain ⟨_, rfl⟩ := Buf.push_ok.1 h2
      obtain ⟨i1, i2, i3⟩ := ih h
      have hlt' : s.core.items.length < c.nCore := by rw [← e1.2.1]; exact hlt
      simp only [e1.1, e1.2.1, e1.2.2, List.length_append, List.length_cons, List.length_nil] at i1 i2 i3
      refine ⟨by rw [i1]; simp only [List.length_cons]; omega, ?_, i3⟩
      simp only [List.length_cons]
      omega
    · rename_i hlt
      rw [bind_ok] at h
      obtain ⟨b, h2, h⟩ := h
      obtain ⟨_, rfl⟩ := Buf.push_ok.1 h2
      obtain ⟨i1, i2, i3⟩ := ih h
      have hlt' : ¬ s.core.items.length < c.nCore := by rw [← e1.2.1]; exact hlt
      simp only [e1.1, e1.2.1, e1.2.2, List.length_append, List.length_cons, List.length_nil] at i1 i2 i3
      refine ⟨by rw [i1]; simp only [List.length_cons]; omega, ?_, i3⟩
      simp only [List.length_cons]
      omega

theorem acceptMatlTrades_books {c : Cfg} {l : List (String × Assem)} {s s' : State}
    (h : acceptMatlTrades c l s = .ok s') : Kept s s' ∧ KeptF l.length s s' := by
  unfold acceptMatlTrades at h
  dsimp only at h
  have hc : s.core.count = s.core.items.length := rfl
  split at h
  · rename_i hn
    obtain ⟨a1, a2, a3⟩ := acceptLoop_books _ h
    simp only [State.record] at a1 a2 a3
    have e : (min (l.length : ℤ) ((c.nCore : ℤ) - s.core.count)).toNat =
        min l.length (c.nCore - s.core.items.length) := by rw [hc] at *; omega
    rw [e] at a3
    have e1 : discharges [Rec.load (min l.length (c.nCore - s.core.items.length))] = [] := rfl
    have e2 : loads [Rec.load (min l.length (c.nCore - s.core.items.length))] =
      [min l.length (c.nCore - s.core.items.length)] := rfl
    refine ⟨?_, ?_⟩
    · unfold Kept
      rw [a3, discharges_append, loads_append, e1, e2, a1]
      simp only [List.sum_append, List.sum_cons, List.sum_nil, List.append_nil]
      omega
    · unfold KeptF
      rw [a3, loads_append, e2]
      simp only [List.sum_append, List.sum_cons, List.sum_nil]
      omega
  · rename_i hn
    obtain ⟨a1, a2, a3⟩ := acceptLoop_books _ h
    have e : min l.length (c.nCore - s.core.items.length) = 0 := by rw [hc] at *; omega
    rw [e] at a1 a2
    refine ⟨?_, ?_⟩
    · unfold Kept; rw [a3, a1]; omega
    · unfold KeptF; rw [a3]; omega

theorem sideLoop_still {c : Cfg} {on : Bool} (ps : List String) :
    ∀ {i : Nat} {s s' : State}, sideLoop c on ps i s = .ok s' → Still s s' := by
  induction ps with
  | nil => intro i s s' h; simp only [sideLoop, Except.ok.injEq] at h; subst h; exact Still.rfl' _
  | cons p ps ih =>
    intro i s s' h
    cases on with
    | true =>
      simp only [sideLoop, if_true, bind_ok] at h
      obtain ⟨v, _, h⟩ := h
      exact (record_still _ _ ⟨rfl, rfl⟩).trans (ih h)
    | false =>
      simp only [sideLoop, Bool.false_eq_true, if_false, pure_eq_ok, ok_bind] at h
      exact (record_still _ _ ⟨rfl, rfl⟩).trans (ih h)

theorem tock_still {c : Cfg} {s s' : State} (h : tock c s = .ok s') : Still s s' := by
  unfold tock at h
  split at h
  · simp only [Except.ok.injEq] at h; subst h; exact Still.rfl' _
  · rw [bind_ok] at h
    obtain ⟨s3, h3, h⟩ := h
    simp only [pure_eq_ok, Except.ok.injEq] at h
    subst h
    have e1 : Still s (tockBegin c (tockReset c s)) := by
      refine Still.trans (s' := tockReset c s) ?_ ?_
      · unfold tockReset; split <;> exact Still.rfl' _
      · unfold tockBegin; split
        · exact still_of rfl rfl rfl ⟨rfl, rfl⟩
        · exact Still.rfl' _
    have e3 : Still s3 (tockCount c s3) := by
      unfold tockCount; split <;> exact Still.rfl' _
    have e2 : Still (tockBegin c (tockReset c s)) s3 := by
      unfold recordSideProduct at h3
      generalize (if producing c (tockBegin c (tockReset c s)) = true then c.powerCap else 0) = p
        at h3
      have e4 : Still (tockBegin c (tockReset c s)) ((tockBegin c (tockReset c s)).record (.power p)) :=
        still_of rfl rfl rfl ⟨rfl, rfl⟩
      split at h3
      · exact e4.trans (sideLoop_still _ h3)
      · simp only [Except.ok.injEq] at h3; subst h3; exact e4
    exact (e1.trans e2).trans e3

theorem settlePhase_kept {c : Cfg} {sells : List String} {buys : List (String × Assem)} {s s' : State}
    {resp : List (String × Assem)} (h : settlePhase c sells buys s = .ok (resp, s')) :
    Kept s s' ∧ KeptF buys.length s s' := by
  have key : ∃ s1, s1.core = s.core ∧ s1.fresh = s.fresh ∧ s1.log = s.log ∧
      ∃ s2 s3, acceptMatlTrades c buys s1 = .ok s2 ∧ tock c s2 = .ok s3 ∧
        s' = { s3 with time := s3.time + 1 } := by
    unfold settlePhase at h
    by_cases hs : sells = []
    · simp only [hs, if_true, pure_eq_ok, ok_bind, bind_ok, Except.ok.injEq, Prod.mk.injEq] at h
      obtain ⟨s2, h2, s3, h3, _, rfl⟩ := h
      exact ⟨s, rfl, rfl, rfl, s2, s3, h2, h3, rfl⟩
    · simp only [if_neg hs, pure_eq_ok, bind_ok, Except.ok.injEq, Prod.mk.injEq] at h
      obtain ⟨⟨r, s1⟩, h1, s2, h2, s3, h3, _, rfl⟩ := h
      obtain ⟨a1, a2, a3⟩ := getMatlTrades_books h1
      exact ⟨s1, a1, a2, a3, s2, s3, h2, h3, rfl⟩
  obtain ⟨s1, a1, a2, a3, s2, s3, h2, h3, rfl⟩ := key
  have e0 : Still s s1 := still_of (l := []) (by rw [a1]) (by rw [a2]) (by rw [a3]; simp) ⟨rfl, rfl⟩
  obtain ⟨b1, b2⟩ := acceptMatlTrades_books h2
  have e3 := tock_still h3
  refine ⟨(e0.1.trans b1).trans e3.1, ?_⟩
  have := (e0.2.trans b2).trans e3.2
  rw [Nat.zero_add, Nat.add_zero] at this
  exact this

/-- The books of one step. -/
theorem step_books {c : Cfg} {s s' : State} {i : In} {o : Out} (h : step c s i = .ok (o, s'))
    (hl : s.log = []) : s'.log = [] ∧
    s'.core.items.length + (discharges o.recs).sum = s.core.items.length + (loads o.recs).sum ∧
    (retired c s = false →
      s'.fresh.items.length + (loads o.recs).sum = s.fresh.items.length + i.buys.length) := by
  unfold step at h
  rw [bind_ok] at h
  obtain ⟨⟨of, s1⟩, h1, h⟩ := h
  rw [bind_ok] at h
  obtain ⟨⟨resp, s2⟩, h2, h⟩ := h
  simp only [pure_eq_ok, Except.ok.injEq, Prod.mk.injEq] at h
  obtain ⟨rfl, rfl⟩ := h
  obtain ⟨a1, a2⟩ := offerPhase_kept h1
  obtain ⟨b1, b2⟩ := settlePhase_kept h2
  have e := a1.trans b1
  refine ⟨rfl, ?_, fun hr => ?_⟩
  · unfold Kept at e
    rw [hl] at e
    simp only [discharges, loads, List.filterMap_nil, List.sum_nil] at e ⊢
    omega
  · have f := (a2 hr).trans b2
    unfold KeptF at f
    rw [hl] at f
    simp only [loads, List.filterMap_nil, List.sum_nil] at f ⊢
    omega

/-! ## C122 -/

/-- All rows of a history. -/
def rows (os : List Out) : List Rec := os.flatMap Out.recs

theorem rows_cons (o : Out) (os : List Out) : rows (o :: os) = o.recs ++ rows os := by simp [rows]

/-- C122: after any history, in any market, the assemblies in the core are those of the recorded
loadings less those of the recorded discharges. -/
theorem C122_core {c : Cfg} {s0 s : State} {is : List In} {os : List Out} (h0 : enter c = .ok s0)
    (hr : run c s0 is = .ok (os, s)) :
    s.core.count + (discharges (rows os)).sum = (loads (rows os)).sum := by
  have key : ∀ (is : List In) {s0 : State} {os : List Out}, s0.log = [] → run c s0 is = .ok (os, s) →
      s.core.items.length + (discharges (rows os)).sum =
        s0.core.items.length + (loads (rows os)).sum := by
    intro is
    induction is with
    | nil =>
      intro s0 os _ hr
      simp only [run, Except.ok.injEq, Prod.mk.injEq] at hr
      obtain ⟨rfl, rfl⟩ := hr
      simp [rows, discharges, loads]
    | cons i is ih =>
      intro s0 os hl hr
      obtain ⟨o, s1, os', h1, h2, rfl⟩ := run_cons.1 hr
      obtain ⟨a, b, _⟩ := step_books h1 hl
      have := ih a h2
      rw [rows_cons, discharges_append, loads_append, List.sum_append, List.sum_append]
      omega
  obtain ⟨e, _⟩ := enter_eq h0
  have hl : s0.log = [] := by
    unfold enter at h0
    dsimp only at h0
    split at h0
    · exact absurd h0 (by simp)
    · simp only [Except.ok.injEq] at h0; rw [← h0]
  have := key is hl hr
  have hc : s0.core.items = [] := (enter_eq h0).2.2.1
  rw [hc] at this
  simpa [Buf.count] using this

/-- C122: until its exit time, a reactor has the fresh assemblies that were delivered and not recorded
as loaded, and the spent assemblies that were recorded as discharged and not shipped. -/
theorem C122_stores {c : Cfg} {s0 s : State} {is : List In} {os : List Out} (h0 : enter c = .ok s0)
    (hr : run c s0 is = .ok (os, s)) (hl : ∀ o ∈ os, ¬ Late c o.time) :
    s.fresh.count + (loads (rows os)).sum = (received is).length ∧
      s.spent.count + (shipped os).length = (discharges (rows os)).sum := by
  have key : ∀ (is : List In) {s0 : State} {os : List Out}, s0.log = [] → run c s0 is = .ok (os, s) →
      (∀ o ∈ os, ¬ Late c o.time) →
      s.fresh.items.length + (loads (rows os)).sum = s0.fresh.items.length + (received is).length := by
    intro is
    induction is with
    | nil =>
      intro s0 os _ hr _
      simp only [run, Except.ok.injEq, Prod.mk.injEq] at hr
      obtain ⟨rfl, rfl⟩ := hr
      simp [rows, loads, received]
    | cons i is ih =>
      intro s0 os hl hr hx
      obtain ⟨o, s1, os', h1, h2, rfl⟩ := run_cons.1 hr
      obtain ⟨a, _, b⟩ := step_books h1 hl
      have ht : o.time = s0.time := by
        unfold step at h1
        simp only [bind_ok, pure_eq_ok, Except.ok.injEq, Prod.mk.injEq] at h1
        obtain ⟨_, _, _, _, rfl, _⟩ := h1
        rfl
      have := ih a h2 fun o' ho' => hx o' (by simp [ho'])
      have b' := b (not_late_iff.2 (by rw [← ht]; exact hx o (by simp)))
      have e : (received (i :: is)).length = i.buys.length + (received is).length := by simp [received]
      rw [rows_cons, loads_append, List.sum_append, e]
      omega
  have hlog : s0.log = [] := by
    unfold enter at h0
    dsimp only at h0
    split at h0
    · exact absurd h0 (by simp)
    · simp only [Except.ok.injEq] at h0; rw [← h0]
  have k := key is hlog hr hl
  have e1 : s0.fresh.items = [] := (enter_eq h0).2.1
  rw [e1] at k
  have hc := C122_core h0 hr
  have hp := (C01_assemblies_conserved h0 hr).length_eq
  simp only [held, List.length_map, List.length_append] at hp
  simp only [Buf.count, List.length_nil] at k hc ⊢
  omega

/-- The example, before its exit time and at the end: of six assemblies five are loaded, in four
loadings, two discharged and one shipped; the last is loaded before the reactor retires and empties
its core. -/
example : ((play exCfg (exHist.take 12)).toOption.map fun r =>
      (r.2.fresh.count, r.2.core.count, r.2.spent.count)) = some (1, 3, 1) ∧
    ((play exCfg (exHist.take 12)).toOption.map fun r =>
      (loads (rows r.1), discharges (rows r.1), (shipped r.1).length)) =
      some ([2, 1, 1, 1], [1, 1], 1) ∧ (received (exHist.take 12)).length = 6 ∧
    ((play exCfg exHist).toOption.map fun r =>
      (r.2.core.count, loads (rows r.1), discharges (rows r.1))) =
      some (0, [2, 1, 1, 1, 1], [1, 1, 1, 1, 1, 1]) :=
  ⟨by decide +kernel, by decide +kernel, by decide +kernel, by decide +kernel⟩

/-! ## C123 -/

/-- The steps at full power among the first `n` of an ideal reactor: `cycle_time` steps of operation
and `refuel_time` steps of refuelling by turns, without delay. -/
def ideal (c : Cfg) (n : Nat) : Nat :=
  (List.range n).countP fun j => decide (j % (c.cycleTime + c.refuelTime) < c.cycleTime)

/-- The power recorded in a stretch of steps, summed up. -/
def energy (os : List Out) : ℚ := (os.flatMap fun o => powers o.recs).sum

theorem ideal_succ (c : Cfg) (n : Nat) : ideal c (n + 1) =
    ideal c n + if n % (c.cycleTime + c.refuelTime) < c.cycleTime then 1 else 0 := by
  unfold ideal
  rw [List.range_succ, List.countP_append, List.countP_singleton]
  simp only [decide_eq_true_eq]

theorem ideal_mono {c : Cfg} {n m : Nat} (h : n ≤ m) : ideal c n ≤ ideal c m := by
  induction h with
  | refl => exact le_refl _
  | step _ ih => rw [ideal_succ]; omega

/-- Whole periods and a rest. -/
theorem ideal_eq (c : Cfg) (k : Nat) : ∀ r ≤ c.cycleTime + c.refuelTime,
    ideal c (k * (c.cycleTime + c.refuelTime) + r) = k * c.cycleTime + min r c.cycleTime := by
  have inner : ∀ k, ideal c (k * (c.cycleTime + c.refuelTime)) = k * c.cycleTime →
      ∀ r ≤ c.cycleTime + c.refuelTime,
      ideal c (k * (c.cycleTime + c.refuelTime) + r) = k * c.cycleTime + min r c.cycleTime := by
    intro k hk r
    induction r with
    | zero => intro _; simpa using hk
    | succ r ih =>
      intro hr
      rw [← Nat.add_assoc, ideal_succ, ih (by omega)]
      have e : (k * (c.cycleTime + c.refuelTime) + r) % (c.cycleTime + c.refuelTime) = r := by
        rw [Nat.add_comm, Nat.add_mul_mod_self_right, Nat.mod_eq_of_lt (by omega)]
      rw [e]
      split <;> omega
  refine inner k ?_
  induction k with
  | zero => simp [ideal]
  | succ k ih =>
    have := inner k ih (c.cycleTime + c.refuelTime) (le_refl _)
    rw [Nat.succ_mul, this, Nat.succ_mul]
    omega

/-- A window of `n` steps of the ideal reactor is best placed at the start of a cycle. -/
theorem ideal_window {c : Cfg} (hc : 0 < c.cycleTime) (a n : Nat) :
    ideal c (a + n) ≤ ideal c a + ideal c n := by
  obtain ⟨P, hP⟩ : ∃ P, P = c.cycleTime + c.refuelTime := ⟨_, rfl⟩
  have hpos : 0 < P := by omega
  have hE := fun k r (h : r ≤ P) => ideal_eq c k r (by omega)
  rw [← hP] at hE
  have ea := Nat.div_add_mod a P
  have en := Nat.div_add_mod n P
  have la := Nat.mod_lt a hpos
  have ln := Nat.mod_lt n hpos
  have ia : ideal c a = a / P * c.cycleTime + min (a % P) c.cycleTime := by
    rw [← hE _ _ la.le, Nat.mul_comm (a / P) P, ea]
  have i_n : ideal c n = n / P * c.cycleTime + min (n % P) c.cycleTime := by
    rw [← hE _ _ ln.le, Nat.mul_comm (n / P) P, en]
  rw [ia, i_n]
  by_cases hs : a % P + n % P ≤ P
  · have e : a + n = (a / P + n / P) * P + (a % P + n % P) := by
      rw [Nat.add_mul, Nat.mul_comm (a / P), Nat.mul_comm (n / P)]; omega
    rw [e, hE _ _ hs, Nat.add_mul]
    omega
  · have e : a + n = (a / P + n / P + 1) * P + (a % P + n % P - P) := by
      rw [Nat.add_mul, Nat.add_mul, Nat.mul_comm (a / P), Nat.mul_comm (n / P)]; omega
    rw [e, hE _ _ (by omega), Nat.add_mul, Nat.add_mul]
    omega

theorem energy_append (l l' : List Out) : energy (l ++ l') = energy l + energy l' := by
  simp [energy]

/-- From any state: `k` cycles begun, the counter at `x`, and `e` steps at full power. -/
def Budget (c : Cfg) (x0 : Nat) (os : List Out) (s : State) : Prop :=
  ∃ k x e : Nat, (retired c s = false → x = s.cycleStep) ∧ energy os = c.powerCap * e ∧
    k * (c.cycleTime + c.refuelTime) + min x (c.cycleTime + c.refuelTime) ≤
      min x0 (c.cycleTime + c.refuelTime) + os.length ∧
    e + min x0 c.cycleTime ≤ k * c.cycleTime + min x c.cycleTime

theorem budget_step {c : Cfg} (hw : WellFormed c) {x0 : Nat} {os : List Out}
    {s s' s1 s2 s3 : State} {i : In} {o : Out} (hi : Inv c s) (hb : Budget c x0 os s)
    (sp : StepSpec c s i o s' s1 s2 s3) : Budget c x0 (os ++ [o]) s' := by
  obtain ⟨k, x, e, hx, he, h1, h2⟩ := hb
  have hct := hw.cycleTime
  have eo : energy [o] = (powers o.recs).sum := by simp [energy]
  cases hr : retired c s with
  | true =>
    have rf := ret_facts hw hi hr sp
    refine ⟨k, x, e, fun hn => ?_, ?_, by simp; omega, h2⟩
    · have ht := rf.time
      unfold retired at hr hn
      cases hex : c.exitTime with
      | none => rw [hex] at hr; simp at hr
      | some t =>
        rw [hex] at hr hn
        simp only [decide_eq_true_eq, decide_eq_false_iff_not] at hr hn
        omega
    · rw [energy_append, eo, rf.powers, he]; simp
  | false =>
    have op := op_facts hw hi hr sp
    have hx := hx hr
    have hcs := op.cycleStep
    have hpw := op.powers
    by_cases hn : renews c s s'
    · have h0 : stepCount c s s' = 0 := by unfold stepCount; rw [if_pos hn]
      rw [h0] at hcs hpw
      rw [if_pos (Or.inr hn.2.1)] at hcs
      rw [if_pos ⟨hct, hn.2.1⟩] at hpw
      have hge := hn.1
      refine ⟨k + 1, 1, e + 1, fun _ => hcs.symm, ?_, ?_, ?_⟩
      · rw [energy_append, eo, hpw, he]; push_cast; simp; ring
      · rw [Nat.add_mul]; simp only [List.length_append, List.length_singleton]; omega
      · rw [Nat.add_mul]; omega
    · have h0 : stepCount c s s' = s.cycleStep := by unfold stepCount; rw [if_neg hn]
      rw [h0, ← hx] at hcs hpw
      by_cases hf : full c s'
      · rw [if_pos (Or.inr hf)] at hcs
        by_cases hlt : x < c.cycleTime
        · rw [if_pos ⟨hlt, hf⟩] at hpw
          refine ⟨k, x + 1, e + 1, fun _ => hcs.symm, ?_, ?_, ?_⟩
          · rw [energy_append, eo, hpw, he]; push_cast; simp; ring
          · simp only [List.length_append, List.length_singleton]; omega
          · omega
        · rw [if_neg (fun hy => hlt hy.1)] at hpw
          refine ⟨k, x + 1, e, fun _ => hcs.symm, ?_, ?_, ?_⟩
          · rw [energy_append, eo, hpw, he]; simp
          · simp only [List.length_append, List.length_singleton]; omega
          · omega
      · rw [if_neg (fun hy => hf hy.2)] at hpw
        refine ⟨k, s'.cycleStep, e, fun _ => rfl, ?_, ?_, ?_⟩
        · rw [energy_append, eo, hpw, he]; simp
        · simp only [List.length_append, List.length_singleton]
          split at hcs <;> omega
        · split at hcs <;> omega

theorem energy_le {c : Cfg} (hw : WellFormed c) (hp : 0 ≤ c.powerCap) {is : List In} {os : List Out}
    {s s' : State} (hi : Inv c s) (hh : HonestRun c s is) (hr : run c s is = .ok (os, s')) :
    energy os ≤ c.powerCap * ideal c os.length := by
  have hb : Budget c s.cycleStep os s' := by
    have := run_inductO hw (P := fun _ os s1 => Budget c s.cycleStep os s1)
      (fun hi hb sp => budget_step hw hi hb sp) is (pre := []) (opre := []) hi
      ⟨0, s.cycleStep, 0, fun _ => rfl, by simp [energy], by simp, by simp⟩ hh hr
    simpa using this
  obtain ⟨k, x, e, _, he, h1, h2⟩ := hb
  have hct := hw.cycleTime
  have d1 := ideal_eq c k (min x (c.cycleTime + c.refuelTime)) (by omega)
  have d2 := ideal_eq c 0 (min s.cycleStep (c.cycleTime + c.refuelTime)) (by omega)
  rw [Nat.zero_mul, Nat.zero_mul, Nat.zero_add, Nat.zero_add] at d2
  have d3 := ideal_mono (c := c) h1
  have d4 := ideal_window hct (min s.cycleStep (c.cycleTime + c.refuelTime)) os.length
  have hle : e ≤ ideal c os.length := by omega
  rw [he]
  exact mul_le_mul_of_nonneg_left (by exact_mod_cast hle) hp

/-- C123: over any stretch of `n` consecutive steps of its life a reactor records no more power than
one that operates and refuels by turns without any delay records in its first `n` steps. -/
theorem C123_capacity_factor {c : Cfg} (hw : WellFormed c) (hp : 0 ≤ c.powerCap) {is : List In}
    {os : List Out} {s : State} (h : History c is os s) (a n : Nat) :
    energy ((os.drop a).take n) ≤ c.powerCap * ideal c n := by
  obtain ⟨s0, h0, hh, hr⟩ := h
  rw [← List.take_append_drop a is] at hr hh
  obtain ⟨os1, s1, os2, r1, r2, rfl⟩ := (run_append _ _).1 hr
  obtain ⟨hh1, hh2⟩ := honestRun_append _ _ hh r1
  rw [← List.take_append_drop n (is.drop a)] at r2 hh2
  obtain ⟨os3, s2, os4, r3, r4, rfl⟩ := (run_append _ _).1 r2
  obtain ⟨hh3, hh4⟩ := honestRun_append _ _ hh2 r3
  have l1 := run_length _ r1
  have l3 := run_length _ r3
  have l4 := run_length _ r4
  have hle := energy_le hw hp (run_inv hw (enter_inv hw h0) hh1 r1) hh3 r3
  have hm : ideal c os3.length ≤ ideal c n := ideal_mono (by rw [l3]; simp)
  have e : ((os1 ++ (os3 ++ os4)).drop a).take n = os3 := by
    by_cases ha : a ≤ is.length
    · have : os1.length = a := by rw [l1]; simp; omega
      rw [List.drop_append_of_le_length (by omega), List.drop_eq_nil_of_le (by omega), List.nil_append]
      by_cases hn : n ≤ (is.drop a).length
      · have : os3.length = n := by rw [l3]; simp at hn ⊢; omega
        rw [List.take_append_of_le_length (by omega), List.take_of_length_le (by omega)]
      · have h4 : os4.length = 0 := by rw [l4]; simp at hn ⊢; omega
        have h3 : os3.length ≤ n := by rw [l3]; simp
        rw [List.length_eq_zero_iff.1 h4, List.append_nil, List.take_of_length_le h3]
    · have e3 : os3.length = 0 := by rw [l3]; simp; omega
      have e4 : os4.length = 0 := by rw [l4]; simp; omega
      have e1 : os1.length ≤ a := by rw [l1]; simp
      rw [List.length_eq_zero_iff.1 e3, List.length_eq_zero_iff.1 e4]
      simp [List.drop_eq_nil_of_le e1]
  rw [e]
  exact hle.trans (mul_le_mul_of_nonneg_left (by exact_mod_cast hm) hp)

/-- C123, in the long run: the mean power is at most `cycle_time / (cycle_time + refuel_time)` of the
capacity, up to one refuelling. -/
theorem C123_long_run {c : Cfg} (hw : WellFormed c) (hp : 0 ≤ c.powerCap) {is : List In}
    {os : List Out} {s : State} (h : History c is os s) :
    energy os * (c.cycleTime + c.refuelTime) ≤
      c.powerCap * c.cycleTime * (os.length + c.refuelTime) := by
  have hle := C123_capacity_factor hw hp h 0 os.length
  rw [List.drop_zero, List.take_length] at hle
  have hct := hw.cycleTime
  have key : ideal c os.length * (c.cycleTime + c.refuelTime) ≤
      c.cycleTime * (os.length + c.refuelTime) := by
    generalize os.length = n
    obtain ⟨P, hP⟩ : ∃ P, P = c.cycleTime + c.refuelTime := ⟨_, rfl⟩
    have hpos : 0 < P := by omega
    have en := Nat.div_add_mod n P
    have ln := Nat.mod_lt n hpos
    have i_n : ideal c n = n / P * c.cycleTime + min (n % P) c.cycleTime := by
      have := ideal_eq c (n / P) (n % P) (by omega)
      rw [← hP, Nat.mul_comm (n / P) P, en] at this
      rw [this, Nat.mul_comm]
    rw [i_n, ← hP]
    have h1 : min (n % P) c.cycleTime * P ≤ c.cycleTime * (n % P + c.refuelTime) := by
      rw [hP]
      rcases le_total (n % (c.cycleTime + c.refuelTime)) c.cycleTime with h2 | h2
      · rw [min_eq_left h2]; nlinarith
      · rw [min_eq_right h2]; nlinarith
    have h3 : c.cycleTime * n = c.cycleTime * (P * (n / P)) + c.cycleTime * (n % P) := by
      rw [← Nat.mul_add, en]
    nlinarith
  have key' : (ideal c os.length : ℚ) * (c.cycleTime + c.refuelTime) ≤
      c.cycleTime * (os.length + c.refuelTime) := by exact_mod_cast key
  have hP : (0 : ℚ) ≤ c.cycleTime + c.refuelTime := by positivity
  calc energy os * (c.cycleTime + c.refuelTime)
      ≤ c.powerCap * ideal c os.length * (c.cycleTime + c.refuelTime) :=
        mul_le_mul_of_nonneg_right hle hP
    _ = c.powerCap * (ideal c os.length * (c.cycleTime + c.refuelTime)) := by ring
    _ ≤ c.powerCap * (c.cycleTime * (os.length + c.refuelTime)) :=
        mul_le_mul_of_nonneg_left key' hp
    _ = _ := by ring

/-- Full power in every step in which the ideal reactor runs. -/
theorem energy_eq {c : Cfg} {os : List Out} (hon : ∀ (t : Nat) o, os[t]? = some o → powers o.recs =
    [if t % (c.cycleTime + c.refuelTime) < c.cycleTime then c.powerCap else 0]) :
    energy os = c.powerCap * ideal c os.length := by
  have key : ∀ n ≤ os.length, energy (os.take n) = c.powerCap * ideal c n := by
    intro n
    induction n with
    | zero => intro _; simp [energy, ideal]
    | succ n ih =>
      intro hn
      have ho : os[n]? = some os[n] := List.getElem?_eq_getElem (by omega)
      rw [List.take_add_one, ho, energy_append, ih (by omega), ideal_succ]
      simp only [energy, Option.toList_some, List.flatMap_cons, List.flatMap_nil, List.append_nil,
        hon n _ ho, List.sum_cons, List.sum_nil]
      split <;> push_cast <;> ring
  have := key os.length (le_refl _)
  rwa [List.take_length] at this

/-- C123, the bound is attained: a reactor without a scheduled exit, whose every order is filled in
the step it is made and whose discharges never fail, records exactly what the ideal one does.
Missing: a reactor deployed in mid-cycle; see `C123_mid_cycle` (`Props10.lean`). -/
theorem C123_attained_partial {c : Cfg} (hw : WellFormed c) (hx : c.exitTime = none) (hz : c.cycleStep = 0)
    {is : List In} {os : List Out} {s : State} (h : History c is os s)
    (hprompt : ∀ (t : Nat) (i : In) (o : Out), is[t]? = some i → os[t]? = some o →
      i.buys.length = o.offer.requests.length)
    (hroom : ∀ o ∈ os, ¬ Fails o) : energy os = c.powerCap * ideal c os.length := by
  have hct := hw.cycleTime
  have hnl : ∀ t, ¬ Late c t := by rintro t ⟨e, he, _⟩; rw [hx] at he; simp at he
  have hon : ∀ t o, os[t]? = some o → powers o.recs =
      [if t % (c.cycleTime + c.refuelTime) < c.cycleTime then c.powerCap else 0] := by
    intro t o ho
    obtain ⟨P, hP⟩ : ∃ P, P = c.cycleTime + c.refuelTime := ⟨_, rfl⟩
    have hpos : 0 < P := by omega
    have et := Nat.div_add_mod t P
    have lt := Nat.mod_lt t hpos
    have htl := (List.getElem?_eq_some_iff.1 ho).1
    have hlt : P * (t / P) < os.length := by omega
    obtain ⟨o0, ho0⟩ : ∃ o0, os[P * (t / P)]? = some o0 := ⟨_, List.getElem?_eq_getElem hlt⟩
    have hs : Starts o0 := (C07_periodic_partial hw hx hz h hprompt hroom ho0).2 (by rw [← hP]; simp)
    have ho' : os[P * (t / P) + t % P]? = some o := by rw [et]; exact ho
    obtain ⟨c1, c2, _⟩ := C06_cycle_runs hw h ho0 hs ho' (hnl _)
    rw [← hP] at c2 ⊢
    split
    · rename_i hq; exact c1 hq
    · rename_i hq; exact c2 (by omega) lt
  exact energy_eq hon

/-- The promptly supplied reactor attains the bound: 700 in ten steps, seven of them at full power. The
one that stalls and retires does not: 700 in eighteen. -/
example : ((play { exCfg with exitTime := none } promptHist).toOption.map fun r => energy r.1) =
      some 700 ∧ ideal { exCfg with exitTime := none } 10 = 7 ∧
    ((play exCfg exHist).toOption.map fun r => (energy r.1, r.1.length)) = some (700, 18) ∧
    ideal exCfg 18 = 12 :=
  ⟨by decide +kernel, by decide +kernel, by decide +kernel, by decide +kernel⟩

end Cyc.Reactor
