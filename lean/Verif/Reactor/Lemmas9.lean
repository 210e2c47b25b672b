import Verif.Reactor.Lemmas8
import Mathlib.Data.List.Induction

/-!
# Histories: scheduled changes and what each assembly was bought as
-/

namespace Cyc.Reactor

/-! ## Schedules -/

/-- The effect of one schedule entry at time `t`. -/
def entryStep {α : Type} (c : Cfg) (t : Nat) (p : List α) (e : Nat × String × α) : List α :=
  if e.1 = t then
    match c.inCommods.findIdx? (· == e.2.1) with
    | some j => p.set j e.2.2
    | none => p
  else p

theorem zip_range {α : Type} (d : α) {ts : List Nat} {ks : List String} {vs : List α}
    (h1 : ks.length = ts.length) (h2 : vs.length = ts.length) :
    ts.zip (ks.zip vs) =
      (List.range ts.length).map fun i => (ts.getD i 0, ks.getD i "", vs.getD i d) := by
  apply List.ext_getElem
  · simp [h1, h2]
  · intro i hi hi'
    have : i < ts.length := by simpa using hi'
    have a1 : i < ks.length := by omega
    have a2 : i < vs.length := by omega
    simp [this, a1, a2]

theorem prefsAfter_eq {c : Cfg} (hw : WellFormed c) (t : Nat) (p : List ℚ) :
    prefsAfter c t p = (prefSchedule c).foldl (entryStep c t) p := by
  unfold prefsAfter prefSchedule
  rw [zip_range 0 hw.prefChangeCommods hw.prefChangeValues, List.foldl_map]
  rfl

theorem recipesAfter_in {c : Cfg} (hw : WellFormed c) (t : Nat) (p : List String) :
    recipesAfter c c.recipeChangeIn t p = (inSchedule c).foldl (entryStep c t) p := by
  unfold recipesAfter inSchedule
  rw [zip_range "" hw.recipeChangeCommods hw.recipeChangeIn, List.foldl_map]
  rfl

theorem recipesAfter_out {c : Cfg} (hw : WellFormed c) (t : Nat) (p : List String) :
    recipesAfter c c.recipeChangeOut t p = (outSchedule c).foldl (entryStep c t) p := by
  unfold recipesAfter outSchedule
  rw [zip_range "" hw.recipeChangeCommods hw.recipeChangeOut, List.foldl_map]
  rfl

theorem findIdx?_some_iff {l : List String} {k : String} {j : Nat} :
    l.findIdx? (· == k) = some j ↔ j < l.length ∧ l.getD j "" = k ∧ l.idxOf k = j := by
  constructor
  · intro h
    obtain ⟨hlt, he, hmin⟩ := List.findIdx?_eq_some_iff_getElem.1 h
    have he' : l[j] = k := by simpa using he
    refine ⟨hlt, by simp [hlt, he'], ?_⟩
    have hmem : k ∈ l := he' ▸ List.getElem_mem hlt
    have hi := List.idxOf_lt_length_of_mem hmem
    have e2 : l[l.idxOf k] = k := List.getElem_idxOf hi
    rcases lt_trichotomy (l.idxOf k) j with hl | hl | hl
    · exact absurd e2 (by simpa using hmin _ hl)
    · exact hl
    · exact absurd he' (by
        have := List.not_of_lt_findIdx (p := (· == k)) (xs := l) (i := j) (by
          simpa [List.idxOf] using hl)
        simpa using this)
  · rintro ⟨hlt, he, hi⟩
    have he' : l[j] = k := by simpa [hlt] using he
    obtain ⟨i, h1, h2, h3⟩ := findIdx?_mem (he' ▸ List.getElem_mem hlt : k ∈ l)
    obtain ⟨a, b, hmin⟩ := List.findIdx?_eq_some_iff_getElem.1 h1
    rcases lt_trichotomy i j with hl | hl | hl
    · exfalso
      have h3' : l[i] = k := by simpa [h2] using h3
      have := List.not_of_lt_findIdx (p := (· == k)) (xs := l) (i := i) (by
          have : i < l.idxOf k := by omega
          simpa [List.idxOf] using this)
      simp [h3'] at this
    · rw [h1, hl]
    · exact absurd he' (by simpa using hmin _ hl)

/-- A position is subject to an entry iff it is the first one of the commodity. -/
theorem subject_iff {c : Cfg} {k : String} {j : Nat} (hj : j < c.inCommods.length) :
    c.inCommods.findIdx? (· == k) = some j ↔
      position c (c.inCommods.getD j "") = j ∧ k = c.inCommods.getD j "" := by
  rw [findIdx?_some_iff]
  unfold position
  constructor
  · rintro ⟨_, h2, h3⟩
    rw [h2]; exact ⟨h3, rfl⟩
  · rintro ⟨h1, rfl⟩
    exact ⟨hj, rfl, h1⟩

theorem entryStep_length {α : Type} (c : Cfg) (t : Nat) (p : List α) (e : Nat × String × α) :
    (entryStep c t p e).length = p.length := by
  unfold entryStep; split
  · split <;> simp
  · rfl

theorem entryStep_getD {α : Type} (d : α) {c : Cfg} {t : Nat} {p : List α}
    {e : Nat × String × α} {j : Nat} (hj : j < c.inCommods.length)
    (hp : p.length = c.inCommods.length) :
    (entryStep c t p e).getD j d =
      if e.1 = t ∧ position c (c.inCommods.getD j "") = j ∧ e.2.1 = c.inCommods.getD j ""
      then e.2.2 else p.getD j d := by
  unfold entryStep
  by_cases ht : e.1 = t
  · rw [if_pos ht]
    by_cases hs : c.inCommods.findIdx? (· == e.2.1) = some j
    · rw [hs, if_pos ⟨ht, (subject_iff hj).1 hs⟩]
      simp [hp, hj]
    · rw [if_neg (fun h => hs ((subject_iff hj).2 h.2))]
      cases hf : c.inCommods.findIdx? (· == e.2.1) with
      | none => rfl
      | some j' =>
        have hne : j' ≠ j := by rintro rfl; exact hs hf
        simp [List.getElem?_set, hne]
  · rw [if_neg ht, if_neg (fun h => ht h.1)]

/-- The value at position `j` after the entries of time `t`: that of the last matching entry. -/
theorem foldl_entryStep {α : Type} (d : α) {c : Cfg} {t : Nat} {p : List α} {j : Nat}
    (hj : j < c.inCommods.length) (hp : p.length = c.inCommods.length)
    (es : List (Nat × String × α)) :
    (es.foldl (entryStep c t) p).length = p.length ∧
    ((position c (c.inCommods.getD j "") = j ∧ ∃ (i : Nat) (v : α), es[i]? = some (t, c.inCommods.getD j "", v) ∧
        (es.foldl (entryStep c t) p).getD j d = v ∧
        ∀ (i' : Nat) (v' : α), es[i']? = some (t, c.inCommods.getD j "", v') → i' ≤ i) ∨
     ((position c (c.inCommods.getD j "") = j → ∀ (i : Nat) (v : α), es[i]? ≠ some (t, c.inCommods.getD j "", v)) ∧
        (es.foldl (entryStep c t) p).getD j d = p.getD j d)) := by
  induction es using List.reverseRecOn with
  | nil => exact ⟨rfl, Or.inr ⟨by simp, rfl⟩⟩
  | append_singleton es e ih =>
    obtain ⟨ihl, ih⟩ := ih
    rw [List.foldl_append]
    simp only [List.foldl_cons, List.foldl_nil]
    refine ⟨(entryStep_length _ _ _ _).trans ihl, ?_⟩
    rw [entryStep_getD d hj (ihl.trans hp)]
    by_cases hm : e.1 = t ∧ position c (c.inCommods.getD j "") = j ∧ e.2.1 = c.inCommods.getD j ""
    · left
      rw [if_pos hm]
      refine ⟨hm.2.1, es.length, e.2.2, ?_, rfl, ?_⟩
      · rw [← hm.1, ← hm.2.2]; simp
      · intro i' v' hi'
        have := (List.getElem?_eq_some_iff.1 hi').1
        simp at this; omega
    · rw [if_neg hm]
      rcases ih with ⟨h0, i, v, h1, h2, h3⟩ | ⟨h1, h2⟩
      · left
        refine ⟨h0, i, v, ?_, h2, ?_⟩
        · rw [List.getElem?_append_left (List.getElem?_eq_some_iff.1 h1).1]; exact h1
        · intro i' v' hi'
          by_cases hl : i' < es.length
          · rw [List.getElem?_append_left hl] at hi'; exact h3 i' v' hi'
          · exfalso
            have hb := (List.getElem?_eq_some_iff.1 hi').1
            simp at hb
            have : i' = es.length := by omega
            subst this
            simp at hi'
            exact hm ⟨by rw [hi'], h0, by rw [hi']; simp⟩
      · right
        refine ⟨fun h0 i v hi => ?_, h2⟩
        by_cases hl : i < es.length
        · rw [List.getElem?_append_left hl] at hi; exact h1 h0 i v hi
        · have hb := (List.getElem?_eq_some_iff.1 hi).1
          simp at hb
          have : i = es.length := by omega
          subst this
          simp at hi
          exact hm ⟨by rw [hi], h0, by rw [hi]; simp⟩

/-- Applying the entries of time `t` carries "in force before `t`" to "in force before `t+1`". -/
theorem inForceAt_step {α : Type} (d : α) {c : Cfg} {t : Nat} {p : List α} {j : Nat}
    (hj : j < c.inCommods.length) (hp : p.length = c.inCommods.length) (ht : c.enterTime ≤ t)
    {es : List (Nat × String × α)} {init : α} (h : InForceAt c es t init j (p.getD j d)) :
    InForceAt c es (t + 1) init j ((es.foldl (entryStep c t) p).getD j d) := by
  unfold InForceAt at *
  obtain ⟨_, hc⟩ := foldl_entryStep d hj hp es (t := t)
  rcases hc with ⟨h0, i, v, h1, h2, h3⟩ | ⟨h1, h2⟩
  · rw [if_pos h0, h2]
    left
    refine ⟨i, t, h1, ht, by omega, ?_⟩
    intro i' τ' v' hi' _ hlt
    by_cases he : τ' = t
    · right; subst he; exact ⟨rfl, h3 i' v' hi'⟩
    · left; omega
  · rw [h2]
    by_cases h0 : position c (c.inCommods.getD j "") = j
    · rw [if_pos h0] at h ⊢
      have hno := h1 h0
      rcases h with ⟨i, τ, a1, a2, a3, a4⟩ | ⟨a1, a2⟩
      · left
        refine ⟨i, τ, a1, a2, by omega, ?_⟩
        intro i' τ' v' hi' hs hlt
        by_cases he : τ' = t
        · subst he; exact absurd hi' (hno i' v')
        · exact a4 i' τ' v' hi' hs (by omega)
      · right
        refine ⟨a1, ?_⟩
        rintro i τ v' hi ⟨b1, b2⟩
        by_cases he : τ = t
        · subst he; exact absurd hi (hno i v')
        · exact a2 i τ v' hi ⟨b1, by omega⟩
    · rw [if_neg h0] at h ⊢
      exact h

theorem inForceAt_init {α : Type} (c : Cfg) (es : List (Nat × String × α)) (init : α) (j : Nat) :
    InForceAt c es c.enterTime init j init := by
  unfold InForceAt
  split
  · exact Or.inr ⟨rfl, fun i τ v _ => by omega⟩
  · rfl

/-- The vectors of an unretired reactor hold the values in force. -/
structure Sched (c : Cfg) (s : State) : Prop where
  time : c.enterTime ≤ s.time
  prefs : ∀ j < c.inCommods.length,
    InForceAt c (prefSchedule c) s.time (initialPref c j) j (s.prefs.getD j 0)
  inRecipes : ∀ j < c.inCommods.length,
    InForceAt c (inSchedule c) s.time (c.inRecipes.getD j "") j (s.inRecipes.getD j "")
  outRecipes : ∀ j < c.inCommods.length,
    InForceAt c (outSchedule c) s.time (c.outRecipes.getD j "") j (s.outRecipes.getD j "")

theorem enter_eq {c : Cfg} {s : State} (h : enter c = .ok s) :
    s.time = c.enterTime ∧ s.fresh.items = [] ∧ s.core.items = [] ∧ s.spent.items = [] ∧
    s.cycleStep = c.cycleStep ∧ s.discharged = false ∧ s.inRecipes = c.inRecipes ∧
    s.outRecipes = c.outRecipes ∧
    s.prefs = (if c.prefs.length = 0 then c.outCommods.map (fun _ => (1 : ℚ)) else c.prefs) := by
  unfold enter at h
  dsimp only at h
  split at h
  · exact absurd h (by simp)
  · simp only [Except.ok.injEq] at h
    subst h
    exact ⟨rfl, rfl, rfl, rfl, rfl, rfl, rfl, rfl, rfl⟩

theorem enter_sched {c : Cfg} (hw : WellFormed c) {s : State} (h : enter c = .ok s) :
    Sched c s := by
  obtain ⟨e1, _, _, _, _, _, e2, e3, e4⟩ := enter_eq h
  refine ⟨by rw [e1], fun j hj => ?_, fun j _ => ?_, fun j _ => ?_⟩
  · have : s.prefs.getD j 0 = initialPref c j := by
      rw [e4]
      unfold initialPref
      by_cases h0 : c.prefs = []
      · have hj' : j < c.outCommods.length := by rw [hw.outCommods]; exact hj
        simp [h0, hj']
      · have : ¬ c.prefs.length = 0 := fun hx => h0 (List.eq_nil_of_length_eq_zero hx)
        simp [h0]
    rw [this, e1]
    exact inForceAt_init _ _ _ _
  · rw [e1, e2]; exact inForceAt_init _ _ _ _
  · rw [e1, e3]; exact inForceAt_init _ _ _ _

theorem op_sched {c : Cfg} (hw : WellFormed c) {s s' : State} {i : In} {o : Out} (g : Good c s)
    (h : OpFacts c s i o s') (hs : Sched c s) : Sched c s' := by
  refine ⟨by rw [h.time]; exact hs.time.trans (Nat.le_succ _), fun j hj => ?_, fun j hj => ?_,
    fun j hj => ?_⟩
  · rw [h.time, h.prefs, prefsAfter_eq hw]
    exact inForceAt_step 0 hj g.prefs hs.time (hs.prefs j hj)
  · rw [h.time, h.inRecipes, recipesAfter_in hw]
    exact inForceAt_step "" hj g.inRecipes hs.time (hs.inRecipes j hj)
  · rw [h.time, h.outRecipes, recipesAfter_out hw]
    exact inForceAt_step "" hj g.outRecipes hs.time (hs.outRecipes j hj)

/-! ## What each assembly was bought as -/

theorem boughtAs_append (is : List In) (i : In) (x : Nat) : boughtAs (is ++ [i]) x =
    (((i.buys.reverse.find? fun d => d.2.id = x).map Prod.fst).or (boughtAs is x)) := by
  unfold boughtAs deliveries
  rw [List.flatMap_append, List.reverse_append, List.find?_append]
  simp only [List.flatMap_cons, List.flatMap_nil, List.append_nil]
  cases (i.buys.reverse.find? fun d => d.2.id = x) <;> simp

theorem boughtAs_other {is : List In} {i : In} {x : Nat} (h : x ∉ i.buys.map fun d => d.2.id) :
    boughtAs (is ++ [i]) x = boughtAs is x := by
  rw [boughtAs_append]
  have : (i.buys.reverse.find? fun d => d.2.id = x) = none := by
    rw [List.find?_eq_none]
    intro d hd he
    simp only [decide_eq_true_eq] at he
    exact h (List.mem_map.2 ⟨d, List.mem_reverse.1 hd, he⟩)
  rw [this]; rfl

theorem boughtAs_new {is : List In} {i : In} {d : String × Assem}
    (hn : (i.buys.map fun d => d.2.id).Nodup) (hd : d ∈ i.buys) :
    boughtAs (is ++ [i]) d.2.id = some d.1 := by
  rw [boughtAs_append]
  cases hf : (i.buys.reverse.find? fun e => e.2.id = d.2.id) with
  | none =>
    rw [List.find?_eq_none] at hf
    exact absurd (hf d (List.mem_reverse.2 hd)) (by simp)
  | some e =>
    have he := List.find?_some hf
    simp only [decide_eq_true_eq] at he
    have hm := List.mem_reverse.1 (List.mem_of_find?_eq_some hf)
    have : e = d := List.inj_on_of_nodup_map hn hm hd he
    rw [this]; rfl

theorem fuelIndex_eq {c : Cfg} {k : String} (h : k ∈ c.inCommods) :
    fuelIndex c k = position c k := by
  obtain ⟨i, h1, h2, h3⟩ := findIdx?_mem h
  unfold fuelIndex position
  rw [h1, (findIdx?_some_iff.1 h1).2.2]; rfl

theorem position_lt {c : Cfg} {k : String} (h : k ∈ c.inCommods) :
    position c k < c.inCommods.length := List.idxOf_lt_length_of_mem h

/-- Every assembly is filed under the commodity it was bought as. -/
def Filed (c : Cfg) (is : List In) (s : State) : Prop :=
  ∀ a ∈ held s, ∃ k, boughtAs is a.id = some k ∧ k ∈ c.inCommods ∧ s.resIdx a.id = position c k

theorem mem_held_ids {s s' : State} (h : ((held s').map tag).Perm ((held s).map tag)) {a : Assem}
    (ha : a ∈ held s') : ∃ b ∈ held s, b.id = a.id := by
  have : tag a ∈ (held s).map tag := h.subset (List.mem_map_of_mem ha)
  obtain ⟨b, hb, e⟩ := List.mem_map.1 this
  exact ⟨b, hb, congrArg Prod.fst e⟩

theorem Filed.tick {c : Cfg} {is : List In} {s s1 : State} (h : Filed c is s)
    (ht : tick c s = .ok s1) (hi : s1.resIdx = s.resIdx) : Filed c is s1 := by
  intro a ha
  obtain ⟨b, hb, e⟩ := mem_held_ids (tick_same ht) ha
  rw [← e, hi]
  exact h b hb

theorem Filed.step {c : Cfg} {is : List In} {s s' s1 s2 s3 : State} {i : In} {o : Out}
    (h : Filed c is s) (sp : StepSpec c s i o s' s1 s2 s3) : Filed c (is ++ [i]) s' := by
  have f1 := h.tick sp.ticked sp.resIdx1
  have hidx : s'.resIdx = indexed c i.buys s2.resIdx := by
    rw [sp.final]
    show (if retired c s then s3 else tockedState c s3).resIdx = _
    have : s3.resIdx = indexed c i.buys s2.resIdx := by rw [sp.accepted]; rfl
    split <;> exact this
  have hheld : (held s').Perm (held s2 ++ i.buys.map Prod.snd) := by
    have h3 : held s' = held s3 := by
      rw [sp.final]
      by_cases hr : retired c s
      · simp only [hr, if_true]; rfl
      · simp only [hr]; rfl
    rw [h3, sp.accepted]
    unfold held acceptedState
    simp only
    set B := i.buys.map Prod.snd
    set v := c.nCore - s2.core.items.length
    have p2 : (s2.fresh.items ++ B.drop v ++ (s2.core.items ++ B.take v) ++ s2.spent.items).Perm
        (s2.fresh.items ++ s2.core.items ++ s2.spent.items ++ (B.take v ++ B.drop v)) := by
      rw [← Multiset.coe_eq_coe]
      simp only [← Multiset.coe_add]
      abel
    rwa [List.take_append_drop] at p2
  intro a ha
  rcases List.mem_append.1 (hheld.subset ha) with hm | hm
  · -- was already there
    have hnew : a.id ∉ i.buys.map fun d => d.2.id := by
      intro hx
      obtain ⟨d, hd, e⟩ := List.mem_map.1 hx
      exact sp.notHeld d hd a hm e.symm
    rw [boughtAs_other hnew, hidx, indexed_of_not_mem _ hnew]
    have hsold := sp.sold
    have hperm := hsold.perm
    have hmem1 : a ∈ held s1 := by
      unfold held at hm ⊢
      have e := hsold.rest
      simp only [List.mem_append] at hm ⊢
      rcases hm with (hm | hm) | hm
      · left; left; rw [e] at hm; exact hm
      · left; right; rw [e] at hm; exact hm
      · right
        exact hperm.symm.subset (by simp [hm])
    have hns : a.id ∉ o.shipped.map (fun d => d.2.id) := by
      intro hx
      obtain ⟨d, hd, e⟩ := List.mem_map.1 hx
      have hd1 : d.2 ∈ s1.spent.items :=
        hperm.symm.subset (List.mem_append_right _ (List.mem_map_of_mem hd))
      have hnd := sp.good1.nodup
      have hd1' : d.2 ∈ held s1 := mem_held_spent hd1
      have : d.2 = a := List.inj_on_of_nodup_map hnd hd1' hmem1 e
      subst this
      -- then `d.2` occurs both among the kept and the sold
      have hall : ((held s2 ++ o.shipped.map Prod.snd).map Assem.id).Nodup := by
        have hp : (held s2 ++ o.shipped.map Prod.snd).Perm (held s1) := by
          unfold held
          have e := hsold.rest
          have e1 : s2.fresh = s1.fresh := by rw [e]; rfl
          have e2 : s2.core = s1.core := by rw [e]; rfl
          rw [e1, e2, List.append_assoc]
          exact List.Perm.append_left _ hperm.symm
        exact ((hp.map Assem.id).nodup_iff).2 hnd
      rw [List.map_append, List.nodup_append] at hall
      exact hall.2.2 _ (List.mem_map_of_mem hm) _
        (List.mem_map_of_mem (List.mem_map_of_mem hd)) rfl
    rw [hsold.idx _ hns]
    exact f1 a hmem1
  · obtain ⟨d, hd, rfl⟩ := List.mem_map.1 hm
    have hk := (sp.supplied d hd).1
    refine ⟨d.1, boughtAs_new sp.distinct hd, hk, ?_⟩
    rw [hidx, indexed_of_mem _ sp.distinct d hd, fuelIndex_eq hk]

/-- Induction along a history, with the history so far. -/
theorem run_inductH {c : Cfg} (hw : WellFormed c) {P : List In → State → Prop}
    (hstep : ∀ {is : List In} {s s' s1 s2 s3 : State} {i : In} {o : Out}, Inv c s → P is s →
      StepSpec c s i o s' s1 s2 s3 → P (is ++ [i]) s') (is : List In) :
    ∀ {pre : List In} {s s' : State} {os : List Out}, Inv c s → P pre s → HonestRun c s is →
      run c s is = .ok (os, s') → P (pre ++ is) s' := by
  induction is with
  | nil =>
    intro pre s s' os _ hp _ hr
    simp only [run, Except.ok.injEq, Prod.mk.injEq] at hr
    rw [List.append_nil]
    exact hr.2 ▸ hp
  | cons i is ih =>
    intro pre s s' os h hp hh hr
    obtain ⟨o, s1, os', h1, h2, rfl⟩ := run_cons.1 hr
    obtain ⟨t1, t2, t3, sp⟩ := step_spec hw h.good hh.1 h1
    have := ih (pre := pre ++ [i]) (sp.inv h) (hstep h hp sp) (hh.2 o s1 h1) h2
    simpa using this

theorem enter_filed {c : Cfg} {s : State} (h : enter c = .ok s) : Filed c [] s := by
  obtain ⟨_, e1, e2, e3, _⟩ := enter_eq h
  intro a ha
  simp [held, e1, e2, e3] at ha

theorem run_filed {c : Cfg} (hw : WellFormed c) {is : List In} {s s' : State} {os : List Out}
    (h : enter c = .ok s) (hh : HonestRun c s is) (hr : run c s is = .ok (os, s')) :
    Filed c is s' := by
  have := run_inductH hw (P := Filed c) (fun _ hp sp => hp.step sp) is (pre := [])
    (enter_inv hw h) (enter_filed h) hh hr
  simpa using this

theorem run_time {c : Cfg} (hw : WellFormed c) {is : List In} {s s' : State} {os : List Out}
    (h : Inv c s) (hh : HonestRun c s is) (hr : run c s is = .ok (os, s')) :
    s'.time = s.time + is.length := by
  have := run_inductH hw (P := fun l x => x.time = s.time + l.length)
    (fun _ hp sp => by
      rw [sp.final]
      show _ + 1 = _
      rw [hp]; simp; omega) is (pre := []) h (by simp) hh hr
  simpa using this

/-- The vectors hold the values in force as long as no step was taken after the exit time. -/
theorem run_sched {c : Cfg} (hw : WellFormed c) {is : List In} {s s' : State} {os : List Out}
    (h : enter c = .ok s) (hh : HonestRun c s is) (hr : run c s is = .ok (os, s'))
    (hl : ∀ e, c.exitTime = some e → s'.time ≤ e + 1) : Sched c s' := by
  have := run_inductH hw (P := fun _ x => (∀ e, c.exitTime = some e → x.time ≤ e + 1) → Sched c x)
    (fun {is s s' s1 s2 s3 i o} hi hp sp hx => by
      have ht : s'.time = s.time + 1 := by rw [sp.final]
      have hret : retired c s = false := by
        unfold retired
        cases he : c.exitTime with
        | none => rfl
        | some e =>
          have := hx e he
          simp only [decide_eq_false_iff_not, not_lt]
          omega
      exact op_sched hw hi.good (op_facts hw hi hret sp) (hp fun e he => by have := hx e he; omega))
    is (pre := []) (enter_inv hw h) (fun _ => enter_sched hw h) hh hr
  exact this hl

end Cyc.Reactor
