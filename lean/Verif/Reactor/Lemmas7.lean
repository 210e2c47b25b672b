import Verif.Reactor.Lemmas6

/-!
# The step of an operating and of a retired reactor, in terms of what is observed
-/

namespace Cyc.Reactor

/-- The invariant of a state between two steps. -/
structure Inv (c : Cfg) (s : State) : Prop where
  good : Good c s
  log : s.log = []
  hybrid : s.hybrid = !c.sideProducts.isEmpty

theorem enter_inv {c : Cfg} (hw : WellFormed c) {s : State} (h : enter c = .ok s) : Inv c s := by
  refine ⟨enter_good hw h, ?_, ?_⟩ <;>
  · unfold enter at h
    dsimp only at h
    split at h
    · exact absurd h (by simp)
    · simp only [Except.ok.injEq] at h
      subst h
      rfl

theorem step_log {c : Cfg} {s s' : State} {i : In} {o : Out} (h : step c s i = .ok (o, s')) :
    s'.log = [] := by
  unfold step at h
  rw [bind_ok] at h
  obtain ⟨⟨o1, s1⟩, _, h⟩ := h
  rw [bind_ok] at h
  obtain ⟨⟨r, s2⟩, _, h⟩ := h
  simp only [pure_eq_ok, Except.ok.injEq, Prod.mk.injEq] at h
  rw [← h.2]

theorem StepSpec.hybrid {c : Cfg} {s s' s1 s2 s3 : State} {i : In} {o : Out}
    (sp : StepSpec c s i o s' s1 s2 s3) : s'.hybrid = s.hybrid := by
  rw [sp.final]
  have h3 : s3.hybrid = s.hybrid := by
    rw [sp.accepted]
    show s2.hybrid = _
    rw [sp.sold.rest]
    exact sp.hybrid1
  show (if retired c s then s3 else tockedState c s3).hybrid = _
  split
  · exact h3
  · exact h3

theorem StepSpec.inv {c : Cfg} {s s' s1 s2 s3 : State} {i : In} {o : Out} (h : Inv c s)
    (sp : StepSpec c s i o s' s1 s2 s3) : Inv c s' :=
  ⟨sp.good, by rw [sp.final], sp.hybrid.trans h.hybrid⟩

theorem run_inv {c : Cfg} (hw : WellFormed c) {is : List In} {s s' : State} {os : List Out}
    (h : Inv c s) (hh : HonestRun c s is) (hr : run c s is = .ok (os, s')) : Inv c s' :=
  run_induct hw (P := Inv c) (fun _ hi sp => sp.inv hi) is h.good h hh hr

/-! ## An operating reactor -/

/-- The core after `Tick`. -/
def tickCore (c : Cfg) (s : State) : List Assem :=
  (burntCore c s).drop (nDis c s) ++ s.fresh.items.take (nIn c s)

/-- The discharged flag after `Tick`. -/
def tickDone (c : Cfg) (s : State) : Bool :=
  if Due c s then decide (roomFor c s) else s.discharged

/-- The core is full at the end of the step. -/
def full (c : Cfg) (s' : State) : Prop := s'.core.items.length = c.nCore

instance (c : Cfg) (s' : State) : Decidable (full c s') := by unfold full; infer_instance

/-- The step ends an outage: a new cycle may start. -/
def renews (c : Cfg) (s s' : State) : Prop :=
  s.cycleStep ≥ c.cycleTime + c.refuelTime ∧ full c s' ∧ tickDone c s = true

instance (c : Cfg) (s s' : State) : Decidable (renews c s s') := by unfold renews; infer_instance

/-- The cycle counter the step uses. -/
def stepCount (c : Cfg) (s s' : State) : Nat := if renews c s s' then 0 else s.cycleStep

/-- Everything about a step of an operating reactor. -/
structure OpFacts (c : Cfg) (s : State) (i : In) (o : Out) (s' : State) : Prop where
  time : s'.time = s.time + 1
  core : s'.core.items =
    tickCore c s ++ (i.buys.map Prod.snd).take (c.nCore - (tickCore c s).length)
  fresh : s'.fresh.items = s.fresh.items.drop (nIn c s) ++
    (i.buys.map Prod.snd).drop (c.nCore - (tickCore c s).length)
  spent : (s.spent.items ++ (burntCore c s).take (nDis c s)).Perm
    (s'.spent.items ++ o.shipped.map Prod.snd)
  cycleStep : s'.cycleStep =
    if stepCount c s s' > 0 ∨ full c s' then stepCount c s s' + 1 else stepCount c s s'
  discharged : s'.discharged = if renews c s s' then false else tickDone c s
  prefs : s'.prefs = prefsAfter c s.time s.prefs
  inRecipes : s'.inRecipes = recipesAfter c c.recipeChangeIn s.time s.inRecipes
  outRecipes : s'.outRecipes = recipesAfter c c.recipeChangeOut s.time s.outRecipes
  powers : powers o.recs =
    [if stepCount c s s' < c.cycleTime ∧ full c s' then c.powerCap else 0]
  sides : sides o.recs = (c.sideProducts.zipIdx).map fun p =>
    (p.1, if stepCount c s s' < c.cycleTime ∧ full c s' then c.sideQty.getD p.2 0 else 0)
  starts : Starts o ↔ stepCount c s s' = 0 ∧ full c s'
  ends : Ends o ↔ s.cycleStep = c.cycleTime
  fails : Fails o ↔ Due c s ∧ ¬ roomFor c s
  discharges : discharges o.recs =
    if Due c s ∧ roomFor c s then [min c.nBatch s.core.items.length] else []
  transmutes : transmutes o.recs =
    if s.cycleStep = c.cycleTime then [min c.nBatch s.core.items.length] else []
  noDecom : .schedDecom ∉ o.recs
  coreLe : s'.core.items.length ≤ c.nCore

theorem plain_accept (c : Cfg) (l : List (String × Assem)) (s : State) :
    Plain (acceptRecs c l s) := by
  unfold acceptRecs; split
  · exact plain_nil
  · exact plain_load _

theorem Plain.append {l l' : List Rec} (h : Plain l) (h' : Plain l') : Plain (l ++ l') :=
  ⟨by simp [h.powers, h'.powers], by simp [h.sides, h'.sides], by simp [h.start, h'.start],
    by simp [h.cycleEnd, h'.cycleEnd], by simp [h.discharges, h'.discharges],
    by simp [h.transmutes, h'.transmutes], by simp [h.fails, h'.fails],
    by simp [h.decom, h'.decom], by simp [h.retired, h'.retired]⟩

/-- Rows about side products only. -/
theorem sideRecs_rows (c : Cfg) (s : State) (hh : s.hybrid = !c.sideProducts.isEmpty) (on : Bool) :
    powers (sideRecs c s on) = [] ∧ discharges (sideRecs c s on) = [] ∧
    transmutes (sideRecs c s on) = [] ∧ .cycleStart ∉ sideRecs c s on ∧
    .cycleEnd ∉ sideRecs c s on ∧ .dischargeFailed ∉ sideRecs c s on ∧
    .schedDecom ∉ sideRecs c s on ∧
    sides (sideRecs c s on) = (c.sideProducts.zipIdx).map fun p =>
      (p.1, if on then c.sideQty.getD p.2 0 else 0) := by
  have e : sideRecs c s on =
      (c.sideProducts.zipIdx).map fun p => .side p.1 (if on then c.sideQty.getD p.2 0 else 0) := by
    unfold sideRecs
    cases hs : c.sideProducts with
    | nil => simp
    | cons x l => rw [hh, hs]; simp
  have hall : ∀ r ∈ sideRecs c s on, ∃ k q, r = .side k q := by
    rw [e]
    intro r hr
    obtain ⟨p, _, rfl⟩ := List.mem_map.1 hr
    exact ⟨_, _, rfl⟩
  refine ⟨?_, ?_, ?_, ?_, ?_, ?_, ?_, ?_⟩
  · exact List.filterMap_eq_nil_iff.2 fun r hr => by obtain ⟨k, q, rfl⟩ := hall r hr; rfl
  · exact List.filterMap_eq_nil_iff.2 fun r hr => by obtain ⟨k, q, rfl⟩ := hall r hr; rfl
  · exact List.filterMap_eq_nil_iff.2 fun r hr => by obtain ⟨k, q, rfl⟩ := hall r hr; rfl
  · intro h; obtain ⟨k, q, h⟩ := hall _ h; exact absurd h (by simp)
  · intro h; obtain ⟨k, q, h⟩ := hall _ h; exact absurd h (by simp)
  · intro h; obtain ⟨k, q, h⟩ := hall _ h; exact absurd h (by simp)
  · intro h; obtain ⟨k, q, h⟩ := hall _ h; exact absurd h (by simp)
  · rw [e]
    unfold sides
    rw [List.filterMap_map]
    rw [← List.filterMap_eq_map]
    rfl

theorem op_facts {c : Cfg} (hw : WellFormed c) {s s' s1 s2 s3 : State} {i : In} {o : Out}
    (h : Inv c s) (hr : retired c s = false) (sp : StepSpec c s i o s' s1 s2 s3) :
    OpFacts c s i o s' := by
  have e1 : s1 = tickedState c s := by
    have h1 := sp.ticked
    rw [tick_ok hw h.good hr] at h1
    simpa using h1.symm
  obtain ⟨l, hl, e⟩ := tickedState_eq c s
  rw [h.log, List.nil_append] at e
  rw [e] at e1
  have e2 := sp.sold.rest
  have hs' : s' = { tockedState c s3 with time := s.time + 1, log := [] } := by
    have := sp.final; rwa [hr] at this
  have hrecs : o.recs = s3.log ++ tockRecs c s3 := by
    have := sp.recs; rw [hr] at this; exact this
  have a3 := sp.accepted
  have c1 : s1.core.items = tickCore c s := by rw [e1]; rfl
  have c2 : s2.core.items = tickCore c s := by rw [e2, ← c1]; rfl
  have f2 : s2.fresh.items = s.fresh.items.drop (nIn c s) := by
    rw [e2]; show s1.fresh.items = _; rw [e1]
  have c3 : s3.core.items =
      tickCore c s ++ (i.buys.map Prod.snd).take (c.nCore - (tickCore c s).length) := by
    rw [a3, ← c2]; rfl
  have f3 : s3.fresh.items = s.fresh.items.drop (nIn c s) ++
      (i.buys.map Prod.snd).drop (c.nCore - (tickCore c s).length) := by
    rw [a3, ← c2, ← f2]; rfl
  have p3 : s3.spent = s2.spent := by rw [a3]; rfl
  have n3 : s3.cycleStep = s.cycleStep := by
    rw [a3]; show s2.cycleStep = _; rw [e2]; show s1.cycleStep = _; rw [e1]
  have d3 : s3.discharged = tickDone c s := by
    rw [a3]; show s2.discharged = _; rw [e2]; show s1.discharged = _; rw [e1]; rfl
  have y3 : s3.hybrid = s.hybrid := by
    rw [a3]; show s2.hybrid = _; rw [e2]; exact sp.hybrid1
  have l3 : ∃ l', Plain l' ∧ s3.log = l ++ l' := by
    refine ⟨List.replicate (nOrders c s s1) (demandRec c s1) ++ acceptRecs c i.buys s2,
      (plain_demand _ _ _).append (plain_accept _ _ _), ?_⟩
    rw [← List.append_assoc]
    have : s2.log = l ++ List.replicate (nOrders c s s1) (demandRec c s1) := by
      rw [e2]
      show s1.log ++ _ = _
      have : s1.log = l := by rw [e1]
      rw [this]
    rw [← this, a3]
  obtain ⟨l', hp, hl'⟩ := l3
  have hfull : full c s' ↔ s3.core.items.length = c.nCore := by rw [hs']; rfl
  have hren : restarts c s3 = decide (renews c s s') := by
    unfold restarts renews
    rw [n3, d3]
    exact decide_eq_decide.2 (by rw [hfull])
  have hcnt : tockStep c s3 = stepCount c s s' := by
    unfold tockStep stepCount
    rw [hren, n3]
    simp
  have hon : tockOn c s3 = decide (stepCount c s s' < c.cycleTime ∧ full c s') := by
    unfold tockOn
    rw [hcnt]
    exact decide_eq_decide.2 (by rw [hfull])
  obtain ⟨q1, q2, q3, q4, q5, q6, q7, q8⟩ := sideRecs_rows c s3 (y3.trans h.hybrid) (tockOn c s3)
  have hrows : o.recs = l ++ (l' ++ (if stepCount c s s' = 0 ∧ full c s' then [.cycleStart] else []) ++
      .power (if stepCount c s s' < c.cycleTime ∧ full c s' then c.powerCap else 0) ::
        sideRecs c s3 (tockOn c s3)) := by
    rw [hrecs, hl']
    unfold tockRecs
    have e3 : (if tockStep c s3 = 0 ∧ s3.core.items.length = c.nCore then [Rec.cycleStart] else [])
        = if stepCount c s s' = 0 ∧ full c s' then [.cycleStart] else [] := by
      rw [hcnt]
      by_cases hx : stepCount c s s' = 0 ∧ full c s'
      · rw [if_pos hx, if_pos ⟨hx.1, hfull.1 hx.2⟩]
      · rw [if_neg hx, if_neg (fun hy => hx ⟨hy.1, hfull.2 hy.2⟩)]
    rw [e3]
    have e4 : (if tockOn c s3 then c.powerCap else 0) =
        if stepCount c s s' < c.cycleTime ∧ full c s' then c.powerCap else 0 := by
      rw [hon]; simp
    rw [e4]
    simp only [List.append_assoc]
  obtain ⟨b, hb⟩ : ∃ b : List Rec, (if stepCount c s s' = 0 ∧ full c s' then [Rec.cycleStart] else [])
    = b := ⟨_, rfl⟩
  have hb' : Reactor.powers b = [] ∧ Reactor.sides b = [] ∧ Reactor.discharges b = [] ∧
      Reactor.transmutes b = [] ∧ .cycleEnd ∉ b ∧ .dischargeFailed ∉ b ∧ .schedDecom ∉ b ∧
      (.cycleStart ∈ b ↔ stepCount c s s' = 0 ∧ full c s') := by
    subst hb
    split
    · rename_i hx
      exact ⟨rfl, rfl, rfl, rfl, by simp, by simp, by simp, by simp [hx]⟩
    · rename_i hx
      exact ⟨rfl, rfl, rfl, rfl, by simp, by simp, by simp, by simp [hx]⟩
  rw [hb] at hrows
  obtain ⟨b1, b2, b3, b4, b5, b6, b7, b8⟩ := hb'
  obtain ⟨pw, hpw⟩ : ∃ p, (if stepCount c s s' < c.cycleTime ∧ full c s' then c.powerCap else 0) = p
    := ⟨_, rfl⟩
  rw [hpw] at hrows
  have cons1 : ∀ x, Reactor.powers (Rec.power pw :: x) = pw :: Reactor.powers x := fun _ => rfl
  have cons2 : ∀ x, Reactor.sides (Rec.power pw :: x) = Reactor.sides x := fun _ => rfl
  have cons3 : ∀ x, Reactor.discharges (Rec.power pw :: x) = Reactor.discharges x := fun _ => rfl
  have cons4 : ∀ x, Reactor.transmutes (Rec.power pw :: x) = Reactor.transmutes x := fun _ => rfl
  refine ⟨?_, ?_, ?_, ?_, ?_, ?_, ?_, ?_, ?_, ?_, ?_, ?_, ?_, ?_, ?_, ?_, ?_, ?_⟩
  · rw [hs']
  · rw [hs']; exact c3
  · rw [hs']; exact f3
  · have := sp.sold.perm
    rw [hs']
    show List.Perm _ (s3.spent.items ++ _)
    rw [p3]
    have e5 : (demandedState c s s1).spent.items =
        s.spent.items ++ (burntCore c s).take (nDis c s) := by
      show s1.spent.items = _; rw [e1]
    rw [← e5]
    exact this
  · have : s'.cycleStep = if tockStep c s3 > 0 ∨ s3.core.items.length = c.nCore
        then tockStep c s3 + 1 else tockStep c s3 := by rw [hs']; rfl
    rw [this, hcnt]
    by_cases hx : stepCount c s s' > 0 ∨ full c s'
    · rw [if_pos hx, if_pos (by rw [← hfull]; exact hx)]
    · rw [if_neg hx, if_neg (by rw [← hfull]; exact hx)]
  · have : s'.discharged = if restarts c s3 then false else s3.discharged := by rw [hs']; rfl
    rw [this, hren, d3]
    simp
  · rw [hs']; show s3.prefs = _; rw [a3]; show s2.prefs = _; rw [e2]; show s1.prefs = _; rw [e1]
  · rw [hs']; show s3.inRecipes = _; rw [a3]; show s2.inRecipes = _; rw [e2]
    show s1.inRecipes = _; rw [e1]
  · rw [hs']; show s3.outRecipes = _; rw [a3]; show s2.outRecipes = _; rw [e2]
    show s1.outRecipes = _; rw [e1]
  · rw [hrows, powers_append, powers_append, powers_append, cons1, hl.powers, hp.powers, b1, q1,
      hpw]; rfl
  · rw [hrows, sides_append, sides_append, sides_append, cons2, hl.sides, hp.sides, b2, q8, hon]
    simp
  · unfold Starts
    rw [hrows]
    simp only [List.mem_append, hl.start, hp.start, b8, List.mem_cons, q4, or_false, false_or,
      reduceCtorEq]
  · unfold Ends
    rw [hrows]
    simp only [List.mem_append, hl.cycleEnd, hp.cycleEnd, b5, List.mem_cons, q5, or_false,
      reduceCtorEq]
  · unfold Fails
    rw [hrows]
    simp only [List.mem_append, hl.fails, hp.fails, b6, List.mem_cons, q6, or_false, reduceCtorEq]
  · rw [hrows, discharges_append, discharges_append, discharges_append, cons3, hl.discharges,
      hp.discharges, b3, q2]; simp
  · rw [hrows, transmutes_append, transmutes_append, transmutes_append, cons4, hl.transmutes,
      hp.transmutes, b4, q3]; simp
  · rw [hrows]
    simp only [List.mem_append, hl.decom, hp.decom, b7, List.mem_cons, q7, reduceCtorEq, or_false,
      not_false_eq_true]
  · exact sp.good.core.count

end Cyc.Reactor
