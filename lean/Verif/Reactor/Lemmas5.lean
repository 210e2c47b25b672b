import Verif.Reactor.Lemmas4

/-!
# The reactor's `Tick` in closed form, and a whole step
-/

namespace Cyc.Reactor

/-! ## Reading rows -/

@[simp] theorem powers_append (l l' : List Rec) : powers (l ++ l') = powers l ++ powers l' := by
  simp [powers]
@[simp] theorem sides_append (l l' : List Rec) : sides (l ++ l') = sides l ++ sides l' := by
  simp [sides]
@[simp] theorem discharges_append (l l' : List Rec) :
    discharges (l ++ l') = discharges l ++ discharges l' := by
  simp [discharges]
@[simp] theorem transmutes_append (l l' : List Rec) :
    transmutes (l ++ l') = transmutes l ++ transmutes l' := by
  simp [transmutes]

/-- Rows none of which is about power, side products, cycle starts, discharges, transmutations or
decommissioning. -/
structure Plain (l : List Rec) : Prop where
  powers : powers l = []
  sides : sides l = []
  start : .cycleStart ∉ l
  cycleEnd : .cycleEnd ∉ l
  discharges : discharges l = []
  transmutes : transmutes l = []
  fails : .dischargeFailed ∉ l
  decom : .schedDecom ∉ l
  retired : .retired ∉ l

theorem plain_nil : Plain [] := ⟨rfl, rfl, by simp, by simp, rfl, rfl, by simp, by simp, by simp⟩

theorem plain_load (n : Nat) : Plain [.load n] :=
  ⟨rfl, rfl, by simp, by simp, rfl, rfl, by simp, by simp, by simp⟩

theorem plain_demand (n : Nat) (k : String) (q : ℚ) : Plain (List.replicate n (.demand k q)) := by
  have : ∀ r ∈ List.replicate n (Rec.demand k q), r = .demand k q :=
    fun r hr => List.eq_of_mem_replicate hr
  refine ⟨?_, ?_, ?_, ?_, ?_, ?_, ?_, ?_, ?_⟩
  · exact List.filterMap_eq_nil_iff.2 fun r hr => by rw [this r hr]
  · exact List.filterMap_eq_nil_iff.2 fun r hr => by rw [this r hr]
  · intro h; exact absurd (this _ h) (by simp)
  · intro h; exact absurd (this _ h) (by simp)
  · exact List.filterMap_eq_nil_iff.2 fun r hr => by rw [this r hr]
  · exact List.filterMap_eq_nil_iff.2 fun r hr => by rw [this r hr]
  · intro h; exact absurd (this _ h) (by simp)
  · intro h; exact absurd (this _ h) (by simp)
  · intro h; exact absurd (this _ h) (by simp)

theorem plain_supply (ks : List String) (f : String → ℚ) :
    Plain (ks.map fun k => .supply k (f k)) := by
  have : ∀ r ∈ ks.map (fun k => Rec.supply k (f k)), ∃ k, r = .supply k (f k) := by
    intro r hr; obtain ⟨k, _, rfl⟩ := List.mem_map.1 hr; exact ⟨k, rfl⟩
  refine ⟨?_, ?_, ?_, ?_, ?_, ?_, ?_, ?_, ?_⟩
  · exact List.filterMap_eq_nil_iff.2 fun r hr => by obtain ⟨k, rfl⟩ := this r hr; rfl
  · exact List.filterMap_eq_nil_iff.2 fun r hr => by obtain ⟨k, rfl⟩ := this r hr; rfl
  · intro h; obtain ⟨k, e⟩ := this _ h; exact absurd e (by simp)
  · intro h; obtain ⟨k, e⟩ := this _ h; exact absurd e (by simp)
  · exact List.filterMap_eq_nil_iff.2 fun r hr => by obtain ⟨k, rfl⟩ := this r hr; rfl
  · exact List.filterMap_eq_nil_iff.2 fun r hr => by obtain ⟨k, rfl⟩ := this r hr; rfl
  · intro h; obtain ⟨k, e⟩ := this _ h; exact absurd e (by simp)
  · intro h; obtain ⟨k, e⟩ := this _ h; exact absurd e (by simp)
  · intro h; obtain ⟨k, e⟩ := this _ h; exact absurd e (by simp)

/-! ## `Tick` in closed form -/

/-- The core after a cycle end, if there is one. -/
def burntCore (c : Cfg) (s : State) : List Assem :=
  if s.cycleStep = c.cycleTime then
    (s.core.items.take c.nBatch).map (burn c s) ++ s.core.items.drop c.nBatch
  else s.core.items

theorem burntCore_length (c : Cfg) (s : State) :
    (burntCore c s).length = s.core.items.length := by
  unfold burntCore; split
  · simp only [List.length_append, List.length_map, List.length_take, List.length_drop]; omega
  · rfl

theorem burntCore_tag (c : Cfg) (s : State) : (burntCore c s).map tag = s.core.items.map tag := by
  unfold burntCore; split
  · rw [List.map_append, List.map_map]
    have e : (tag ∘ burn c s) = tag := rfl
    rw [e, ← List.map_append, List.take_append_drop]
  · rfl

/-- A discharge is attempted. -/
def Due (c : Cfg) (s : State) : Prop := s.cycleStep ≥ c.cycleTime ∧ s.discharged = false

instance (c : Cfg) (s : State) : Decidable (Due c s) := by unfold Due; infer_instance

/-- How many assemblies `Tick` removes from the core (as an argument of `take` and `drop`). -/
def nDis (c : Cfg) (s : State) : Nat := if Due c s ∧ roomFor c s then c.nBatch else 0

/-- How many assemblies `Tick` loads from fresh storage. -/
def nIn (c : Cfg) (s : State) : Nat :=
  if s.cycleStep ≥ c.cycleTime then
    min (c.nCore - ((burntCore c s).drop (nDis c s)).length) s.fresh.items.length
  else 0

/-- The rows about the discharge. -/
structure DischargeRecs (c : Cfg) (s : State) (l : List Rec) : Prop where
  powers : powers l = []
  sides : sides l = []
  start : .cycleStart ∉ l
  cycleEnd : .cycleEnd ∈ l ↔ s.cycleStep = c.cycleTime
  discharges : discharges l =
    (if Due c s ∧ roomFor c s then [min c.nBatch s.core.items.length] else [])
  transmutes : transmutes l =
    (if s.cycleStep = c.cycleTime then [min c.nBatch s.core.items.length] else [])
  fails : .dischargeFailed ∈ l ↔ Due c s ∧ ¬ roomFor c s
  decom : .schedDecom ∉ l
  retired : .retired ∉ l

theorem roomFor_endCycle (c : Cfg) (s : State) : roomFor c (endCycle c s) ↔ roomFor c s := by
  unfold roomFor endCycle
  split
  · simp only [burntState, State.record, List.length_append, List.length_map, List.length_take,
      List.length_drop]
    have : min c.nBatch s.core.items.length + (s.core.items.length - c.nBatch) =
      s.core.items.length := by omega
    rw [this]
  · rfl

theorem endCycle_core (c : Cfg) (s : State) : (endCycle c s).core.items = burntCore c s := by
  unfold endCycle burntCore
  split <;> rfl

theorem endCycle_rest (c : Cfg) (s : State) : endCycle c s =
    { s with core := { s.core with items := burntCore c s }, log := (endCycle c s).log } := by
  unfold endCycle burntCore
  split <;> rfl

theorem endCycle_log (c : Cfg) (s : State) : (endCycle c s).log = s.log ++
    if s.cycleStep = c.cycleTime then [.transmute (min c.nBatch s.core.items.length), .cycleEnd]
    else [] := by
  unfold endCycle
  split
  · simp [burntState, State.record]
  · simp

theorem take_min_length {α : Type} (n : Nat) (l : List α) : l.take (min n l.length) = l.take n := by
  rw [List.take_eq_take_iff]; omega

theorem drop_min_length {α : Type} (n : Nat) (l : List α) : l.drop (min n l.length) = l.drop n := by
  rcases le_total n l.length with h | h
  · rw [min_eq_left h]
  · rw [min_eq_right h, List.drop_eq_nil_of_le le_rfl, List.drop_eq_nil_of_le h]

/-- The oldest `n` core assemblies moved to spent storage. -/
def movedState (n : Nat) (s : State) : State :=
  { s with core := { s.core with items := s.core.items.drop n }
           spent := { s.spent with items := s.spent.items ++ s.core.items.take n } }

theorem tryDischarge_eq (c : Cfg) (s : State) : ∃ l,
    tryDischarge c s =
      { s with
        core := { s.core with items := s.core.items.drop (nDis c s) }
        spent := { s.spent with items := s.spent.items ++ s.core.items.take (nDis c s) }
        discharged := if Due c s then decide (roomFor c s) else s.discharged
        log := s.log ++ l } ∧
    ((Due c s ∧ roomFor c s → ∃ l', Plain l' ∧
        l = .discharge (min c.nBatch s.core.items.length) :: l') ∧
      (Due c s ∧ ¬ roomFor c s → l = [.dischargeFailed]) ∧ (¬ Due c s → l = [])) := by
  unfold tryDischarge nDis
  by_cases hd : Due c s
  · have hd' : s.cycleStep ≥ c.cycleTime ∧ s.discharged = false := hd
    by_cases hr : roomFor c s
    · refine ⟨.discharge (min c.nBatch s.core.items.length) :: c.outCommods.map
          (fun k => .supply k (totalQty (spentOf c (movedState c.nBatch s) k))), ?_,
        fun _ => ⟨_, plain_supply c.outCommods _, rfl⟩, fun h => absurd hr h.2,
        fun h => absurd hd h⟩
      simp only [if_pos hd', if_pos hr, hd, hr, and_self, if_true, decide_true]
      simp only [dischargedState, take_min_length, drop_min_length, movedState]
      rfl
    · refine ⟨[.dischargeFailed], ?_, fun h => absurd h.2 hr, fun _ => rfl, fun h => absurd hd h⟩
      simp [if_pos hd', if_neg hr, hd, hr, State.record]
  · have hd' : ¬ (s.cycleStep ≥ c.cycleTime ∧ s.discharged = false) := hd
    refine ⟨[], ?_, fun h => absurd h.1 hd, fun h => absurd h.1 hd, fun _ => rfl⟩
    simp [if_neg hd', hd]

/-- How many assemblies are loaded, if loading is due. -/
def nLoad' (c : Cfg) (s : State) : Nat := if s.cycleStep ≥ c.cycleTime then nLoad c s else 0

theorem tryLoad_eq (c : Cfg) (s : State) : ∃ l, Plain l ∧
    tryLoad c s =
      { s with
        fresh := { s.fresh with items := s.fresh.items.drop (nLoad' c s) }
        core := { s.core with items := s.core.items ++ s.fresh.items.take (nLoad' c s) }
        log := s.log ++ l } := by
  unfold tryLoad loadedState nLoad'
  by_cases h : s.cycleStep ≥ c.cycleTime
  · by_cases h0 : nLoad c s = 0
    · exact ⟨[], plain_nil, by simp [if_pos h, if_pos h0, h0]⟩
    · exact ⟨_, plain_load (nLoad c s), by simp only [if_pos h, if_neg h0, State.record]⟩
  · exact ⟨[], plain_nil, by simp [if_neg h]⟩

theorem dischargeRecs_of {c : Cfg} {s : State} {l1 l2 l3 : List Rec} (p3 : Plain l3)
    (h1 : l1 = if s.cycleStep = c.cycleTime
      then [.transmute (min c.nBatch s.core.items.length), .cycleEnd] else [])
    (f2 : (Due c s ∧ roomFor c s → ∃ l', Plain l' ∧
        l2 = .discharge (min c.nBatch s.core.items.length) :: l') ∧
      (Due c s ∧ ¬ roomFor c s → l2 = [.dischargeFailed]) ∧ (¬ Due c s → l2 = [])) :
    DischargeRecs c s (l1 ++ l2 ++ l3) := by
  obtain ⟨n, hn⟩ : ∃ n, min c.nBatch s.core.items.length = n := ⟨_, rfl⟩
  rw [hn] at h1 f2
  have a1 : powers l1 = [] ∧ sides l1 = [] ∧ .cycleStart ∉ l1 ∧ discharges l1 = [] ∧
      .dischargeFailed ∉ l1 ∧ .schedDecom ∉ l1 ∧ .retired ∉ l1 ∧
      (.cycleEnd ∈ l1 ↔ s.cycleStep = c.cycleTime) ∧
      transmutes l1 = (if s.cycleStep = c.cycleTime then [n] else []) := by
    subst h1
    by_cases h : s.cycleStep = c.cycleTime
    · rw [if_pos h, if_pos h]
      refine ⟨rfl, rfl, ?_, rfl, ?_, ?_, ?_, ?_, rfl⟩ <;> simp [h]
    · rw [if_neg h, if_neg h]
      refine ⟨rfl, rfl, ?_, rfl, ?_, ?_, ?_, ?_, rfl⟩ <;> simp [h]
  have a2 : powers l2 = [] ∧ sides l2 = [] ∧ .cycleStart ∉ l2 ∧ .cycleEnd ∉ l2 ∧
      transmutes l2 = [] ∧ .schedDecom ∉ l2 ∧ .retired ∉ l2 ∧
      (.dischargeFailed ∈ l2 ↔ Due c s ∧ ¬ roomFor c s) ∧
      discharges l2 = (if Due c s ∧ roomFor c s then [n] else []) := by
    by_cases hd : Due c s
    · by_cases hr : roomFor c s
      · obtain ⟨l', p', rfl⟩ := f2.1 ⟨hd, hr⟩
        rw [if_pos ⟨hd, hr⟩]
        refine ⟨p'.powers, p'.sides, ?_, ?_, p'.transmutes, ?_, ?_, ?_, ?_⟩
        · simp [p'.start]
        · simp [p'.cycleEnd]
        · simp [p'.decom]
        · simp [p'.retired]
        · simp [p'.fails, hr]
        · have : discharges (Rec.discharge n :: l') = n :: discharges l' := rfl
          rw [this, p'.discharges]
      · have := f2.2.1 ⟨hd, hr⟩
        subst this
        rw [if_neg (fun h => hr h.2)]
        refine ⟨rfl, rfl, ?_, ?_, rfl, ?_, ?_, ?_, rfl⟩ <;> simp [hd, hr]
    · have := f2.2.2 hd
      subst this
      rw [if_neg (fun h => hd h.1)]
      refine ⟨rfl, rfl, ?_, ?_, rfl, ?_, ?_, ?_, rfl⟩ <;> simp [hd]
  obtain ⟨b1, b2, b3, b4, b5, b6, b7, b8, b9⟩ := a1
  obtain ⟨d1, d2, d3, d4, d5, d6, d7, d8, d9⟩ := a2
  refine ⟨?_, ?_, ?_, ?_, ?_, ?_, ?_, ?_, ?_⟩
  · simp [b1, d1, p3.powers]
  · simp [b2, d2, p3.sides]
  · simp [b3, d3, p3.start]
  · simp only [List.mem_append, d4, p3.cycleEnd, or_false, b8]
  · rw [discharges_append, discharges_append, b4, d9, p3.discharges, hn]; simp
  · rw [transmutes_append, transmutes_append, d5, b9, p3.transmutes, hn]; simp
  · simp only [List.mem_append, b5, p3.fails, or_false, false_or, d8]
  · simp [b6, d6, p3.decom]
  · simp [b7, d7, p3.retired]

/-- The state after `Tick` of an operating reactor, in closed form. -/
theorem tickedState_eq (c : Cfg) (s : State) : ∃ l, DischargeRecs c s l ∧
    tickedState c s =
      { s with
        fresh := { s.fresh with items := s.fresh.items.drop (nIn c s) }
        core := { s.core with
          items := (burntCore c s).drop (nDis c s) ++ s.fresh.items.take (nIn c s) }
        spent := { s.spent with items := s.spent.items ++ (burntCore c s).take (nDis c s) }
        discharged := if Due c s then decide (roomFor c s) else s.discharged
        prefs := prefsAfter c s.time s.prefs
        inRecipes := recipesAfter c c.recipeChangeIn s.time s.inRecipes
        outRecipes := recipesAfter c c.recipeChangeOut s.time s.outRecipes
        log := s.log ++ l } := by
  obtain ⟨l2, e2, f2⟩ := tryDischarge_eq c (endCycle c s)
  obtain ⟨l3, p3, e3⟩ := tryLoad_eq c (tryDischarge c (endCycle c s))
  have hr := roomFor_endCycle c s
  have hc := endCycle_core c s
  have hs := endCycle_rest c s
  have hst : (endCycle c s).cycleStep = s.cycleStep := by rw [hs]
  have hdi : (endCycle c s).discharged = s.discharged := by rw [hs]
  have hdue : Due c (endCycle c s) ↔ Due c s := by unfold Due; rw [hst, hdi]
  have hn : nDis c (endCycle c s) = nDis c s := by
    unfold nDis
    by_cases h : Due c s ∧ roomFor c s
    · rw [if_pos h, if_pos (by rw [hdue, hr]; exact h)]
    · rw [if_neg h, if_neg (by rw [hdue, hr]; exact h)]
  have hlen : (endCycle c s).core.items.length = s.core.items.length := by
    rw [hc, burntCore_length]
  rw [hdue, hr, hlen] at f2
  have hload : nLoad' c (tryDischarge c (endCycle c s)) = nIn c s := by
    unfold nLoad'
    have h1 : (tryDischarge c (endCycle c s)).cycleStep = s.cycleStep := by rw [e2, hst]
    unfold nIn
    rw [h1]
    by_cases h : s.cycleStep ≥ c.cycleTime
    · rw [if_pos h, if_pos h]
      unfold nLoad
      rw [e2, hn, hc, hs]
    · rw [if_neg h, if_neg h]
  rw [hload] at e3
  refine ⟨(if s.cycleStep = c.cycleTime
      then [.transmute (min c.nBatch s.core.items.length), .cycleEnd] else []) ++ l2 ++ l3, ?_, ?_⟩
  · exact dischargeRecs_of p3 rfl f2
  · have hdis : (if Due c (endCycle c s) then decide (roomFor c (endCycle c s))
        else (endCycle c s).discharged) = if Due c s then decide (roomFor c s) else s.discharged := by
      by_cases h : Due c s
      · rw [if_pos h, if_pos (hdue.2 h)]
        exact decide_eq_decide.2 hr
      · rw [if_neg h, if_neg (fun h' => h (hdue.1 h')), hdi]
    unfold tickedState changedState
    rw [e3, e2, hn, hdis, hc, endCycle_log]
    rw [hs]
    simp only [List.append_assoc]

end Cyc.Reactor
