import Verif.Age.Basic
import Verif.Region.Props4

/-!
# A region at another time: C121 for `GrowthRegion`
-/

namespace Cyc

theorem Map.get?_map {κ β γ : Type} [DecidableEq κ] (f : β → γ) (m : List (κ × β)) (k : κ) :
    Map.get? (m.map fun x => (x.1, f x.2)) k = (Map.get? m k).map f := by
  induction m with
  | nil => rfl
  | cons x m ih =>
    simp only [List.map_cons, Map.get?, ih]
    split <;> rfl

theorem Map.set_map {κ β γ : Type} [DecidableEq κ] (f : β → γ) (m : List (κ × β)) (k : κ) (b : β) :
    Map.set (m.map fun x => (x.1, f x.2)) k (f b) = (Map.set m k b).map fun x => (x.1, f x.2) := by
  induction m with
  | nil => rfl
  | cons x m ih =>
    simp only [List.map_cons, Map.set, ih]
    split <;> rfl

namespace Region

/-- The same pieces `d` steps later. -/
def laterPieces (d : Nat) (ps : List Piece) : List Piece :=
  ps.map fun p => { p with start := p.start + d }

/-- The same demand `d` steps later. -/
def Cfg.later (d : Nat) (c : Cfg) : Cfg :=
  { c with demand := c.demand.map fun x => (x.1, x.2.map fun p => { p with start := p.start + d }) }

/-- The same region `d` steps later. -/
def Reg.later (d : Nat) (r : Reg) : Reg :=
  { r with demands := r.demands.map fun x => (x.1, laterPieces d x.2) }

/-- The same world `d` steps later. -/
def World.later (d : Nat) (w : World) : World := { w with region := w.region.later d }

variable {c : Cfg} {d : Nat} {r : Reg} {w : World}

theorem value_later (ps : List Piece) (x : ℚ) : value (laterPieces d ps) (x + d) = value ps x := by
  induction ps with
  | nil => rfl
  | cons p ps ih =>
    have e : x + (d : ℚ) - (p.start + d) = x - p.start := by ring
    show (if x + (d : ℚ) < p.start + d then value (laterPieces d ps) (x + d) else
      p.f (x + d - (p.start + d)) + p.offset) = _
    rw [ih, e]
    simp only [add_lt_add_iff_right]
    rfl

theorem addFunction_later (ps : List Piece) (f : ℚ → ℚ) (x : ℚ) (b : Bool) :
    addFunction (laterPieces d ps) f (x + d) b = R.then (laterPieces d) (addFunction ps f x b) := by
  have h : tooEarly (laterPieces d ps) (x + d) = tooEarly ps x := by
    cases ps with
    | nil => rfl
    | cons p ps =>
      show decide (x + (d : ℚ) ≤ p.start + d) = decide (x ≤ p.start)
      simp only [add_le_add_iff_right]
  unfold addFunction
  rw [h, value_later, then_ite]
  rfl

theorem addPieces_later (fn : String → String → R (ℚ → ℚ)) (l : List PieceCfg) (b : Bool) (ps : List Piece) :
    addPieces fn (l.map fun p => { p with start := p.start + (d : ℤ) }) b (laterPieces d ps) =
      R.then (laterPieces d) (addPieces fn l b ps) := by
  induction l generalizing b ps with
  | nil => rfl
  | cons p l ih =>
    simp only [List.map_cons, addPieces, then_bind, Int.cast_add, Int.cast_natCast, addFunction_later,
      bind_then, ih]

theorem addDemands_later (fn : String → String → R (ℚ → ℚ)) (l : List (String × List PieceCfg)) :
    addDemands fn (l.map fun x => (x.1, x.2.map fun p => { p with start := p.start + (d : ℤ) })) (r.later d) =
      R.then (Reg.later d) (addDemands fn l r) := by
  induction l generalizing r with
  | nil => rfl
  | cons x l ih =>
    obtain ⟨k, ps⟩ := x
    have h := addPieces_later (d := d) fn ps false []
    simp only [laterPieces, List.map_nil] at h
    simp only [List.map_cons, addDemands, then_bind]
    rw [h]
    simp only [bind_then, ← ih]
    refine bind_congr_ok fun f _ => ?_
    congr 1
    unfold Reg.later
    simp only [Reg.mk.injEq, true_and]
    exact Map.set_map (laterPieces d) r.demands k f

theorem enterRegion_later (is : List Inst) :
    enterRegion (c.later d) is = R.then (Reg.later d) (enterRegion c is) := by
  unfold enterRegion
  rw [← addDemands_later]
  have h : ∀ (l : List Inst) (r : Reg), r.demands = [] → (l.foldl registerInst r).demands = [] := by
    intro l
    induction l with
    | nil => exact fun r h => h
    | cons i l ih => exact fun r h => ih _ h
  have h' := h is ⟨[], [], []⟩ rfl
  have e : (is.foldl registerInst ⟨[], [], []⟩).later d = is.foldl registerInst ⟨[], [], []⟩ := by
    generalize is.foldl registerInst ⟨[], [], []⟩ = r at h'
    obtain ⟨m, b, ds⟩ := r
    cases h'
    rfl
  rw [e]
  rfl

theorem enter_later (T : Protos) (is : List Inst) (living : List (Nat × Fac)) (q : List (Nat × String))
    (n : Nat) : enter (c.later d) T is living q n = R.then (World.later d) (enter c T is living q n) := by
  unfold enter
  simp only [enterRegion_later, bind_then, then_bind]
  rfl

theorem arrive_later (T : Protos) (l : List (Kind × List String)) :
    arrive T l (w.later d) = R.then (World.later d) (arrive T l w) := by
  induction l generalizing w with
  | nil => rfl
  | cons x l ih =>
    obtain ⟨k, ps⟩ := x
    simp only [arrive, then_bind]
    refine congrArg (enterInst T [] ⟨w.next, k, ps, [], []⟩ >>= ·) ?_
    funext j
    exact ih (w := { w with insts := w.insts ++ [j], next := w.next + 1 })

theorem doBuild_later (T : Protos) (q : List (Nat × String)) :
    doBuild T q (w.later d) = R.then (World.later d) (doBuild T q w) := by
  induction q generalizing w with
  | nil => rfl
  | cons x q ih =>
    obtain ⟨b, p⟩ := x
    simp only [doBuild]
    cases Map.get? T p with
    | none => rfl
    | some k =>
      simp only [then_ite]
      refine if_congr Iff.rfl ?_ rfl
      exact ih (w := { w with
            insts := notify w.insts b (buildNotify · ⟨w.next, k⟩)
            living := w.living ++ [(b, ⟨w.next, k⟩)]
            next := w.next + 1 })

theorem tick_later (is : List Inst) (t : ℤ) (f : String → ℚ → List Order) (ks : List String) :
    tick (r.later d) is (t + d) f ks = tick r is t f ks := by
  have h : ∀ k, demandOf (r.later d) k (t + d) = demandOf r k t := by
    intro k
    unfold demandOf
    have e : Map.get? (r.later d).demands k = (Map.get? r.demands k).map (laterPieces d) :=
      Map.get?_map _ _ _
    rw [e]
    cases Map.get? r.demands k with
    | none => rfl
    | some ps =>
      simp only [Option.map_some, Int.cast_add, Int.cast_natCast]
      rw [value_later]
  have h1 : ∀ k, tickOne (r.later d) is (t + d) f k = tickOne r is t f k := by
    intro k
    unfold tickOne
    rw [h]
    rfl
  induction ks with
  | nil => rfl
  | cons k ks ih => simp only [tick, h1, ih]

theorem doDecom_later (l : List (Nat × Fac)) : doDecom l (w.later d) = (doDecom l w).later d := by
  induction l generalizing w with
  | nil => rfl
  | cons x l ih =>
    obtain ⟨b, a⟩ := x
    exact ih (w := { w with
        insts := notify w.insts b (decomNotify · a)
        living := w.living.filter fun x => decide (x ≠ (b, a)) })

theorem unregister_later (l : List Inst) :
    l.foldl unregisterInst (r.later d) = (l.foldl unregisterInst r).later d := by
  induction l generalizing r with
  | nil => rfl
  | cons i l ih => exact ih (r := unregisterInst r i)

theorem leave_later (l : List Nat) : leave l (w.later d) = (leave l w).later d := by
  induction l generalizing w with
  | nil => rfl
  | cons b l ih =>
    simp only [leave]
    rw [← ih]
    congr 1
    unfold World.later
    simp only [World.mk.injEq, and_true, true_and]
    exact unregister_later _

/-- A pair whose world is later. -/
def onWorld {α : Type} (d : Nat) (p : α × World) : α × World := (p.1, p.2.later d)

theorem step_later (T : Protos) (t : ℤ) (i : In) :
    step (c.later d) T (t + d) (w.later d) i = R.then (onWorld d) (step c T t w i) := by
  have hk : (c.later d).demand.map Prod.fst = c.demand.map Prod.fst := by
    simp [Cfg.later, List.map_map, Function.comp_def]
  unfold step
  rw [hk]
  simp only [then_bind]
  refine (congrArg (· >>= _) (arrive_later T i.arrive (w := { w with queue := [] }))).trans ?_
  simp only [bind_then]
  refine bind_congr_ok fun w1 _ => ?_
  refine (congrArg (· >>= _) (doBuild_later T (w.queue ++ i.builds) (w := w1))).trans ?_
  simp only [bind_then]
  refine bind_congr_ok fun w2 _ => ?_
  refine (congrArg (· >>= _) (tick_later w2.insts t i.decision _)).trans ?_
  refine bind_congr_ok fun l _ => ?_
  show Except.ok _ = Except.ok _
  refine congrArg Except.ok ?_
  refine Prod.ext rfl ?_
  show leave i.leave (doDecom i.decom (World.later d { w2 with queue := l })) = _
  rw [doDecom_later, leave_later]
  rfl

theorem run_later (T : Protos) (t : ℤ) (is : List In) :
    run (c.later d) T (t + d) (w.later d) is = R.then (onWorld d) (run c T t w is) := by
  induction is generalizing t w with
  | nil => rfl
  | cons i is ih =>
    simp only [run, step_later, bind_then, then_bind, onWorld]
    refine bind_congr_ok fun x _ => ?_
    have e : t + (d : ℤ) + 1 = t + 1 + d := by ring
    rw [e, ih]
    simp only [bind_then, onWorld]
    rfl

/-- C121: a region with a demand that is `d` steps later, simulated `d` steps later, orders the same builds
`d` steps later, and fails where it fails. -/
theorem C121_region (c : Cfg) (T : Protos) (insts : List Inst) (living : List (Nat × Fac))
    (q : List (Nat × String)) (n : Nat) (t : ℤ) (d : Nat) (is : List In) :
    (do let w ← enter (c.later d) T insts living q n; run (c.later d) T (t + d) w is) =
      R.then (fun r => (r.1, World.later d r.2))
        (do let w ← enter c T insts living q n; run c T t w is) := by
  simp only [enter_later, bind_then, then_bind, run_later]
  rfl

/-- The example region, 100 steps later. -/
example : (((enter (exCfg.later 100) exProtos [exInst] [] [] 3).bind fun w =>
      run (exCfg.later 100) exProtos 100 w [exIn, exIn, exIn, exIn, exIn, exIn]).toOption.map fun r =>
        r.1.map fun o => (o.living.length, o.supply "power", o.ordered.length)) =
    some [(0, 0, 0), (0, 0, 3), (3, 12, 0), (3, 12, 0), (3, 12, 0), (3, 12, 1)] := by
  decide +kernel

end Region

end Cyc
