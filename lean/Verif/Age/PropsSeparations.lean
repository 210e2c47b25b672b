import Verif.Age.Basic
import Verif.Separations.Props1

/-!
# Deployment at another time: C121 for `Separations`
-/

namespace Cyc.Separations

/-- The same input for a facility that is deployed, and ends, `d` steps later. -/
def Cfg.later (d : Nat) (c : Cfg) : Cfg :=
  { c with enterTime := c.enterTime + d, exitTime := c.exitTime.map (· + d) }

/-- The same state at a later time. -/
def State.later (d : Nat) (s : State) : State := { s with time := s.time + d }

/-- The same observation at a later time. -/
def Out.later (d : Nat) (o : Out) : Out := { o with time := o.time + d }

variable {c : Cfg} {d : Nat} {s : State}

/-- A pair whose state is later. -/
def onState {α : Type} (d : Nat) (p : α × State) : α × State := (p.1, p.2.later d)

theorem enter_later : enter (c.later d) = R.then (State.later d) (enter c) := by
  unfold enter
  simp only [then_ite]
  rfl

theorem pushLeftover_later (m : NMat) :
    pushLeftover (c.later d) m (s.later d) = R.then (State.later d) (pushLeftover c m s) := by
  unfold pushLeftover
  simp only [then_ite, then_bind]
  rfl

theorem finish_later (f q : ℚ) (m : NMat) :
    finish (c.later d) f q m (s.later d) = R.then (State.later d) (finish c f q m s) := by
  unfold finish
  simp only [then_ite, then_bind, pushLeftover_later]
  refine if_congr Iff.rfl rfl ?_
  refine congrArg (m.extractQty _ >>= ·) ?_
  funext x
  refine congrArg (s.feed.push c.eps x.1 >>= ·) ?_
  funext b
  exact pushLeftover_later (s := { s with feed := b }) _

theorem tick_later : tick (c.later d) (s.later d) = R.then (onState d) (tick c s) := by
  unfold tick
  simp only [then_ite, then_bind]
  refine if_congr Iff.rfl rfl ?_
  refine congrArg (s.feed.popEps c.lo c.eps (min c.throughput s.feed.quantity) >>= ·) ?_
  funext x
  refine congrArg (checkStaged _ >>= ·) ?_
  funext u
  refine congrArg (sepLoop c.eps _ _ _ _ >>= ·) ?_
  funext y
  refine (congrArg (· >>= _) (finish_later (s := { s with feed := x.2, bufs := y.2.2 }) _ _ _)).trans ?_
  simp only [bind_then]
  rfl

theorem requests_later : requests (c.later d) (s.later d) = requests c s := by
  have h : enough (c.later d) (s.later d) = enough c s := by
    unfold enough
    show (match c.exitTime.map (· + d) with | none => _ | some te => _) = _
    cases c.exitTime with
    | none => rfl
    | some te =>
      simp only [Option.map_some, State.later, Nat.cast_add]
      have : ((te : ℚ) + d - (s.time + d)) = te - s.time := by ring
      rw [this]
      rfl
  unfold requests
  rw [h]
  rfl

theorem sellOne_later (t : String × ℚ) :
    sellOne (c.later d) (s.later d) t = R.then (onState d) (sellOne c s t) := by
  unfold sellOne
  simp only [then_ite, then_bind]
  refine if_congr Iff.rfl rfl ?_
  show (match Map.get? s.bufs t.1 with | some b => _ | none => _) = _
  cases Map.get? s.bufs t.1 with
  | none => rfl
  | some b => simp only [then_bind]; rfl

theorem sellLoop_later (ts : List (String × ℚ)) :
    sellLoop (c.later d) ts (s.later d) = R.then (onState d) (sellLoop c ts s) := by
  induction ts generalizing s with
  | nil => rfl
  | cons t ts ih =>
    simp only [sellLoop, sellOne_later, bind_then, then_bind, onState, ih]
    rfl

theorem buys_later (ms : List NMat) :
    ms.foldlM (accept (c.later d)) (s.later d) = R.then (State.later d) (ms.foldlM (accept c) s) := by
  induction ms generalizing s with
  | nil => rfl
  | cons m ms ih =>
    have h : accept (c.later d) (s.later d) m = R.then (State.later d) (accept c s m) := by
      unfold accept; simp only [then_bind]; rfl
    simp only [List.foldlM_cons, h, bind_then, then_bind, ih]

theorem step_later (i : In) : step (c.later d) (s.later d) i =
    R.then (fun p => (Out.later d p.1, State.later d p.2)) (step c s i) := by
  have h : ∀ t : State, { t.later d with time := (t.later d).time + 1 } =
      State.later d { t with time := t.time + 1 } := by
    intro t
    unfold State.later
    simp only [State.mk.injEq, and_true]
    omega
  have h1 : ∀ t : State, ∀ r, reinsert (c.later d) (t.later d) r = reinsert c t r := fun _ _ => rfl
  unfold step
  simp only [tick_later, bind_then, then_bind, onState, requests_later, h1, sellLoop_later, buys_later, h]
  rfl

theorem run_later (is : List In) : run (c.later d) (s.later d) is =
    R.then (fun p => (p.1.map (Out.later d), State.later d p.2)) (run c s is) := by
  induction is generalizing s with
  | nil => rfl
  | cons i is ih =>
    simp only [run, step_later, bind_then, then_bind, ih]
    rfl

/-- C121: a separations facility that is deployed, and ends, `d` steps later goes through the same history
`d` steps later, and fails where it fails. -/
theorem C121_separations (c : Cfg) (d : Nat) (is : List In) :
    (do let s ← enter (c.later d); run (c.later d) s is) =
      R.then (fun r => (r.1.map (Out.later d), State.later d r.2)) (do let s ← enter c; run c s is) := by
  simp only [enter_later, bind_then, then_bind, run_later]

/-- The example history 100 steps later. -/
example : ((play (exCfg.later 100) exIn).toOption.map fun r => r.1.map fun o => (o.time, o.request, o.sold)) =
    ((play exCfg exIn).toOption.map fun r => r.1.map fun o => (o.time + 100, o.request, o.sold)) ∧
    ((play exCfg exIn).toOption.map fun r => r.1.length) ≠ none := by
  decide +kernel

end Cyc.Separations
