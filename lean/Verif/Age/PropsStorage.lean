import Verif.Age.Basic
import Verif.Storage.Props
import Verif.Storage.Lemmas5

/-!
# Deployment at another time: C121 for `Storage`
-/

namespace Cyc.Storage

variable {ν : Type}

/-- The same input for a facility that is deployed `d` steps later. -/
def Cfg.later (d : Nat) (c : Cfg) : Cfg := { c with enterTime := c.enterTime + d }

/-- The same state at a later time. -/
def State.later (d : Nat) (s : State ν) : State ν :=
  { s with time := s.time + d, entryTimes := s.entryTimes.map (· + d) }

/-- The same observation at a later time. -/
def Out.later (d : Nat) (o : Out ν) : Out ν := { o with time := o.time + d }

variable {c : Cfg} {d : Nat} {s : State ν}

/-- A pair whose state is later. -/
def onState {α : Type} (d : Nat) (p : α × State ν) : α × State ν := (p.1, p.2.later d)

theorem enter_later : (enter (c.later d) : R (Policy × State ν)) = R.then (onState d) (enter c) := by
  unfold enter
  simp only [then_bind, then_ite]
  rfl

theorem beginProcessing_later (n : Nat) :
    beginProcessing (c.later d) n (s.later d) = R.then (State.later d) (beginProcessing c n s) := by
  induction n generalizing s with
  | zero => rfl
  | succ n ih =>
    simp only [beginProcessing, then_ite, then_bind]
    refine if_congr Iff.rfl ?_ rfl
    refine congrArg (s.inventory.pop >>= ·) ?_
    funext x
    refine congrArg (s.processing.push c.eps x.1 >>= ·) ?_
    funext b
    rw [← ih]
    congr 1
    unfold State.later
    simp

theorem readyCount_later (t : ℤ) (es : List Nat) : readyCount (t + d) (es.map (· + d)) =
    ((readyCount t es).1, (readyCount t es).2.map (· + d)) := by
  induction es with
  | nil => rfl
  | cons e es ih =>
    simp only [List.map_cons, readyCount, ih, Nat.cast_add, add_le_add_iff_right]
    split <;> rfl

theorem readyMatl_later (t : ℤ) :
    readyMatl (c.later d) (t + d) (s.later d) = R.then (State.later d) (readyMatl c t s) := by
  unfold readyMatl
  have h : readyCount (t + d) (s.later d).entryTimes =
    ((readyCount t s.entryTimes).1, (readyCount t s.entryTimes).2.map (· + d)) := readyCount_later t _
  simp only [h, then_bind]
  rfl

theorem readyCount_early {t : ℤ} {es : List Nat} (h : ∀ e ∈ es, t < (e : ℤ)) :
    readyCount t es = (0, es) := by
  cases es with
  | nil => rfl
  | cons e es => unfold readyCount; rw [if_neg (not_le.2 (h e (by simp)))]

theorem readyMatl_early {t : ℤ} (ho : s.ready.cap = none) (h : t < 0) : readyMatl c t s = .ok s := by
  unfold readyMatl
  rw [readyCount_early (fun e _ => by omega)]
  obtain ⟨t, i, p, ⟨k, l⟩, st, es, ps⟩ := s
  cases ho
  simp [Buf.popN, Buf.pushAll, Buf.fits, Buf.space]

theorem tockReady_all (ho : s.ready.cap = none) : tockReady c s = readyMatl c (readyTime c s) s := by
  unfold tockReady
  split
  · rfl
  · rename_i h
    rw [readyMatl_early ho (not_le.1 fun h' => h (Or.inl h'))]

theorem tockReady_later (ho : s.ready.cap = none) :
    tockReady (c.later d) (s.later d) = R.then (State.later d) (tockReady c s) := by
  have h : readyTime (c.later d) (s.later d) = readyTime c s + d := by
    show ((s.time + d : Nat) : ℤ) - c.residence = (s.time : ℤ) - c.residence + d
    push_cast; ring
  rw [tockReady_all ho, tockReady_all (by exact ho), h, readyMatl_later]

theorem discreteLoop_later (q : ℚ) (n : Nat) (x : ℚ) :
    discreteLoop (c.later d) q n x (s.later d) = R.then (State.later d) (discreteLoop c q n x s) := by
  induction n generalizing s x with
  | zero => rfl
  | succ n ih =>
    simp only [discreteLoop, then_ite, then_bind]
    refine if_congr Iff.rfl ?_ rfl
    refine congrArg (s.ready.pop >>= ·) ?_
    funext x
    refine congrArg (s.stocks.push c.eps x.1 >>= ·) ?_
    funext b
    exact ih (s := { s with ready := x.2, stocks := b }) _

theorem processMat_later (q : ℚ) :
    processMat (c.later d) q (s.later d) = R.then (State.later d) (processMat c q s) := by
  unfold processMat
  show (match s.ready.items with | [] => _ | first :: _ => _) = _
  cases s.ready.items with
  | nil => rfl
  | cons m l =>
    simp only [then_ite, then_bind, ← discreteLoop_later]
    rfl

theorem tock_later {e : Cfg} (f : Fixed e s) : tock (c.later d) (s.later d) = R.then (onState d) (tock c s) := by
  unfold tock
  have h : (s.later d).inventory.count = s.inventory.count := rfl
  simp only [h, beginProcessing_later, bind_then, then_bind]
  refine bind_congr_ok fun s1 h1 => ?_
  have f1 := beginProcessing_fixed f h1
  simp only [tockReady_later f1.isOpen.ready, bind_then, then_bind, processMat_later,
    show (c.later d).throughput = c.throughput from rfl]
  rfl

theorem sellLoop_later (qs : List ℚ) :
    sellLoop (c.later d) qs (s.later d) = R.then (onState d) (sellLoop c qs s) := by
  induction qs generalizing s with
  | nil => rfl
  | cons q qs ih =>
    simp only [sellLoop, then_bind]
    refine congrArg (s.stocks.popEps c.lo c.eps q >>= ·) ?_
    funext x
    refine (congrArg (· >>= _) (ih (s := { s with stocks := x.2 }))).trans ?_
    simp only [bind_then]
    rfl

theorem buys_later (ms : List (Mat ν)) :
    ms.foldlM (addMat (c.later d)) (s.later d) = R.then (State.later d) (ms.foldlM (addMat c) s) := by
  induction ms generalizing s with
  | nil => rfl
  | cons m ms ih =>
    have h : addMat (c.later d) (s.later d) m = R.then (State.later d) (addMat c s m) := by
      unfold addMat; simp only [then_bind]; rfl
    simp only [List.foldlM_cons, h, bind_then, then_bind, ih]

theorem step_later {e : Cfg} (f : Fixed e s) (i : In ν) : step (c.later d) (s.later d) i =
    R.then (fun p => (Out.later d p.1, State.later d p.2)) (step c s i) := by
  have h : ∀ t : State ν, { t.later d with time := (t.later d).time + 1 } =
      State.later d { t with time := t.time + 1 } := by
    intro t
    unfold State.later
    simp only [State.mk.injEq, and_true]
    omega
  unfold step
  simp only [sellLoop_later, bind_then, then_bind, onState, buys_later]
  refine bind_congr_ok fun r1 h1 => ?_
  refine bind_congr_ok fun s2 h2 => ?_
  simp only [tock_later (buys_fixed (sellLoop_fixed f h1) h2), bind_then, onState, h]
  rfl

theorem run_later {e : Cfg} (f : Fixed e s) (is : List (In ν)) : run (c.later d) (s.later d) is =
    R.then (fun p => (p.1.map (Out.later d), State.later d p.2)) (run c s is) := by
  induction is generalizing s with
  | nil => rfl
  | cons i is ih =>
    simp only [run, step_later f, bind_then, then_bind]
    refine bind_congr_ok fun r h => ?_
    simp only [ih (step_fixed f h), bind_then]
    rfl

/-- C121: a storage facility that is deployed `d` steps later goes through the same history `d` steps later,
and fails where it fails. -/
theorem C121_storage (c : Cfg) (d : Nat) (is : List (In ν)) :
    (do let r ← enter (c.later d); run (c.later d) r.2 is) =
      R.then (fun r => (r.1.map (Out.later d), State.later d r.2))
        (do let r ← enter c; run c r.2 is) := by
  simp only [enter_later, bind_then, then_bind, onState]
  exact bind_congr_ok fun r h => run_later (enter_fixed h).1 is

/-- The example history 100 steps later. -/
example : ((play (exCfg.later 100) exIn).toOption.map fun r => r.1.map fun o => (o.time, o.stock, o.sold)) =
    ((play exCfg exIn).toOption.map fun r => r.1.map fun o => (o.time + 100, o.stock, o.sold)) ∧
    ((play exCfg exIn).toOption.map fun r => r.1.length) ≠ none := by
  decide +kernel

end Cyc.Storage
