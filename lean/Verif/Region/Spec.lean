import Verif.Region.Model

/-!
# Vocabulary for the properties of institutions and of `GrowthRegion`

Independent of how the model computes: demand curves, the capacity of facilities, the builds that
orders stand for, histories.
-/

namespace Cyc.Region

/-- The demand curve of pieces that are given by their start and function, the newest first. Before
the first start there is no demand. The first piece is its function of the time since its start; each
later piece continues from the value at its start. -/
def curve : List (ℚ × (ℚ → ℚ)) → ℚ → ℚ
  | [], _ => 0
  | (s, f) :: older, x =>
    if x < s then curve older x
    else if older = [] then f (x - s)
    else curve older s + (f (x - s) - f 0)

/-- `fs` are the pieces of the user input `ps`, in the same order. -/
def Pieces (fn : String → String → R (ℚ → ℚ)) (ps : List PieceCfg) (fs : List (ℚ × (ℚ → ℚ))) : Prop :=
  List.Forall₂ (fun p q => q.1 = (p.start : ℚ) ∧ fn p.type p.params = .ok q.2) ps fs

/-- The demand of commodity `k` is the curve of the pieces `fs`. -/
def Demanded (c : Cfg) (k : String) (fs : List (ℚ × (ℚ → ℚ))) : Prop :=
  ∃ ps, (k, ps) ∈ c.demand ∧ Pieces c.fn ps fs

/-- The capacity to produce commodity `k`, given the capacities of a facility, if it has any: the one
that is given for it, and nothing if none is. -/
def produced (caps : Option (List (String × ℚ))) (k : String) : ℚ :=
  ((caps.getD []).find? fun x => x.1 = k).elim 0 Prod.snd

theorem produced_eq (a : Fac) (k : String) : produced a.caps k = a.capacity k := by
  obtain ⟨id, caps⟩ := a
  unfold produced Fac.capacity
  cases caps with
  | none => rfl
  | some l =>
    simp only [Option.getD_some]
    induction l with
    | nil => rfl
    | cons x l ih =>
      obtain ⟨x, q⟩ := x
      by_cases h : x = k
      · subst h; simp [Map.getD, Map.get?]
      · rw [List.find?_cons_of_neg (by simpa using h), ih]
        simp [Map.getD, Map.get?, h, Ne.symm h]

/-- The capacity of facilities to produce commodity `k`. -/
def capacityOf (l : List (Nat × Fac)) (k : String) : ℚ := (l.map fun x => produced x.2.caps k).sum

/-- The capacity that a facility of a prototype has. -/
def protoCap (T : Protos) (k : String) (p : String) : ℚ := produced (Map.get? T p).join k

/-- The capacity that scheduled builds will have. -/
def capacityOfBuilds (T : Protos) (l : List (Nat × String)) (k : String) : ℚ :=
  (l.map fun x => protoCap T k x.2).sum

/-- All orders are for institutions and agents. -/
def Castable (os : List Order) : Prop := ∀ o ∈ os, o.builder.isSome ∧ o.producer.isSome

/-- The builds that orders stand for. -/
def expand (os : List Order) : List (Nat × String) :=
  os.flatMap fun o => List.replicate o.number.toNat (o.builder.getD 0, o.producer.getD "")

/-- The facility produces commodities. -/
def Produces (a : Fac) : Prop := a.caps.isSome = true

/-- Agents at the start: identifiers are unique and below `next`, and each facility belongs to one of
the institutions. -/
structure Start (is : List Inst) (living : List (Nat × Fac)) (next : Nat) : Prop where
  ids : (is.map Inst.id).Nodup
  insts : ∀ i ∈ is, i.id < next
  nodup : living.Nodup
  living : ∀ x ∈ living, x.1 ∈ is.map Inst.id ∧ x.2.id < next

/-- The simulation starts, or is restarted, at time `t` with institutions `is`, facilities `l` and
scheduled builds `q`, where `n` is the next free identifier, and then lives through the steps `ins`
with observations `os`. -/
def History (c : Cfg) (T : Protos) (is : List Inst) (l : List (Nat × Fac)) (q : List (Nat × String))
    (n : Nat) (t : ℤ) (ins : List In) (os : List Out) (w : World) : Prop :=
  Start is l n ∧ ∃ w₀, enter c T is l q n = .ok w₀ ∧ run c T t w₀ ins = .ok (os, w)

/-- All institutions are `ManagerInst`s that are there from the start. -/
def Settled (is : List Inst) (ins : List In) : Prop :=
  (∀ i ∈ is, i.kind = .manager) ∧ ∀ x ∈ ins, x.arrive = []

/-- The region sees the facility `x`: its institution is there since the start (`n` was the next free
identifier then), and if it is a `DeployInst`, the facility was built since. -/
def seen (n : Nat) (insts : List Inst) (x : Nat × Fac) : Bool :=
  insts.any fun i => decide (i.id = x.1 ∧ i.id < n ∧ (i.kind = .deploy → n ≤ x.2.id))

/-- What remains of facilities after the decommissionings of a step. -/
def survivors (i : In) (l : List (Nat × Fac)) : List (Nat × Fac) :=
  l.filter fun x => decide (x ∉ i.decom ∧ x.1 ∉ i.leave)

/-- No prototype has a negative capacity. -/
def NonnegCaps (T : Protos) : Prop := ∀ p k, 0 ≤ protoCap T k p

end Cyc.Region
