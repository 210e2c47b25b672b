import Verif.Sim.Lives
import Verif.Sim.Parts
import Verif.Sim.Supply

/-!
# How much sources can give and sinks take
-/

namespace Cyc.Sim

/-- What a source gives in a time step if it may, having given `sent` before: its throughput or the rest
of its stock. It makes no offers below the tolerance of cyclus. -/
def left (f : Source.Cfg) (sent : ℚ) : ℚ :=
  if min f.throughput (f.size - sent) < f.eps then 0 else min f.throughput (f.size - sent)

/-- What a sink takes in a time step if it may, having been given `got` before: its capacity or the room
that is left. It makes no requests up to the tolerance of cyclus. -/
def wanted (w : Sink.Cfg) (got : ℚ) : ℚ :=
  if w.eps < min w.capacity (w.maxInv - got) then min w.capacity (w.maxInv - got) else 0

/-- What the facility `i` gave in the steps `l`. -/
def sent (l : List (List (Deal × NMat))) (i : Nat) : ℚ := totalQty (l.flatMap fun gs => givenBy gs i)

/-- What the facility `j` was given in the steps `l`. -/
def received (l : List (List (Deal × NMat))) (j : Nat) : ℚ := totalQty (l.flatMap fun gs => givenTo gs j)

/-- What was traded in the commodity `x`. -/
def traded (gs : List (Deal × NMat)) (x : String) : ℚ :=
  ((gs.filter fun g => g.1.commod = x).map fun g => qty g.2).sum

/-- What the facility `i` of the prototype `k` gives of the commodity `x` if it is a source and may. -/
def canGive (l : List (List (Deal × NMat))) (x : String) (k : Kind) (i : Nat) : ℚ :=
  match k with
  | .source f => if f.outcommod = x then left f (sent l i) else 0
  | _ => 0

/-- What the facility `j` of the prototype `k` takes of the commodity `x` if it is a sink and may. -/
def canTake (l : List (List (Deal × NMat))) (x : String) (k : Kind) (j : Nat) : ℚ :=
  match k with
  | .sink w => if x ∈ w.commods then wanted w (received l j) else 0
  | _ => 0

/-- What all sources among the prototypes `ks` can give of the commodity `x` after the steps `l`. -/
def supply (ks : List Kind) (l : List (List (Deal × NMat))) (x : String) : ℚ :=
  (ks.zipIdx.map fun y => canGive l x y.1 y.2).sum

/-- What all sinks among the prototypes `ks` can take of the commodity `x` after the steps `l`. -/
def demand (ks : List Kind) (l : List (List (Deal × NMat))) (x : String) : ℚ :=
  (ks.zipIdx.map fun y => canTake l x y.1 y.2).sum

/-- What the prototype gives of the commodity `x` in a step at most, if it is a source. -/
def giveRate (x : String) : Kind → ℚ
  | .source f => if f.outcommod = x then f.throughput else 0
  | _ => 0

/-- What the prototype takes of the commodity `x` in a step at most, if it is a sink. -/
def takeRate (x : String) : Kind → ℚ
  | .sink w => if x ∈ w.commods then w.capacity else 0
  | _ => 0

/-- The prototype is a source. -/
def Kind.isSource : Kind → Bool
  | .source _ => true
  | _ => false

/-- The prototype is a sink for the commodity `x` alone. -/
def Kind.isSinkFor (x : String) : Kind → Bool
  | .sink w => w.commods == [x]
  | _ => false

/-- Only sources sell the commodity `x`, in any amounts, and only sinks for `x` alone buy it. -/
structure Simple (ks : List Kind) (x : String) : Prop where
  sold : ∀ k ∈ ks, x ∈ sellsOf k → k.isSource
  amounts : ∀ f, Kind.source f ∈ ks → f.outcommod = x → f.lo ≤ 0
  bought : ∀ k ∈ ks, x ∈ buysOf k → k.isSinkFor x

end Cyc.Sim
