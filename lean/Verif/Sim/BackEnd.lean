import Verif.Sim.Lives
import Verif.Sim.Parts
import Verif.Sim.Supply

/-!
# Vocabulary for C149: storage facilities between reactors and a sink
-/

namespace Cyc.Sim

open Mat (massOf)

/-- What was given `d` steps before the step `t`, where `ms` is what was given in each step; nothing was given
before the first step. -/
def before (ms : List (List NMat)) (d t : Nat) : List NMat := if d ≤ t then ms[t - d]?.getD [] else []

/-- The storage facility can keep up with `r` in every step: its throughput is no less, it has room for what
it is given while it holds something and for a step more, its buy policy asks for `r` or more whenever that
fits, and it sells in any amounts. -/
structure Copes (c : Storage.Cfg) (want : Storage.State Nat → ℚ) (r : ℚ) : Prop where
  rate : r ≤ c.throughput
  room : (c.residence + 2) * r ≤ c.maxInv
  asks : ∀ s, r ≤ c.maxInv - totalQty (Storage.contents s) → r ≤ want s
  amounts : c.lo ≤ 0

/-- Number `j` among the prototypes `ks` buys the commodity `x`, nobody else does, and only number `i` sells
anything that it buys. -/
structure Link (ks : List Kind) (x : String) (i j : Nat) : Prop where
  buys : ∃ k, ks[j]? = some k ∧ x ∈ buysOf k
  buyer : ∀ (m : Nat) k, ks[m]? = some k → x ∈ buysOf k → m = j
  seller : ∀ (m : Nat) k k', ks[m]? = some k → ks[j]? = some k' → (∃ y ∈ buysOf k', y ∈ sellsOf k) → m = i

/-- Number `i` among the prototypes `ks` buys from all reactors and from nobody else, and nobody else buys from
reactors; all reactors together have no more than `r` to sell in a step. -/
structure Collects (ks : List Kind) (i : Nat) (r : ℚ) : Prop where
  buyer : ∀ (m : Nat) k k', ks[m]? = some k → k' ∈ ks → k'.isReactor = true →
    (∃ y ∈ sellsOf k', y ∈ buysOf k) → m = i
  seller : ∀ k k', ks[i]? = some k → k' ∈ ks → (∃ y ∈ buysOf k, y ∈ sellsOf k') → k'.isReactor = true
  all : ∀ k k', ks[i]? = some k → k' ∈ ks → k'.isReactor = true → ∀ y ∈ sellsOf k', y ∈ buysOf k
  rate : (ks.map spentRoom).sum ≤ r

/-- The storage facilities at the positions `is` among the prototypes `ks` collect what reactors sell and pass
it on, from one to the next and at last to the facility at the position `b`. -/
structure Conveys (ks : List Kind) (is : List Nat) (b : Nat) (r : ℚ) : Prop where
  pos : 0 < r
  first : ∃ i, is[0]? = some i ∧ Collects ks i r
  storages : ∀ (k i : Nat), is[k]? = some i → ∃ c want x, ks[i]? = some (.storage c want) ∧ Copes c want r ∧
    c.outCommods = [x] ∧ Link ks x i (is[k + 1]?.getD b)

/-- The same with a sink at the position `b`, which has room for `n` steps. -/
structure Disposes (ks : List Kind) (is : List Nat) (b : Nat) (r : ℚ) (n : Nat) : Prop extends
    Conveys ks is b r where
  sink : ∃ w, ks[b]? = some (.sink w) ∧ r ≤ w.capacity ∧ w.eps < r ∧ n * r ≤ w.maxInv

/-- How many steps a storage facility takes to pass something on. -/
def lag : Kind → Nat
  | .storage c _ => c.residence + 1
  | _ => 0

/-- How many steps the facilities at the positions `is` take, one after the other. -/
def lags (ks : List Kind) (is : List Nat) : Nat := (is.map fun i => (ks[i]?.map lag).getD 0).sum

/-- The way of spent fuel through storage facilities, in the steps `l`, and what the facilities have then. In
each step the first storage facility is given what reactors sell; each of them gives in each step what it was
given just over its residence time before, and nothing else; and number `b` is given what the first was given as
many steps before as all of them take together. No storage facility has more than it was given in its residence
time and one step more. -/
structure Disposed (ks : List Kind) (is : List Nat) (b : Nat) (l : List (List (Deal × NMat)))
    (ps : List (Running act)) : Prop where
  collected : ∀ i, is[0]? = some i → ∀ gs ∈ l, ∀ g ∈ gs,
    (∃ c enc dec, ks[g.1.src]? = some (.reactor c enc dec)) ↔ g.1.dst = i
  passed : ∀ i ∈ is, ∀ c want, ks[i]? = some (.storage c want) → ∀ (t : Nat) gs, l[t]? = some gs → ∀ ν,
    massOf (givenBy gs i) ν = massOf (before (l.map fun gs => givenTo gs i) (c.residence + 1) t) ν
  arrived : ∀ i, is[0]? = some i → ∀ (t : Nat) gs, l[t]? = some gs → ∀ ν,
    massOf (givenTo gs b) ν = massOf (before (l.map fun gs => givenTo gs i) (lags ks is) t) ν
  stored : ∀ i ∈ is, ∀ c want, ks[i]? = some (.storage c want) → ∃ s : Storage.State Nat,
    ps[i]? = some ⟨.storage c want, s⟩ ∧ ∀ ν, massOf (Storage.contents s) ν =
      massOf ((l.map fun gs => givenTo gs i).drop (l.length - (c.residence + 1))).flatten ν

end Cyc.Sim
