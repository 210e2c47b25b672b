import Verif.Reactor.Model
import Verif.Toolkit.Snapshot

/-!
# Snapshot and restart of `cycamore::Reactor`

The code is generated by the cyclus preprocessor from the directives in `reactor.cc:27-39` and
`reactor.h:187-460`: every member with a `#pragma cyclus var` directive is written and read back. The
only member without one is `uniq_outcommods_`, which the model does not store. The parameters that
never change are left out. A resource keeps its object id (`SimInit::LoadResource`).
-/

namespace Cyc.Reactor

/-- What a snapshot holds of a reactor. -/
structure Snap where
  fresh : List Assem
  core : List Assem
  spent : List Assem
  cycleStep : Nat
  discharged : Bool
  inRecipes : List String
  outRecipes : List String
  prefs : List ℚ
  resIdx : Nat → Nat
  hybrid : Bool

/-- `Snapshot` and `SnapshotInv` (`reactor.cc:35-37`), generated; the inventories are emptied and
filled again. -/
def snapshot (c : Cfg) (s : State) : R (Snap × State) := do
  let (f, fresh) ← s.fresh.dump c.eps
  let (k, core) ← s.core.dump c.eps
  let (p, spent) ← s.spent.dump c.eps
  pure (⟨f, k, p, s.cycleStep, s.discharged, s.inRecipes, s.outRecipes, s.prefs, s.resIdx, s.hybrid⟩,
    { s with fresh := fresh, core := core, spent := spent })

/-- A restart at time `t`: `InitFrom(QueryableBackend*)` and `InitInv`, generated (`reactor.cc:39-58`,
`reactor.h:440-445` for the capacities), then `EnterNotify` (`reactor.cc:60-113`) of the members that
were read. -/
def restart (c : Cfg) (t : Nat) (x : Snap) : R State := do
  let fresh ← Buf.restore c.eps (some (c.nFresh * c.assemSize)) x.fresh
  let core ← Buf.restore c.eps (some (c.nCore * c.assemSize)) x.core
  let spent ← Buf.restore c.eps (some (c.nSpent * c.assemSize)) x.spent
  let s ← enter { c with prefs := x.prefs }
  pure { s with
    time := t
    fresh := fresh
    core := core
    spent := spent
    cycleStep := x.cycleStep
    discharged := x.discharged
    inRecipes := x.inRecipes
    outRecipes := x.outRecipes
    resIdx := x.resIdx
    hybrid := if c.sideProducts.isEmpty then false else x.hybrid }

end Cyc.Reactor
