import Verif.Storage.Model
import Verif.Toolkit.Snapshot

/-!
# Snapshot and restart of `cycamore::Storage`

The code is generated by the cyclus preprocessor from the directives in `storage.cc:18-45` and
`storage.h:132-229`. Parameters that never change are left out, and so is `inventory_tracker`, which
has no content of its own and is set up again by `EnterNotify` (`storage.cc:49`). The internal state of
the buy policy belongs to cyclus and is not modelled.
-/

namespace Cyc.Storage

variable {ν : Type}

/-- What a snapshot holds of a storage facility. -/
structure Snap (ν : Type) where
  inventory : List (Mat ν)
  stocks : List (Mat ν)
  ready : List (Mat ν)
  processing : List (Mat ν)
  entryTimes : List Nat
  prefs : List ℚ

/-- `Snapshot` and `SnapshotInv`, generated (`storage.cc:22-26`). -/
def snapshot (c : Cfg) (s : State ν) : R (Snap ν × State ν) := do
  let (i, inventory) ← s.inventory.dump c.eps
  let (k, stocks) ← s.stocks.dump c.eps
  let (r, ready) ← s.ready.dump c.eps
  let (p, processing) ← s.processing.dump c.eps
  pure (⟨i, k, r, p, s.entryTimes, s.prefs⟩,
    { s with inventory := inventory, stocks := stocks, ready := ready, processing := processing })

/-- A restart at time `t`: `InitFrom(QueryableBackend*)` and `InitInv`, generated (`storage.cc:20`,
`38-45`), then `EnterNotify` (`storage.cc:47-116`) with the members that were read. -/
def restart (c : Cfg) (t : Nat) (x : Snap ν) : R (Policy × State ν) := do
  let inventory ← Buf.restore c.eps none x.inventory
  let stocks ← Buf.restore c.eps none x.stocks
  let ready ← Buf.restore c.eps none x.ready
  let processing ← Buf.restore c.eps none x.processing
  let (p, s) ← enter (ν := ν) { c with prefs := x.prefs }
  pure (p, { s with
    time := t
    inventory := inventory
    stocks := stocks
    ready := ready
    processing := processing
    entryTimes := x.entryTimes })

end Cyc.Storage
