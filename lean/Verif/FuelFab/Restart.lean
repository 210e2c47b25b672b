import Verif.FuelFab.Model
import Verif.Toolkit.Snapshot

/-!
# Snapshot and restart of `cycamore::FuelFab`

The code is generated by the cyclus preprocessor from the directive in `fuel_fab.h:116` and those of
the members (`fuel_fab.h:140-267`). Parameters never change and are left out. `req_inventories_`
(`fuel_fab.h:269-271`) has no directive.
-/

namespace Cyc.FuelFab

/-- What a snapshot holds of a fuel fabrication facility. -/
structure Snap where
  fill : List NMat
  fiss : List NMat
  topup : List NMat
  fillPrefs : List ℚ
  fissPrefs : List ℚ

/-- `Snapshot` and `SnapshotInv`, generated (`fuel_fab.h:116`). -/
def snapshot (c : Cfg) (s : State) : R (Snap × State) := do
  let (x, fill) ← s.fill.dump c.eps
  let (y, fiss) ← s.fiss.dump c.eps
  let (z, topup) ← s.topup.dump c.eps
  pure (⟨x, y, z, s.fillPrefs, s.fissPrefs⟩, { s with fill := fill, fiss := fiss, topup := topup })

/-- A restart: `InitFrom(QueryableBackend*)` and `InitInv`, generated (`fuel_fab.h:116`; capacities
`169`, `203`, `239`), then `EnterNotify` (`fuel_fab.cc:133-165`) of the members that were read. -/
def restart (c : Cfg) (x : Snap) : R State := do
  let fill ← Buf.restore c.eps (some c.fillSize) x.fill
  let fiss ← Buf.restore c.eps (some c.fissSize) x.fiss
  let topup ← Buf.restore c.eps (some c.topupSize) x.topup
  let s ← enter { c with fillPrefs := x.fillPrefs, fissPrefs := x.fissPrefs }
  pure { s with fill := fill, fiss := fiss, topup := topup }

end Cyc.FuelFab
