import Verif.Enrichment.Model
import Verif.Toolkit.Snapshot

/-!
# Snapshot and restart of `cycamore::Enrichment`

The code is generated by the cyclus preprocessor from the directive in `enrichment.h:173` and those of
the members (`enrichment.h:281-384`). Parameters never change and are left out. `current_swu_capacity`,
`intra_timestep_swu_` and `intra_timestep_feed_` (`enrichment.h:379`, `388-389`) have no directive and
are not initialised by the constructor (`enrichment.cc:14-27`).
-/

namespace Cyc.Enrichment

/-- What a snapshot holds of an enrichment facility. -/
structure Snap where
  inventory : List NMat
  tails : List NMat

/-- `Snapshot` and `SnapshotInv`, generated (`enrichment.h:173`). -/
def snapshot (c : Cfg) (s : State) : R (Snap × State) := do
  let (i, inventory) ← s.inventory.dump c.eps
  let (t, tails) ← s.tails.dump c.eps
  pure (⟨i, t⟩, { s with inventory := inventory, tails := tails })

/-- A restart: `InitFrom(QueryableBackend*)` and `InitInv`, generated (`enrichment.h:173`, `381-384`),
then `EnterNotify` (`enrichment.cc:57-60`), which sets the position only. `junk` is the indeterminate
value of `current_swu_capacity`. -/
def restart (c : Cfg) (junk : ℚ) (x : Snap) : R State := do
  let inventory ← Buf.restore c.eps (some c.maxFeed) x.inventory
  let tails ← Buf.restore c.eps none x.tails
  pure ⟨inventory, tails, junk, none⟩

end Cyc.Enrichment
