import Verif.Separations.Model

/-!
# Model of `Separations::SnapshotInv`, with the way in which it can fail

`snapshot` in `Verif/Separations/Model.lean` is the value that is returned.
-/

namespace Cyc.Separations

/-- `invs[k] = b.PopNRes(b.count()); b.Push(invs[k])` (`separations.cc:20-21`, `22-23`, `27-28`): all is
removed, and pushed back at once, which tests the total against the capacity. -/
def putBack (eps : ℚ) (b : Buf NMat) : R (Buf NMat) :=
  ({ b with items := [] } : Buf NMat).pushAll eps b.items

/-- The loop over the streams (`separations.cc:25-29`); the loop goes by name, which makes no difference
to the result. -/
def snapStreams (eps : ℚ) : List (String × Buf NMat) → List (String × List NMat) →
    R (List (String × List NMat) × List (String × Buf NMat))
  | [], inv => .ok (inv, [])
  | b :: l, inv => do
    let b' ← putBack eps b.2
    let (inv, l) ← snapStreams eps l (Map.set inv b.1 b.2.items)
    pure (inv, (b.1, b') :: l)

/-- `SnapshotInv` (`separations.cc:14-32`). -/
def snapshotInv (c : Cfg) (s : State) : R (List (String × List NMat) × State) := do
  let lo ← putBack c.eps s.leftover
  let fe ← putBack c.eps s.feed
  let (inv, bufs) ← snapStreams c.eps s.bufs
    [("leftover-inv-name", s.leftover.items), ("feed-inv-name", s.feed.items)]
  pure (inv, { s with leftover := lo, feed := fe, bufs := bufs })

end Cyc.Separations
