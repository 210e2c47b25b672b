import Verif.Toolkit.Buf

/-!
# Snapshots of buffers

The preprocessor of cyclus (`cycpp`, not in `/repo`) generates `SnapshotInv` and `InitInv` for every
`ResBuf` member with a `#pragma cyclus var` directive. This file states what the generated code does.
-/

namespace Cyc.Buf

variable {ρ : Type} [HasQty ρ]

/-- Generated `SnapshotInv`: `invs["b"] = b.PopNRes(b.count()); b.Push(invs["b"]);` -/
def dump (ε : ℚ) (b : Buf ρ) : R (List ρ × Buf ρ) := do
  let (l, b) ← b.popN b.count
  let b ← b.pushAll ε l
  pure (l, b)

/-- Generated `InitInv` of a new buffer with capacity `cap`: `b.Push(inv["b"]);` -/
def restore (ε : ℚ) (cap : Option ℚ) (l : List ρ) : R (Buf ρ) := pushAll ε ⟨cap, []⟩ l

/-- The content fits into the buffer when it is put back all at once. -/
theorem dump_eq {ε : ℚ} {b : Buf ρ} (h : Buf.fits ε (⟨b.cap, []⟩ : Buf ρ) (totalQty b.items) = true) :
    b.dump ε = .ok (b.items, b) := by
  unfold dump
  rw [popN_ok.2 (⟨le_rfl, rfl⟩ : b.count ≤ b.items.length ∧ _), ok_bind]
  simp only [count, List.take_length, List.drop_length]
  rw [pushAll_ok.2 ⟨h, rfl⟩, ok_bind, List.nil_append]
  rfl

theorem restore_eq {ε : ℚ} {cap : Option ℚ} {l : List ρ}
    (h : Buf.fits ε (⟨cap, []⟩ : Buf ρ) (totalQty l) = true) :
    restore ε cap l = .ok ⟨cap, l⟩ := by
  unfold restore
  rw [pushAll_ok.2 ⟨h, rfl⟩, List.nil_append]

/-- A buffer that holds no more than its capacity can be dumped. -/
theorem fits_of_le {ε : ℚ} (hε : 0 ≤ ε) {cap : ℚ} {l : List ρ} (h : totalQty l ≤ cap) :
    Buf.fits ε (⟨some cap, []⟩ : Buf ρ) (totalQty l) = true := by
  simp only [fits, space, quantity, Option.map_some, totalQty_nil, sub_zero, decide_eq_true_eq]
  have := le_max_right 0 cap
  linarith

theorem fits_none {ε : ℚ} {l : List ρ} : Buf.fits ε (⟨none, []⟩ : Buf ρ) (totalQty l) = true := rfl

end Cyc.Buf
