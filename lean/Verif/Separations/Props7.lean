import Verif.Separations.Snapshot
import Verif.Separations.Props2

/-!
# Separations: exactly when a snapshot can be taken (C33)
-/

namespace Cyc.Separations

/-- A buffer holds no more than its capacity and the tolerance. -/
def Within (eps : ℚ) (b : Buf NMat) : Prop := ∀ x, b.cap = some x → totalQty b.items ≤ max 0 x + eps

private theorem putBack_eq (eps : ℚ) (b : Buf NMat) :
    (Within eps b → putBack eps b = .ok b) ∧ (¬ Within eps b → putBack eps b = .error .value) := by
  have key : (({ b with items := [] } : Buf NMat).fits eps (totalQty b.items) = true) ↔ Within eps b := by
    unfold Buf.fits Buf.space Buf.quantity Within
    cases hc : b.cap with
    | none => simp
    | some x =>
      simp only [Option.map_some, totalQty_nil, sub_zero, decide_eq_true_eq, Option.some.injEq,
        forall_eq']
      constructor <;> intro h <;> linarith
  unfold putBack Buf.pushAll
  constructor
  · intro h
    rw [if_pos (key.2 h)]
    simp
  · intro h
    rw [if_neg fun e => h (key.1 e)]

private theorem snapStreams_eq (eps : ℚ) (l : List (String × Buf NMat)) (inv : List (String × List NMat)) :
    ((∀ b ∈ l, Within eps b.2) → snapStreams eps l inv =
      .ok (l.foldl (fun inv b => Map.set inv b.1 b.2.items) inv, l)) ∧
    ((∃ b ∈ l, ¬ Within eps b.2) → snapStreams eps l inv = .error .value) := by
  induction l generalizing inv with
  | nil => exact ⟨fun _ => rfl, fun ⟨_, h, _⟩ => by cases h⟩
  | cons b l ih =>
    obtain ⟨p1, p2⟩ := putBack_eq eps b.2
    constructor
    · intro h
      simp only [snapStreams, p1 (h b (by simp)), (ih _).1 fun x hx => h x (by simp [hx]), ok_bind,
        pure_eq_ok, List.foldl_cons]
    · rintro ⟨x, hx, hw⟩
      by_cases hb : Within eps b.2
      · rcases List.mem_cons.1 hx with rfl | hx
        · exact absurd hb hw
        · simp only [snapStreams, p1 hb, (ih _).2 ⟨x, hx, hw⟩, ok_bind, error_bind]
      · simp only [snapStreams, p2 hb, error_bind]

/-- C33, the snapshot itself, in any state. If no inventory exceeds its capacity by more than the
tolerance, a snapshot holds what is in each inventory, and taking it changes nothing; otherwise it throws. -/
theorem C33_snapshot (c : Cfg) (s : State) :
    (Within c.eps s.leftover ∧ Within c.eps s.feed ∧ (∀ b ∈ s.bufs, Within c.eps b.2) →
      snapshotInv c s = .ok (snapshot s, s)) ∧
    (¬ Within c.eps s.leftover ∨ ¬ Within c.eps s.feed ∨ (∃ b ∈ s.bufs, ¬ Within c.eps b.2) →
      snapshotInv c s = .error .value) := by
  obtain ⟨l1, l2⟩ := putBack_eq c.eps s.leftover
  obtain ⟨f1, f2⟩ := putBack_eq c.eps s.feed
  obtain ⟨s1, s2⟩ := snapStreams_eq c.eps s.bufs
    [("leftover-inv-name", s.leftover.items), ("feed-inv-name", s.feed.items)]
  unfold snapshotInv
  constructor
  · rintro ⟨h1, h2, h3⟩
    simp only [l1 h1, f1 h2, s1 h3, ok_bind, pure_eq_ok]
    rfl
  · intro h
    by_cases h1 : Within c.eps s.leftover
    · by_cases h2 : Within c.eps s.feed
      · have h3 := (h.resolve_left (not_not.2 h1)).resolve_left (not_not.2 h2)
        simp only [l1 h1, f1 h2, s2 h3, ok_bind, error_bind]
      · simp only [l1 h1, f2 h2, ok_bind, error_bind]
    · simp only [l2 h1, error_bind]

/-- C33, from the snapshot to the restart. Under the conditions of `C33_restart_partial` a snapshot can
be taken, changes nothing, and the facility that is restarted from it holds the same feed, leftover and
streams.
Missing: as there. -/
theorem C33_through_partial {c : Cfg} (V : Valid c) {is : List In} {os : List Out} {s : State}
    (h : History c is os s) (hs : Substantial is) {s₀ : State} (h0 : enter c = .ok s₀)
    (hn : ∀ st ∈ c.streams, st.1 ≠ "feed-inv-name" ∧ st.1 ≠ "leftover-inv-name")
    (hf : totalQty s.feed.items ≤ c.feedbufSize)
    (hl : ∀ x, c.leftoverCap = some x → totalQty s.leftover.items ≤ x) :
    ∃ inv s', snapshotInv c s = .ok (inv, s) ∧ restore c inv s₀ = .ok s' ∧ s'.feed = s.feed ∧
      s'.leftover = s.leftover ∧ ∀ st ∈ c.streams, held s' st.1 = held s st.1 := by
  have I := history_inv V h hs
  obtain ⟨s', k1, k2, k3, k4, -⟩ := C33_restart_partial V h hs h0 hn hf hl
  have within : ∀ {b : Buf NMat}, (∀ x, b.cap = some x → totalQty b.items ≤ x) → Within c.eps b := by
    intro b hb x hx
    have := hb x hx
    have := le_max_right (0 : ℚ) x
    have := V.eps
    linarith
  refine ⟨_, s', (C33_snapshot c s).1 ⟨within ?_, within ?_, fun b hb => within ?_⟩, k1, k2, k3, k4⟩
  · intro x hx
    rw [I.leftCap] at hx
    exact hl x hx
  · intro x hx
    rw [I.feedCap] at hx
    cases hx
    exact hf
  · intro x hx
    obtain ⟨st, hst, e⟩ := List.mem_map.1 (I.keys b.1 (List.mem_map_of_mem hb))
    have hg : getBuf s.bufs st.1 = b.2 := by
      rw [e]
      unfold getBuf Map.getD
      rw [Map.get?_of_mem I.nodup hb]
      rfl
    have hc := I.caps st hst
    rw [hg, hx] at hc
    unfold capOf at hc
    split at hc
    · rename_i h0
      have := I.room st hst h0
      rw [hg] at this
      cases hc
      exact this
    · cases hc

/-- In the example a snapshot can be taken after the first step. -/
example : ((play exCfg (exIn.take 1)).toOption.map fun r =>
    (snapshotInv exCfg r.2).toOption.map fun x => (x.1.map fun y => (y.1, totalQty y.2), decide (x.2.feed = r.2.feed))) =
    some (some ([("leftover-inv-name", 0), ("feed-inv-name", 12), ("pu", 0)], true)) := by
  decide +kernel

/-- C33 fails at the snapshot, too: a full leftover inventory took more than once what is within the
tolerance, and a simulation that is to take a snapshot then stops. -/
theorem C33_snapshot_counterexample :
    ((play exFull (exDust ++ [⟨fun _ => [], [], []⟩])).toOption.map fun r =>
      (match snapshotInv exFull r.2 with
      | .error .value => true
      | _ => false)) = some true := by
  decide +kernel

end Cyc.Separations
