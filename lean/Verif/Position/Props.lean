import Verif.Position.Model

/-!
# Every agent is in the table of positions once (C154)
-/

namespace Cyc.Position

theorem loop_eq {α : Type} (n : Nat) (p : Place) (xs : List α) (l : Table) :
    loop n p xs l = l ++ List.replicate xs.length (n, p) := by
  induction xs generalizing l with
  | nil => simp [loop]
  | cons x xs ih =>
    rw [loop, ih, place, List.append_assoc]
    rfl

theorem ok_of_bind {α β : Type} {m : R α} {b t : β} (h : (m >>= fun _ => pure b) = .ok t) : t = b := by
  cases m with
  | error e => cases h
  | ok a => cases h; rfl

/-- C154, exactly: an agent adds a row with its position once; a mixer or a separations facility once for each of its
streams. -/
theorem C154_rows {n : Nat} {p : Place} {l t : Table} {a : Agent} (h : enterNotify n p l a = .ok t) :
    t = l ++ List.replicate ((streams a).getD 1) (n, p) := by
  cases a with
  | conversion c => cases h; rfl
  | enrichment c => cases h; rfl
  | source c => cases h; rfl
  | mixer c => cases h; exact loop_eq _ _ _ _
  | separations c => exact (ok_of_bind h).trans (loop_eq _ _ _ _)
  | fuelFab c => exact ok_of_bind h
  | reactor c => exact ok_of_bind h
  | sink c g t => exact ok_of_bind h
  | storage c => exact ok_of_bind h
  | deployInst d => exact ok_of_bind h
  | managerInst T as i => exact ok_of_bind h
  | growthRegion c is => exact ok_of_bind h

/-- C154, in part: after any agents have entered, the table has one row for each, in the order in which they came.
Missing: a mixer or a separations facility with none or several streams, for which it is false, see below. -/
theorem C154_once_partial {as : List (Nat × Place × Agent)} {t : Table}
    (hs : ∀ x ∈ as, ∀ k, streams x.2.2 = some k → k = 1) (h : enterAll as [] = .ok t) :
    t = as.map fun x => (x.1, x.2.1) := by
  suffices H : ∀ l, enterAll as l = .ok t → t = l ++ as.map fun x => (x.1, x.2.1) from H [] h
  clear h
  induction as with
  | nil => intro l h; cases h; simp
  | cons x as ih =>
    intro l h
    obtain ⟨n, p, a⟩ := x
    simp only [enterAll, bind_ok] at h
    obtain ⟨l', h1, h2⟩ := h
    rw [ih (fun x hx => hs x (by simp [hx])) l' h2, C154_rows h1]
    have : (streams a).getD 1 = 1 := by
      cases e : streams a with
      | none => rfl
      | some k => exact hs (n, p, a) (by simp) k e
    simp [this]

/-- Two streams, of plutonium and of uranium. -/
def exSeparations : Separations.Cfg where
  feedCommods := ["spent"]
  feedPrefs := []
  feedbufSize := 10
  throughput := 10
  leftoverCommod := "waste"
  leftoverCap := none
  streams := [("pu", ⟨-1, [(94000, 9 / 10)]⟩), ("u", ⟨-1, [(92000, 9 / 10)]⟩)]
  enterTime := 0
  exitTime := none
  eps := 1 / 1000000
  lo := 1 / 1000000

/-- C154 is false of separations: with two streams it is in the table twice. -/
theorem C154_separations_counterexample :
    enterNotify 7 (1, 2) [] (.separations exSeparations) = .ok [(7, 1, 2), (7, 1, 2)] := by
  have h : ∃ s, Separations.enter exSeparations = .ok s := by
    unfold Separations.enter
    rw [if_neg]
    · exact ⟨_, rfl⟩
    · decide +kernel
  obtain ⟨s, h⟩ := h
  show (Separations.enter exSeparations >>= fun _ => pure (loop 7 (1, 2) exSeparations.streams [])) = _
  rw [h]
  rfl

/-- C154 is false of mixers: with two streams it is in the table twice, with none it is not there. -/
theorem C154_mixer_counterexample {c : Mixer.Cfg} {n : Nat} {p : Place} (h : c.streams.length ≠ 1) :
    ∃ t, enterNotify n p [] (.mixer c) = .ok t ∧ t ≠ [(n, p)] := by
  refine ⟨_, rfl, fun e => h ?_⟩
  rw [loop_eq] at e
  simpa using congrArg List.length e

/-- An institution, a storage facility and a separations facility with one stream enter. -/
def exStorage : Storage.Cfg where
  inCommods := ["spent"]
  prefs := []
  outCommods := ["cooled"]
  inRecipe := ""
  hasRecipe := fun _ => false
  residence := 3
  throughput := 10
  maxInv := 100
  discrete := true
  reorderPoint := -1
  reorderQty := -1
  cumulativeCap := -1
  enterTime := 0
  eps := 1 / 1000000
  lo := 1 / 1000000

/-- As above, with the stream of plutonium alone. -/
def exOne : Separations.Cfg := { exSeparations with streams := [("pu", ⟨-1, [(94000, 9 / 10)]⟩)] }

def exAgents : List (Nat × Place × Agent) :=
  [(1, (0, 0), .deployInst ⟨1, ["store"], [3], [1], []⟩), (2, (48, 16), .storage exStorage),
    (3, (47, 15), .separations exOne)]

example : (∀ x ∈ exAgents, ∀ k, streams x.2.2 = some k → k = 1) ∧
    enterAll exAgents [] = .ok [(1, 0, 0), (2, 48, 16), (3, 47, 15)] := by
  constructor
  · intro x hx k hk
    simp only [exAgents, List.mem_cons, List.not_mem_nil, or_false] at hx
    rcases hx with rfl | rfl | rfl
    · cases hk
    · cases hk
    · cases hk; rfl
  · have h : ∃ s, Separations.enter exOne = .ok s := by
      unfold Separations.enter
      rw [if_neg]
      · exact ⟨_, rfl⟩
      · decide +kernel
    have h' : ∃ s, Storage.enter (ν := Nat) exStorage = .ok s := by
      have hp : Storage.choosePolicy exStorage = .ok .periodic := by
        unfold Storage.choosePolicy
        rw [if_pos (by constructor <;> decide +kernel)]
      unfold Storage.enter
      rw [hp]
      exact ⟨_, rfl⟩
    obtain ⟨s, h⟩ := h
    obtain ⟨s', h'⟩ := h'
    simp only [enterAll, exAgents, enterNotify, h, h']
    rfl

end Cyc.Position
