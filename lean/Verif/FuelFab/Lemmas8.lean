import Verif.FuelFab.Lemmas7

/-! # What a facility does not read: the table of requests of an earlier step -/

namespace Cyc.FuelFab

/-- The same state with another table of requests. -/
def withReq (inv : List (Nat × String)) (s : State) : State := { s with reqInv := inv }

theorem sellOne_withReq {c : Cfg} {a b d : ℚ} {t : Trade} {s : State} (inv : List (Nat × String)) :
    sellOne c a b d t (withReq inv s) = (sellOne c a b d t s).map fun r => (r.1, withReq inv r.2) := by
  rcases s with ⟨fill, fiss, topup, fp, sp, inv0⟩
  unfold sellOne withReq
  dsimp only
  cases cosi c t.target with
  | error e => rfl
  | ok w =>
    simp only [ok_bind]
    by_cases h1 : fiss.count = 0
    · simp only [if_pos h1]
      cases take c fill t.amt <;> rfl
    by_cases h2 : fill.count = 0 ∧ validWeights a w b
    · simp only [if_neg h1, if_pos h2]
      cases take c fiss t.amt <;> rfl
    by_cases h3 : validWeights a w b = true
    · simp only [if_neg h1, if_neg h2, if_pos h3]
      cases highFrac c.near a w b with
      | error e => rfl
      | ok f =>
        cases lowFrac c.near a w b with
        | error e => rfl
        | ok g =>
          cases peek fiss with
          | error e => rfl
          | ok x =>
            cases peek fill with
            | error e => rfl
            | ok y =>
              simp only [ok_bind]
              cases take c fiss (atomToMass c.atomMass f x y * t.amt) with
              | error e => rfl
              | ok r =>
                simp only [ok_bind]
                cases addFrom c r.1 fill (atomToMass c.atomMass g y x) t.amt <;> rfl
    · simp only [if_neg h1, if_neg h2, if_neg h3]
      cases highFrac c.near b w d with
      | error e => rfl
      | ok f =>
        cases peek topup with
        | error e => rfl
        | ok x =>
          cases peek fiss with
          | error e => rfl
          | ok y =>
            simp only [ok_bind]
            cases take c fiss (atomToMass c.atomMass (1 - f) y x * t.amt) with
            | error e => rfl
            | ok r =>
              simp only [ok_bind]
              cases addFrom c r.1 topup (atomToMass c.atomMass f x y) t.amt <;> rfl

theorem sellLoop_withReq {c : Cfg} {a b d tot : ℚ} {ts : List Trade} {s : State}
    (inv : List (Nat × String)) :
    sellLoop c a b d tot ts (withReq inv s) =
      (sellLoop c a b d tot ts s).map fun r => (r.1, withReq inv r.2) := by
  induction ts generalizing s tot with
  | nil => rfl
  | cons t ts ih =>
    simp only [sellLoop]
    split
    · rfl
    · rw [sellOne_withReq]
      cases sellOne c a b d t s with
      | error e => rfl
      | ok r =>
        simp only [Except.map, ok_bind, ih]
        cases sellLoop c a b d (tot + t.amt) ts r.2 <;> rfl

theorem sell_withReq {c : Cfg} {ts : List Trade} {s : State} (inv : List (Nat × String)) :
    sell c ts (withReq inv s) = (sell c ts s).map fun r => (r.1, withReq inv r.2) := by
  unfold sell
  have e1 : (withReq inv s).fill = s.fill := rfl
  have e2 : (withReq inv s).fiss = s.fiss := rfl
  have e3 : (withReq inv s).topup = s.topup := rfl
  rw [e1, e2, e3]
  cases stockWeight c s.fill with
  | error e => rfl
  | ok a =>
    cases stockWeight c s.topup with
    | error e => rfl
    | ok b =>
      cases stockWeight c s.fiss with
      | error e => rfl
      | ok d => simp only [ok_bind, sellLoop_withReq]

theorem acceptLoop_withReq {c : Cfg} {ds : List (Nat × NMat)} {s : State} {inv : List (Nat × String)}
    (h : ∀ d ∈ ds, Map.getD inv d.1 "" = Map.getD s.reqInv d.1 "") :
    ds.foldlM (acceptOne c) (withReq inv s) = (ds.foldlM (acceptOne c) s).map (withReq inv) := by
  induction ds generalizing s with
  | nil => rfl
  | cons d ds ih =>
    simp only [List.foldlM_cons]
    have e : acceptOne c (withReq inv s) d = (acceptOne c s d).map (withReq inv) := by
      have hd : Map.getD (withReq inv s).reqInv d.1 "" = Map.getD s.reqInv d.1 "" := h d (by simp)
      have e1 : (withReq inv s).fill = s.fill := rfl
      have e2 : (withReq inv s).fiss = s.fiss := rfl
      have e3 : (withReq inv s).topup = s.topup := rfl
      unfold acceptOne
      rw [hd, e1, e2, e3]
      by_cases h1 : Map.getD s.reqInv d.1 "" = "fill"
      · simp only [if_pos h1]
        cases Buf.push c.eps s.fill d.2 <;> rfl
      by_cases h2 : Map.getD s.reqInv d.1 "" = "topup"
      · simp only [if_neg h1, if_pos h2]
        cases Buf.push c.eps s.topup d.2 <;> rfl
      by_cases h3 : Map.getD s.reqInv d.1 "" = "fiss"
      · simp only [if_neg h1, if_neg h2, if_pos h3]
        cases Buf.push c.eps s.fiss d.2 <;> rfl
      · simp only [if_neg h1, if_neg h2, if_neg h3]
        rfl
    rw [e]
    cases hs : acceptOne c s d with
    | error e => rfl
    | ok s1 =>
      have hi : s1.reqInv = s.reqInv := by
        simp only [acceptOne] at hs
        split at hs
        · cases hp : Buf.push c.eps s.fill d.2 with
          | error e => rw [hp] at hs; cases hs
          | ok b => rw [hp] at hs; cases hs; rfl
        split at hs
        · cases hp : Buf.push c.eps s.topup d.2 with
          | error e => rw [hp] at hs; cases hs
          | ok b => rw [hp] at hs; cases hs; rfl
        split at hs
        · cases hp : Buf.push c.eps s.fiss d.2 with
          | error e => rw [hp] at hs; cases hs
          | ok b => rw [hp] at hs; cases hs; rfl
        · cases hs
      simp only [Except.map, ok_bind]
      exact ih fun x hx => by rw [hi]; exact h x (by simp [hx])

theorem acceptAll_withReq {c : Cfg} {ds : List (Nat × NMat)} {s : State} {inv : List (Nat × String)}
    (h : ∀ d ∈ ds, Map.getD inv d.1 "" = Map.getD s.reqInv d.1 "") :
    acceptAll c ds (withReq inv s) =
      (acceptAll c ds s).map fun t => if ds = [] then withReq inv t else t := by
  cases ds with
  | nil => rfl
  | cons d ds =>
    simp only [acceptAll, accept, acceptLoop_withReq h]
    cases List.foldlM (acceptOne c) s (d :: ds) with
    | error e => rfl
    | ok s1 =>
      simp only [Except.map, ok_bind]
      have e1 : (withReq inv s1).fill = s1.fill := rfl
      have e2 : (withReq inv s1).fiss = s1.fiss := rfl
      have e3 : (withReq inv s1).topup = s1.topup := rfl
      simp only [e1, e2, e3]
      cases merge c s1.fill with
      | error e => rfl
      | ok a =>
        cases merge c s1.fiss with
        | error e => rfl
        | ok b =>
          cases merge c s1.topup with
          | error e => rfl
          | ok d => rfl

theorem notes_getD {a : Asks} {inv inv' : List (Nat × String)} {i : Nat}
    (h : i ∈ (allReqs a).map Req.id) : Map.getD (notes a inv) i "" = Map.getD (notes a inv') i "" := by
  rw [allReqs_eq, List.map_append, List.map_append, List.mem_append, List.mem_append] at h
  simp only [notes, Map.getD, get?_note]
  by_cases h3 : i ∈ (reqsOf a.topup).map Req.id
  · simp only [h3, if_true]
  · by_cases h2 : i ∈ (reqsOf a.fill).map Req.id
    · simp only [h3, h2, if_true, if_false]
    · have h1 : i ∈ (reqsOf a.fiss).map Req.id := by tauto
      simp only [h3, h2, h1, if_true, if_false]

/-- In a step in which every delivery answers a request of the step, an older table of requests makes
no difference. -/
theorem step_withReq {c : Cfg} {s : State} {i : In} (I : Inv c s) (inv : List (Nat × String))
    (h : ∀ d ∈ i.buys, d.1 ∈ (allReqs (asksOf c i.addr s)).map Req.id) :
    ∃ f : State → State, (∀ t, ∃ inv', f t = withReq inv' t) ∧
      step c (withReq inv s) i = (step c s i).map fun r => (r.1, f r.2) := by
  have I' : Inv c (withReq inv s) := I.same ⟨rfl, rfl, rfl, rfl, rfl⟩
  have ea : asksOf c i.addr (withReq inv s) = asksOf c i.addr s := rfl
  refine ⟨fun t => if i.buys = [] then withReq (notes (asksOf c i.addr s) inv) t else t, ?_, ?_⟩
  · intro t
    dsimp only
    split
    · exact ⟨_, rfl⟩
    · exact ⟨t.reqInv, rfl⟩
  · simp only [step, requests_ok I, requests_ok I', ok_bind, ea]
    have e : ({ withReq inv s with reqInv := notes (asksOf c i.addr s) (withReq inv s).reqInv } : State) =
      withReq (notes (asksOf c i.addr s) inv)
        { s with reqInv := notes (asksOf c i.addr s) s.reqInv } := rfl
    rw [e, sell_withReq]
    have eb : bids c i.reqs (withReq (notes (asksOf c i.addr s) inv)
        { s with reqInv := notes (asksOf c i.addr s) s.reqInv }) =
      bids c i.reqs { s with reqInv := notes (asksOf c i.addr s) s.reqInv } := rfl
    rw [eb]
    cases bids c i.reqs { s with reqInv := notes (asksOf c i.addr s) s.reqInv } with
    | error e => rfl
    | ok p =>
      simp only [ok_bind]
      cases hs : sell c i.sells { s with reqInv := notes (asksOf c i.addr s) s.reqInv } with
      | error e => rfl
      | ok r =>
        simp only [Except.map, ok_bind]
        have hr : r.2.reqInv = notes (asksOf c i.addr s) s.reqInv := by
          have := sell_withReq (c := c) (ts := i.sells) (s := { s with reqInv := notes (asksOf c i.addr s) s.reqInv })
            (notes (asksOf c i.addr s) s.reqInv)
          have e2 : withReq (notes (asksOf c i.addr s) s.reqInv)
            { s with reqInv := notes (asksOf c i.addr s) s.reqInv } =
            { s with reqInv := notes (asksOf c i.addr s) s.reqInv } := rfl
          rw [e2, hs] at this
          simp only [Except.map, Except.ok.injEq] at this
          rw [this]; rfl
        rw [acceptAll_withReq]
        · cases acceptAll c i.buys r.2 <;> rfl
        · intro d hd
          rw [hr]
          exact notes_getD (h d hd)

end Cyc.FuelFab
