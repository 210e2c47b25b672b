import Mathlib.Data.List.Nodup
import Verif.FuelFab.Lemmas2

/-!
# Lemmas about requests, deliveries and histories
-/

namespace Cyc.FuelFab

open Mat (massOf)

/-! ## Requests -/

theorem mapM_ok' {α β : Type} {f : α → R β} {g : α → β} {l : List α}
    (h : ∀ a ∈ l, f a = .ok (g a)) : l.mapM f = .ok (l.map g) := by
  induction l with
  | nil => rfl
  | cons a l ih =>
    rw [List.mapM_cons, h a (by simp), ok_bind, ih (fun x hx => h x (by simp [hx]))]; rfl

/-- The requests for the commodities `ks` with preferences `ps`. -/
def reqsFor (addr : Nat → Nat) (k : Nat) (ks : List String) (ps : List ℚ) : List Req :=
  (List.range ks.length).map fun i => ⟨addr (k + i), ks.getD i "", ps.getD i 0⟩

theorem mkReqs_ok {addr : Nat → Nat} {k : Nat} {ks : List String} {ps : List ℚ}
    (h : ks.length = ps.length) : mkReqs addr k ks ps = .ok (reqsFor addr k ks ps) := by
  unfold mkReqs reqsFor
  apply mapM_ok'
  intro i hi
  have hi := List.mem_range.1 hi
  rw [at!_of_lt hi, ok_bind, at!_of_lt (by omega : i < ps.length), ok_bind]
  simp [List.getD_eq_getElem?_getD, List.getElem?_eq_getElem hi,
    List.getElem?_eq_getElem (by omega : i < ps.length)]

theorem get?_note (name : String) (rs : List Req) (inv : List (Nat × String)) (i : Nat) :
    Map.get? (note name rs inv) i =
      if i ∈ rs.map Req.id then some name else Map.get? inv i := by
  unfold note
  induction rs generalizing inv with
  | nil => simp
  | cons r rs ih =>
    rw [List.foldl_cons, ih, Map.get?_set]
    by_cases h1 : i ∈ rs.map Req.id
    · simp [h1]
    · by_cases h2 : r.id = i
      · simp [h2]
      · simp only [h1, if_false, h2, List.map_cons, List.mem_cons, Ne.symm h2, false_or]

/-- The requests of an optional portfolio. -/
def reqsOf (p : Option ReqPort) : List Req :=
  match p with
  | some p => p.reqs
  | none => []

theorem allReqs_eq (a : Asks) : allReqs a = reqsOf a.fiss ++ (reqsOf a.fill ++ reqsOf a.topup) := by
  rcases a with ⟨a, b, d⟩
  simp only [allReqs, List.flatMap_cons, List.flatMap_nil, List.append_nil]
  rcases a with _ | a <;> rcases b with _ | b <;> rcases d with _ | d <;> rfl

/-- What one block of `GetMatlRequests` asks for. -/
def portFor (c : Cfg) (addr : Nat → Nat) (k : Nat) (b : Buf NMat) (recipe : Option NMat)
    (ks : List String) (ps : List ℚ) : Option ReqPort :=
  if space b > c.eps then some ⟨space b, recipe, reqsFor addr k ks ps⟩ else none

theorem ask_ok {c : Cfg} {addr : Nat → Nat} {k : Nat} {name : String} {b : Buf NMat}
    {recipe : Option NMat} {ks : List String} {ps : List ℚ} {inv : List (Nat × String)}
    (h : ks.length = ps.length) :
    ask c addr k name b recipe ks ps inv = .ok (portFor c addr k b recipe ks ps,
      note name (reqsOf (portFor c addr k b recipe ks ps)) inv) := by
  unfold ask portFor
  split
  · rw [mkReqs_ok h, ok_bind]; rfl
  · rfl

/-- The requests of a step. -/
def asksOf (c : Cfg) (addr : Nat → Nat) (s : State) : Asks :=
  ⟨portFor c addr 0 s.fiss c.fissRecipe c.fissCommods s.fissPrefs,
    portFor c addr c.fissCommods.length s.fill c.fillRecipe c.fillCommods s.fillPrefs,
    portFor c addr (c.fissCommods.length + c.fillCommods.length) s.topup c.topupRecipe
      [c.topupCommod] [c.topupPref]⟩

/-- The table of requests after they are made. -/
def notes (a : Asks) (inv : List (Nat × String)) : List (Nat × String) :=
  note "topup" (reqsOf a.topup) (note "fill" (reqsOf a.fill) (note "fiss" (reqsOf a.fiss) inv))

theorem requests_ok {c : Cfg} {addr : Nat → Nat} {s : State} (I : Inv c s) :
    requests c addr s =
      .ok (asksOf c addr s, { s with reqInv := notes (asksOf c addr s) s.reqInv }) := by
  simp only [requests, notes, ask_ok I.fissPrefs.symm, ask_ok I.fillPrefs.symm, ok_bind,
    ask_ok (show ([c.topupCommod] : List String).length = ([c.topupPref] : List ℚ).length from rfl),
    pure_eq_ok, asksOf]

/-- Where the deliveries for a request go. -/
def route (inv : List (Nat × String)) (i : Nat) : String := Map.getD inv i ""

theorem requests_route {c : Cfg} {addr : Nat → Nat} {s s' : State} {a : Asks} (I : Inv c s)
    (h : requests c addr s = .ok (a, s')) (hd : Distinct a) :
    (∀ i ∈ (reqsOf a.fiss).map Req.id, route s'.reqInv i = "fiss") ∧
    (∀ i ∈ (reqsOf a.fill).map Req.id, route s'.reqInv i = "fill") ∧
    (∀ i ∈ (reqsOf a.topup).map Req.id, route s'.reqInv i = "topup") ∧
    SameStock s s' := by
  rw [requests_ok I] at h
  simp only [Except.ok.injEq, Prod.mk.injEq] at h
  obtain ⟨rfl, rfl⟩ := h
  generalize asksOf c addr s = a at *
  unfold Distinct at hd
  rw [allReqs_eq, List.map_append, List.map_append] at hd
  obtain ⟨-, hd2, hd3⟩ := List.nodup_append.1 hd
  obtain ⟨-, -, hd4⟩ := List.nodup_append.1 hd2
  refine ⟨?_, ?_, ?_, rfl, rfl, rfl, rfl, rfl⟩
  · intro i hi
    have h1 : i ∉ (reqsOf a.topup).map Req.id := fun hh => hd3 i hi i (List.mem_append.2 (Or.inr hh)) rfl
    have h2 : i ∉ (reqsOf a.fill).map Req.id := fun hh => hd3 i hi i (List.mem_append.2 (Or.inl hh)) rfl
    simp only [route, notes, Map.getD, get?_note, h1, h2, hi, if_true, if_false, Option.getD_some]
  · intro i hi
    have h1 : i ∉ (reqsOf a.topup).map Req.id := fun hh => hd4 i hi i hh rfl
    simp only [route, notes, Map.getD, get?_note, h1, hi, if_true, if_false, Option.getD_some]
  · intro i hi
    simp only [route, notes, Map.getD, get?_note, hi, if_true, Option.getD_some]

theorem requests_same {c : Cfg} {addr : Nat → Nat} {s s' : State} {a : Asks} (I : Inv c s)
    (h : requests c addr s = .ok (a, s')) : SameStock s s' := by
  rw [requests_ok I] at h
  simp only [Except.ok.injEq, Prod.mk.injEq] at h
  obtain ⟨rfl, rfl⟩ := h
  exact ⟨rfl, rfl, rfl, rfl, rfl⟩

/-! ## Deliveries -/

/-- The deliveries for one stream. -/
def routed (inv : List (Nat × String)) (name : String) (ds : List (Nat × NMat)) : List NMat :=
  (ds.filter fun d => decide (route inv d.1 = name)).map Prod.snd

theorem routed_cons (inv : List (Nat × String)) (name : String) (d : Nat × NMat)
    (ds : List (Nat × NMat)) : routed inv name (d :: ds) =
      if route inv d.1 = name then d.2 :: routed inv name ds else routed inv name ds := by
  unfold routed; by_cases h : route inv d.1 = name <;> simp [h]

/-- All deliveries have a stream. -/
def Known (inv : List (Nat × String)) (ds : List (Nat × NMat)) : Prop :=
  ∀ d ∈ ds, route inv d.1 = "fill" ∨ route inv d.1 = "topup" ∨ route inv d.1 = "fiss"

theorem acceptLoop_inv {c : Cfg} {ds : List (Nat × NMat)} {s s' : State}
    (h : ds.foldlM (acceptOne c) s = .ok s') :
    Known s.reqInv ds ∧ s' = { s with
      fill := { s.fill with items := s.fill.items ++ routed s.reqInv "fill" ds }
      topup := { s.topup with items := s.topup.items ++ routed s.reqInv "topup" ds }
      fiss := { s.fiss with items := s.fiss.items ++ routed s.reqInv "fiss" ds } } := by
  induction ds generalizing s with
  | nil =>
    simp only [List.foldlM_nil, pure_eq_ok, Except.ok.injEq] at h
    subst h
    exact ⟨fun d hd => absurd hd List.not_mem_nil, by simp [routed]⟩
  | cons d ds ih =>
    simp only [List.foldlM_cons, bind_ok] at h
    obtain ⟨s1, h1, h2⟩ := h
    obtain ⟨k, e⟩ := ih h2
    unfold acceptOne at h1
    rw [show Map.getD s.reqInv d.1 "" = route s.reqInv d.1 from rfl] at h1
    split at h1
    · rename_i hr
      simp only [bind_ok] at h1
      obtain ⟨b, hb, h1⟩ := h1
      simp only [pure_eq_ok, Except.ok.injEq] at h1
      obtain ⟨-, rfl⟩ := Buf.push_ok.1 hb
      subst h1
      refine ⟨?_, ?_⟩
      · intro x hx
        rcases List.mem_cons.1 hx with rfl | hx
        · exact Or.inl hr
        · exact k x hx
      · rw [e]
        simp [routed_cons, hr, List.append_assoc]
    · split at h1
      · rename_i hr
        simp only [bind_ok] at h1
        obtain ⟨b, hb, h1⟩ := h1
        simp only [pure_eq_ok, Except.ok.injEq] at h1
        obtain ⟨-, rfl⟩ := Buf.push_ok.1 hb
        subst h1
        refine ⟨?_, ?_⟩
        · intro x hx
          rcases List.mem_cons.1 hx with rfl | hx
          · exact Or.inr (Or.inl hr)
          · exact k x hx
        · rw [e]
          simp [routed_cons, hr, List.append_assoc]
      · split at h1
        · rename_i hr
          simp only [bind_ok] at h1
          obtain ⟨b, hb, h1⟩ := h1
          simp only [pure_eq_ok, Except.ok.injEq] at h1
          obtain ⟨-, rfl⟩ := Buf.push_ok.1 hb
          subst h1
          refine ⟨?_, ?_⟩
          · intro x hx
            rcases List.mem_cons.1 hx with rfl | hx
            · exact Or.inr (Or.inr hr)
            · exact k x hx
          · rw [e]
            simp [routed_cons, hr, List.append_assoc]
        · cases h1

theorem massOf_routed {inv : List (Nat × String)} {ds : List (Nat × NMat)} (h : Known inv ds)
    (n : Nat) : massOf (ds.map Prod.snd) n = massOf (routed inv "fill" ds) n +
      massOf (routed inv "fiss" ds) n + massOf (routed inv "topup" ds) n := by
  induction ds with
  | nil => simp [routed]
  | cons d ds ih =>
    have := ih (fun x hx => h x (by simp [hx]))
    simp only [List.map_cons, Mat.massOf_cons, routed_cons, this]
    rcases h d (by simp) with hd | hd | hd <;> simp [hd] <;> ring

theorem routed_solid {inv : List (Nat × String)} {ds : List (Nat × NMat)} {name : String}
    (h : ∀ d ∈ ds, Solid d.2) : ∀ m ∈ routed inv name ds, Solid m := by
  intro m hm
  simp only [routed, List.mem_map, List.mem_filter] at hm
  obtain ⟨d, ⟨hd, -⟩, rfl⟩ := hm
  exact h d hd

/-- The items of a stream after its deliveries were squashed. -/
theorem merge_inv {c : Cfg} {b b' : Buf NMat} (hs : ∀ m ∈ b.items, Solid m)
    (h : merge c b = .ok b') :
    Single b' ∧ b'.cap = b.cap ∧ (∀ n, massOf b'.items n = massOf b.items n) ∧
      b'.quantity = b.quantity ∧ (b.items.length ≤ 1 → b' = b) ∧
      (1 < b.items.length → ∀ k, b.cap = some k → b'.quantity ≤ max 0 k + c.eps) := by
  unfold merge Buf.count at h
  split at h
  · rename_i hc
    simp only [bind_ok] at h
    obtain ⟨⟨l, b1⟩, h1, h2⟩ := h
    obtain ⟨-, h1⟩ := Buf.popN_ok.1 h1
    simp only [List.take_length, List.drop_length, Prod.mk.injEq] at h1
    obtain ⟨rfl, rfl⟩ := h1
    obtain ⟨h3, rfl⟩ := Buf.push_ok.1 h2
    have hpos : 0 < totalQty b.items := by
      apply AllPos.total_pos
      · intro m hm; exact (hs m hm).1
      · intro h0; rw [h0] at hc; simp at hc
    refine ⟨Or.inr ⟨_, ⟨?_, Mat.Nonneg.squash fun m hm => (hs m hm).2⟩, rfl⟩, rfl, ?_, ?_, ?_, ?_⟩
    · rw [Mat.qty_squash]; exact hpos
    · intro n; simp
    · simp [Buf.quantity]
    · intro h; omega
    · intro _ k hk
      simp only [Buf.fits, Buf.space, hk, Option.map_some, Buf.quantity, totalQty_nil, sub_zero,
        decide_eq_true_eq, Mat.qty_squash] at h3
      simp only [Buf.quantity, List.nil_append, totalQty_cons, totalQty_nil, Mat.qty_squash]
      linarith
  · rename_i hc
    simp only [Except.ok.injEq] at h
    subst h
    refine ⟨?_, rfl, fun _ => rfl, rfl, fun _ => rfl, fun h => absurd h hc⟩
    rcases hit : b.items with _ | ⟨x, l⟩
    · exact Or.inl hit
    · rw [hit] at hc hs
      have hl : l = [] := by
        cases l
        · rfl
        · simp at hc
      subst hl
      exact Or.inr ⟨x, hs x (by simp), hit⟩

theorem Single.solid {b : Buf NMat} (h : Single b) : ∀ m ∈ b.items, Solid m := by
  rcases h with h | ⟨x, hx, h⟩ <;> rw [h] <;> simp
  exact hx

/-- What the deliveries of a step do. -/
theorem accept_inv {c : Cfg} {ds : List (Nat × NMat)} {s s' : State} (I : Inv c s)
    (hs : ∀ d ∈ ds, Solid d.2) (h : acceptAll c ds s = .ok s') :
    Inv c s' ∧ Known s.reqInv ds ∧
      (∀ n, massOf s'.fill.items n = massOf s.fill.items n + massOf (routed s.reqInv "fill" ds) n) ∧
      (∀ n, massOf s'.fiss.items n = massOf s.fiss.items n + massOf (routed s.reqInv "fiss" ds) n) ∧
      (∀ n, massOf s'.topup.items n =
        massOf s.topup.items n + massOf (routed s.reqInv "topup" ds) n) := by
  cases ds with
  | nil =>
    simp only [acceptAll, Except.ok.injEq] at h
    subst h
    exact ⟨I, fun d hd => absurd hd List.not_mem_nil, by simp [routed], by simp [routed],
      by simp [routed]⟩
  | cons d ds =>
    simp only [acceptAll, accept, bind_ok] at h
    obtain ⟨s1, h1, fill, h2, fiss, h3, topup, h4, h5⟩ := h
    simp only [pure_eq_ok, Except.ok.injEq] at h5
    subst h5
    obtain ⟨k, rfl⟩ := acceptLoop_inv h1
    have app : ∀ {b : Buf NMat} {name : String}, Single b →
        ∀ m ∈ ({ b with items := b.items ++ routed s.reqInv name (d :: ds) } : Buf NMat).items,
          Solid m := by
      intro b name hb m hm
      rcases List.mem_append.1 hm with hm | hm
      · exact hb.solid m hm
      · exact routed_solid hs m hm
    obtain ⟨a1, a2, a3, -, -, -⟩ := merge_inv (app I.fill) h2
    obtain ⟨b1, b2, b3, -, -, -⟩ := merge_inv (app I.fiss) h3
    obtain ⟨c1, c2, c3, -, -, -⟩ := merge_inv (app I.topup) h4
    refine ⟨⟨a1, b1, c1, a2.trans I.fillCap, b2.trans I.fissCap, c2.trans I.topupCap, I.fillPrefs,
      I.fissPrefs⟩, k, ?_, ?_, ?_⟩
    · intro n; rw [a3, Mat.massOf_append]
    · intro n; rw [b3, Mat.massOf_append]
    · intro n; rw [c3, Mat.massOf_append]

/-! ## Histories -/

theorem initPrefs_length {ks : List String} {ps ps' : List ℚ} (h : initPrefs ks ps = .ok ps') :
    ps'.length = ks.length := by
  unfold initPrefs at h
  split at h
  · simp only [Except.ok.injEq] at h; subst h; simp
  · split at h
    · cases h
    · rename_i hl
      simp only [Except.ok.injEq] at h; subst h
      push Not at hl; exact hl

theorem enter_inv {c : Cfg} {s : State} (h : enter c = .ok s) :
    Inv c s ∧ contents s = [] ∧ s.reqInv = [] := by
  simp only [enter, bind_ok] at h
  obtain ⟨p1, h1, p2, h2, h⟩ := h
  simp only [pure_eq_ok, Except.ok.injEq] at h
  subst h
  exact ⟨⟨Or.inl rfl, Or.inl rfl, Or.inl rfl, rfl, rfl, rfl, initPrefs_length h2,
    initPrefs_length h1⟩, rfl, rfl⟩

/-- The parts of a step. -/
theorem step_inv {c : Cfg} {s s' : State} {i : In} {o : Out} (h : step c s i = .ok (o, s')) :
    ∃ s1 s2, requests c i.addr s = .ok (o.asks, s1) ∧ bids c i.reqs s1 = .ok o.port ∧
      sell c i.sells s1 = .ok (o.sold, s2) ∧ acceptAll c i.buys s2 = .ok s' := by
  simp only [step, bind_ok] at h
  obtain ⟨⟨a, s1⟩, h1, p, h2, ⟨l, s2⟩, h3, s3, h4, h5⟩ := h
  simp only [pure_eq_ok, Except.ok.injEq, Prod.mk.injEq] at h5
  obtain ⟨rfl, rfl⟩ := h5
  exact ⟨s1, s2, h1, h2, h3, h4⟩

theorem contents_same {s s' : State} (h : SameStock s s') : contents s' = contents s := by
  obtain ⟨h1, h2, h3, -, -⟩ := h
  simp only [contents, h1, h2, h3]

theorem step_pres {c : Cfg} (V : Valid c) {s s' : State} {i : In} {o : Out} (I : Inv c s)
    (hs : ∀ d ∈ i.buys, Solid d.2) (h : step c s i = .ok (o, s')) :
    Inv c s' ∧ ∀ n, massOf (contents s) n + massOf (i.buys.map Prod.snd) n =
      massOf (contents s') n + massOf o.sold n := by
  obtain ⟨s1, s2, h1, -, h3, h4⟩ := step_inv h
  have hsame := requests_same I h1
  obtain ⟨wl, wf, wt, h3⟩ := sell_inv h3
  obtain ⟨I2, -, hm, -, -⟩ := sellLoop_inv V (I.same hsame) h3
  obtain ⟨I3, k, e1, e2, e3⟩ := accept_inv I2 hs h4
  refine ⟨I3, fun n => ?_⟩
  have hn := hm n
  rw [contents_same hsame] at hn
  rw [hn, massOf_routed k]
  simp only [contents, Mat.massOf_append, e1, e2, e3]
  ring

theorem run_pres {c : Cfg} (V : Valid c) {s s' : State} {is : List In} {os : List Out} (I : Inv c s)
    (hs : Substantial is) (h : run c s is = .ok (os, s')) :
    Inv c s' ∧ ∀ n, massOf (contents s) n + massOf (received is) n =
      massOf (contents s') n + massOf (sold os) n := by
  induction is generalizing s os with
  | nil =>
    simp only [run, Except.ok.injEq, Prod.mk.injEq] at h
    obtain ⟨rfl, rfl⟩ := h
    exact ⟨I, fun n => by simp [received, sold]⟩
  | cons i is ih =>
    simp only [run, bind_ok] at h
    obtain ⟨⟨o, s1⟩, h1, ⟨os', s2⟩, h2, h3⟩ := h
    simp only [pure_eq_ok, Except.ok.injEq, Prod.mk.injEq] at h3
    obtain ⟨rfl, rfl⟩ := h3
    obtain ⟨I1, m1⟩ := step_pres V I (hs i (by simp)) h1
    obtain ⟨I2, m2⟩ := ih I1 (fun x hx => hs x (by simp [hx])) h2
    refine ⟨I2, fun n => ?_⟩
    have a := m1 n
    have b := m2 n
    simp only [received, sold, List.flatMap_cons, Mat.massOf_append] at *
    linarith

theorem reachable_inv {c : Cfg} (V : Valid c) {s : State} (h : Reachable c s) : Inv c s := by
  obtain ⟨is, os, hs, s0, h1, h2⟩ := h
  exact (run_pres V (enter_inv h1).1 hs h2).1

end Cyc.FuelFab
