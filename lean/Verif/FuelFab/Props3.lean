import Verif.FuelFab.Props2

/-!
# Fuel fabrication: properties C47 and C77 to C83

Deliveries, requests, bids, and the weight of what is sold.
-/

namespace Cyc.FuelFab

open Mat (massOf)

/-! ## C47 -/

/-- C47: deliveries that answer the requests of the step add to the stream that asked, nuclide by
nuclide, and to no other. The table of requests may hold any remains of earlier steps. -/
theorem C47_routed {c : Cfg} (V : Valid c) {s s₁ s₂ s₃ : State} (h : Reachable c s)
    {addr : Nat → Nat} {a : Asks} (hr : requests c addr s = .ok (a, s₁)) (hd : Distinct a)
    {ts : List Trade} {l : List NMat} (hs : sell c ts s₁ = .ok (l, s₂))
    {ds : List (Nat × NMat)} (hm : ∀ d ∈ ds, Solid d.2)
    (hq : ∀ d ∈ ds, d.1 ∈ (allReqs a).map Req.id) (ha : acceptAll c ds s₂ = .ok s₃) (n : Nat) :
    massOf s₃.fiss.items n = massOf s₂.fiss.items n + massOf (answers a.fiss ds) n ∧
    massOf s₃.fill.items n = massOf s₂.fill.items n + massOf (answers a.fill ds) n ∧
    massOf s₃.topup.items n = massOf s₂.topup.items n + massOf (answers a.topup ds) n := by
  have I := reachable_inv V h
  obtain ⟨r1, r2, r3, -⟩ := routed_answers I hr hd hq
  obtain ⟨wl, wf, wt, hs⟩ := sell_inv hs
  obtain ⟨I2, e, -⟩ := sellLoop_inv V (I.same (requests_same I hr)) hs
  rw [← e] at r1 r2 r3
  obtain ⟨-, -, a1, a2, a3⟩ := accept_inv I2 hm ha
  rw [r2] at a1
  rw [r1] at a2
  rw [r3] at a3
  exact ⟨a2 n, a1 n, a3 n⟩

/-- C47: at the end of every step each stream is one material. -/
theorem C47_single {c : Cfg} (V : Valid c) {s : State} (h : Reachable c s) :
    s.fill.items.length ≤ 1 ∧ s.fiss.items.length ≤ 1 ∧ s.topup.items.length ≤ 1 := by
  have I := reachable_inv V h
  have len : ∀ {b : Buf NMat}, Single b → b.items.length ≤ 1 := by
    intro b hb; rcases hb with hb | ⟨x, -, hb⟩ <;> simp [hb]
  exact ⟨len I.fill, len I.fiss, len I.topup⟩

/-- C47: over any history, whatever is traded, what was received is what is held and what was
sold, nuclide by nuclide. -/
theorem C47_conserved {c : Cfg} (V : Valid c) {is : List In} {os : List Out} {s : State}
    (hs : Substantial is) (h : History c is os s) (n : Nat) :
    massOf (received is) n = massOf (contents s) n + massOf (sold os) n := by
  obtain ⟨s0, h1, h2⟩ := h
  obtain ⟨I, e, -⟩ := enter_inv h1
  have := (run_pres V I hs h2).2 n
  rw [e] at this
  simpa using this

/-- In the example three deliveries go to three streams, and two more are merged with them. -/
example : ((play exCfg [stockUp, ⟨fun n => n + 10, fun _ => [], [],
      [(11, puw), (10, puw), (14, puw)]⟩]).toOption.map fun r =>
    (r.2.fiss.items.map qty, r.2.fill.items.map qty, r.2.topup.items.map qty)) =
    some ([220], [400], [20]) := by decide +kernel

example : Distinct (asksOf exCfg id exState) ∧
    (∀ d ∈ [(0, puw), (4, puw)], d.1 ∈ (allReqs (asksOf exCfg id exState)).map Req.id) := by
  unfold Distinct; decide +kernel

/-! ## C77 -/

/-- The preferences of a stream: those of the input, or 1 for every commodity. -/
def prefsOf (commods : List String) (prefs : List ℚ) : List ℚ :=
  if prefs = [] then commods.map fun _ => 1 else prefs

/-- A portfolio is right for a stream: it asks for the free space, unless there is none to speak of,
with one alternative request per commodity, at its preference. -/
def RightPort (c : Cfg) (size : ℚ) (b : Buf NMat) (recipe : Option NMat) (commods : List String)
    (prefs : List ℚ) (p : Option ReqPort) : Prop :=
  (size - totalQty b.items ≤ c.eps ∧ p = none) ∨
  (c.eps < size - totalQty b.items ∧ ∃ q, p = some q ∧ q.amount = size - totalQty b.items ∧
    q.recipe = recipe ∧ q.reqs.map Req.commod = commods ∧ q.reqs.map Req.pref = prefs)

/-- The preferences never change. -/
theorem run_prefs {c : Cfg} {s s' : State} {is : List In} {os : List Out} (V : Valid c)
    (I : Inv c s) (hs : Substantial is) (h : run c s is = .ok (os, s')) :
    s'.fillPrefs = s.fillPrefs ∧ s'.fissPrefs = s.fissPrefs := by
  induction is generalizing s os with
  | nil =>
    simp only [run, Except.ok.injEq, Prod.mk.injEq] at h
    rw [h.2]; exact ⟨rfl, rfl⟩
  | cons i is ih =>
    simp only [run, bind_ok] at h
    obtain ⟨⟨o, s1⟩, h1, ⟨os', s2⟩, h2, h3⟩ := h
    simp only [pure_eq_ok, Except.ok.injEq, Prod.mk.injEq] at h3
    obtain ⟨rfl, rfl⟩ := h3
    have I1 := (step_pres V I (hs i (by simp)) h1).1
    obtain ⟨e1, e2⟩ := ih I1 (fun x hx => hs x (by simp [hx])) h2
    have key : s1.fillPrefs = s.fillPrefs ∧ s1.fissPrefs = s.fissPrefs := by
      obtain ⟨t1, t2, k1, -, k3, k4⟩ := step_inv h1
      obtain ⟨-, -, -, q4, q5⟩ := requests_same I k1
      obtain ⟨wl, wf, wt, k3⟩ := sell_inv k3
      have hsell : ∀ {ts : List Trade} {tot : ℚ} {s s' : State} {l : List NMat},
          sellLoop c wl wf wt tot ts s = .ok (l, s') →
          s'.fillPrefs = s.fillPrefs ∧ s'.fissPrefs = s.fissPrefs := by
        intro ts
        induction ts with
        | nil =>
          intro tot s s' l h
          simp only [sellLoop, Except.ok.injEq, Prod.mk.injEq] at h
          rw [h.2]; exact ⟨rfl, rfl⟩
        | cons t ts ih =>
          intro tot s s' l h
          simp only [sellLoop] at h
          split at h
          · cases h
          · simp only [bind_ok] at h
            obtain ⟨⟨m, s1⟩, k1, ⟨l', s2⟩, k2, k3⟩ := h
            simp only [pure_eq_ok, Except.ok.injEq, Prod.mk.injEq] at k3
            obtain ⟨rfl, rfl⟩ := k3
            obtain ⟨a1, a2⟩ := ih k2
            have : s1.fillPrefs = s.fillPrefs ∧ s1.fissPrefs = s.fissPrefs := by
              unfold sellOne at k1
              simp only [bind_ok] at k1
              obtain ⟨w, -, k1⟩ := k1
              split at k1
              · simp only [bind_ok, pure_eq_ok, Except.ok.injEq, Prod.mk.injEq] at k1
                obtain ⟨_, -, -, rfl⟩ := k1; exact ⟨rfl, rfl⟩
              · split at k1
                · simp only [bind_ok, pure_eq_ok, Except.ok.injEq, Prod.mk.injEq] at k1
                  obtain ⟨_, -, -, rfl⟩ := k1; exact ⟨rfl, rfl⟩
                · split at k1
                  · simp only [bind_ok, pure_eq_ok, Except.ok.injEq, Prod.mk.injEq] at k1
                    obtain ⟨_, -, _, -, _, -, _, -, _, -, _, -, -, rfl⟩ := k1; exact ⟨rfl, rfl⟩
                  · simp only [bind_ok, pure_eq_ok, Except.ok.injEq, Prod.mk.injEq] at k1
                    obtain ⟨_, -, _, -, _, -, _, -, _, -, -, rfl⟩ := k1; exact ⟨rfl, rfl⟩
            exact ⟨a1.trans this.1, a2.trans this.2⟩
      obtain ⟨p1, p2⟩ := hsell k3
      have hacc : s1.fillPrefs = t2.fillPrefs ∧ s1.fissPrefs = t2.fissPrefs := by
        revert k4
        cases i.buys with
        | nil =>
          intro k4
          simp only [acceptAll, Except.ok.injEq] at k4
          rw [k4]; exact ⟨rfl, rfl⟩
        | cons d ds =>
          intro k4
          simp only [acceptAll, accept, bind_ok] at k4
          obtain ⟨s3, h5, fill, -, fiss, -, topup, -, h9⟩ := k4
          simp only [pure_eq_ok, Except.ok.injEq] at h9
          subst h9
          obtain ⟨-, rfl⟩ := acceptLoop_inv h5
          exact ⟨rfl, rfl⟩
      exact ⟨hacc.1.trans (p1.trans q4), hacc.2.trans (p2.trans q5)⟩
    exact ⟨e1.trans key.1, e2.trans key.2⟩

/-- C77: in every reachable state the requests of the step exist and ask, for each stream, for its
free space. -/
theorem C77_requests {c : Cfg} (V : Valid c) {s : State} (h : Reachable c s) (addr : Nat → Nat) :
    ∃ a s₁, requests c addr s = .ok (a, s₁) ∧
      RightPort c c.fissSize s.fiss c.fissRecipe c.fissCommods (prefsOf c.fissCommods c.fissPrefs)
        a.fiss ∧
      RightPort c c.fillSize s.fill c.fillRecipe c.fillCommods (prefsOf c.fillCommods c.fillPrefs)
        a.fill ∧
      RightPort c c.topupSize s.topup c.topupRecipe [c.topupCommod] [c.topupPref] a.topup := by
  have I := reachable_inv V h
  refine ⟨_, _, requests_ok I, ?_⟩
  obtain ⟨is, os, hs, s0, h1, h2⟩ := h
  have hp : s.fillPrefs = prefsOf c.fillCommods c.fillPrefs ∧
      s.fissPrefs = prefsOf c.fissCommods c.fissPrefs := by
    obtain ⟨e1, e2⟩ := run_prefs V (enter_inv h1).1 hs h2
    simp only [enter, bind_ok] at h1
    obtain ⟨p1, k1, p2, k2, h1⟩ := h1
    simp only [pure_eq_ok, Except.ok.injEq] at h1
    subst h1
    have ip : ∀ {ks : List String} {ps ps' : List ℚ}, initPrefs ks ps = .ok ps' →
        ps' = prefsOf ks ps := by
      intro ks ps ps' h
      unfold initPrefs at h
      unfold prefsOf
      split at h
      · simp only [Except.ok.injEq] at h; rw [if_pos (by assumption), h]
      · split at h
        · cases h
        · simp only [Except.ok.injEq] at h; rw [if_neg (by assumption), h]
    exact ⟨e1.trans (ip k2), e2.trans (ip k1)⟩
  have key : ∀ {b : Buf NMat} {size : ℚ} {k : Nat} {r : Option NMat} {ks : List String}
      {ps : List ℚ}, b.cap = some size → ks.length = ps.length →
      RightPort c size b r ks ps (portFor c addr k b r ks ps) := by
    intro b size k r ks ps hb hl
    have hsp : space b = max 0 (size - totalQty b.items) := by
      unfold space Buf.space; rw [hb]; rfl
    have he := V.eps
    unfold portFor
    split
    · rename_i hgt
      rw [hsp] at hgt
      have hpos : c.eps < size - totalQty b.items := by
        rcases lt_max_iff.1 hgt with h | h
        · linarith
        · exact h
      refine Or.inr ⟨hpos, _, rfl, ?_, rfl, ?_, ?_⟩
      · simp only; rw [hsp, max_eq_right (by linarith)]
      · simp only [reqsFor]
        apply List.ext_getElem
        · simp
        · intro n h1 h2; simp [List.getElem?_eq_getElem h2]
      · simp only [reqsFor]
        apply List.ext_getElem
        · simp [hl]
        · intro n h1 h2; simp [List.getElem?_eq_getElem h2]
    · rename_i hle
      rw [hsp] at hle
      push Not at hle
      exact Or.inl ⟨(le_max_right _ _).trans hle, rfl⟩
  refine ⟨?_, ?_, ?_⟩
  · rw [← hp.2]; exact key I.fissCap I.fissPrefs.symm
  · rw [← hp.1]; exact key I.fillCap I.fillPrefs.symm
  · exact key I.topupCap rfl

example : ((requests exCfg id exState).toOption.map fun r => r.1) =
    some ⟨some ⟨100, none, [⟨0, "pu", 2⟩, ⟨1, "mox", 3⟩]⟩,
      some ⟨100, some du, [⟨2, "du", 1⟩, ⟨3, "ru", 1⟩]⟩, some ⟨40, none, [⟨4, "puw", 1⟩]⟩⟩ := by
  decide +kernel

/-! ## C78 -/

/-- C78: in every reachable state, bids are made with the composition of each stream, which is that
of its stock, else its recipe, else that of the filler; a request is bid on exactly if its weight
lies between those of filler and fissile stream, or top-up is in stock and the weight lies between
those of fissile and top-up stream; there is at most one bid per request; the constraints are the
stocks and the throughput. -/
theorem C78_bids {c : Cfg} (V : Valid c) {s s₁ : State} (h : Reachable c s) {addr : Nat → Nat}
    {a : Asks} (hr : requests c addr s = .ok (a, s₁)) (reqs : String → List NMat)
    (hsol : ∀ m ∈ reqs c.outCommod, Solid m) :
    (c.throughput = 0 ∨ reqs c.outCommod = [] → bids c reqs s₁ = .ok none) ∧
    (0 < c.throughput → reqs c.outCommod ≠ [] → ∃ port, bids c reqs s₁ = .ok (some port) ∧
      s.fill.items.head?.or c.fillRecipe = some port.fill ∧
      port.fiss = (s.fiss.items.head?.or c.fissRecipe).getD port.fill ∧
      port.topup = (s.topup.items.head?.or c.topupRecipe).getD port.fill ∧
      port.fissCap = max (totalQty s.fiss.items) c.near ∧
      port.fillCap = max (totalQty s.fill.items) c.near ∧
      port.topupCap = max (totalQty s.topup.items) c.near ∧ port.cap = c.throughput ∧
      (∀ j m m', (j, m) ∈ port.bids → (j, m') ∈ port.bids → m = m') ∧
      ∀ j, (∃ m, (j, m) ∈ port.bids) ↔ ∃ t, (reqs c.outCommod)[j]? = some t ∧
        ((weight c port.fill ≤ weight c t ∧ weight c t ≤ weight c port.fiss) ∨
          (s.topup.items ≠ [] ∧ weight c port.fiss ≤ weight c t ∧
            weight c t ≤ weight c port.topup))) := by
  have I := reachable_inv V h
  have hsame := requests_same I hr
  have I1 := I.same hsame
  obtain ⟨e1, e2, e3, -, -⟩ := hsame
  refine ⟨?_, ?_⟩
  · rintro (h0 | h0)
    · unfold bids; rw [if_pos h0]
    · unfold bids; split
      · rfl
      · rw [if_pos (by rw [h0]; rfl)]
  · intro ht hne
    obtain ⟨p, hp⟩ := bids_total V I1 reqs
    rcases bids_ok V I1 reqs hp with ⟨-, h0⟩ | ⟨k, bs, hk, K, rfl, hb⟩
    · exfalso
      rcases h0 with h0 | h0
      · linarith
      · exact hne h0
    have hcomp : ∀ (b : Buf NMat) (r : Option NMat), streamComp b r = b.items.head?.or r := by
      intro b r; unfold streamComp; cases b.items <;> rfl
    have hf : streamComp s₁.fill c.fillRecipe = some k.fill ∧
        k.fiss = (streamComp s₁.fiss c.fissRecipe).getD k.fill ∧
        k.topup = (streamComp s₁.topup c.topupRecipe).getD k.fill := by
      simp only [comps, bind_ok] at hk
      obtain ⟨fill, k1, wl, -, wt', -, wf, -, k5⟩ := hk
      simp only [pure_eq_ok, Except.ok.injEq] at k5
      subst k5
      refine ⟨?_, rfl, rfl⟩
      unfold recipe! at k1
      split at k1
      · rename_i hm; rw [hm]; simpa using k1
      · cases k1
    obtain ⟨f1, f2, f3⟩ := hf
    rw [hcomp, e1] at f1
    rw [hcomp, e2] at f2
    rw [hcomp, e3] at f3
    refine ⟨_, hp, f1, f2, f3, by rw [e2]; rfl, by rw [e1]; rfl, by rw [e3]; rfl, rfl, ?_, ?_⟩
    · intro j m m' h1 h2
      obtain ⟨t, a1, a2⟩ := (hb j m).1 h1
      obtain ⟨t', b1, b2⟩ := (hb j m').1 h2
      rw [a1] at b1
      simp only [Option.some.injEq] at b1
      subst b1
      rw [a2] at b2
      simpa using b2
    · intro j
      simp only
      rw [← K.wFill, ← K.wFiss]
      have wf : ∀ t, (reqs c.outCommod)[j]? = some t → wt c t = weight c t :=
        fun t ht => wt_solid V (hsol t (List.mem_of_getElem? ht))
      constructor
      · rintro ⟨m, hm⟩
        obtain ⟨t, a1, a2⟩ := (hb j m).1 hm
        refine ⟨t, a1, ?_⟩
        unfold offerOf at a2
        rw [wf t a1] at a2
        split at a2
        · rename_i hv; exact Or.inl hv
        · split at a2
          · rename_i _ hv
            have hne' : s₁.topup.items ≠ [] := by simpa using hv.1
            rw [← K.wTopup hne']
            rw [e3] at hne'
            exact Or.inr ⟨hne', hv.2⟩
          · cases a2
      · rintro ⟨t, a1, hv⟩
        have : ∃ m, offerOf c k (decide (s₁.topup.items ≠ [])) t = some m := by
          unfold offerOf
          rw [wf t a1]
          split
          · exact ⟨_, rfl⟩
          · rename_i hn
            rcases hv with hv | ⟨hne', hv⟩
            · exact absurd hv hn
            · rw [← e3] at hne'
              rw [← K.wTopup hne'] at hv
              rw [if_pos ⟨by simpa using hne', hv⟩]
              exact ⟨_, rfl⟩
        obtain ⟨m, hm⟩ := this
        exact ⟨m, (hb j m).2 ⟨t, a1, hm⟩⟩

/-- A request for pure uranium-238 is below the weight of the filler: no bid. -/
example : (portOf exCfg [fuel1, ⟨[(922380000, 1)]⟩, fuel2] exState).bids.map Prod.fst = [0, 2] := by
  decide +kernel

/-! ## C79 -/

/-- C79, the part that holds: regular sales within the constraints of the bids deliver fuel whose
weight is that of the request, up to `CY_NEAR_ZERO` times the spread of the streams. Missing: sales
without fissile material in stock. -/
theorem C79_weight_partial {c : Cfg} (V : Valid c) {s s₁ : State} (h : Reachable c s)
    {addr : Nat → Nat} {a : Asks} (hr : requests c addr s = .ok (a, s₁))
    {reqs : String → List NMat} (hsol : ∀ m ∈ reqs c.outCommod, Solid m) {port : Port}
    (hb : bids c reqs s₁ = .ok (some port)) {ts : List Trade}
    (H : HonestSales c (reqs c.outCommod) (some port) ts) (G : Regular c s (some port) ts)
    {l : List NMat} {s₂ : State} (hs : sell c ts s₁ = .ok (l, s₂)) :
    List.Forall₂ (fun t m => |weight c m - weight c t.target| ≤
      c.near * max (weight c port.fiss - weight c port.fill)
        (weight c port.topup - weight c port.fiss)) ts l := by
  obtain ⟨l', s', h1, h2⟩ := C46_delivers_partial V h hr hsol hb H G
  rw [hs] at h1
  simp only [Except.ok.injEq, Prod.mk.injEq] at h1
  obtain ⟨rfl, rfl⟩ := h1
  refine forall₂_mem h2 ?_
  intro t ht m hm
  obtain ⟨port', hp, j, k1, k2, k3, k4⟩ := H.bid t ht
  simp only [Option.some.injEq] at hp
  subst hp
  rw [hm.2.1]
  have hn := V.near
  rcases (C42_offer V h hr hb k1 k2 (hsol _ (List.mem_of_getElem? k2))).2 with hh | hh
  · exact hh.trans (mul_le_mul_of_nonneg_left (le_max_left _ _) (le_of_lt hn))
  · exact hh.trans (mul_le_mul_of_nonneg_left (le_max_right _ _) (le_of_lt hn))

/-- The hypotheses hold of the example, and the two deliveries have the weights asked for. -/
example : Reachable exCfg exState ∧ (∀ m ∈ forFuel [fuel1, fuel2] exCfg.outCommod, Solid m) ∧
    bids exCfg (forFuel [fuel1, fuel2]) exState =
      .ok (some (portOf exCfg [fuel1, fuel2] exState)) ∧
    HonestSales exCfg [fuel1, fuel2] (some (portOf exCfg [fuel1, fuel2] exState)) exTrades ∧
    Regular exCfg exState (some (portOf exCfg [fuel1, fuel2] exState)) exTrades ∧
    (sell exCfg exTrades exState).toOption.map (fun r => r.1.map (weight exCfg)) =
      some [weight exCfg fuel1, weight exCfg fuel2] := by
  refine ⟨exState_reachable, ?_, exPort_ok, exTrades_honest, exTrades_regular, by decide +kernel⟩
  have : ∀ m ∈ forFuel [fuel1, fuel2] exCfg.outCommod,
      0 < qty m ∧ ∀ e ∈ m.entries, 0 ≤ e.2 := by decide +kernel
  exact fun m hm => ⟨(this m hm).1, (this m hm).2⟩

/-- C79 as stated is false: without fissile material in stock the facility sells filler, of weight
1/100, to a buyer who asked for weight 1. -/
theorem C79_counterexample :
    Reachable exCfg noFiss ∧
    bids exCfg (forFuel [puw]) noFiss = .ok (some (portOf exCfg [puw] noFiss)) ∧
    HonestSales exCfg [puw] (some (portOf exCfg [puw] noFiss)) (soleTrade exCfg puw noFiss 10) ∧
    weight exCfg puw = 1 ∧
    (sell exCfg (soleTrade exCfg puw noFiss 10) noFiss).toOption.map
      (fun r => r.1.map fun m => decide (weight exCfg m < 1/100)) = some [true] :=
  ⟨noFiss_reachable, ok_of_toOption (by decide +kernel), sole_honest (by decide +kernel)
    (by norm_num) (by decide +kernel) (by decide +kernel), by decide +kernel, by decide +kernel⟩

/-! ## C80 -/

/-- C80: whatever is traded, a stream never holds more than its size and `eps_rsrc()`. -/
theorem C80_size {c : Cfg} (V : Valid c) {s : State} (h : Reachable c s) :
    totalQty s.fill.items ≤ max 0 c.fillSize + c.eps ∧
    totalQty s.fiss.items ≤ max 0 c.fissSize + c.eps ∧
    totalQty s.topup.items ≤ max 0 c.topupSize + c.eps := reachable_lim V h

/-- A delivery beyond the size is refused. -/
example : (play exCfg [stockUp, ⟨id, fun _ => [], [], [(4, ⟨[(942390000, 41)]⟩)]⟩]).toOption.isSome =
    false := by decide +kernel

/-! ## C81 -/

/-- C81, the part that holds of whole steps: in every reachable state requests and bids are made, and
a step with regular sales within the constraints of the bids and deliveries within the requests does
not fail. Missing: sales that are not regular (`C81_counterexample`). -/
theorem C81_step_partial {c : Cfg} (V : Valid c) {s : State} (h : Reachable c s) (i : In)
    (hsol : ∀ m ∈ i.reqs c.outCommod, Solid m) :
    ∃ a s₁ p, requests c i.addr s = .ok (a, s₁) ∧ bids c i.reqs s₁ = .ok p ∧
      (Distinct a → HonestSales c (i.reqs c.outCommod) p i.sells → Regular c s p i.sells →
        HonestBuys a i.buys → ∃ o s', step c s i = .ok (o, s')) := by
  have I := reachable_inv V h
  obtain ⟨a, s1, hr⟩ : ∃ a s1, requests c i.addr s = .ok (a, s1) := ⟨_, _, requests_ok I⟩
  have I1 := I.same (requests_same I hr)
  obtain ⟨p, hp⟩ := bids_total V I1 i.reqs
  refine ⟨a, s1, p, hr, hp, ?_⟩
  intro hd H G B
  obtain ⟨l, s2, h1, -⟩ := C46_delivers_partial V h hr hsol hp H G
  obtain ⟨wl, wf, wt, h2⟩ := sell_inv h1
  obtain ⟨I2, e, -⟩ := sellLoop_inv V I1 h2
  have hq := sellLoop_le V I1 h2
  obtain ⟨e1, e2, e3, -, -⟩ := requests_same I hr
  rw [e1, e2, e3] at hq
  obtain ⟨s3, h3⟩ := honest_accept V I hr hd I2 e hq B
  exact ⟨⟨a, p, l⟩, s3, by simp only [step, hr, hp, h1, h3, ok_bind, pure_eq_ok]⟩

/-- C81 as stated is false: a sale of fuel with the weight of the filler, within the constraints of
the bid made in the same step, stops the step of a facility that has fissile material in stock. -/
theorem C81_counterexample :
    Reachable exCfg exState ∧
    ∃ i s₁ p, requests exCfg i.addr exState = .ok (asksOf exCfg id exState, s₁) ∧
      Distinct (asksOf exCfg id exState) ∧ (∀ m ∈ i.reqs exCfg.outCommod, Solid m) ∧
      bids exCfg i.reqs s₁ = .ok p ∧ HonestSales exCfg (i.reqs exCfg.outCommod) p i.sells ∧
      i.buys = [] ∧ step exCfg exState i = .error .value := by
  obtain ⟨R, hb, H, -⟩ := C46_counterexample
  have hr := requests_ok (addr := id) (reachable_inv exCfg_valid R)
  refine ⟨R, ⟨id, forFuel [du], soleTrade exCfg du exState 10, []⟩, _, _, hr, ?_, ?_, hb, H, rfl, ?_⟩
  · unfold Distinct; decide +kernel
  · intro m hm
    have e : m = du := by simpa [forFuel, exCfg] using hm
    exact e ▸ du_solid
  · have h : (match step exCfg exState ⟨id, forFuel [du], soleTrade exCfg du exState 10, []⟩ with
      | .error .value => true
      | _ => false) = true := by decide +kernel
    revert h
    cases step exCfg exState ⟨id, forFuel [du], soleTrade exCfg du exState 10, []⟩ with
    | ok r => intro h; cases h
    | error e => cases e <;> intro h <;> first | rfl | cases h

/-- C81: deliveries within the requests are accepted after any sales that succeed. -/
theorem C81_accepts {c : Cfg} (V : Valid c) {s s₁ s₂ : State} (h : Reachable c s)
    {addr : Nat → Nat} {a : Asks} (hr : requests c addr s = .ok (a, s₁)) (hd : Distinct a)
    {ts : List Trade} {l : List NMat} (hs : sell c ts s₁ = .ok (l, s₂))
    {ds : List (Nat × NMat)} (B : HonestBuys a ds) : ∃ s₃, acceptAll c ds s₂ = .ok s₃ := by
  have I := reachable_inv V h
  have hsame := requests_same I hr
  have I1 := I.same hsame
  obtain ⟨wl, wf, wt, h2⟩ := sell_inv hs
  obtain ⟨I2, e, -⟩ := sellLoop_inv V I1 h2
  have hq := sellLoop_le V I1 h2
  obtain ⟨e1, e2, e3, -, -⟩ := hsame
  rw [e1, e2, e3] at hq
  exact honest_accept V I hr hd I2 e hq B

/-- Deliveries that fill all three streams. -/
example : HonestBuys (asksOf exCfg id exState)
    [(1, ⟨[(942390000, 100)]⟩), (2, ⟨[(922380000, 60)]⟩), (3, ⟨[(922380000, 40)]⟩)] := by
  refine ⟨?_, by decide +kernel, by decide +kernel, by decide +kernel, by decide +kernel⟩
  intro d hd
  simp only [List.mem_cons, List.not_mem_nil, or_false] at hd
  rcases hd with rfl | rfl | rfl <;>
    exact ⟨by norm_num [Mat.qty_def], nonneg_of_all (by decide +kernel)⟩

/-! ## C82 -/

/-- C82, the part that holds: a trade for fuel of the weight of the filler is charged to the filler
alone, if the weight of the fissile stream is another one. Missing: a fissile stream whose weight is
unknown or equal. -/
theorem C82_filler_partial {c : Cfg} (V : Valid c) {s s₁ : State} (h : Reachable c s)
    {addr : Nat → Nat} {a : Asks} (hr : requests c addr s = .ok (a, s₁))
    {reqs : String → List NMat} (hsol : ∀ m ∈ reqs c.outCommod, Solid m) {port : Port}
    (hb : bids c reqs s₁ = .ok (some port)) (hw : weight c port.fill < weight c port.fiss)
    {t : Trade} {j : Nat} (h1 : (j, t.offer) ∈ port.bids)
    (h2 : (reqs c.outCommod)[j]? = some t.target) (h3 : 0 < t.amt) (h4 : t.amt ≤ qty t.offer)
    (ht : weight c t.target = weight c port.fill) :
    fissConvert c port (cut t) = .ok 0 ∧ fillConvert c port (cut t) = .ok t.amt ∧
      topupConvert c port (cut t) = .ok 0 := by
  have I := reachable_inv V h
  have I1 := I.same (requests_same I hr)
  have hn := V.near
  rcases bids_ok V I1 reqs hb with ⟨hx, -⟩ | ⟨k, bs, hk, K, hx, hbs⟩
  · cases hx
  simp only [Option.some.injEq] at hx
  subst hx
  obtain ⟨t', j5, j6⟩ := (hbs j t.offer).1 h1
  rw [h2] at j5
  simp only [Option.some.injEq] at j5
  subst j5
  have hs := hsol _ (List.mem_of_getElem? h2)
  obtain ⟨nf, nl, nt, P, htp⟩ := offer_plan V K j6
  obtain ⟨c1, c2, c3, -⟩ := plan_convert V K (bs := bs) (q1 := max s₁.fiss.quantity c.near)
    (q2 := max s₁.fill.quantity c.near) (q3 := max s₁.topup.quantity c.near)
    (q4 := c.throughput) h3 h4 P htp
  simp only at ht hw
  rw [← K.wFill] at ht hw
  rw [← K.wFiss] at hw
  have hwt : wt c t.target = k.wFill := by rw [wt_solid V hs, ht]
  rcases P with ⟨f, v1, v2, hf, -, e1, e2, e3⟩ | ⟨f, v1, -⟩
  · have : f = 0 := by
      rw [hf, hwt]; unfold frac snap
      rw [if_neg (ne_of_lt hw), sub_self, zero_div]
      have he : ¬ 1 < c.near := by have := V.nearHalf; linarith
      simp [hn, he]
    rw [this, atomToMass_nil V K.fiss K.fill] at e1 e2
    rw [zero_mul] at e1
    rw [sub_zero, one_mul] at e2
    rw [e1] at c1
    rw [e2] at c2
    rw [e3] at c3
    exact ⟨c1, c2, c3⟩
  · exact absurd ⟨le_of_eq hwt.symm, by rw [hwt]; exact le_of_lt hw⟩ v1

/-- The hypotheses can be met: the facility knows the recipe of the fissile stream. -/
example : weight knowing (portOf knowing [du] fillOnly).fill <
      weight knowing (portOf knowing [du] fillOnly).fiss ∧
    (portOf knowing [du] fillOnly).bids.map Prod.fst = [0] ∧
    (soleTrade knowing du fillOnly 10).map
      (fun t => (fillConvert knowing (portOf knowing [du] fillOnly) (cut t)).toOption) =
      [some 10] := by
  refine ⟨by decide +kernel, by decide +kernel, by decide +kernel⟩

/-- C82 as stated is false: without fissile and top-up material and without a recipe for the
fissile stream, bids on fuel of the weight of the filler are made, but whatever the stock of filler,
all trades within the constraints of the bids together are at most `CY_NEAR_ZERO`: each is charged
to the fissile stream in full. -/
theorem C82_blocked {c : Cfg} (V : Valid c) {s s₁ : State} (h : Reachable c s)
    {addr : Nat → Nat} {a : Asks} (hr : requests c addr s = .ok (a, s₁))
    {reqs : String → List NMat} {p : Option Port} (hb : bids c reqs s₁ = .ok p)
    (h1 : s.fiss.items = []) (h2 : c.fissRecipe = none) (h3 : s.topup.items = [])
    {ts : List Trade} (H : HonestSales c (reqs c.outCommod) p ts) :
    (ts.map Trade.amt).sum ≤ c.near := by
  have I := reachable_inv V h
  have hsame := requests_same I hr
  have I1 := I.same hsame
  obtain ⟨e1, e2, e3, -, -⟩ := hsame
  rw [← e2] at h1
  rw [← e3] at h3
  have hn := V.near
  by_cases hne : ts = []
  · subst hne; simp; exact le_of_lt hn
  rcases bids_ok V I1 reqs hb with ⟨rfl, -⟩ | ⟨k', bs, hk, K', -, -⟩
  · cases ts with
    | nil => exact absurd rfl hne
    | cons t ts =>
      obtain ⟨port, h, -⟩ := H.bid t (by simp)
      cases h
  have hcomps : ∀ k, comps c s₁ = .ok k → k.fiss = k.fill ∧ k.wFiss = k.wFill := by
    intro k hk
    have hsc : streamComp s₁.fiss c.fissRecipe = none := by unfold streamComp; rw [h1, h2]
    simp only [comps, bind_ok] at hk
    obtain ⟨fill, k1, wl, k2, wt', -, wf, k4, k5⟩ := hk
    simp only [pure_eq_ok, Except.ok.injEq] at k5
    subst k5
    rw [hsc] at k4 ⊢
    simp only [cosiOr, Except.ok.injEq] at k4
    exact ⟨rfl, k4.symm⟩
  rcases bids_ok V I1 reqs hb with ⟨rfl, -⟩ | ⟨k, bs, hk, K, rfl, hbs⟩
  · cases ts with
    | nil => exact absurd rfl hne
    | cons t ts =>
      obtain ⟨port, h, -⟩ := H.bid t (by simp)
      cases h
  obtain ⟨hfc, hfw⟩ := hcomps k hk
  have hplan : ∀ t ∈ ts, ∃ n : ℚ × ℚ × ℚ, fissConvert c ⟨bs, k.fill, k.fiss, k.topup,
      max s₁.fiss.quantity c.near, max s₁.fill.quantity c.near, max s₁.topup.quantity c.near,
      c.throughput⟩ (cut t) = .ok n.1 ∧ n.1 = t.amt := by
    intro t ht
    obtain ⟨port, hport, j, j1, j2, j3, j4⟩ := H.bid t ht
    simp only [Option.some.injEq] at hport
    subst hport
    obtain ⟨t', j5, j6⟩ := (hbs j t.offer).1 j1
    rw [j2] at j5
    simp only [Option.some.injEq] at j5
    subst j5
    obtain ⟨nf, nl, nt, P, htp⟩ := offer_plan V K j6
    obtain ⟨c1, -, -, -⟩ := plan_convert V K (bs := bs) (q1 := max s₁.fiss.quantity c.near)
      (q2 := max s₁.fill.quantity c.near) (q3 := max s₁.topup.quantity c.near)
      (q4 := c.throughput) j3 j4 P htp
    refine ⟨(nf, nl, nt), c1, ?_⟩
    rcases P with ⟨f, v1, v2, hf, -, e, -, -⟩ | ⟨f, v1, -⟩
    · have : f = 1 := by rw [hf, hfw]; unfold frac; rw [if_pos rfl]
      rw [this, atomToMass_one V K.fiss K.fill, one_mul] at e
      exact e
    · exact absurd (htp h3) v1
  obtain ⟨ns, hns⟩ := forall₂_exists hplan
  obtain ⟨vs, u1, u2⟩ := H.fiss _ rfl
  have e := forall₂_fst hns (conv := fun t => fissConvert c _ (cut t)) (g := Prod.fst)
      (fun t n h => h.1) u1
  have hsum : vs.sum = (ts.map Trade.amt).sum := by
    rw [e]
    clear e u1 u2 H hb hplan hne
    induction hns with
    | nil => rfl
    | cons h _ ih => simp only [List.map_cons, List.sum_cons, ih, h.2]
  rw [hsum] at u2
  have hq : s₁.fiss.quantity = 0 := by unfold Buf.quantity; rw [h1, totalQty_nil]
  simp only [hq, max_eq_right (le_of_lt hn)] at u2
  exact u2

/-- C82: the facility holds 400 kg of filler, bids on a request for 10 kg of its weight and could
deliver, but no trade of 1 kg is within the constraints of the bids. -/
theorem C82_counterexample : ∃ s, s = fillOnly ∧ Reachable exCfg s ∧
    bids exCfg (forFuel [du.scale (1/40)]) s =
      .ok (some (portOf exCfg [du.scale (1/40)] s)) ∧
    ((portOf exCfg [du.scale (1/40)] s).bids.map Prod.fst = [0]) ∧
    (sell exCfg (soleTrade exCfg (du.scale (1/40)) s 1) s).toOption.map
      (fun r => r.1.map (weight exCfg)) = some [weight exCfg du] ∧
    ¬ HonestSales exCfg [du.scale (1/40)] (some (portOf exCfg [du.scale (1/40)] s))
      (soleTrade exCfg (du.scale (1/40)) s 1) := by
  have hreach : Reachable exCfg fillOnly := by
    refine reachable_of (is := [⟨id, fun _ => [], [], [(2, du)]⟩]) ?_
      (play_state (by decide +kernel))
    intro i hi d hd
    rw [List.mem_singleton] at hi
    subst hi
    rw [List.mem_singleton] at hd
    subst hd
    exact du_solid
  have hb : bids exCfg (forFuel [du.scale (1/40)]) fillOnly =
      .ok (some (portOf exCfg [du.scale (1/40)] fillOnly)) := ok_of_toOption (by decide +kernel)
  refine ⟨fillOnly, rfl, hreach, hb, by decide +kernel, by decide +kernel, ?_⟩
  intro H
  have I := reachable_inv exCfg_valid hreach
  have hr := requests_ok (addr := id) I
  have hb' : bids exCfg (forFuel [du.scale (1/40)]) { fillOnly with
      reqInv := notes (asksOf exCfg id fillOnly) fillOnly.reqInv } =
      .ok (some (portOf exCfg [du.scale (1/40)] fillOnly)) := hb
  have := C82_blocked exCfg_valid hreach hr hb' rfl rfl rfl (ts := soleTrade exCfg (du.scale (1/40))
    fillOnly 1) H
  revert this
  norm_num [soleTrade, exCfg]

/-! ## C83 -/

/-- C83: deployment succeeds exactly if each list of preferences is empty or has one entry per
commodity, and starts with empty streams. -/
theorem C83_enter (c : Cfg) :
    ((∃ s, enter c = .ok s) ↔
      (c.fissPrefs = [] ∨ c.fissPrefs.length = c.fissCommods.length) ∧
      (c.fillPrefs = [] ∨ c.fillPrefs.length = c.fillCommods.length)) ∧
    ∀ s, enter c = .ok s → contents s = [] := by
  refine ⟨?_, fun s h => (enter_inv h).2.1⟩
  have key : ∀ (ks : List String) (ps : List ℚ), (∃ x, initPrefs ks ps = .ok x) ↔
      (ps = [] ∨ ps.length = ks.length) := by
    intro ks ps
    unfold initPrefs
    split
    · exact ⟨fun _ => Or.inl (by assumption), fun _ => ⟨_, rfl⟩⟩
    · rename_i h0
      split
      · rename_i hl
        constructor
        · rintro ⟨x, hx⟩; cases hx
        · rintro (h | h)
          · exact absurd h h0
          · exact absurd h hl
      · rename_i hl
        push Not at hl
        exact ⟨fun _ => Or.inr hl, fun _ => ⟨_, rfl⟩⟩
  rw [← key, ← key]
  constructor
  · rintro ⟨s, h⟩
    simp only [enter, bind_ok] at h
    obtain ⟨p1, h1, p2, h2, -⟩ := h
    exact ⟨⟨p1, h1⟩, ⟨p2, h2⟩⟩
  · rintro ⟨⟨p1, h1⟩, ⟨p2, h2⟩⟩
    exact ⟨_, by simp only [enter, h1, h2, ok_bind, pure_eq_ok]; rfl⟩

example : (enter exCfg).toOption.isSome = true ∧
    (enter { exCfg with fissPrefs := [2] }).toOption.isSome = false := by decide +kernel

end Cyc.FuelFab
