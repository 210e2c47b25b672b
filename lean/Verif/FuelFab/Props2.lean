import Verif.FuelFab.Props1
import Verif.FuelFab.Lemmas7

/-!
# Fuel fabrication: properties C44, C45 and C46

Sales, in any reachable state.
-/

namespace Cyc.FuelFab

open Mat (massOf)

/-! ## An example history -/

/-- Deploy and run. -/
def play (c : Cfg) (is : List In) : R (List Out × State) := do
  let s ← enter c
  run c s is

theorem ok_of_toOption {α : Type} {x : R α} {a : α} (h : x.toOption = some a) : x = .ok a := by
  cases x with
  | error e => simp [Except.toOption] at h
  | ok b => simp only [Except.toOption, Option.some.injEq] at h; rw [h]

theorem history_of_play {c : Cfg} {is : List In} {os : List Out} {s : State}
    (h : play c is = .ok (os, s)) : History c is os s := by
  simp only [play, bind_ok] at h
  exact h

/-- A step in which all three streams are delivered. -/
def stockUp : In := ⟨id, fun _ => [], [], [(0, pu), (2, du), (4, puw)]⟩

/-- The state after it. -/
def exState : State :=
  ⟨⟨some 500, [du]⟩, ⟨some 300, [pu]⟩, ⟨some 50, [puw]⟩, [1, 1], [2, 3], []⟩

theorem reachable_of {c : Cfg} {is : List In} {s : State} (hs : Substantial is)
    (h : ∃ os, play c is = .ok (os, s)) : Reachable c s := by
  obtain ⟨os, h⟩ := h
  exact ⟨is, os, hs, history_of_play h⟩

theorem play_state {c : Cfg} {is : List In} {s : State}
    (h : (play c is).toOption.map Prod.snd = some s) : ∃ os, play c is = .ok (os, s) := by
  cases hp : play c is with
  | error e => rw [hp] at h; simp [Except.toOption] at h
  | ok r =>
    rw [hp] at h
    simp only [Except.toOption, Option.map_some, Option.some.injEq] at h
    exact ⟨r.1, by rw [← h]⟩

theorem exState_reachable : Reachable exCfg exState := by
  refine reachable_of (is := [stockUp]) ?_ ?_
  · intro i hi d hd
    rw [List.mem_singleton] at hi
    subst hi
    simp only [stockUp, List.mem_cons, List.not_mem_nil, or_false] at hd
    rcases hd with rfl | rfl | rfl
    exacts [pu_solid, du_solid, puw_solid]
  · exact play_state (by decide +kernel)

/-- A request for fuel within reach of filler and fissile material, and one that needs top-up. -/
def fuel1 : NMat := ⟨[(922380000, 45), (942390000, 5)]⟩

/-- See `fuel1`. -/
def fuel2 : NMat := ⟨[(922380000, 5), (942390000, 5)]⟩

/-- Requests for fuel. -/
def forFuel (l : List NMat) : String → List NMat := fun k => if k = "fuel" then l else []

/-- The bid portfolio in a state. -/
def portOf (c : Cfg) (l : List NMat) (s : State) : Port :=
  match bids c (forFuel l) s with
  | .ok (some p) => p
  | _ => ⟨[], ⟨[]⟩, ⟨[]⟩, ⟨[]⟩, 0, 0, 0, 0⟩

/-- The offer on a request. -/
def offerAt (p : Port) (j : Nat) : NMat := (p.bids.lookup j).getD ⟨[]⟩

/-- Both requests are traded, the first in part. -/
def exTrades : List Trade :=
  [⟨fuel1, offerAt (portOf exCfg [fuel1, fuel2] exState) 0, 30⟩,
    ⟨fuel2, offerAt (portOf exCfg [fuel1, fuel2] exState) 1, 10⟩]

/-- The value of a computation that returns. -/
def val (x : R ℚ) : ℚ := x.toOption.getD 0

theorem val_ok {x : R ℚ} (h : x.toOption.isSome = true) : x = .ok (val x) := by
  cases x with
  | error e => cases h
  | ok a => rfl

theorem mem_lookup {l : List (Nat × NMat)} {j : Nat} (h : (l.lookup j).isSome = true) :
    (j, (l.lookup j).getD ⟨[]⟩) ∈ l := by
  induction l with
  | nil => cases h
  | cons x l ih =>
    rw [List.lookup_cons] at h ⊢
    split
    · rename_i hj
      have : x = (j, x.2) := by rw [beq_iff_eq] at hj; rw [hj]
      rw [Option.getD_some, ← this]; simp
    · rename_i hj
      rw [hj] at h
      exact List.mem_cons_of_mem _ (ih h)

theorem exPort_ok : bids exCfg (forFuel [fuel1, fuel2]) exState =
    .ok (some (portOf exCfg [fuel1, fuel2] exState)) := ok_of_toOption (by decide +kernel)

theorem exTrades_honest : HonestSales exCfg [fuel1, fuel2]
    (some (portOf exCfg [fuel1, fuel2] exState)) exTrades := by
  have w : ∀ {conv : NMat → R ℚ} {cap : ℚ},
      (conv (cut (exTrades[0]'(by decide)))).toOption.isSome = true →
      (conv (cut (exTrades[1]'(by decide)))).toOption.isSome = true →
      val (conv (cut (exTrades[0]'(by decide)))) + val (conv (cut (exTrades[1]'(by decide)))) ≤ cap →
      Within conv exTrades cap := by
    intro conv cap h1 h2 h3
    refine ⟨[_, _], .cons (val_ok h1) (.cons (val_ok h2) .nil), ?_⟩
    rw [List.sum_cons, List.sum_cons, List.sum_nil, add_zero]
    exact h3
  refine ⟨?_, ?_, ?_, ?_, ?_⟩
  · intro t ht
    simp only [exTrades, List.mem_cons, List.not_mem_nil, or_false] at ht
    rcases ht with rfl | rfl
    · exact ⟨_, rfl, 0, mem_lookup (by decide +kernel), rfl, by norm_num, by decide +kernel⟩
    · exact ⟨_, rfl, 1, mem_lookup (by decide +kernel), rfl, by norm_num, by decide +kernel⟩
  · intro port h
    simp only [Option.some.injEq] at h
    subst h
    exact w (by decide +kernel) (by decide +kernel) (by decide +kernel)
  · intro port h
    simp only [Option.some.injEq] at h
    subst h
    exact w (by decide +kernel) (by decide +kernel) (by decide +kernel)
  · intro port h
    simp only [Option.some.injEq] at h
    subst h
    exact w (by decide +kernel) (by decide +kernel) (by decide +kernel)
  · intro port h
    simp only [Option.some.injEq] at h
    subst h
    decide +kernel

/-- The sales of the example: quantities, and the weights of what is delivered. -/
example : (sell exCfg exTrades exState).toOption.map (fun r => r.1.map qty) = some [30, 10] ∧
    (sell exCfg exTrades exState).toOption.map (fun r => r.1.map (weight exCfg)) =
      some [weight exCfg fuel1, weight exCfg fuel2] := by decide +kernel

/-! ## C44 -/

/-- C44: whatever is traded, what leaves the streams is what is delivered, nuclide by nuclide. -/
theorem C44_conserved {c : Cfg} (V : Valid c) {s s₁ s₂ : State} (h : Reachable c s)
    {addr : Nat → Nat} {a : Asks} (hr : requests c addr s = .ok (a, s₁)) {ts : List Trade}
    {l : List NMat} (hs : sell c ts s₁ = .ok (l, s₂)) (n : Nat) :
    massOf (contents s) n = massOf l n + massOf (contents s₂) n := by
  have I := reachable_inv V h
  have hsame := requests_same I hr
  obtain ⟨wl, wf, wt, hs⟩ := sell_inv hs
  rw [← contents_same hsame]
  exact (sellLoop_inv V (I.same hsame) hs).2.2.1 n

/-- C44: whatever is traded, each trade is answered with at most the traded amount and at most twice
`eps_rsrc()` less. -/
theorem C44_amounts {c : Cfg} (V : Valid c) {s s₁ s₂ : State} (h : Reachable c s)
    {addr : Nat → Nat} {a : Asks} (hr : requests c addr s = .ok (a, s₁)) {ts : List Trade}
    {l : List NMat} (hs : sell c ts s₁ = .ok (l, s₂)) :
    List.Forall₂ (fun t m => Solid m ∧ qty m ≤ t.amt ∧ t.amt - 2 * c.eps ≤ qty m) ts l := by
  have I := reachable_inv V h
  obtain ⟨wl, wf, wt, hs⟩ := sell_inv hs
  exact (sellLoop_inv V (I.same (requests_same I hr)) hs).2.2.2.1

/-- C44, the part that holds exactly: if each stream is empty or holds at least what is traded in
the step, then each trade is answered with the traded amount, and the streams are reduced by the sum.
Missing: stocks that are short by less than `eps_rsrc()`. -/
theorem C44_exact_partial {c : Cfg} (V : Valid c) {s s₁ s₂ : State} (h : Reachable c s)
    {addr : Nat → Nat} {a : Asks} (hr : requests c addr s = .ok (a, s₁)) {ts : List Trade}
    (h0 : ∀ t ∈ ts, 0 ≤ t.amt)
    (hq : ∀ b ∈ [s.fill, s.fiss, s.topup], b.items = [] ∨
      (ts.map Trade.amt).sum ≤ totalQty b.items)
    {l : List NMat} (hs : sell c ts s₁ = .ok (l, s₂)) :
    List.Forall₂ (fun t m => qty m = t.amt) ts l ∧
      totalQty (contents s₂) = totalQty (contents s) - (ts.map Trade.amt).sum := by
  have I := reachable_inv V h
  have hsame := requests_same I hr
  obtain ⟨wl, wf, wt, hs⟩ := sell_inv hs
  rw [← contents_same hsame]
  obtain ⟨e1, e2, e3, -, -⟩ := hsame
  refine sellLoop_exact V (I.same (requests_same I hr)) hs h0 ?_ ?_ ?_
  · rw [e1]; exact hq _ (by simp)
  · rw [e2]; exact hq _ (by simp)
  · rw [e3]; exact hq _ (by simp)

/-- In the example all streams hold what is traded or are not needed. -/
example : ∀ b ∈ [exState.fill, exState.fiss], b.items = [] ∨
    (exTrades.map Trade.amt).sum ≤ totalQty b.items := by decide +kernel

/-- A state with fissile material and a negligible amount of filler. -/
def scant : NMat := ⟨[(922380000, 1/400000000)]⟩

/-- See `scant`. -/
def scantState : State :=
  ⟨⟨some 500, [scant]⟩, ⟨some 300, [pu]⟩, ⟨some 50, []⟩, [1, 1], [2, 3], []⟩

/-- The request: 2/10⁸ kg, less than a quarter of it filler. -/
def scantFuel : NMat := ⟨[(922380000, 3/200000000), (942390000, 1/200000000)]⟩

theorem scantState_reachable : Reachable exCfg scantState := by
  refine reachable_of (is := [⟨id, fun _ => [], [], [(0, pu), (2, scant)]⟩]) ?_
    (play_state (by decide +kernel))
  intro i hi d hd
  rw [List.mem_singleton] at hi
  subst hi
  simp only [List.mem_cons, List.not_mem_nil, or_false] at hd
  rcases hd with rfl | rfl
  · exact pu_solid
  · exact ⟨by norm_num [scant, Mat.qty_def], nonneg_of_all (by decide +kernel)⟩

/-- C44 as stated is false: a trade within the constraints of the bids is answered with less than
the traded amount, because the constraint on a stream with less than `CY_NEAR_ZERO` in stock is
`CY_NEAR_ZERO`. -/
theorem C44_counterexample :
    ∃ (s s₁ : State) (ts : List Trade) (l : List NMat), Reachable exCfg s ∧
      HonestSales exCfg [scantFuel] (some (portOf exCfg [scantFuel] s)) ts ∧
      bids exCfg (forFuel [scantFuel]) s = .ok (some (portOf exCfg [scantFuel] s)) ∧
      sell exCfg ts s = .ok (l, s₁) ∧ ts.map Trade.amt ≠ l.map qty := by
  obtain ⟨s, hs⟩ : ∃ s, s = scantState := ⟨_, rfl⟩
  let t : Trade := ⟨scantFuel, offerAt (portOf exCfg [scantFuel] scantState) 0, 2/100000000⟩
  have hw : ∀ {conv : NMat → R ℚ} {cap : ℚ}, (conv (cut t)).toOption.isSome = true →
      val (conv (cut t)) ≤ cap → Within conv [t] cap := by
    intro conv cap h1 h3
    exact ⟨[_], .cons (val_ok h1) .nil, by simpa using h3⟩
  have hl : (sell exCfg [t] scantState).toOption.map (fun r => r.1.map qty) ≠
      some [2/100000000] ∧ (sell exCfg [t] scantState).toOption.isSome = true := by decide +kernel
  cases hr : sell exCfg [t] scantState with
  | error e => rw [hr] at hl; exact absurd hl.2 (by simp [Except.toOption])
  | ok r =>
    rw [hr] at hl
    refine ⟨s, r.2, [t], r.1, by rw [hs]; exact scantState_reachable, ?_, ?_, by rw [hs]; exact hr, ?_⟩
    · rw [hs]
      refine ⟨?_, ?_, ?_, ?_, ?_⟩
      · intro t' ht
        rw [List.mem_singleton] at ht
        subst ht
        exact ⟨_, rfl, 0, mem_lookup (by decide +kernel), rfl, by decide +kernel,
          by decide +kernel⟩
      · intro port h
        simp only [Option.some.injEq] at h
        subst h
        exact hw (by decide +kernel) (by decide +kernel)
      · intro port h
        simp only [Option.some.injEq] at h
        subst h
        exact hw (by decide +kernel) (by decide +kernel)
      · intro port h
        simp only [Option.some.injEq] at h
        subst h
        exact hw (by decide +kernel) (by decide +kernel)
      · intro port h
        simp only [Option.some.injEq] at h
        subst h
        decide +kernel
    · rw [hs]; exact ok_of_toOption (by decide +kernel)
    · intro h
      apply hl.1
      simp only [Except.toOption, Option.map_some, ← h]
      rfl

/-! ## C45 -/

/-- C45: whatever is traded, one step delivers at most `throughput` and `eps_rsrc()`. -/
theorem C45_limit {c : Cfg} (V : Valid c) {s s' : State} (h : Reachable c s) {i : In} {o : Out}
    (hs : step c s i = .ok (o, s')) : totalQty o.sold ≤ c.throughput + c.eps := by
  have I := reachable_inv V h
  obtain ⟨s1, s2, h1, -, h3, -⟩ := step_inv hs
  obtain ⟨wl, wf, wt, h3⟩ := sell_inv h3
  obtain ⟨-, -, -, h4, h5⟩ := sellLoop_inv V (I.same (requests_same I h1)) h3
  have hle : totalQty o.sold ≤ (i.sells.map Trade.amt).sum := by
    clear h5 h3
    generalize o.sold = l at h4
    generalize i.sells = ts at h4
    induction h4 with
    | nil => simp
    | cons h _ ih => simp only [totalQty_cons, List.map_cons, List.sum_cons]; linarith [h.2.1]
  by_cases hts : i.sells = []
  · rw [hts] at hle
    have := V.throughput
    have := V.eps
    simp at hle; linarith
  · have := h5 hts; linarith

/-- C45: trades within the constraint of the bids deliver at most `throughput`. -/
theorem C45_honest {c : Cfg} (V : Valid c) {s s' : State} (h : Reachable c s) {i : In} {o : Out}
    (hs : step c s i = .ok (o, s')) (hh : HonestSales c (i.reqs c.outCommod) o.port i.sells) :
    totalQty o.sold ≤ c.throughput := by
  have I := reachable_inv V h
  obtain ⟨s1, s2, h1, h2, h3, -⟩ := step_inv hs
  obtain ⟨wl, wf, wt, h3⟩ := sell_inv h3
  have I1 := I.same (requests_same I h1)
  obtain ⟨-, -, -, h4, -⟩ := sellLoop_inv V I1 h3
  have hle : totalQty o.sold ≤ (i.sells.map Trade.amt).sum := by
    clear h3 hh
    generalize o.sold = l at h4
    generalize i.sells = ts at h4
    induction h4 with
    | nil => simp
    | cons h _ ih => simp only [totalQty_cons, List.map_cons, List.sum_cons]; linarith [h.2.1]
  by_cases hts : i.sells = []
  · rw [hts] at hle; simp at hle; exact hle.trans V.throughput
  · obtain ⟨k, port, -, hp, -, -, -, -, -, -, e7, -⟩ := honest_plan V I1 h2 hh hts
    have := hh.cap port hp
    rw [e7] at this
    exact hle.trans this

/-- C45: trades beyond the throughput are refused. -/
theorem C45_refuses {c : Cfg} (V : Valid c) {s : State} {ts : List Trade}
    (h : c.throughput + c.eps < (ts.map Trade.amt).sum) : ¬ ∃ r, sell c ts s = .ok r := by
  rintro ⟨⟨l, s'⟩, hs⟩
  obtain ⟨wl, wf, wt, hs⟩ := sell_inv hs
  have key : ∀ {ts : List Trade} {tot : ℚ} {s : State} {l : List NMat},
      sellLoop c wl wf wt tot ts s = .ok (l, s') → ts ≠ [] →
      tot + (ts.map Trade.amt).sum ≤ c.throughput + c.eps := by
    intro ts
    induction ts with
    | nil => intro _ _ _ _ h; exact absurd rfl h
    | cons t ts ih =>
      intro tot s l h _
      simp only [sellLoop] at h
      split at h
      · cases h
      · rename_i hle
        simp only [bind_ok] at h
        obtain ⟨⟨m, s1⟩, -, ⟨l', s2⟩, h2, h3⟩ := h
        simp only [pure_eq_ok, Except.ok.injEq, Prod.mk.injEq] at h3
        obtain ⟨rfl, rfl⟩ := h3
        simp only [List.map_cons, List.sum_cons]
        by_cases hts : ts = []
        · subst hts; simp; linarith
        · have := ih h2 hts; linarith
  have hne : ts ≠ [] := by
    rintro rfl
    have := V.throughput
    have := V.eps
    simp at h; linarith
  have := key hs hne
  linarith

/-- The example sells 40 kg with a throughput of 100 kg; with 61 kg more it throws. -/
example : exCfg.throughput = 100 ∧
    (sell exCfg exTrades exState).toOption.map (fun r => totalQty r.1) = some 40 ∧
    exCfg.throughput + exCfg.eps < ((exTrades ++ [(⟨fuel2, fuel2, 61⟩ : Trade)]).map Trade.amt).sum ∧
    (sell exCfg (exTrades ++ [⟨fuel2, fuel2, 61⟩]) exState).toOption.isSome = false := by
  decide +kernel

/-! ## C46 -/

/-- Regular sales are carried out, and what is left follows from what they take. -/
theorem sales_ok {c : Cfg} (V : Valid c) {s s₁ : State} (h : Reachable c s)
    {addr : Nat → Nat} {a : Asks} (hr : requests c addr s = .ok (a, s₁))
    {reqs : String → List NMat} (hsol : ∀ m ∈ reqs c.outCommod, Solid m) {p : Option Port}
    (hb : bids c reqs s₁ = .ok p) {ts : List Trade}
    (H : HonestSales c (reqs c.outCommod) p ts) (G : Regular c s p ts) :
    ∃ l s₂, sell c ts s₁ = .ok (l, s₂) ∧ List.Forall₂ (Delivered c) ts l ∧
      (ts ≠ [] → ∃ port, p = some port ∧ Holds s₂ port.fiss port.fill port.topup
        (s₁.fiss.quantity - taken (fissConvert c port) ts)
        (s₁.fill.quantity - taken (fillConvert c port) ts)
        (s₁.topup.quantity - taken (topupConvert c port) ts)) := by
  have I := reachable_inv V h
  have hsame := requests_same I hr
  obtain ⟨e1, e2, e3, -, -⟩ := id hsame
  refine sell_ok V (I.same hsame) hb H ?_ ?_ ?_ ?_
  · rw [e2]; exact G.fissStock
  · rw [e1]; exact G.fillStock
  · rw [e3]; exact G.topupStock
  · intro port hp t ht nf nl nt N
    obtain ⟨f0, f1⟩ := G.fiss port hp t ht nf N.fiss
    refine ⟨f0, f1, G.fill port hp t ht nl N.fill, G.topup port hp t ht nt N.topup, ?_⟩
    obtain ⟨port', -, j, -, h2, -⟩ := H.bid t ht
    rw [wt_solid V (hsol t.target (List.mem_of_getElem? h2))]
    exact G.beyond port hp t ht nt N.topup

/-- C46, the part that holds: with fissile and filler material in stock, trades within the
constraints of the bids that all take some fissile material are carried out, and each buyer receives
the traded amount of what the bid offered. Missing: trades that take no fissile material
(`C46_counterexample`); stocks of less than `CY_NEAR_ZERO` (`C44_counterexample`); for a missing
stream see `C46_filler` and `C46_fissile`. -/
theorem C46_delivers_partial {c : Cfg} (V : Valid c) {s s₁ : State} (h : Reachable c s)
    {addr : Nat → Nat} {a : Asks} (hr : requests c addr s = .ok (a, s₁))
    {reqs : String → List NMat} (hsol : ∀ m ∈ reqs c.outCommod, Solid m) {p : Option Port}
    (hb : bids c reqs s₁ = .ok p) {ts : List Trade}
    (H : HonestSales c (reqs c.outCommod) p ts) (G : Regular c s p ts) :
    ∃ l s₂, sell c ts s₁ = .ok (l, s₂) ∧ List.Forall₂ (Delivered c) ts l := by
  obtain ⟨l, s₂, h1, h2, -⟩ := sales_ok V h hr hsol hb H G
  exact ⟨l, s₂, h1, h2⟩

/-- The example trades are regular. -/
theorem exTrades_regular : Regular exCfg exState (some (portOf exCfg [fuel1, fuel2] exState)) exTrades := by
  have g : ∀ {conv : NMat → R ℚ} {P : ℚ → Prop} {t : Trade},
      (conv (cut t)).toOption.isSome = true → P (val (conv (cut t))) →
      ∀ v, conv (cut t) = .ok v → P v := by
    intro conv P t h1 h2 v hv
    have := hv.symm.trans (val_ok h1)
    simp only [Except.ok.injEq] at this
    rw [this]; exact h2
  have m : ∀ {Q : Trade → Prop}, Q (exTrades[0]'(by decide)) → Q (exTrades[1]'(by decide)) →
      ∀ t ∈ exTrades, Q t := by
    intro Q h1 h2 t ht
    simp only [exTrades, List.mem_cons, List.not_mem_nil, or_false] at ht
    rcases ht with rfl | rfl
    exacts [h1, h2]
  refine ⟨by decide +kernel, by decide +kernel, Or.inr (by decide +kernel), ?_, ?_, ?_, ?_⟩
  all_goals
    intro port h
    simp only [Option.some.injEq] at h
    subst h
  · exact m (g (P := fun v => 0 < v ∧ exCfg.lo ≤ v) (by decide +kernel) (by decide +kernel))
      (g (P := fun v => 0 < v ∧ exCfg.lo ≤ v) (by decide +kernel) (by decide +kernel))
  · exact m (g (P := fun v => v = 0 ∨ exCfg.lo ≤ v) (by decide +kernel) (by decide +kernel))
      (g (P := fun v => v = 0 ∨ exCfg.lo ≤ v) (by decide +kernel) (by decide +kernel))
  · exact m (g (P := fun v => v = 0 ∨ exCfg.lo ≤ v) (by decide +kernel) (by decide +kernel))
      (g (P := fun v => v = 0 ∨ exCfg.lo ≤ v) (by decide +kernel) (by decide +kernel))
  · exact m (fun v _ => Or.inl (by decide +kernel))
      (g (P := fun v => _ ∨ 0 < v) (by decide +kernel) (Or.inr (by decide +kernel)))

/-- C46 with no fissile material in stock: trades within the constraints of the bids that need
neither fissile nor top-up material are carried out with filler. -/
theorem C46_filler {c : Cfg} (V : Valid c) {s s₁ : State} (h : Reachable c s)
    {addr : Nat → Nat} {a : Asks} (hr : requests c addr s = .ok (a, s₁))
    {reqs : String → List NMat} {p : Option Port} (hb : bids c reqs s₁ = .ok p) {ts : List Trade}
    (H : HonestSales c (reqs c.outCommod) p ts) (hfiss : s.fiss.items = [])
    (hfill : c.near ≤ totalQty s.fill.items) (hlo : ∀ t ∈ ts, c.lo ≤ t.amt)
    (hn : ∀ port, p = some port → ∀ t ∈ ts, fissConvert c port (cut t) = .ok 0 ∧
      topupConvert c port (cut t) = .ok 0) :
    ∃ l s₂, sell c ts s₁ = .ok (l, s₂) ∧ List.Forall₂ (Delivered c) ts l := by
  have I := reachable_inv V h
  have hsame := requests_same I hr
  have I1 := I.same hsame
  obtain ⟨e1, e2, e3, -, -⟩ := id hsame
  rw [← e2] at hfiss
  rw [← e1] at hfill
  have hnear := V.near
  obtain ⟨w1, k1⟩ := stockWeight_ok V s₁.fill
  obtain ⟨w2, k2⟩ := stockWeight_ok V s₁.topup
  obtain ⟨w3, k3⟩ := stockWeight_ok V s₁.fiss
  by_cases hne : ts = []
  · subst hne
    exact ⟨[], s₁, by simp only [sell, k1, k2, k3, ok_bind, sellLoop], .nil⟩
  obtain ⟨k, port, K, hp, f1, f2, f3, f4, f5, f6, f7, hts⟩ := honest_plan V I1 hb H hne
  have hfillq : c.near ≤ s₁.fill.quantity := hfill
  have g2 : s₁.fill.items = [k.fill] := K.fillStock (quantity_pos_iff (by linarith))
  have hplan : ∀ t ∈ ts, ∃ n : ℚ × ℚ × ℚ, Delivered c t (ofComp t.amt k.fill) ∧
      fillConvert c port (cut t) = .ok n.2.1 ∧ n.2.1 = t.amt := by
    intro t ht
    obtain ⟨a1, a2, nf, nl, nt, P, -, N, -⟩ := hts t ht
    obtain ⟨m1, m2⟩ := hn port hp t ht
    have z1 : nf = 0 := by have := N.fiss; rw [m1] at this; simpa using this.symm
    have z2 : nt = 0 := by have := N.topup; rw [m2] at this; simpa using this.symm
    have := P.amount
    exact ⟨(nf, nl, nt), plan_filler V K.fiss K.fill K.topup P a1 a2 z1 z2, N.fill, by
      simp only; linarith⟩
  obtain ⟨ns, hns⟩ := forall₂_exists hplan
  obtain ⟨vs, u1, u2⟩ := H.fill port hp
  have hsum : vs.sum = (ts.map Trade.amt).sum := by
    have e := forall₂_fst hns (conv := fun t => fillConvert c port (cut t)) (g := fun n => n.2.1)
      (fun t n h => h.2.1) u1
    rw [e]
    clear e u1 u2 H hlo hn hb hts hplan hne
    induction hns with
    | nil => rfl
    | cons h _ ih => simp only [List.map_cons, List.sum_cons, ih, h.2.2]
  rw [hsum, f5, max_eq_left hfillq] at u2
  have hcap := H.cap port hp
  rw [f7] at hcap
  obtain ⟨l, s2, r1, r2⟩ := sellLoop_filler V K.fill (a := w1) (b := w3) (d := w2) hfiss
    (stock_of_items K.fill (Or.inr g2)) (fun t ht => ⟨(hts t ht).1, hlo t ht⟩) u2 (tot := 0)
    (by have := V.eps; linarith)
  refine ⟨l, s2, by simp only [sell, k1, k2, k3, ok_bind, r1], ?_⟩
  refine forall₂_mem r2 ?_
  rintro t ht m rfl
  exact (hplan t ht).choose_spec.1

/-- C46 with neither filler nor top-up material in stock: trades within the constraints of the bids
that need no filler are carried out with fissile material, unless the weight of the request is
negative. -/
theorem C46_fissile {c : Cfg} (V : Valid c) {s s₁ : State} (h : Reachable c s)
    {addr : Nat → Nat} {a : Asks} (hr : requests c addr s = .ok (a, s₁))
    {reqs : String → List NMat} (hsol : ∀ m ∈ reqs c.outCommod, Solid m) {p : Option Port}
    (hb : bids c reqs s₁ = .ok p) {ts : List Trade}
    (H : HonestSales c (reqs c.outCommod) p ts) (hfill : s.fill.items = [])
    (htopup : s.topup.items = []) (hfiss : c.near ≤ totalQty s.fiss.items)
    (hlo : ∀ t ∈ ts, c.lo ≤ t.amt ∧ 0 ≤ weight c t.target)
    (hn : ∀ port, p = some port → ∀ t ∈ ts, fillConvert c port (cut t) = .ok 0) :
    ∃ l s₂, sell c ts s₁ = .ok (l, s₂) ∧ List.Forall₂ (Delivered c) ts l := by
  have I := reachable_inv V h
  have hsame := requests_same I hr
  have I1 := I.same hsame
  obtain ⟨e1, e2, e3, -, -⟩ := id hsame
  rw [← e2] at hfiss
  rw [← e1] at hfill
  rw [← e3] at htopup
  have hnear := V.near
  have k1 : stockWeight c s₁.fill = .ok 0 := by unfold stockWeight; rw [hfill]
  have k2 : stockWeight c s₁.topup = .ok 0 := by unfold stockWeight; rw [htopup]
  by_cases hne : ts = []
  · subst hne
    obtain ⟨w3, k3⟩ := stockWeight_ok V s₁.fiss
    exact ⟨[], s₁, by simp only [sell, k1, k2, k3, ok_bind, sellLoop], .nil⟩
  obtain ⟨k, port, K, hp, f1, f2, f3, f4, f5, f6, f7, hts⟩ := honest_plan V I1 hb H hne
  have hfissq : c.near ≤ s₁.fiss.quantity := hfiss
  have g2 : s₁.fiss.items = [k.fiss] := K.fissStock (quantity_pos_iff (by linarith))
  have k3 := stockWeight_one V K.fiss g2
  rw [← K.wFiss] at k3
  have hplan : ∀ t ∈ ts, ∃ n : ℚ × ℚ × ℚ, Delivered c t (ofComp t.amt k.fiss) ∧
      fissConvert c port (cut t) = .ok n.1 ∧ n.1 = t.amt ∧ wt c t.target ≤ k.wFiss := by
    intro t ht
    obtain ⟨a1, a2, nf, nl, nt, P, htp, N, -⟩ := hts t ht
    have m1 := hn port hp t ht
    have z1 : nl = 0 := by have := N.fill; rw [m1] at this; simpa using this.symm
    have hv := htp htopup
    have z2 : nt = 0 := by
      rcases P with ⟨f, -, -, -, -, -, -, h0⟩ | ⟨f, h0, -⟩
      · exact h0
      · exact absurd hv h0
    have := P.amount
    exact ⟨(nf, nl, nt), plan_fissile V K.fiss K.fill K.topup P a1 a2 z1 z2, N.fiss, by
      simp only; linarith, hv.2⟩
  obtain ⟨ns, hns⟩ := forall₂_exists hplan
  obtain ⟨vs, u1, u2⟩ := H.fiss port hp
  have hsum : vs.sum = (ts.map Trade.amt).sum := by
    have e := forall₂_fst hns (conv := fun t => fissConvert c port (cut t)) (g := Prod.fst)
      (fun t n h => h.2.1) u1
    rw [e]
    clear e u1 u2 H hlo hn hb hts hplan hne
    induction hns with
    | nil => rfl
    | cons h _ ih => simp only [List.map_cons, List.sum_cons, ih, h.2.2.1]
  rw [hsum, f4, max_eq_left hfissq] at u2
  have hcap := H.cap port hp
  rw [f7] at hcap
  have hw : ∀ t ∈ ts, 0 ≤ wt c t.target := by
    intro t ht
    obtain ⟨port', -, j, -, h2, -⟩ := H.bid t ht
    rw [wt_solid V (hsol t.target (List.mem_of_getElem? h2))]
    exact (hlo t ht).2
  obtain ⟨l, s2, r1, r2⟩ := sellLoop_fissile V K.fiss (b := k.wFiss) (d := 0) hfill
    (stock_of_items K.fiss (Or.inr g2))
    (fun t ht => ⟨(hts t ht).1, (hlo t ht).1, hw t ht, (hplan t ht).choose_spec.2.2.2⟩) u2
    (tot := 0) (by have := V.eps; linarith)
  refine ⟨l, s2, by simp only [sell, k1, k2, k3, ok_bind, r1], ?_⟩
  refine forall₂_mem r2 ?_
  rintro t ht m rfl
  exact (hplan t ht).choose_spec.1

/-- One trade, for the whole of the offer on the only request. -/
def soleTrade (c : Cfg) (m : NMat) (s : State) (q : ℚ) : List Trade :=
  [⟨m, offerAt (portOf c [m] s) 0, q⟩]

theorem sole_honest {c : Cfg} {m : NMat} {s : State} {q : ℚ}
    (h1 : ((portOf c [m] s).bids.lookup 0).isSome = true) (h2 : 0 < q)
    (h3 : q ≤ qty (offerAt (portOf c [m] s) 0))
    (h4 : ∀ t ∈ soleTrade c m s q,
      (fissConvert c (portOf c [m] s) (cut t)).toOption.isSome = true ∧
      (fillConvert c (portOf c [m] s) (cut t)).toOption.isSome = true ∧
      (topupConvert c (portOf c [m] s) (cut t)).toOption.isSome = true ∧
      val (fissConvert c (portOf c [m] s) (cut t)) ≤ (portOf c [m] s).fissCap ∧
      val (fillConvert c (portOf c [m] s) (cut t)) ≤ (portOf c [m] s).fillCap ∧
      val (topupConvert c (portOf c [m] s) (cut t)) ≤ (portOf c [m] s).topupCap ∧
      q ≤ (portOf c [m] s).cap) :
    HonestSales c [m] (some (portOf c [m] s)) (soleTrade c m s q) := by
  obtain ⟨a1, a2, a3, a4, a5, a6, a7⟩ := h4 _ (List.mem_singleton.2 rfl)
  refine ⟨?_, ?_, ?_, ?_, ?_⟩
  · intro t ht
    rw [soleTrade, List.mem_singleton] at ht
    subst ht
    exact ⟨_, rfl, 0, mem_lookup h1, rfl, h2, h3⟩
  · intro port h
    simp only [Option.some.injEq] at h
    subst h
    exact ⟨[_], .cons (val_ok a1) .nil, by simpa using a4⟩
  · intro port h
    simp only [Option.some.injEq] at h
    subst h
    exact ⟨[_], .cons (val_ok a2) .nil, by simpa using a5⟩
  · intro port h
    simp only [Option.some.injEq] at h
    subst h
    exact ⟨[_], .cons (val_ok a3) .nil, by simpa using a6⟩
  · intro port h
    simp only [Option.some.injEq] at h
    subst h
    simpa [soleTrade] using a7

/-- A facility that knows the recipe of its fissile stream. -/
def knowing : Cfg := { exCfg with fissRecipe := some pu }

/-- Filler only, and fissile material only. -/
def fillOnly : State :=
  ⟨⟨some 500, [du]⟩, ⟨some 300, []⟩, ⟨some 50, []⟩, [1, 1], [2, 3], []⟩

/-- See `fillOnly`. -/
def fissOnly : State :=
  ⟨⟨some 500, []⟩, ⟨some 300, [pu]⟩, ⟨some 50, []⟩, [1, 1], [2, 3], []⟩

/-- `C46_filler`: a request for fuel of the weight of the filler. -/
example : HonestSales knowing [du] (some (portOf knowing [du] fillOnly))
      (soleTrade knowing du fillOnly 10) ∧
    knowing.near ≤ totalQty fillOnly.fill.items ∧
    (∀ t ∈ soleTrade knowing du fillOnly 10,
      (fissConvert knowing (portOf knowing [du] fillOnly) (cut t)).toOption = some 0 ∧
      (topupConvert knowing (portOf knowing [du] fillOnly) (cut t)).toOption = some 0) ∧
    (sell knowing (soleTrade knowing du fillOnly 10) fillOnly).toOption.map
      (fun r => r.1.map qty) = some [10] :=
  ⟨sole_honest (by decide +kernel) (by norm_num) (by decide +kernel) (by decide +kernel),
    by decide +kernel, by decide +kernel, by decide +kernel⟩

/-- `C46_fissile`: a request for fuel of the weight of the fissile stream. -/
example : HonestSales exCfg [pu] (some (portOf exCfg [pu] fissOnly))
      (soleTrade exCfg pu fissOnly 10) ∧
    exCfg.near ≤ totalQty fissOnly.fiss.items ∧
    (∀ t ∈ soleTrade exCfg pu fissOnly 10, 0 ≤ weight exCfg t.target ∧
      (fillConvert exCfg (portOf exCfg [pu] fissOnly) (cut t)).toOption = some 0) ∧
    (sell exCfg (soleTrade exCfg pu fissOnly 10) fissOnly).toOption.map
      (fun r => r.1.map qty) = some [10] :=
  ⟨sole_honest (by decide +kernel) (by norm_num) (by decide +kernel) (by decide +kernel),
    by decide +kernel, by decide +kernel, by decide +kernel⟩

/-- C46 as stated is false: a trade for fuel with the weight of the filler is within the constraints
of the bids, but with fissile material in stock the facility tries to remove nothing of it, which
throws. -/
theorem C46_counterexample :
    Reachable exCfg exState ∧
    bids exCfg (forFuel [du]) exState = .ok (some (portOf exCfg [du] exState)) ∧
    HonestSales exCfg [du] (some (portOf exCfg [du] exState)) (soleTrade exCfg du exState 10) ∧
    sell exCfg (soleTrade exCfg du exState 10) exState = .error .value := by
  refine ⟨exState_reachable, ok_of_toOption (by decide +kernel), sole_honest (by decide +kernel)
    (by norm_num) (by decide +kernel) (by decide +kernel), ?_⟩
  have h : (match sell exCfg (soleTrade exCfg du exState 10) exState with
    | .error .value => true
    | _ => false) = true := by decide +kernel
  revert h
  cases sell exCfg (soleTrade exCfg du exState 10) exState with
  | ok r => intro h; cases h
  | error e => cases e <;> intro h <;> first | rfl | cases h

/-- The state after deliveries of filler and top-up material only. -/
def noFiss : State :=
  ⟨⟨some 500, [du]⟩, ⟨some 300, []⟩, ⟨some 50, [puw]⟩, [1, 1], [2, 3], []⟩

theorem noFiss_reachable : Reachable exCfg noFiss := by
  refine reachable_of (is := [⟨id, fun _ => [], [], [(2, du), (4, puw)]⟩]) ?_
    (play_state (by decide +kernel))
  intro i hi d hd
  rw [List.mem_singleton] at hi
  subst hi
  simp only [List.mem_cons, List.not_mem_nil, or_false] at hd
  rcases hd with rfl | rfl
  · exact du_solid
  · exact puw_solid

/-- C46 as stated is false: without fissile material in stock, a bid on a request for top-up
material is answered with filler, although the constraints are respected. -/
theorem C46_filler_counterexample :
    Reachable exCfg noFiss ∧
    bids exCfg (forFuel [puw]) noFiss = .ok (some (portOf exCfg [puw] noFiss)) ∧
    HonestSales exCfg [puw] (some (portOf exCfg [puw] noFiss)) (soleTrade exCfg puw noFiss 10) ∧
    (sell exCfg (soleTrade exCfg puw noFiss 10) noFiss).toOption.map
      (fun r => r.1.map fun m => m.mass 942390000) = some [0] := by
  exact ⟨noFiss_reachable, ok_of_toOption (by decide +kernel), sole_honest (by decide +kernel)
    (by norm_num) (by decide +kernel) (by decide +kernel), by decide +kernel⟩

end Cyc.FuelFab
