import Verif.Separations.Props3
import Mathlib.Algebra.Order.Archimedean.Basic

/-!
# Separations: what is offered, and crumbs that never are (C151)
-/

namespace Cyc.Separations

/-- The material of the bids in a portfolio that answer the request at position `j`. -/
def offeredTo (p : Portfolio) (j : Nat) : List NMat := (p.bids.filter fun b => b.1 = j).map Prod.snd

/-- The items of a list that are at most `ε`. -/
def crumbs (ε : ℚ) (l : List NMat) : List NMat := l.filter fun m => qty m ≤ ε

theorem totalQty_split (ε : ℚ) (l : List NMat) :
    totalQty l = totalQty (l.filter fun m => ε < qty m) + totalQty (crumbs ε l) := by
  unfold crumbs
  induction l with
  | nil => simp
  | cons m l ih =>
    by_cases h : ε < qty m
    · simp [h, not_le.2 h, ih]; ring
    · simp [h, not_lt.1 h, ih]; ring

/-- Taking a prefix drops no more than there is. -/
theorem crumbs_take_le {ε : ℚ} {l : List NMat} (hl : ∀ m ∈ l, 0 ≤ qty m) (k : Nat) :
    totalQty (crumbs ε (l.take k)) ≤ totalQty (crumbs ε l) := by
  have : totalQty (crumbs ε l) = totalQty (crumbs ε (l.take k)) + totalQty (crumbs ε (l.drop k)) := by
    rw [← totalQty_append]
    unfold crumbs
    rw [← List.filter_append, List.take_append_drop]
  rw [this]
  have h0 : ∀ l' : List NMat, (∀ m ∈ l', 0 ≤ qty m) → 0 ≤ totalQty l' := by
    intro l' h
    induction l' with
    | nil => simp
    | cons m l' ih =>
      have := h m (List.mem_cons_self ..)
      have := ih fun m hm => h m (List.mem_cons_of_mem _ hm)
      simp only [totalQty_cons]; linarith
  have := h0 (crumbs ε (l.drop k)) fun m hm => hl m (List.mem_of_mem_drop (List.mem_filter.1 hm).1)
  linarith

/-- C151, in part: what is offered to a request, together with the crumbs in the inventory (items
of at most `eps`), covers the request or else the whole inventory. So a request that exceeds the
crumbs is offered something by an inventory that exceeds them, and an inventory without crumbs
offers all it has or all that is asked for. Missing: the same without the crumbs, which is false
(`C151_crumbs_counterexample`, `C151_hidden_counterexample`). -/
theorem C151_offered_partial {c : Cfg} (V : Valid c) {is : List In} {os : List Out} {s : State}
    (h : History c is os s) (hs : Substantial is) {r : Option TickRec} {s₁ : State}
    (ht : tick c s = .ok (r, s₁)) (reqs : String → List ℚ) {k : String}
    (hk : k = c.leftoverCommod ∨ k ∈ c.streams.map Prod.fst)
    (he : c.eps ≤ totalQty (stock c s₁ k)) (h0 : 0 < totalQty (stock c s₁ k))
    {j : Nat} (hj : j < (reqs k).length) :
    ∃ p ∈ bids c s₁ reqs, p.commod = k ∧
      min ((reqs k).getD j 0) (totalQty (stock c s₁ k)) ≤
        totalQty (offeredTo p j) + totalQty (crumbs c.eps (stock c s₁ k)) := by
  have I := tick_inv V (history_inv V h hs) ht
  obtain ⟨H1, H2⟩ := C72_bids V h hs ht reqs
  obtain ⟨p, hp, rfl⟩ := H2 k hk (by intro e; rw [e] at hj; simp at hj) he h0
  obtain ⟨-, -, -, -, h5⟩ := H1 p hp
  obtain ⟨n, e1, e2, -⟩ := h5 j hj
  refine ⟨p, hp, rfl, ?_⟩
  have hnn : ∀ m ∈ stock c s₁ p.commod, 0 ≤ qty m := by
    intro m hm
    refine Mat.Nonneg.qty_nonneg ?_
    unfold stock at hm
    split at hm
    · exact I.leftNN m hm
    · exact I.bufNN _ m hm
  have hle := crumbs_take_le (ε := c.eps) hnn n
  have hsp := totalQty_split c.eps ((stock c s₁ p.commod).take n)
  rw [show offeredTo p j = _ from e1]
  rcases e2 with e2 | e2
  · refine (min_le_right _ _).trans ?_
    rw [← e2] at hsp ⊢
    exact hsp.le
  · refine (min_le_left _ _).trans ?_
    linarith

/-! ### An inventory of crumbs -/

/-- A facility that separates all plutonium, with unlimited inventories. -/
def exCrumbs : Cfg where
  feedCommods := ["spent"]
  feedPrefs := []
  feedbufSize := 20
  throughput := 6
  leftoverCommod := "waste"
  leftoverCap := none
  streams := [("pu", ⟨-1, [(942390000, 1)]⟩)]
  enterTime := 0
  exitTime := none
  eps := 1/1000000
  lo := 0

/-- One kilogram of uranium with a tenth of `eps` of plutonium. -/
def lean : NMat := ⟨[(922380000, 1), (942390000, 1/10000000)]⟩

/-- In every step somebody wants a kilogram of plutonium, and the facility is given what it asked
for, in part. -/
def exLean : In := ⟨fun k => if k = "pu" then [1] else [], [], [lean]⟩

/-- The plutonium of one delivery. -/
def crumb : NMat := ⟨[(942390000, 1/10000000)]⟩

/-- The rest of one delivery. -/
def rest : NMat := ⟨[(922380000, 1), (942390000, 0)]⟩

/-- The states of the facility: the last delivery is not processed, `n + 1` others are. -/
def leanState (n : Nat) : State where
  time := n + 2
  feed := ⟨some 20, [lean]⟩
  leftover := ⟨none, List.replicate (n + 1) rest⟩
  bufs := [("pu", ⟨none, List.replicate (n + 1) crumb⟩)]
  prefs := [1]

theorem lean_tick (t : Nat) (L P : List NMat) :
    ∃ r, tick exCrumbs ⟨t, ⟨some 20, [lean]⟩, ⟨none, L⟩, [("pu", ⟨none, P⟩)], [1]⟩ =
      .ok (some r, ⟨t, ⟨some 20, []⟩, ⟨none, L ++ [rest]⟩, [("pu", ⟨none, P ++ [crumb]⟩)], [1]⟩) := by
  have h1 : (⟨some 20, [lean]⟩ : Buf NMat).popEps exCrumbs.lo exCrumbs.eps
      (min exCrumbs.throughput (⟨some 20, [lean]⟩ : Buf NMat).quantity) = .ok (lean, ⟨some 20, []⟩) := by
    decide +kernel
  have h2 : stage lean exCrumbs.streams [("pu", ⟨none, P⟩)] 1 =
      ([("pu", crumb)], [("pu", ⟨none, P⟩)], 1) := by
    have : sepMaterial [(942390000, 1)] lean = crumb := by decide +kernel
    simp [stage, exCrumbs, this, getBuf, Map.getD, Map.get?, Map.set, Buf.space, limitFrac]
  have h3 : checkStaged [("pu", crumb)] = .ok () := by decide +kernel
  have h4 : Mat.extractComp (10000000⁻¹ : ℚ) crumb lean = .ok (crumb, rest) := by decide +kernel
  have h5 : qty crumb = 1 / 10000000 := by decide +kernel
  have h6 : qty lean = 1 + 1 / 10000000 := by decide +kernel
  have h7 : qty rest = 1 := by decide +kernel
  refine ⟨⟨1 + 1 / 10000000, [⟨"pu", some (1 / 10000000), totalQty (P ++ [crumb])⟩],
    totalQty (L ++ [rest])⟩, ?_⟩
  · unfold tick
    simp only [Buf.count, List.length_singleton, one_ne_zero, if_false, h1, ok_bind, h2, h3, sepLoop,
      sepOne, h5, h6]
    rw [if_pos (by norm_num), if_neg (by norm_num)]
    simp [h4, ok_bind, getBuf, Map.getD, Map.get?, Map.set, Buf.push, Buf.fits, Buf.space, finish,
      pushLeftover, h7, Buf.quantity]

/-- The facility after processing the last delivery. -/
def leanMid (n : Nat) : State where
  time := n + 1
  feed := ⟨some 20, []⟩
  leftover := ⟨none, List.replicate (n + 1) rest⟩
  bufs := [("pu", ⟨none, List.replicate (n + 1) crumb⟩)]
  prefs := [1]

theorem leanState_tick (n : Nat) : ∃ r, tick exCrumbs (leanState n) = .ok (some r, leanMid (n + 1)) := by
  obtain ⟨r, h⟩ := lean_tick (n + 2) (List.replicate (n + 1) rest) (List.replicate (n + 1) crumb)
  refine ⟨r, ?_⟩
  rw [← List.replicate_succ', ← List.replicate_succ'] at h
  exact h

theorem leanMid_requests (n : Nat) : requests exCrumbs (leanMid n) =
    .ok (("spent", 20), some ⟨20, [("spent", 1)]⟩) := by
  have e : requests exCrumbs (leanMid n) = requests exCrumbs
      { leanMid n with leftover := ⟨none, []⟩, bufs := [] } := rfl
  have e2 : requests exCrumbs { leanMid n with leftover := ⟨none, []⟩, bufs := [] } =
    requests exCrumbs { leanMid 0 with leftover := ⟨none, []⟩, bufs := [] } := rfl
  rw [e, e2]
  decide +kernel

theorem bidLoop_crumbs (t : ℚ) (n : Nat) (tot : ℚ) :
    bidLoop exCrumbs.eps t 0 (List.replicate n crumb) tot = [] := by
  have h : ¬ qty crumb > exCrumbs.eps := by decide +kernel
  induction n generalizing tot with
  | zero => rfl
  | succ n ih =>
    simp only [List.replicate_succ, bidLoop, if_neg h, List.nil_append, ih]
    split <;> rfl

theorem leanMid_bids (n : Nat) :
    ∀ p ∈ bids exCrumbs (leanMid n) exLean.reqs, p.bids = [] := by
  intro p hp
  simp only [bids, leanMid, List.flatMap_cons, List.flatMap_nil, List.append_nil, List.mem_append] at hp
  have hl : exLean.reqs exCrumbs.leftoverCommod = [] := by decide
  have hq : exLean.reqs "pu" = [1] := by decide +kernel
  rcases hp with hp | hp
  · obtain ⟨-, -, -, -, h⟩ := mem_bidsFor hp
    rw [h, hq]
    simp only [List.length_singleton, List.range_one, List.flatMap_cons, List.flatMap_nil,
      List.append_nil]
    exact bidLoop_crumbs _ _ _
  · rw [hl] at hp
    simp [bidsFor] at hp

theorem leanMid_reinsert (n : Nat) : reinsert exCrumbs (leanMid n) exLean.reqs = .ok () := by
  have hl : exLean.reqs exCrumbs.leftoverCommod = [] := by decide
  simp only [reinsert, leanMid, reinsertAll, reinsertOne, hl]
  split <;> simp [Buf.pushAll, Buf.fits, Buf.space]

theorem leanState_step (n : Nat) : ∃ o, step exCrumbs (leanState n) exLean = .ok (o, leanState (n + 1)) ∧
    ∀ p ∈ o.bids, p.bids = [] := by
  obtain ⟨r, h⟩ := leanState_tick n
  have ha : exLean.buys.foldlM (accept exCrumbs) (leanMid (n + 1)) =
      .ok { leanMid (n + 1) with feed := ⟨some 20, [lean]⟩ } := by
    have : (⟨some 20, []⟩ : Buf NMat).push exCrumbs.eps lean = .ok ⟨some 20, [lean]⟩ := by
      decide +kernel
    simp [exLean, accept, leanMid, this]
  refine ⟨⟨n + 2, some r, ("spent", 20), some ⟨20, [("spent", 1)]⟩,
    bids exCrumbs (leanMid (n + 1)) exLean.reqs, [],
    mayRetire { leanMid (n + 1) with feed := ⟨some 20, [lean]⟩ }⟩, ?_, leanMid_bids (n + 1)⟩
  unfold step
  simp only [h, ok_bind, leanMid_requests, leanMid_reinsert]
  rw [show exLean.sells = [] from rfl]
  simp only [sellLoop, ok_bind, ha]
  rfl

theorem exLean_honest {s : State} {d : String × ℚ} (h : requests exCrumbs s = .ok (d, some ⟨20, [("spent", 1)]⟩)) :
    Honest exCrumbs s exLean := by
  constructor
  · intro m hm
    rw [show exLean.buys = [lean] from rfl, List.mem_singleton] at hm
    subst hm
    refine ⟨by decide +kernel, ?_⟩
    intro e he
    simp only [lean, List.mem_cons, List.not_mem_nil, or_false] at he
    rcases he with rfl | rfl <;> norm_num
  · intro d' rq h'
    rw [h] at h'
    simp only [Except.ok.injEq, Prod.mk.injEq] at h'
    obtain ⟨-, rfl⟩ := h'
    decide +kernel
  · intro t ht; cases ht
  · intro p hp
    have key : 0 ≤ p.cap := by
      have he : (0 : ℚ) ≤ exCrumbs.eps := by decide +kernel
      have : ∀ k b r, p ∈ bidsFor exCrumbs.eps k b r → 0 ≤ p.cap := by
        intro k b r h
        obtain ⟨-, h2, -, h4, -⟩ := mem_bidsFor h
        rw [h2]; exact he.trans (not_lt.1 h4)
      unfold bids at hp
      rcases List.mem_append.1 hp with hp | hp
      · obtain ⟨b, -, hp⟩ := List.mem_flatMap.1 hp
        exact this _ _ _ hp
      · exact this _ _ _ hp
    rw [show exLean.sells = [] from rfl]
    exact key

theorem leanState_honest (n m : Nat) : HonestRun exCrumbs (leanState n) (List.replicate m exLean) := by
  induction m generalizing n with
  | zero => trivial
  | succ m ih =>
    obtain ⟨r, h⟩ := leanState_tick n
    obtain ⟨o, h', -⟩ := leanState_step n
    refine ⟨fun r' s₁ ht => ?_, fun o' s' hs => ?_⟩
    · rw [h] at ht
      simp only [Except.ok.injEq, Prod.mk.injEq] at ht
      obtain ⟨-, rfl⟩ := ht
      exact exLean_honest (leanMid_requests _)
    · rw [h'] at hs
      simp only [Except.ok.injEq, Prod.mk.injEq] at hs
      obtain ⟨-, rfl⟩ := hs
      exact ih _

theorem leanState_run (n m : Nat) :
    ∃ os, run exCrumbs (leanState n) (List.replicate m exLean) = .ok (os, leanState (n + m)) ∧
      ∀ o ∈ os, ∀ p ∈ o.bids, p.bids = [] := by
  induction m generalizing n with
  | zero => exact ⟨[], rfl, by simp⟩
  | succ m ih =>
    obtain ⟨o, h, hb⟩ := leanState_step n
    obtain ⟨os, h', hb'⟩ := ih (n + 1)
    refine ⟨o :: os, ?_, ?_⟩
    · simp only [List.replicate_succ, run, h, ok_bind, h', pure_eq_ok]
      rw [show n + 1 + m = n + (m + 1) by omega]
    · intro o' ho
      rcases List.mem_cons.1 ho with rfl | ho
      · exact hb
      · exact hb' o' ho

theorem exCrumbs_valid : Valid exCrumbs where
  names := by decide
  leftover := by decide
  effs := by
    intro s hs e he
    simp only [exCrumbs, List.mem_singleton] at hs
    subst hs
    simp only [List.mem_singleton] at he
    subst he; norm_num
  share := by
    intro n
    simp only [share, exCrumbs, List.map_cons, List.map_nil, List.sum_cons, List.sum_nil, add_zero,
      fraction, entry, List.find?]
    have h2 : 942390000 ≠ element n := by unfold element; omega
    by_cases h1 : 942390000 = n <;> simp [h1, h2]
  throughput := by decide +kernel
  lo := by decide +kernel
  eps := by decide +kernel
  feedbuf := by decide +kernel

/-- The facility when it enters. -/
def lean₀ : State := ⟨0, ⟨some 20, []⟩, ⟨none, []⟩, [], [1]⟩

/-- The facility after the first delivery. -/
def lean₁ : State := ⟨1, ⟨some 20, [lean]⟩, ⟨none, []⟩, [], [1]⟩

theorem lean₁_tick : ∃ r, tick exCrumbs lean₁ = .ok (some r, leanMid 0) := by
  obtain ⟨r, h⟩ := lean_tick 1 [] []
  refine ⟨r, ?_⟩
  have : stage lean exCrumbs.streams [] 1 = stage lean exCrumbs.streams [("pu", ⟨none, []⟩)] 1 := by
    rfl
  have e : tick exCrumbs lean₁ =
      tick exCrumbs ⟨1, ⟨some 20, [lean]⟩, ⟨none, []⟩, [("pu", ⟨none, []⟩)], [1]⟩ := by
    have h1 : (⟨some 20, [lean]⟩ : Buf NMat).popEps exCrumbs.lo exCrumbs.eps
        (min exCrumbs.throughput (⟨some 20, [lean]⟩ : Buf NMat).quantity) =
          .ok (lean, ⟨some 20, []⟩) := by
      decide +kernel
    unfold tick lean₁
    simp only [Buf.count, List.length_singleton, one_ne_zero, if_false, h1, ok_bind, this]
  rw [e, h]; rfl

theorem lean₀_requests : requests exCrumbs lean₀ =
    .ok (("spent", 20), some ⟨20, [("spent", 1)]⟩) := by
  decide +kernel

theorem lean_accept (s : State) (h : s.feed = ⟨some 20, []⟩) :
    exLean.buys.foldlM (accept exCrumbs) s = .ok { s with feed := ⟨some 20, [lean]⟩ } := by
  have : (⟨some 20, []⟩ : Buf NMat).push exCrumbs.eps lean = .ok ⟨some 20, [lean]⟩ := by
    decide +kernel
  simp [exLean, accept, h, this]

theorem lean₀_step : ∃ o, step exCrumbs lean₀ exLean = .ok (o, lean₁) ∧ ∀ p ∈ o.bids, p.bids = [] := by
  have ht : tick exCrumbs lean₀ = .ok (none, lean₀) := rfl
  have hr : reinsert exCrumbs lean₀ exLean.reqs = .ok () := rfl
  have hl : exLean.reqs exCrumbs.leftoverCommod = [] := by decide
  have hb : bids exCrumbs lean₀ exLean.reqs = [] := by
    simp [bids, lean₀, bidsFor, hl]
  refine ⟨⟨0, none, ("spent", 20), some ⟨20, [("spent", 1)]⟩, [], [],
    mayRetire { lean₀ with feed := ⟨some 20, [lean]⟩ }⟩, ?_, by simp⟩
  unfold step
  simp only [ht, ok_bind, lean₀_requests, hr, hb]
  rw [show exLean.sells = [] from rfl]
  simp only [sellLoop, ok_bind, lean_accept lean₀ rfl]
  rfl

theorem lean₁_step : ∃ o, step exCrumbs lean₁ exLean = .ok (o, leanState 0) ∧
    ∀ p ∈ o.bids, p.bids = [] := by
  obtain ⟨r, h⟩ := lean₁_tick
  refine ⟨⟨1, some r, ("spent", 20), some ⟨20, [("spent", 1)]⟩,
    bids exCrumbs (leanMid 0) exLean.reqs, [],
    mayRetire { leanMid 0 with feed := ⟨some 20, [lean]⟩ }⟩, ?_, leanMid_bids 0⟩
  unfold step
  simp only [h, ok_bind, leanMid_requests, leanMid_reinsert]
  rw [show exLean.sells = [] from rfl]
  simp only [sellLoop, ok_bind, lean_accept (leanMid 0) rfl]
  rfl

/-- The full claim is false. For every amount there is a history of a facility with sensible input
in an honest market, in every step of which somebody asks for a kilogram of a product, after which
the facility holds that amount of the product, and yet in no step did it make any bid. -/
theorem C151_counterexample (Q : ℚ) : Valid exCrumbs ∧ ∃ s₀ is os s,
    enter exCrumbs = .ok s₀ ∧ run exCrumbs s₀ is = .ok (os, s) ∧ HonestRun exCrumbs s₀ is ∧
    Substantial is ∧ (∀ i ∈ is, i.reqs "pu" = [1]) ∧ Q ≤ totalQty (stock exCrumbs s "pu") ∧
    ∀ o ∈ os, ∀ p ∈ o.bids, p.bids = [] := by
  refine ⟨exCrumbs_valid, ?_⟩
  obtain ⟨n, hn⟩ := exists_nat_ge (Q * 10000000)
  obtain ⟨o0, h0, b0⟩ := lean₀_step
  obtain ⟨o1, h1, b1⟩ := lean₁_step
  obtain ⟨os, h2, b2⟩ := leanState_run 0 n
  obtain ⟨r, t1⟩ := lean₁_tick
  rw [Nat.zero_add] at h2
  have hmem : ∀ i ∈ exLean :: exLean :: List.replicate n exLean, i = exLean := by
    intro i hi
    simp only [List.mem_cons, List.mem_replicate] at hi
    tauto
  refine ⟨lean₀, exLean :: exLean :: List.replicate n exLean, o0 :: o1 :: os, leanState n, ?_, ?_, ?_,
    ?_, ?_, ?_, ?_⟩
  · have : (efficiencies exCrumbs.streams).any (fun e => decide (e.2 > 1)) = false := by decide +kernel
    unfold enter
    rw [this]; rfl
  · simp only [run, h0, h1, h2, ok_bind, pure_eq_ok]
  · refine ⟨fun r' s' ht => ?_, fun o' s' hs => ?_⟩
    · have ht' : tick exCrumbs lean₀ = .ok (none, lean₀) := rfl
      rw [ht'] at ht
      simp only [Except.ok.injEq, Prod.mk.injEq] at ht
      obtain ⟨-, rfl⟩ := ht
      exact exLean_honest lean₀_requests
    · rw [h0] at hs
      simp only [Except.ok.injEq, Prod.mk.injEq] at hs
      obtain ⟨-, rfl⟩ := hs
      refine ⟨fun r' s' ht => ?_, fun o' s' hs => ?_⟩
      · rw [t1] at ht
        simp only [Except.ok.injEq, Prod.mk.injEq] at ht
        obtain ⟨-, rfl⟩ := ht
        exact exLean_honest (leanMid_requests 0)
      · rw [h1] at hs
        simp only [Except.ok.injEq, Prod.mk.injEq] at hs
        obtain ⟨-, rfl⟩ := hs
        exact leanState_honest 0 n
  · intro i hi
    rw [hmem i hi]
    exact (exLean_honest lean₀_requests).buys
  · intro i hi
    rw [hmem i hi]; decide +kernel
  · have e : stock exCrumbs (leanState n) "pu" = List.replicate (n + 1) crumb := by
      simp [stock, leanState, getBuf, Map.getD, Map.get?, exCrumbs]
    have hq : qty crumb = 1 / 10000000 := by decide +kernel
    rw [e, totalQty_const (q := 1 / 10000000) (by
      intro m hm; rw [(List.mem_replicate.1 hm).2, hq])]
    simp only [List.length_replicate]
    push_cast
    linarith
  · intro o ho
    rcases List.mem_cons.1 ho with rfl | ho
    · exact b0
    · rcases List.mem_cons.1 ho with rfl | ho
      · exact b1
      · exact b2 o ho

set_option synthInstance.maxSize 1000 in
/-- With plenty of plutonium the same facility offers what it has: the hypotheses of
`C151_offered_partial` are met, and nothing is crumbs. -/
example : ((play exCrumbs [⟨fun _ => [], [], [⟨[(922380000, 4), (942390000, 2)]⟩]⟩]).toOption.bind
    fun r => (tick exCrumbs r.2).toOption.map fun x =>
      (totalQty (stock exCrumbs x.2 "pu"), totalQty (crumbs exCrumbs.eps (stock exCrumbs x.2 "pu")),
        (bids exCrumbs x.2 fun _ => [1, 5]).map fun p =>
          (p.commod, totalQty (offeredTo p 0), totalQty (offeredTo p 1)))) =
    some (2, 0, [("pu", 2, 2), ("waste", 4, 4)]) := by
  decide +kernel

end Cyc.Separations
