import Mathlib.Data.Rat.Floor
import Verif.Source.Lemmas

/-!
# Properties of `Source`: C56-C58, C92-C96
-/

namespace Cyc.Source

/-! ## Packages -/

/-- Material that is not packaged. -/
def loose (q : ℚ) : List ℚ := [q]

/-- A package of between `a` and `b` kg, filled as far as possible, one after the other. -/
def fillFirst (a b q : ℚ) : List ℚ :=
  List.replicate ⌊q / b⌋.toNat b ++
    if a ≤ q - ⌊q / b⌋.toNat * b then [q - ⌊q / b⌋.toNat * b] else []

/-- A package of between `a` and `b` kg, filled equally. -/
def fillEqual (a b q : ℚ) : List ℚ :=
  if ⌈q / b⌉.toNat * a ≤ q then List.replicate ⌈q / b⌉.toNat (q / ⌈q / b⌉.toNat)
  else List.replicate ⌊q / b⌋.toNat b

theorem loose_packing : Packing loose where
  pos q h p hp := by
    simp only [loose, List.mem_singleton] at hp
    rw [hp]; exact h
  sum q _ := by simp [loose]
  whole _ _ _ _ := rfl
  part _ _ _ _ _ _ _ := Or.inl rfl

theorem fillFirst_small {a b q : ℚ} (ha : 0 < a) (hab : a ≤ b) (h0 : 0 < q) (hq : q ≤ b) :
    fillFirst a b q = if a ≤ q then [q] else [] := by
  have hb : 0 < b := lt_of_lt_of_le ha hab
  unfold fillFirst
  rcases eq_or_lt_of_le hq with rfl | h
  · rw [div_self (ne_of_gt hb)]
    have : ¬ a ≤ q - ((⌊(1 : ℚ)⌋.toNat : ℕ) : ℚ) * q := by simp; linarith
    rw [if_neg this, if_pos hab]
    simp
  · have : ⌊q / b⌋ = 0 := by
      rw [Int.floor_eq_zero_iff]
      exact ⟨by positivity, by rw [div_lt_one hb]; exact h⟩
    rw [this]
    simp

theorem floor_mul_le {q b : ℚ} (h0 : 0 < q) (hb : 0 < b) :
    (⌊q / b⌋.toNat : ℚ) * b ≤ q ∧ q < (⌊q / b⌋.toNat : ℚ) * b + b := by
  have h1 : 0 ≤ ⌊q / b⌋ := Int.floor_nonneg.2 (by positivity)
  have h2 : ((⌊q / b⌋.toNat : ℕ) : ℚ) = ((⌊q / b⌋ : ℤ) : ℚ) := by
    have : ((⌊q / b⌋.toNat : ℕ) : ℤ) = ⌊q / b⌋ := Int.toNat_of_nonneg h1
    exact_mod_cast this
  have h3 := Int.floor_le (q / b)
  have h4 := Int.lt_floor_add_one (q / b)
  rw [h2]
  rw [le_div_iff₀ hb] at h3
  rw [div_lt_iff₀ hb] at h4
  constructor <;> linarith

theorem fillFirst_mem {a b q p : ℚ} (ha : 0 < a) (hab : a ≤ b) (h0 : 0 < q)
    (hp : p ∈ fillFirst a b q) : a ≤ p ∧ p ≤ b := by
  have hb : 0 < b := lt_of_lt_of_le ha hab
  obtain ⟨h1, h2⟩ := floor_mul_le h0 hb
  unfold fillFirst at hp
  rcases List.mem_append.1 hp with hp | hp
  · rw [List.eq_of_mem_replicate hp]; exact ⟨hab, le_refl _⟩
  · split at hp
    · rename_i h
      simp only [List.mem_singleton] at hp
      rw [hp]
      exact ⟨h, by linarith⟩
    · cases hp

/-- Packages filled one after the other are packages. -/
theorem fillFirst_packing {a b : ℚ} (ha : 0 < a) (hab : a ≤ b) : Packing (fillFirst a b) where
  pos q h p hp := lt_of_lt_of_le ha (fillFirst_mem ha hab h hp).1
  sum q h := by
    obtain ⟨h1, h2⟩ := floor_mul_le h (lt_of_lt_of_le ha hab)
    unfold fillFirst
    split
    · simp
    · simpa using h1
  whole q h p hp := by
    obtain ⟨h1, h2⟩ := fillFirst_mem ha hab h hp
    rw [fillFirst_small ha hab (lt_of_lt_of_le ha h1) h2, if_pos h1]
  part q h p hp x hx hxp := by
    obtain ⟨h1, h2⟩ := fillFirst_mem ha hab h hp
    rw [fillFirst_small ha hab hx (le_trans hxp h2)]
    split <;> simp

theorem fillEqual_small {a b q : ℚ} (ha : 0 < a) (hab : a ≤ b) (h0 : 0 < q) (hq : q ≤ b) :
    fillEqual a b q = if a ≤ q then [q] else [] := by
  have hb : 0 < b := lt_of_lt_of_le ha hab
  have h1 : ⌈q / b⌉ = 1 := by
    rw [Int.ceil_eq_iff]
    simp only [Int.cast_one, sub_self]
    exact ⟨by positivity, by rw [div_le_one hb]; exact hq⟩
  unfold fillEqual
  rw [h1]
  simp only [Int.toNat_one, Nat.cast_one, one_mul, div_one]
  split
  · simp
  · rename_i h
    have : ⌊q / b⌋ = 0 := by
      rw [Int.floor_eq_zero_iff]
      exact ⟨by positivity, by rw [div_lt_one hb]; linarith⟩
    rw [this]; simp

theorem ceil_mul_le {q b : ℚ} (h0 : 0 < q) (hb : 0 < b) :
    0 < (⌈q / b⌉.toNat : ℚ) ∧ q ≤ (⌈q / b⌉.toNat : ℚ) * b := by
  have h1 : 0 < ⌈q / b⌉ := Int.ceil_pos.2 (by positivity)
  have h2 : ((⌈q / b⌉.toNat : ℕ) : ℚ) = ((⌈q / b⌉ : ℤ) : ℚ) := by
    have : ((⌈q / b⌉.toNat : ℕ) : ℤ) = ⌈q / b⌉ := Int.toNat_of_nonneg (le_of_lt h1)
    exact_mod_cast this
  have h3 := Int.le_ceil (q / b)
  rw [h2]
  rw [div_le_iff₀ hb] at h3
  exact ⟨by exact_mod_cast h1, h3⟩

theorem fillEqual_mem {a b q p : ℚ} (ha : 0 < a) (hab : a ≤ b) (h0 : 0 < q)
    (hp : p ∈ fillEqual a b q) : a ≤ p ∧ p ≤ b := by
  have hb : 0 < b := lt_of_lt_of_le ha hab
  obtain ⟨h1, h2⟩ := ceil_mul_le h0 hb
  unfold fillEqual at hp
  split at hp
  · rename_i h
    rw [List.eq_of_mem_replicate hp]
    exact ⟨by rw [le_div_iff₀ h1]; linarith, by rw [div_le_iff₀ h1]; linarith⟩
  · rw [List.eq_of_mem_replicate hp]; exact ⟨hab, le_refl _⟩

/-- Packages filled equally are packages. -/
theorem fillEqual_packing {a b : ℚ} (ha : 0 < a) (hab : a ≤ b) : Packing (fillEqual a b) where
  pos q h p hp := lt_of_lt_of_le ha (fillEqual_mem ha hab h hp).1
  sum q h := by
    obtain ⟨h1, h2⟩ := floor_mul_le h (lt_of_lt_of_le ha hab)
    obtain ⟨h3, h4⟩ := ceil_mul_le h (lt_of_lt_of_le ha hab)
    unfold fillEqual
    split
    · rw [List.sum_replicate, nsmul_eq_mul]
      apply le_of_eq
      field_simp
    · simpa using h1
  whole q h p hp := by
    obtain ⟨h1, h2⟩ := fillEqual_mem ha hab h hp
    rw [fillEqual_small ha hab (lt_of_lt_of_le ha h1) h2, if_pos h1]
  part q h p hp x hx hxp := by
    obtain ⟨h1, h2⟩ := fillEqual_mem ha hab h hp
    rw [fillEqual_small ha hab hx (le_trans hxp h2)]
    split <;> simp

/-! ## The properties -/

/-- **C56** (lifetime). Whatever the trades, what a source has sent in its life and what it still has
are together no more than the inventory it started with. -/
theorem C56_life {c : Cfg} (V : Valid c) {is : List In} {os : List Out} {s : State}
    (h : History c is os s) (ht : Targets is) :
    totalQty (shipped os) + stock s ≤ c.size ∧ 0 ≤ stock s := by
  obtain ⟨s₀, h0, h1⟩ := h
  obtain ⟨I, e⟩ := build_inv V h0
  obtain ⟨J, -, k⟩ := run_inv V I ht h1
  exact ⟨by linarith, J.nonneg⟩

/-- **C56** (per step). In a market that respects the bids, a source sends no more in a step than its
throughput. -/
theorem C56_throughput {c : Cfg} (V : Valid c) {is : List In} {os : List Out} {s : State}
    (h : History c is os s) (ht : Targets is) {i : In} (H : Honest c s i) {o : Out} {s' : State}
    (hs : step c s i = .ok (o, s')) : totalQty (sentIn o) ≤ c.throughput := by
  have I := history_inv V h ht
  obtain ⟨e, -, -⟩ := step_eq hs
  obtain ⟨-, j1, -⟩ := sellLoop_inv V I (honest_targets H) e
  have h1 := (sent_le V j1).2
  have h2 := net_le V j1 (fun t ht => le_of_lt (H.sizes t ht).1)
  have h3 := honest_total V I H
  have h4 : maxQty c s ≤ c.throughput := min_le_left _ _
  unfold sentIn
  linarith

/-- **C57** (composition). Whatever the trades, everything a source sends has the composition of the
recipe, or of the target of the request if there is no recipe. -/
theorem C57_composition {c : Cfg} (V : Valid c) {is : List In} {os : List Out} {s : State}
    (h : History c is os s) (ht : Targets is) {i : In} (hi : ∀ t ∈ i.trades, 0 < qty t.target)
    {o : Out} {s' : State} (hs : step c s i = .ok (o, s')) :
    List.Forall₂ (fun t r => ∀ x, r = some x →
      SameComposition x (match c.recipe with
        | some r => r
        | none => t.target)) i.trades o.sent := by
  obtain ⟨e, -, -⟩ := step_eq hs
  obtain ⟨-, j, -⟩ := sellLoop_inv V (history_inv V h ht) hi e
  refine j.imp fun t r hr x hx => ?_
  have := (hr x hx).comp
  unfold wanted at this
  cases hc : c.recipe <;> simpa [hc] using this

/-- **C57** (quantity). In a market that respects the bids, what is sent for a trade is exactly the
traded quantity, or nothing, if that quantity is too small for a package. -/
theorem C57_quantity {c : Cfg} (V : Valid c) {is : List In} {os : List Out} {s : State}
    (h : History c is os s) (ht : Targets is) {i : In} (H : Honest c s i)
    {o : Out} {s' : State} (hs : step c s i = .ok (o, s')) :
    List.Forall₂ (fun t r => ∀ x, r = some x →
      qty x = t.amt ∨ (c.fill t.amt = [] ∧ qty x = 0)) i.trades o.sent := by
  obtain ⟨e, -, -⟩ := step_eq hs
  obtain ⟨-, j, -⟩ := sellLoop_inv V (history_inv V h ht) (honest_targets H) e
  rw [List.forall₂_iff_get] at j ⊢
  refine ⟨j.1, fun k h1 h2 x hx => ?_⟩
  have g := j.2 k h1 h2 x hx
  have hm : i.trades.get ⟨k, h1⟩ ∈ i.trades := List.get_mem _ _
  rcases honest_fill V H hm with f | f
  · left; rw [g.qty, f]; rfl
  · right; exact ⟨f, by rw [g.qty, f]; rfl⟩

/-- **C57** (answers), partial: if each traded quantity fills a package, which is so for whole bids,
the first trades, as many as can be shipped, are answered with exactly the traded quantity, and the
others are not answered.

Missing from the full property: trades for a part of a bid that is below the smallest fill of the
package; see `C57_counterexample`. -/
theorem C57_answered_partial {c : Cfg} (V : Valid c) {is : List In} {os : List Out} {s : State}
    (h : History c is os s) (ht : Targets is) {i : In} (H : Honest c s i)
    (hw : ∀ t ∈ i.trades, c.fill t.amt = [t.amt])
    {o : Out} {s' : State} (hs : step c s i = .ok (o, s')) (k : Nat) (t : Trade)
    (hk : i.trades[k]? = some t) :
    (k < c.ship i.trades.length → ∃ x, o.sent[k]? = some (some x) ∧ qty x = t.amt) ∧
    (c.ship i.trades.length ≤ k → o.sent[k]? = some none) := by
  obtain ⟨e, -, -⟩ := step_eq hs
  have I := history_inv V h ht
  obtain ⟨-, j, -⟩ := sellLoop_inv V I (honest_targets H) e
  rw [List.forall₂_iff_get] at j
  have hlt : k < i.trades.length := by
    rw [List.getElem?_eq_some_iff] at hk
    exact hk.1
  obtain ⟨w1, w2⟩ := sellLoop_whole V I hw e k hlt
  refine ⟨fun hh => ?_, w2⟩
  obtain ⟨x, hx⟩ := w1 hh
  refine ⟨x, hx, ?_⟩
  obtain ⟨hk2, hx2⟩ := List.getElem?_eq_some_iff.1 hx
  have g := j.2 k hlt hk2 x hx2
  obtain ⟨_, ht2⟩ := List.getElem?_eq_some_iff.1 hk
  have e2 : i.trades.get ⟨k, hlt⟩ = t := ht2
  rw [e2] at g
  rw [g.qty, hw t (by rw [← ht2]; exact List.getElem_mem _)]
  rfl

/-- **C58** (bids). A source makes no bids if less than `eps` is available, or nobody asks for its
commodity. Otherwise the bids together may be traded up to what is available, which is the smaller of
throughput and inventory; and each request for its commodity gets bids of whole packages: what is
packed of the smaller of the request and what is available, as far as it can be shipped, of the
composition of the recipe or of the request. -/
theorem C58_bids {c : Cfg} (V : Valid c) {s s' : State} {i : In} {o : Out}
    (hr : ∀ r ∈ i.reqs, 0 < qty r.target) (hs : step c s i = .ok (o, s')) :
    (o.bids = none ↔ min c.throughput (stock s) < c.eps ∨
      ∀ r ∈ i.reqs, r.commod ≠ c.outcommod) ∧
    ∀ p, o.bids = some p → p.cap = min c.throughput (stock s) ∧
      ∃ g : Req → List Bid,
        p.bids = (i.reqs.filter (fun r => r.commod = c.outcommod)).flatMap g ∧
        ∀ r ∈ i.reqs, r.commod = c.outcommod →
          (g r).map (fun b => qty b.offer) =
            (c.fill (min (qty r.target) p.cap)).take
              (c.ship (c.fill (min (qty r.target) p.cap)).length) ∧
          ((g r).map fun b => qty b.offer).sum ≤ min (qty r.target) p.cap ∧
          (g r).length ≤ c.ship (c.fill (min (qty r.target) p.cap)).length ∧
          ∀ b ∈ g r, b.id = r.id ∧ 0 < qty b.offer ∧ c.fill (qty b.offer) = [qty b.offer] ∧
            SameComposition b.offer (match c.recipe with
              | some x => x
              | none => r.target) := by
  obtain ⟨-, -, e⟩ := step_eq hs
  have hst : maxQty c s = min c.throughput (stock s) := rfl
  rw [e]
  constructor
  · unfold bids
    rw [← hst]
    by_cases h1 : maxQty c s < c.eps
    · simp [h1]
    · rw [if_neg h1]
      by_cases h2 : i.reqs.filter (fun r => decide (r.commod = c.outcommod)) = []
      · rw [if_pos h2]
        simp only [true_iff]
        right
        intro r hr' hc
        rw [List.filter_eq_nil_iff] at h2
        exact h2 r hr' (by simpa using hc)
      · rw [if_neg h2]
        simp only [reduceCtorEq, false_iff, not_or]
        refine ⟨h1, fun h3 => h2 ?_⟩
        rw [List.filter_eq_nil_iff]
        intro r hr'
        simpa using h3 r hr'
  · intro p hp
    unfold bids at hp
    split at hp
    · cases hp
    rename_i hmax
    split at hp
    · cases hp
    simp only [Option.some.injEq] at hp
    subst hp
    refine ⟨rfl, bidsFor c s, rfl, fun r hr' _ => ?_⟩
    have hpos : 0 < min (qty r.target) (maxQty c s) :=
      lt_min (hr r hr') (by have := V.eps; linarith)
    have hcomp : 0 < qty (c.recipe.getD r.target) := by
      cases h : c.recipe with
      | none => exact hr r hr'
      | some x => exact V.recipe x h
    have hq : (bidsFor c s r).map (fun b => qty b.offer) = lots c s r := by
      unfold bidsFor
      rw [List.map_map]
      conv_rhs => rw [← List.map_id (lots c s r)]
      apply List.map_congr_left
      intro q _
      exact qty_ofComp hcomp
    have hl : lots c s r = (c.fill (min (qty r.target) (maxQty c s))).take
        (c.ship (c.fill (min (qty r.target) (maxQty c s))).length) := cut_eq _ _
    refine ⟨by rw [hq, hl], ?_, ?_, ?_⟩
    · rw [hq, hl]
      exact le_trans (sum_take_le (V.packing.pos _ hpos) _) (V.packing.sum _ hpos)
    · have : (bidsFor c s r).length = (lots c s r).length := by simp [bidsFor]
      rw [this, hl]
      exact List.length_take_le _ _
    · intro b hb
      unfold bidsFor at hb
      obtain ⟨q, hq', rfl⟩ := List.mem_map.1 hb
      rw [hl] at hq'
      have hq' := List.mem_of_mem_take hq'
      simp only [qty_ofComp hcomp, true_and]
      refine ⟨V.packing.pos _ hpos q hq', V.packing.whole _ hpos q hq', ?_⟩
      have := same_ofComp q (c.recipe.getD r.target)
      cases hc : c.recipe <;> simpa [hc] using this

/-- What is lost in a step is at most `eps` for each trade. -/
theorem net_sent {c : Cfg} (V : Valid c) {ts : List Trade} {l : List (Option NMat)}
    (h : List.Forall₂ (fun t o => ∀ x, o = some x → Good c t x) ts l)
    (hf : ∀ t ∈ ts, c.fill t.amt = [t.amt] ∨ c.fill t.amt = []) :
    ((ts.zip l).map (net c)).sum ≤ totalQty (l.filterMap id) + ts.length * c.eps ∧
    ((∀ t ∈ ts, c.fill t.amt = [] → c.eps < t.amt) →
      ((ts.zip l).map (net c)).sum = totalQty (l.filterMap id)) := by
  have he := V.eps
  induction h with
  | nil => simp
  | @cons t o ts l ho _ ih =>
    obtain ⟨i1, i2⟩ := ih (fun t ht => hf t (by simp [ht]))
    have e1 : (((t :: ts).length : ℕ) : ℚ) = (ts.length : ℚ) + 1 := by simp
    cases o with
    | none =>
      have e : (none :: l : List (Option NMat)).filterMap id = l.filterMap id := rfl
      rw [e, e1]
      simp only [List.zip_cons_cons, List.map_cons, List.sum_cons, net]
      refine ⟨by linarith, fun hh => ?_⟩
      rw [i2 (fun t ht => hh t (by simp [ht])), zero_add]
    | some x =>
      have e : (some x :: l).filterMap id = x :: l.filterMap id := rfl
      rw [e, e1]
      simp only [List.zip_cons_cons, List.map_cons, List.sum_cons, net, totalQty_cons]
      have g := ho x rfl
      have hx := g.qty
      unfold back
      rcases hf t (by simp) with f | f
      · rw [f] at hx ⊢
        simp only [List.headD_cons, List.sum_singleton, sub_self] at hx ⊢
        rw [if_neg (by linarith), hx]
        refine ⟨by linarith, fun hh => ?_⟩
        rw [i2 (fun t ht => hh t (by simp [ht]))]; ring
      · rw [f] at hx ⊢
        simp only [List.headD_nil, List.sum_nil, sub_zero] at hx ⊢
        rw [hx]
        split
        · refine ⟨by linarith, fun hh => ?_⟩
          rw [i2 (fun t ht => hh t (by simp [ht]))]; ring
        · rename_i hgt
          refine ⟨by linarith, fun hh => ?_⟩
          exact absurd (hh t (by simp) f) hgt

/-- **C92**, partial: in a market that respects the bids, the inventory falls in a step by exactly
what is sent, if quantities too small for a package are more than `eps`.

Missing: a traded quantity of at most `eps` that does not fill a package is lost; see
`C92_counterexample`. -/
theorem C92_ledger_partial {c : Cfg} (V : Valid c) {is : List In} {os : List Out} {s : State}
    (h : History c is os s) (ht : Targets is) {i : In} (H : Honest c s i)
    (hw : ∀ t ∈ i.trades, c.fill t.amt = [] → c.eps < t.amt)
    {o : Out} {s' : State} (hs : step c s i = .ok (o, s')) :
    stock s' + totalQty (sentIn o) = stock s := by
  obtain ⟨e, -, -⟩ := step_eq hs
  obtain ⟨-, j1, j2⟩ := sellLoop_inv V (history_inv V h ht) (honest_targets H) e
  have := (net_sent V j1 (fun t ht => honest_fill V H ht)).2 hw
  unfold sentIn
  linarith

/-- **C92** (lifetime), partial: in a market that respects the bids, what a source has sent in its life
and what it still has are together exactly the inventory it was given, if quantities too small for a
package are more than `eps`. -/
theorem C92_life_partial {c : Cfg} (V : Valid c) {is : List In} {os : List Out} {s₀ s : State}
    (h0 : build c = .ok s₀) (hr : run c s₀ is = .ok (os, s)) (ht : Targets is)
    (H : HonestRun c s₀ is)
    (hw : ∀ i ∈ is, ∀ t ∈ i.trades, c.fill t.amt = [] → c.eps < t.amt) :
    totalQty (shipped os) + stock s = c.size := by
  obtain ⟨I, e⟩ := build_inv V h0
  rw [← e]
  clear e h0
  induction is generalizing s₀ os with
  | nil =>
    simp only [run, Except.ok.injEq, Prod.mk.injEq] at hr
    obtain ⟨rfl, rfl⟩ := hr
    simp [shipped, totalQty]
  | cons i is ih =>
    simp only [run, bind_ok] at hr
    obtain ⟨⟨o, s₁⟩, h1, ⟨os', s₂⟩, h2, hr⟩ := hr
    simp only [pure_eq_ok, Except.ok.injEq, Prod.mk.injEq] at hr
    obtain ⟨rfl, rfl⟩ := hr
    obtain ⟨H1, H2⟩ := H
    obtain ⟨e, -, -⟩ := step_eq h1
    obtain ⟨J, j1, j2⟩ := sellLoop_inv V I (honest_targets H1) e
    have k1 := (net_sent V j1 (fun t ht => honest_fill V H1 ht)).2 (hw i (by simp))
    have k2 := ih h2 (fun j hj => ht j (by simp [hj])) (H2 _ _ h1) (fun j hj => hw j (by simp [hj])) J
    have k3 : totalQty (shipped (o :: os')) = totalQty (sentIn o) + totalQty (shipped os') := by
      simp [shipped, totalQty]
    rw [k3]
    unfold sentIn
    linarith

/-- In a market that respects the bids, what a source sends in its life and what it has left are
together no more than the inventory it was given. -/
theorem shipped_stock_le {c : Cfg} (V : Valid c) {is : List In} {os : List Out} {s₀ s : State}
    (I : Inv c s₀) (hr : run c s₀ is = .ok (os, s)) (ht : Targets is) (H : HonestRun c s₀ is) :
    totalQty (shipped os) + stock s ≤ stock s₀ ∧ Inv c s := by
  induction is generalizing s₀ os with
  | nil =>
    simp only [run, Except.ok.injEq, Prod.mk.injEq] at hr
    obtain ⟨rfl, rfl⟩ := hr
    exact ⟨by simp [shipped, totalQty], I⟩
  | cons i is ih =>
    simp only [run, bind_ok] at hr
    obtain ⟨⟨o, s₁⟩, h1, ⟨os', s₂⟩, h2, hr⟩ := hr
    simp only [pure_eq_ok, Except.ok.injEq, Prod.mk.injEq] at hr
    obtain ⟨rfl, rfl⟩ := hr
    obtain ⟨H1, H2⟩ := H
    obtain ⟨e, -, -⟩ := step_eq h1
    obtain ⟨J, j1, j2⟩ := sellLoop_inv V I (honest_targets H1) e
    have k1 := (sent_le V j1).2
    have k2 := ih J h2 (fun j hj => ht j (by simp [hj])) (H2 _ _ h1)
    have k3 : totalQty (shipped (o :: os')) = totalQty (sentIn o) + totalQty (shipped os') := by
      simp [shipped, totalQty]
    refine ⟨?_, k2.2⟩
    rw [k3]
    unfold sentIn
    linarith [k2.1]

/-- **C92** (at most). In a market that respects the bids, a source never sends more than the
inventory it was given. -/
theorem C92_most {c : Cfg} (V : Valid c) {is : List In} {os : List Out} {s₀ s : State}
    (h0 : build c = .ok s₀) (hr : run c s₀ is = .ok (os, s)) (ht : Targets is)
    (H : HonestRun c s₀ is) : totalQty (shipped os) ≤ c.size := by
  obtain ⟨I, e⟩ := build_inv V h0
  obtain ⟨h1, J⟩ := shipped_stock_le V I hr ht H
  have := J.nonneg
  linarith

/-- **C92** (bound). In a market that respects the bids, at most `eps` per trade is lost. -/
theorem C92_bound {c : Cfg} (V : Valid c) {is : List In} {os : List Out} {s : State}
    (h : History c is os s) (ht : Targets is) {i : In} (H : Honest c s i)
    {o : Out} {s' : State} (hs : step c s i = .ok (o, s')) :
    stock s - i.trades.length * c.eps ≤ stock s' + totalQty (sentIn o) ∧
      stock s' + totalQty (sentIn o) ≤ stock s := by
  obtain ⟨e, -, -⟩ := step_eq hs
  obtain ⟨-, j1, j2⟩ := sellLoop_inv V (history_inv V h ht) (honest_targets H) e
  have h1 := (net_sent V j1 (fun t ht => honest_fill V H ht)).1
  have h2 := (sent_le V j1).2
  unfold sentIn
  constructor <;> linarith

theorem pushAll_none {ε : ℚ} {b : Buf NMat} (h : b.cap = none) (l : List NMat) :
    b.pushAll ε l = .ok { b with items := b.items ++ l } := by
  unfold Buf.pushAll Buf.fits Buf.space
  rw [h]; rfl

/-- **C93**. Taking a snapshot changes nothing, and a source restarted from it has the same
inventory: it goes on as it would have. -/
theorem C93_restart {c : Cfg} (V : Valid c) {is : List In} {os : List Out} {s : State}
    (h : History c is os s) (ht : Targets is) :
    ∃ l, snapshot c s = .ok (l, s) ∧ restart c l = .ok s := by
  have I := history_inv V h ht
  obtain ⟨cap, items⟩ := s
  have hcap : cap = none := I.cap
  subst hcap
  refine ⟨items, ?_, ?_⟩
  · unfold snapshot
    have : (⟨none, items⟩ : Buf NMat).popN items.length = .ok (items, ⟨none, []⟩) := by
      unfold Buf.popN; simp
    simp only [Buf.count]
    rw [this]
    simp only [ok_bind]
    rw [pushAll_none rfl]
    simp
  · unfold restart
    rw [pushAll_none rfl]
    simp

/-- **C94**. In a market that respects the bids no step fails. -/
theorem C94_runs {c : Cfg} (V : Valid c) {is : List In} {os : List Out} {s : State}
    (h : History c is os s) (ht : Targets is) {i : In} (H : Honest c s i) :
    ∃ o s', step c s i = .ok (o, s') := by
  have I := history_inv V h ht
  have h1 := honest_total V I H
  have h2 : maxQty c s ≤ stock s := min_le_right _ _
  obtain ⟨l, s', e⟩ := sellLoop_ok V (n := c.ship i.trades.length) I H.sizes (by linarith)
  exact ⟨_, s', by simp only [step, sell, e, ok_bind, pure_eq_ok]; rfl⟩

/-- **C95**. In each step the reported supply is the smaller of throughput and inventory; it is not
negative. -/
theorem C95_supply {c : Cfg} (V : Valid c) {is : List In} {os : List Out} {s : State}
    (h : History c is os s) (ht : Targets is) {i : In} {o : Out} {s' : State}
    (hs : step c s i = .ok (o, s')) :
    o.supply = min c.throughput (stock s) ∧ 0 ≤ o.supply := by
  obtain ⟨-, e, -⟩ := step_eq hs
  have I := history_inv V h ht
  rw [e]
  exact ⟨rfl, le_min V.throughput I.nonneg⟩

/-- **C96**. Once less than the tolerance `eps` and than `lo`, the least quantity that a buffer gives
away, is left, a source never bids or sends anything again, whatever trades it is told to carry out. -/
theorem C96_exhausted {c : Cfg} {s : State} (hs : stock s < c.eps) (hl : stock s < c.lo)
    {js : List In} {ps : List Out} {s' : State} (hr : run c s js = .ok (ps, s')) :
    s' = s ∧ ∀ o ∈ ps, o.bids = none ∧ ∀ x ∈ o.sent, x = none := by
  have zero : ∀ (ts : List Trade) {l : List (Option NMat)} {s₁ : State},
      sellLoop c 0 ts s = .ok (l, s₁) → s₁ = s ∧ ∀ x ∈ l, x = none := by
    intro ts
    induction ts with
    | nil =>
      intro l s₁ h
      simp only [sellLoop, Except.ok.injEq, Prod.mk.injEq] at h
      obtain ⟨rfl, rfl⟩ := h
      simp
    | cons t ts ih =>
      intro l s₁ h
      simp only [sellLoop, bind_ok] at h
      obtain ⟨⟨l', s₂⟩, h1, h⟩ := h
      simp only [pure_eq_ok, Except.ok.injEq, Prod.mk.injEq] at h
      obtain ⟨rfl, rfl⟩ := h
      obtain ⟨k1, k2⟩ := ih h1
      exact ⟨k1, by simpa using k2⟩
  have any : ∀ (n : Nat) (ts : List Trade) {l : List (Option NMat)} {s₁ : State},
      sellLoop c n ts s = .ok (l, s₁) → s₁ = s ∧ ∀ x ∈ l, x = none := by
    intro n ts l s₁ h
    cases n with
    | zero => exact zero ts h
    | succ n =>
      cases ts with
      | nil =>
        simp only [sellLoop, Except.ok.injEq, Prod.mk.injEq] at h
        obtain ⟨rfl, rfl⟩ := h
        simp
      | cons t ts =>
        have hp : s.inventory.popQty c.lo t.amt = .error .value := by
          unfold Buf.popQty
          rw [if_pos]
          by_cases ha : t.amt < c.lo
          · exact .inr (.inr ha)
          · exact .inl (lt_of_lt_of_le hl (not_lt.1 ha))
        simp only [sellLoop, hp, error_bind] at h
        cases h
  induction js generalizing ps with
  | nil =>
    simp only [run, Except.ok.injEq, Prod.mk.injEq] at hr
    obtain ⟨rfl, rfl⟩ := hr
    simp
  | cons i js ih =>
    simp only [run, bind_ok] at hr
    obtain ⟨⟨o, s₁⟩, h1, ⟨os, s₂⟩, h2, hr⟩ := hr
    simp only [pure_eq_ok, Except.ok.injEq, Prod.mk.injEq] at hr
    obtain ⟨rfl, rfl⟩ := hr
    obtain ⟨e, -, e3⟩ := step_eq h1
    obtain ⟨rfl, e4⟩ := any _ _ e
    obtain ⟨k1, k2⟩ := ih h2
    refine ⟨k1, fun x hx => ?_⟩
    rcases List.mem_cons.1 hx with rfl | hx
    · refine ⟨?_, e4⟩
      rw [e3]
      unfold bids
      rw [if_pos (show maxQty c s₁ < c.eps from lt_of_le_of_lt (min_le_right _ _) hs)]
    · exact k2 x hx

/-- **C96** (in a market that respects the bids). Once less than `eps` is left, a source never bids or
sends anything again, whatever a buffer can give away; see also `C96_silent`. -/
theorem C96_answering {c : Cfg} {s : State} (hs : stock s < c.eps) {js : List In}
    (H : HonestRun c s js) {ps : List Out} {s' : State} (hr : run c s js = .ok (ps, s')) :
    s' = s ∧ ∀ o ∈ ps, o.bids = none ∧ o.sent = [] := by
  induction js generalizing ps with
  | nil =>
    simp only [run, Except.ok.injEq, Prod.mk.injEq] at hr
    obtain ⟨rfl, rfl⟩ := hr
    simp
  | cons i js ih =>
    simp only [run, bind_ok] at hr
    obtain ⟨⟨o, s₁⟩, h1, ⟨os, s₂⟩, h2, hr⟩ := hr
    simp only [pure_eq_ok, Except.ok.injEq, Prod.mk.injEq] at hr
    obtain ⟨rfl, rfl⟩ := hr
    obtain ⟨H1, H2⟩ := H
    obtain ⟨e, -, e3⟩ := step_eq h1
    have hb : bids c i.reqs s = none := by
      unfold bids
      rw [if_pos (show maxQty c s < c.eps from lt_of_le_of_lt (min_le_right _ _) hs)]
    have ht : i.trades = [] := by
      cases e : i.trades with
      | nil => rfl
      | cons t ts =>
        obtain ⟨p, h, -⟩ := H1.bid t (by rw [e]; simp)
        rw [hb] at h; cases h
    rw [ht] at e
    have e' : sellLoop c (c.ship 0) [] s = .ok ([], s) := by cases c.ship 0 <;> rfl
    rw [List.length_nil, e'] at e
    simp only [Except.ok.injEq, Prod.mk.injEq] at e
    obtain ⟨e1, rfl⟩ := e
    obtain ⟨k1, k2⟩ := ih (H2 _ _ h1) h2
    refine ⟨k1, fun x hx => ?_⟩
    rcases List.mem_cons.1 hx with rfl | hx
    · exact ⟨by rw [e3, hb], e1.symm⟩
    · exact k2 x hx

/-- **C96** (any market). Once less than `eps` is left, a source never bids again, and sends no more
than that, whatever trades it is told to carry out. -/
theorem C96_silent {c : Cfg} (V : Valid c) {is : List In} {os : List Out} {s : State}
    (h : History c is os s) (ht : Targets is) (hs : stock s < c.eps) {js : List In} (hj : Targets js)
    {ps : List Out} {s' : State} (hr : run c s js = .ok (ps, s')) :
    (∀ o ∈ ps, o.bids = none) ∧ totalQty (shipped ps) < c.eps := by
  have I := history_inv V h ht
  obtain ⟨J, -, k2⟩ := run_inv V I hj hr
  refine ⟨?_, by have := J.nonneg; linarith⟩
  clear h J k2
  induction js generalizing s ps with
  | nil =>
    simp only [run, Except.ok.injEq, Prod.mk.injEq] at hr
    obtain ⟨rfl, -⟩ := hr
    simp
  | cons i js ih =>
    simp only [run, bind_ok] at hr
    obtain ⟨⟨o, s₁⟩, h1, ⟨os, s₂⟩, h2, hr⟩ := hr
    simp only [pure_eq_ok, Except.ok.injEq, Prod.mk.injEq] at hr
    obtain ⟨rfl, rfl⟩ := hr
    have h3 : run c s [i] = .ok ([o], s₁) := by simp only [run, h1, ok_bind, pure_eq_ok]
    obtain ⟨I1, m1, m2⟩ := run_inv V I (fun x hx => hj x (by simp_all)) h3
    intro x hx
    rcases List.mem_cons.1 hx with rfl | hx
    · rw [(step_eq h1).2.2]
      unfold bids
      rw [if_pos (show maxQty c s < c.eps from lt_of_le_of_lt (min_le_right _ _) hs)]
    · exact ih (by linarith) (fun x hx => hj x (by simp [hx])) h2 I1 x hx

/-! ## Examples -/

theorem exists_of_isOk {α : Type} {x : R α} (h : x.toOption.isSome = true) : ∃ a, x = .ok a := by
  cases x with
  | ok a => exact ⟨a, rfl⟩
  | error e => cases h

/-- Uranium in casks of one to two kg, two of which can be shipped in a step. -/
def exC : Cfg where
  outcommod := "uranium"
  recipe := none
  size := 10
  throughput := 5
  fill := fillFirst 1 2
  ship := min 2
  eps := 1 / 1000000
  epsRsrc := 1 / 1000000
  lo := 1 / 1000000

theorem exValid : Valid exC where
  size := by decide +kernel
  throughput := by decide +kernel
  eps := by decide +kernel
  recipe := by intro r h; cases h
  packing := fillFirst_packing (by decide +kernel) (by decide +kernel)
  ship n := min_le_right _ _

/-- Natural uranium. -/
def natU (q : ℚ) : NMat := ⟨[(235, q * (7 / 1000)), (238, q * (993 / 1000))]⟩

/-- Someone asks for 7 kg of natural uranium. -/
def exReq : Req := ⟨1, "uranium", natU 7⟩

/-- They get a full cask and one with 3/2 kg. -/
def exIn : In := ⟨[exReq, ⟨2, "thorium", natU 1⟩], [⟨natU 7, 2⟩, ⟨natU 7, 3 / 2⟩]⟩

/-- A request for 7 kg, and trades of the given quantities. -/
def exOut (l : List ℚ) : In := ⟨[exReq], l.map fun q => ⟨natU 7, q⟩⟩

/-- A life of one such step. -/
def exRun : R (List Out × State) := do
  let s ← build exC
  run exC s [exIn]

/-- What was sent and what is left. -/
theorem exHistory : ∃ os s, History exC [exIn] os s ∧ stock s = 13 / 2 ∧
    totalQty (shipped os) = 7 / 2 := by
  obtain ⟨⟨os, s⟩, h⟩ := exists_of_isOk (x := exRun) (by decide +kernel)
  refine ⟨os, s, ?_, ?_, ?_⟩
  · simp only [exRun, bind_ok] at h
    exact h
  · have : (exRun.toOption.map fun p => stock p.2) = some (13 / 2) := by decide +kernel
    rw [h] at this
    exact Option.some.inj this
  · have : (exRun.toOption.map fun p => totalQty (shipped p.1)) = some (7 / 2) := by
      decide +kernel
    rw [h] at this
    exact Option.some.inj this

/-- The state of a new source. -/
def exNew : State := ⟨⟨none, [ofComp exC.size (stuff exC)]⟩⟩

theorem exBuilt : History exC [] [] exNew := ⟨exNew, build_eq, rfl⟩

/-- The bids: what is packed of 5 kg is `2, 2, 1`, of which two can be shipped. -/
theorem exBids : ((bids exC exIn.reqs exNew).map fun p =>
    (p.cap, p.bids.map fun b => (b.id, qty b.offer))) = some (5, [(1, 2), (1, 2)]) := by
  decide +kernel

/-- Trades of up to 2 kg each, 5 kg together, for the request are what an exchange can make. -/
theorem exHonestOf {ts : List Trade} (h1 : ∀ t ∈ ts, t.target = natU 7 ∧ 0 < t.amt ∧
    exC.lo ≤ t.amt ∧ t.amt ≤ 2) (h2 : (ts.map Trade.amt).sum ≤ 5) :
    Honest exC exNew ⟨exIn.reqs, ts⟩ where
  target r hr := by
    simp only [exIn, List.mem_cons, List.not_mem_nil, or_false] at hr
    rcases hr with rfl | rfl <;> decide +kernel
  sizes t ht := ⟨(h1 t ht).2.1, (h1 t ht).2.2.1⟩
  bid t ht := by
    obtain ⟨p, hp⟩ : ∃ p, bids exC exIn.reqs exNew = some p :=
      Option.isSome_iff_exists.1 (by decide +kernel)
    have e := exBids
    rw [hp] at e
    simp only [Option.map_some, Option.some.injEq, Prod.mk.injEq] at e
    refine ⟨p, hp, ?_⟩
    cases hb : p.bids with
    | nil => rw [hb] at e; simp at e
    | cons b bs =>
      rw [hb] at e
      simp only [List.map_cons, List.cons.injEq, Prod.mk.injEq] at e
      refine ⟨b, by simp, by rw [e.2.1.2]; exact (h1 t ht).2.2.2, exReq, by simp [exIn], ?_⟩
      exact ⟨e.2.1.1.symm, rfl, (h1 t ht).1.symm⟩
  total p hp := by
    have e := exBids
    have hp' : bids exC exIn.reqs exNew = some p := hp
    rw [hp'] at e
    simp only [Option.map_some, Option.some.injEq, Prod.mk.injEq] at e
    rw [e.1]; exact h2

/-- The step of the example is honest, and its quantities fill packages. -/
theorem exHonest : Honest exC exNew exIn ∧ ∀ t ∈ exIn.trades, exC.fill t.amt = [t.amt] := by
  constructor
  · apply exHonestOf (ts := exIn.trades)
    · intro t ht
      simp only [exIn, List.mem_cons, List.not_mem_nil, or_false] at ht
      rcases ht with rfl | rfl <;> decide +kernel
    · decide +kernel
  · decide +kernel

/-- What is sent: exactly what was traded, of the composition of the request. -/
theorem exSent : (step exC exNew exIn).toOption.map (fun p => p.1.sent) =
    some [some (natU 2), some (natU (3 / 2))] := by
  decide +kernel

/-- **C57**: the full property fails. The bid is for a cask of 2 kg; the exchange may trade a part
of it, and if that is 1/2 kg, which is too little for a cask, nothing is sent for the trade. -/
theorem C57_counterexample : ∃ c s i, Valid c ∧ History c [] [] s ∧ Honest c s i ∧
    ∃ o s', step c s i = .ok (o, s') ∧ i.trades.map Trade.amt = [1 / 2] ∧
      o.sent.map (Option.map qty) = [some 0] := by
  have H : Honest exC exNew ⟨exIn.reqs, [⟨natU 7, 1 / 2⟩]⟩ := by
    apply exHonestOf
    · intro t ht
      simp only [List.mem_singleton] at ht
      subst ht; decide +kernel
    · decide +kernel
  obtain ⟨⟨o, s'⟩, h⟩ := exists_of_isOk
    (x := step exC exNew ⟨exIn.reqs, [⟨natU 7, 1 / 2⟩]⟩) (by decide +kernel)
  refine ⟨exC, exNew, _, exValid, exBuilt, H, o, s', h, rfl, ?_⟩
  have : (step exC exNew ⟨exIn.reqs, [⟨natU 7, 1 / 2⟩]⟩).toOption.map
      (fun p => p.1.sent.map (Option.map qty)) = some [some 0] := by decide +kernel
  rw [h] at this
  exact Option.some.inj this

/-- **C92**: the full property fails. A trade of one millionth of a kg removes it from the inventory
without sending anything. -/
theorem C92_counterexample : ∃ c s i, Valid c ∧ History c [] [] s ∧ Honest c s i ∧
    ∃ o s', step c s i = .ok (o, s') ∧ totalQty (sentIn o) = 0 ∧ stock s' < stock s := by
  have H : Honest exC exNew ⟨exIn.reqs, [⟨natU 7, 1 / 1000000⟩]⟩ := by
    apply exHonestOf
    · intro t ht
      simp only [List.mem_singleton] at ht
      subst ht; decide +kernel
    · decide +kernel
  obtain ⟨⟨o, s'⟩, h⟩ := exists_of_isOk
    (x := step exC exNew ⟨exIn.reqs, [⟨natU 7, 1 / 1000000⟩]⟩) (by decide +kernel)
  have : (step exC exNew ⟨exIn.reqs, [⟨natU 7, 1 / 1000000⟩]⟩).toOption.map
      (fun p => (totalQty (sentIn p.1), decide (stock p.2 < stock exNew))) = some (0, true) := by
    decide +kernel
  rw [h] at this
  have : totalQty (sentIn o) = 0 ∧ decide (stock s' < stock exNew) = true :=
    Prod.mk.inj (Option.some.inj this)
  exact ⟨exC, exNew, _, exValid, exBuilt, H, o, s', h, this.1, of_decide_eq_true this.2⟩

/-- **C96**: after 10 kg in three steps nothing is left; there is then no bid for a request, and a step
in which the source is told to send something fails. -/
example : ((build exC).toOption.bind fun s => (run exC s [exOut [2, 2], exOut [2, 2], exOut [2]]).toOption.map
    fun r => (stock r.2, (run exC r.2 [exOut [], exOut []]).toOption.map fun p =>
        p.1.map fun o => (o.supply, decide (o.bids = none)),
      decide (run exC r.2 [exOut [1 / 2000000]] = .error .value))) =
    some (0, some [(0, true), (0, true)], true) := by
  decide +kernel

/-- **C96**: where less can be removed than `eps`, an exhausted source sends what it is told to. -/
theorem C96_small : ((build { exC with size := 1 / 2000000, lo := 0, fill := fun q => [q] }).toOption.bind
    fun s => (run { exC with size := 1 / 2000000, lo := 0, fill := fun q => [q] } s
      [exOut [1 / 2000000]]).toOption.map fun r =>
        (r.1.map fun o => (decide (o.bids = none), o.sent.map (Option.map qty)))) =
    some [(true, [some (1 / 2000000)])] := by
  decide +kernel

end Cyc.Source
