import Verif.Enrichment.Props2
import Verif.Enrichment.Lemmas7

/-!
# Enrichment: properties C38-C41, C74-C76
-/

namespace Cyc.Enrichment

open Mat (massOf)

/-! ## C38 -/

/-- C38, with the uranium-235 counted in atoms for the lower bound and a tolerance for the upper
bound: in a step of any history, a request for product is offered to exactly if it is feasible in
this sense and there is feed, and what is offered is the requested quantity of uranium at the
requested assay. What is missing to C38: the property counts in mass, as the parameters
`tails_assay` and `max_enrich` do (`C38_counterexample`). -/
theorem C38_offers_partial {c : Cfg} (V : Valid c) {is : List In} {os : List Out} {s : State}
    (h : History c is os s) (hs : Substantial is) {i : In} {o : Out} {s' : State}
    (ht : step c s i = .ok (o, s')) {rs : List NMat} (hr : i.reqs c.productCommod = some rs)
    (hn : ∀ m ∈ rs, Mat.Nonneg m) {j : Nat} {target : NMat} (hj : rs[j]? = some target) :
    ((∃ pp m, o.ports.product = some pp ∧ (j, m) ∈ pp.bids) ↔
      CodeFeasible c target ∧ 0 < totalQty s.inventory.items) ∧
    ∀ pp m, o.ports.product = some pp → (j, m) ∈ pp.bids → UraniumOf target m := by
  have he := le_of_lt V.eps
  obtain ⟨s1, s2, l, S⟩ := step_inv ht
  have htn := hn target (List.mem_of_getElem? hj)
  obtain ⟨-, ⟨h1, -, h2⟩ | ⟨rs', h1, h2, -, -, -, h3⟩⟩ := bids_inv he S.bids
  · have hle : totalQty s.inventory.items ≤ 0 := by
      rcases h2 with h2 | h2
      · rw [hr] at h2; cases h2
      · exact h2
    refine ⟨⟨?_, ?_⟩, ?_⟩
    · rintro ⟨pp, m, hpp, -⟩; rw [h1] at hpp; cases hpp
    · rintro ⟨-, hp⟩; linarith
    · intro pp m hpp; rw [h1] at hpp; cases hpp
  · rw [hr] at h1
    cases h1
    refine ⟨⟨?_, ?_⟩, ?_⟩
    · rintro ⟨pp, m, hpp, hm⟩
      rw [h3] at hpp
      cases hpp
      obtain ⟨t, ht, hs, -⟩ := mem_productBids.1 hm
      rw [hj] at ht
      cases ht
      exact ⟨(served_iff V htn).1 hs, h2⟩
    · rintro ⟨hf, -⟩
      exact ⟨_, offer target, h3, mem_productBids.2 ⟨target, hj, (served_iff V htn).2 hf, rfl⟩⟩
    · intro pp m hpp hm
      rw [h3] at hpp
      cases hpp
      obtain ⟨t, ht, hs, rfl⟩ := mem_productBids.1 hm
      rw [hj] at ht
      cases ht
      have h8 := ((served_iff V htn).1 hs).has238
      have h5 := htn.mass_nonneg u235
      exact offer_of (by linarith)

/-- C38, one direction in mass: every feasible request gets an offer while there is feed, of the
requested quantity and assay. -/
theorem C38_above_tails {c : Cfg} (V : Valid c) {is : List In} {os : List Out} {s : State}
    (h : History c is os s) (hs : Substantial is) {i : In} {o : Out} {s' : State}
    (ht : step c s i = .ok (o, s')) {rs : List NMat} (hr : i.reqs c.productCommod = some rs)
    (hn : ∀ m ∈ rs, Mat.Nonneg m) {j : Nat} {target : NMat} (hj : rs[j]? = some target)
    (hf : Feasible c target) (h0 : 0 < totalQty s.inventory.items) :
    ∃ pp m, o.ports.product = some pp ∧ (j, m) ∈ pp.bids ∧ UraniumOf target m := by
  obtain ⟨h1, h2⟩ := C38_offers_partial V h hs ht hr hn hj
  obtain ⟨pp, m, hp, hm⟩ := h1.2 ⟨feasible_code V (hn _ (List.mem_of_getElem? hj)) hf, h0⟩
  exact ⟨pp, m, hp, hm, h2 pp m hp hm⟩

/-- C38, delivery: the material handed over in the `k`-th sale of a step, answering a bid for
`target`, holds the traded amount of uranium at the assay of `target` and nothing else. -/
theorem C38_delivered {c : Cfg} (V : Valid c) {is : List In} {os : List Out} {s : State}
    (h : History c is os s) (hs : Substantial is) {i : In} {o : Out} {s' : State}
    (ht : step c s i = .ok (o, s')) :
    o.sold.length = i.sells.length ∧
    ∀ (k : Nat) t m target, i.sells[k]? = some t → o.sold[k]? = some m →
      t.commod ≠ c.tailsCommod → UraniumOf target t.offer → 0 < qty target →
      Pure [m] ∧ qty m = t.amt ∧ m.mass u235 * target.mass u238 = target.mass u235 * m.mass u238 := by
  have he := le_of_lt V.eps
  have I := history_inv V h hs
  obtain ⟨s1, s2, l, S⟩ := step_inv ht
  obtain ⟨I1, -⟩ := bids_pres he (I.swu _) S.bids
  obtain ⟨hl, hd⟩ := sellAll_delivers he I1 S.sells
  rw [S.sold]
  refine ⟨by simp [hl], ?_⟩
  intro k t m target hk hm hc hu hq
  rw [List.getElem?_map] at hm
  cases hx : l[k]? with
  | none => rw [hx] at hm; cases hm
  | some x =>
    rw [hx] at hm
    simp only [Option.map_some, Option.some.injEq] at hm
    have := hd k t x hk hx hc
    rw [hm] at this
    subst this
    have hq' : qty t.offer ≠ 0 := by rw [hu.amount]; exact ne_of_gt hq
    refine ⟨?_, ?_, ?_⟩
    · intro y hy e he
      rw [List.mem_singleton.1 hy] at he
      simp only [cut, Mat.scale, List.mem_map] at he
      obtain ⟨e', he', rfl⟩ := he
      exact hu.pure t.offer (by simp) e' he'
    · simp only [cut, Mat.qty_scale]; field_simp
    · have := hu.ratio
      simp only [cut, Mat.mass_scale]
      rw [mul_assoc, this]; ring

/-- In the example the request is feasible and served. -/
example : Feasible exCfg leu ∧ Mat.Nonneg leu ∧
    ((play exCfg exIn).toOption.map fun r => r.1.map fun o =>
      o.ports.product.map fun p => p.bids.map fun b => (b.1, qty b.2, b.2.mass u235)) =
    some [some [(0, 10, 2/5)], none, none] := by
  refine ⟨⟨by decide +kernel, by decide +kernel, by decide +kernel⟩,
    nonneg_of_all (by decide +kernel), by decide +kernel⟩

/-- 400 kg of uranium at exactly the tails assay of the example, by mass. -/
def atTails : NMat := ⟨[(u235, 1), (u238, 399)]⟩

/-- C38 fails at the tails assay: by mass the request is not above the tails assay, by atoms it is,
and it gets an offer. -/
theorem C38_counterexample : ∃ (c : Cfg) (is : List In) (os : List Out) (s : State) (i : In)
    (o : Out) (s' : State) (target m : NMat) (pp : ProductPort), Valid c ∧ History c is os s ∧
    step c s i = .ok (o, s') ∧ i.reqs c.productCommod = some [target] ∧ Mat.Nonneg target ∧
    target.mass u235 ≤ c.tailsAssay * (target.mass u235 + target.mass u238) ∧
    o.ports.product = some pp ∧ (0, m) ∈ pp.bids := by
  obtain ⟨s, hs⟩ : ∃ s, s = (⟨⟨some 200, [⟨[(u235, 1), (u238, 99)]⟩]⟩, ⟨none, []⟩, 0, none⟩ :
    State) := ⟨_, rfl⟩
  have hb : build exCfg = .ok s := ok_of_toOption (by rw [hs]; decide +kernel)
  refine ⟨exCfg, [], [], s, ⟨forProduct [atTails], [], []⟩,
    ⟨some 100, (0, 100), ⟨none, some ⟨[(0, atTails)], 1/100, 1, 100⟩⟩, [], [], none⟩,
    ⟨⟨some 200, [⟨[(u235, 1), (u238, 99)]⟩]⟩, ⟨none, []⟩, 1, none⟩, atTails, atTails, _,
    exCfg_valid, ⟨s, hb, rfl⟩, ok_of_toOption ?_, rfl, nonneg_of_all (by decide +kernel),
    by decide +kernel, rfl, by simp⟩
  rw [hs]; decide +kernel

/-! ## C39 -/

/-- C39, for bids of pairwise different uranium-235 content: they are ranked. What is missing to
C39: bids of equal content, for which the sort is undefined behaviour (`C39_counterexample`). -/
theorem C39_ranked_partial {c : Cfg} (ho : c.orderPrefs = true) {bids : List (Nat × NMat)}
    (hid : (bids.map Prod.fst).Nodup) (hq : ∀ b ∈ bids, 0 < qty b.2 ∧ Mat.Nonneg b.2)
    (hd : ∀ i a j b, (i, a) ∈ bids → (j, b) ∈ bids → i ≠ j →
      a.mass u235 / qty a ≠ b.mass u235 / qty b) :
    ∃ prefs, adjustPrefs c bids = .ok (some prefs) ∧ Ranked bids prefs := by
  have hc : (bids.map fun b => content b.2).Nodup := by
    have h1 : bids.Nodup := List.Nodup.of_map _ hid
    rw [List.nodup_map_iff_inj_on h1]
    intro a ha b hb hab
    by_contra hne
    have hij : a.1 ≠ b.1 := fun h => hne (List.inj_on_of_nodup_map hid ha hb h)
    exact hd a.1 a.2 b.1 b.2 ha hb hij hab
  refine ⟨assign 0 false (bids.insertionSort fun a b => sortBids a.2 b.2 = true), ?_, ?_⟩
  · unfold adjustPrefs sortVector
    rw [if_neg (by simp [ho]), if_pos hc]
    rfl
  · apply assign_ranked (List.perm_insertionSort _ _) _ hid hq
    have : Std.Total fun (a b : Nat × NMat) => sortBids a.2 b.2 = true :=
      ⟨fun a b => by simp only [sortBids, decide_eq_true_eq]; exact le_total _ _⟩
    have : IsTrans (Nat × NMat) fun (a b : Nat × NMat) => sortBids a.2 b.2 = true :=
      ⟨fun a b d h1 h2 => by
        simp only [sortBids, decide_eq_true_eq] at h1 h2 ⊢; exact le_trans h1 h2⟩
    refine (List.pairwise_insertionSort (fun (a b : Nat × NMat) => sortBids a.2 b.2 = true)
      bids).imp ?_
    intro a b h
    simpa [sortBids] using h

/-- C39: should the sort nevertheless return some arrangement of the bids in increasing order, equal
contents included, the ranking is right. -/
theorem C39_sorted {bids l : List (Nat × NMat)} (hp : l.Perm bids)
    (hs : l.Pairwise fun a b => a.2.mass u235 / qty a.2 ≤ b.2.mass u235 / qty b.2)
    (hid : (bids.map Prod.fst).Nodup) (hq : ∀ b ∈ bids, 0 < qty b.2 ∧ Mat.Nonneg b.2) :
    Ranked bids (assign 0 false l) := assign_ranked hp hs hid hq

/-- C39: without `order_prefs` the preferences are left alone. -/
theorem C39_off {c : Cfg} (ho : c.orderPrefs = false) (bids : List (Nat × NMat)) :
    adjustPrefs c bids = .ok none := by
  unfold adjustPrefs; rw [if_pos ho]

/-- Three bids: rich, without uranium-235, natural. -/
example : (adjustPrefs exCfg [(0, leu), (1, ⟨[(u238, 5)]⟩), (2, natu)]).toOption =
    some (some [(1, -1), (2, 2), (0, 3)]) := by
  decide +kernel

/-- C39 fails for two bids of equal content: the comparison handed to the sort is not a strict
order, which is undefined behaviour. Two identical bids suffice. -/
theorem C39_counterexample : ∃ (c : Cfg) (bids : List (Nat × NMat)), c.orderPrefs = true ∧
    (bids.map Prod.fst).Nodup ∧ (∀ b ∈ bids, 0 < qty b.2 ∧ Mat.Nonneg b.2) ∧
    adjustPrefs c bids = .error .ub := by
  refine ⟨exCfg, [(0, natu), (1, natu)], rfl, by decide, ?_, ?_⟩
  · intro b hb
    have : b.2 = natu := by
      simp only [List.mem_cons, List.not_mem_nil, or_false] at hb
      rcases hb with rfl | rfl <;> rfl
    rw [this]
    exact ⟨by decide +kernel, nonneg_of_all (by decide +kernel)⟩
  · unfold adjustPrefs sortVector
    rw [if_neg (by decide), if_neg (by simp)]
    rfl

/-! ## C40 -/

/-- C40: in a step of any history the facility requests the free space of its feed inventory if it
is more than `eps`, and nothing otherwise. -/
theorem C40_request {c : Cfg} (V : Valid c) {is : List In} {os : List Out} {s : State}
    (_h : History c is os s) {i : In} {o : Out} {s' : State} (ht : step c s i = .ok (o, s')) :
    (c.eps < c.maxFeed - totalQty s.inventory.items →
      o.request = some (c.maxFeed - totalQty s.inventory.items)) ∧
    (c.maxFeed - totalQty s.inventory.items ≤ c.eps → o.request = none) := by
  obtain ⟨s1, s2, l, S⟩ := step_inv ht
  rw [S.request]
  have he := V.eps
  have hq : (tick c s).inventory.quantity = totalQty s.inventory.items := rfl
  constructor
  · intro h
    have hm : max 0 (c.maxFeed - totalQty s.inventory.items) =
        c.maxFeed - totalQty s.inventory.items := max_eq_right (by linarith)
    unfold requests
    rw [hq, hm, if_pos h]
  · intro h
    unfold requests
    rw [hq, if_neg]
    rw [not_lt]
    exact max_le (le_of_lt he) h

/-- The requests of the example. -/
example : ((play exCfg exIn).toOption.map fun r => r.1.map Out.request) =
    some [some 100, some 115, some 115] := by
  decide +kernel

/-- C40, deliveries: what is delivered in a step enters the feed inventory behind what the sales left
there, and nothing else changes. -/
theorem C40_received {c : Cfg} (V : Valid c) {is : List In} {os : List Out} {s : State}
    (h : History c is os s) (hs : Substantial is) {i : In} {o : Out} {s' : State}
    (hm : ∀ m ∈ i.buys, 0 < qty m ∧ Mat.Nonneg m) (ht : step c s i = .ok (o, s')) :
    ∃ p s₁ l s₂, bids c i.reqs (tick c s) = .ok (p, s₁) ∧ sellAll c i.sells s₁ = .ok (l, s₂) ∧
      o.ports = p ∧ o.sold = l.map Prod.fst ∧
      s'.inventory.items = s₂.inventory.items ++ i.buys ∧ s'.tails.items = s₂.tails.items := by
  have he := le_of_lt V.eps
  obtain ⟨s1, s2, l, S⟩ := step_inv ht
  obtain ⟨I1, -⟩ := bids_pres he ((history_inv V h hs).swu _) S.bids
  obtain ⟨I2, -⟩ := sellAll_pres he I1 S.sells
  have e := (accept_pres I2 hm S.buys).2
  refine ⟨o.ports, s1, l, s2, S.bids, S.sells, rfl, S.sold, ?_, ?_⟩ <;> rw [e]

/-! ## C41 -/

/-- C41, for a step with sales: the recorded separative work and feed are the sums of those of the
enrichments of the step. What is missing to C41: steps without sales, for which it fails
(`C41_stale`, `C41_counterexample`). -/
theorem C41_records_partial {c : Cfg} (V : Valid c) {is : List In} {os : List Out} {s : State}
    (h : History c is os s) (hs : Substantial is) {i : In}
    (hm : ∀ m ∈ i.buys, 0 < qty m ∧ Mat.Nonneg m) {o : Out} {s' : State}
    (ht : step c s i = .ok (o, s')) (hn : i.sells ≠ []) :
    o.series = some ((o.enrichments.map Enr.swu).sum, (o.enrichments.map Enr.feed).sum) := by
  rw [(step_intra V (history_inv V h hs) hm ht).2, if_neg hn]

/-- The first step of the example, with two sales. -/
example : ((play exCfg (exIn.take 1)).toOption.map fun r => r.1.map fun o =>
    (o.enrichments.map Enr.feed, o.series.map Prod.snd)) = some [([25, 10], some 35)] ∧
    (exIn.map fun i => decide (i.sells = [])) = [false, false, true] := by decide +kernel

/-- In a step without sales the facility uses nothing and records once more what it recorded in the
step before; if there is none, what it records is indeterminate. -/
theorem C41_stale {c : Cfg} (V : Valid c) {is : List In} {os : List Out} {s : State}
    (h : History c is os s) (hs : Substantial is) {i : In}
    (hm : ∀ m ∈ i.buys, 0 < qty m ∧ Mat.Nonneg m) {o : Out} {s' : State}
    (ht : step c s i = .ok (o, s')) (hn : i.sells = []) :
    o.enrichments = [] ∧ o.series = lastSeries os := by
  have he := le_of_lt V.eps
  have I := history_inv V h hs
  constructor
  · obtain ⟨s1, s2, l, S⟩ := step_inv ht
    obtain ⟨I1, -⟩ := bids_pres he (I.swu _) S.bids
    rw [S.enrichments, ((sellAll_pres he I1 S.sells).2.2.2.2.2.1 hn).1]; rfl
  · obtain ⟨s0, hb, hr⟩ := h
    obtain ⟨I0, -, -, hi, -⟩ := build_inv V hb
    rw [(step_intra V I hm ht).2, if_pos hn, run_intra V I0 hs hr, hi]
    split
    · rename_i h; rw [h]; rfl
    · rfl

/-- A sale, then nothing. -/
def idleIn : List In :=
  [⟨forProduct [leu], [⟨"leu", leu, 5⟩], []⟩, ⟨fun _ => none, [], []⟩]

/-- C41 fails in steps without sales: 25 kg of feed are recorded again; and before the first sale the
recorded values are indeterminate. -/
theorem C41_counterexample : ∃ (c : Cfg) (os : List Out) (s : State),
    Valid c ∧ History c idleIn os s ∧
    os.map (fun o => (o.enrichments.map Enr.feed, o.series.map Prod.snd)) =
      [([25], some 25), ([], some 25)] ∧
    ∃ os' s', History c [⟨fun _ => none, [], []⟩] os' s' ∧ os'.map Out.series = [none] := by
  cases hp : play exCfg idleIn with
  | error e =>
    have : (play exCfg idleIn).toOption.isSome = true := by decide +kernel
    rw [hp] at this; simp [Except.toOption] at this
  | ok r =>
    cases hp' : play exCfg [⟨fun _ => none, [], []⟩] with
    | error e =>
      have : (play exCfg [⟨fun _ => none, [], []⟩]).toOption.isSome = true := by decide +kernel
      rw [hp'] at this; simp [Except.toOption] at this
    | ok r' =>
      refine ⟨exCfg, r.1, r.2, exCfg_valid, history_of_play hp, ?_, r'.1, r'.2,
        history_of_play hp', ?_⟩
      · have : ((play exCfg idleIn).toOption.map fun r => r.1.map fun o =>
            (o.enrichments.map Enr.feed, o.series.map Prod.snd)) =
            some [([25], some 25), ([], some 25)] := by decide +kernel
        rw [hp] at this
        exact Option.some.inj this
      · have : ((play exCfg [⟨fun _ => none, [], []⟩]).toOption.map fun r => r.1.map Out.series) =
            some [none] := by decide +kernel
        rw [hp'] at this
        exact Option.some.inj this

/-! ## C74 -/

/-- C74: over any history, whatever the facility holds and has sold is, nuclide by nuclide, what it
started with and received. -/
theorem C74_conserved {c : Cfg} (V : Valid c) {is : List In} {os : List Out} {s : State}
    (h : History c is os s) (hs : Substantial is) (n : Nat) :
    massOf (contents s) n + massOf (sold os) n =
      massOf (initial c) n + massOf (received is) n := by
  obtain ⟨s0, hb, hr⟩ := h
  obtain ⟨I0, hi, ht, -⟩ := build_inv V hb
  have := (run_pres (le_of_lt V.eps) I0 hs hr).2 n
  have e : massOf (contents s0) n = massOf (initial c) n := by simp [contents, hi, ht]
  rw [e] at this
  linarith

/-- In the example: started with 100 kg of 1 %, received 20 kg, holds and sold 120 kg. -/
example : ((play exCfg exIn).toOption.map fun r =>
    (massOf (contents r.2) u235, massOf (sold r.1) u235)) = some (361/400, 119/400) := by
  decide +kernel

/-! ## C75 -/

/-- C75, bids: in a step of any history in which tails are requested and there are tails, every item
of tails is offered to every request, under a constraint of the total quantity of tails; otherwise
nothing is offered. -/
theorem C75_bids {c : Cfg} (V : Valid c) {is : List In} {os : List Out} {s : State}
    (_h : History c is os s) {i : In} {o : Out} {s' : State} (ht : step c s i = .ok (o, s')) :
    (∀ rs, i.reqs c.tailsCommod = some rs → 0 < totalQty s.tails.items →
      ∃ tp, o.ports.tails = some tp ∧ tp.cap = totalQty s.tails.items ∧
        ∀ j m, (j, m) ∈ tp.bids ↔ j < rs.length ∧ m ∈ s.tails.items) ∧
    (i.reqs c.tailsCommod = none ∨ totalQty s.tails.items ≤ 0 → o.ports.tails = none) := by
  obtain ⟨s1, s2, l, S⟩ := step_inv ht
  have h1 := (bids_inv (le_of_lt V.eps) S.bids).1
  rw [h1]
  have hq : (tick c s).tails.quantity = totalQty s.tails.items := rfl
  constructor
  · intro rs hr h0
    rw [hr]
    unfold tailsBids
    simp only
    rw [if_pos (by rw [hq]; exact h0)]
    refine ⟨_, rfl, rfl, ?_⟩
    intro j m
    simp only [List.mem_flatMap, List.mem_range, List.mem_map, Prod.mk.injEq]
    constructor
    · rintro ⟨k, hk, m', hm', rfl, rfl⟩; exact ⟨hk, hm'⟩
    · rintro ⟨hk, hm⟩; exact ⟨j, hk, m, hm, rfl, rfl⟩
  · rintro (hr | h0)
    · rw [hr]; rfl
    · unfold tailsBids
      split
      · rfl
      · rw [if_neg (by rw [hq]; exact not_lt.2 h0)]

/-- C75, sales: a sale of tails, at any point of any history, hands over the traded amount, or all
there is if that is less, oldest first, and leaves the rest and the feed. -/
theorem C75_sales {c : Cfg} (V : Valid c) {s s' : State} (hb : BeforeSale c s) {t : Trade}
    (hc : t.commod = c.tailsCommod) {m : NMat} {e : Option Enr}
    (h : sellOne c t s = .ok (m, e, s')) :
    e = none ∧ qty m = min t.amt (totalQty s.tails.items) ∧
      (∀ n, m.mass n = massOf (upto (min t.amt (totalQty s.tails.items)) s.tails.items) n) ∧
      (∀ n, massOf s'.tails.items n = massOf s.tails.items n - m.mass n) ∧
      s'.inventory = s.inventory := by
  have he := le_of_lt V.eps
  have I := beforeSale_inv V hb
  rcases sellOne_inv he I h with ⟨-, rfl, b, h1, rfl⟩ | ⟨h1, -⟩
  · obtain ⟨-, h2, -, h4, h5, -⟩ := popEps_invNN I.tnn he (min_le_right _ _) h1
    exact ⟨rfl, h2, fun n => h4 n, fun n => h5 n, rfl⟩
  · exact absurd hc h1

/-- The sale of tails in the example hands over 7 kg at 1/4 %. -/
example : ((play exCfg exIn).toOption.map fun r => r.1.map fun o =>
    (o.sold.map fun m => (qty m, m.mass u235))) =
    some [[(5, 1/5), (2, 2/25)], [(7, 7/400)], []] := by
  decide +kernel

/-! ## C76 -/

/-- C76: after any history in an honest market the feed inventory is at most `max_feed_inventory`,
provided it was at the start; the start exceeds it by at most `eps`. -/
theorem C76_limit {c : Cfg} (V : Valid c) {is : List In} {os : List Out} {s : State}
    (h : HonestHistory c is os s) :
    totalQty s.inventory.items ≤ c.maxFeed + c.eps ∧
    (c.initialFeed ≤ c.maxFeed → totalQty s.inventory.items ≤ c.maxFeed) := by
  obtain ⟨s0, hb, hr, hh⟩ := h
  obtain ⟨I0, hi, -, -, hq⟩ := build_inv V hb
  obtain ⟨-, h1, h2⟩ := honest_run_room V I0 hq hh hr
  refine ⟨h1, fun hle => h2 ?_⟩
  unfold Buf.quantity
  rw [hi]
  unfold initial
  split
  · have := V.recipePos
    simp only [totalQty_cons, totalQty_nil, add_zero, Mat.qty_scale]
    rw [div_mul_cancel₀ _ (ne_of_gt this)]; exact hle
  · simpa using V.maxFeed

/-- Deliveries that are accepted fit. -/
theorem accept_room {c : Cfg} {ms : List NMat} {s s' : State} (I : Inv c s)
    (hm : ∀ m ∈ ms, 0 < qty m ∧ Mat.Nonneg m) (hb : ∀ m ∈ ms, c.eps < qty m)
    (hq : s.inventory.quantity ≤ c.maxFeed + c.eps) (h : accept c ms s = .ok s') :
    s'.inventory.quantity ≤ c.maxFeed + c.eps := by
  induction ms generalizing s with
  | nil =>
    simp only [accept, Except.ok.injEq] at h
    rw [← h]; exact hq
  | cons m ms ih =>
    simp only [accept, bind_ok] at h
    obtain ⟨s1, h1, h3⟩ := h
    have I1 : Inv c s1 := by
      have : accept c [m] s = .ok s1 := by simp only [accept, h1, ok_bind]
      exact (accept_pres I (by simpa using hm m (by simp)) this).1
    refine ih I1 (fun x hx => hm x (by simp [hx])) (fun x hx => hb x (by simp [hx])) ?_ h3
    simp only [addMat, bind_ok] at h1
    obtain ⟨b, h1, h2⟩ := h1
    obtain ⟨hf, rfl⟩ := Buf.push_ok.1 h1
    simp only [pure_eq_ok, Except.ok.injEq] at h2
    subst h2
    have hp := hb m (by simp)
    simp only [Buf.quantity] at hq
    simp only [Buf.quantity, totalQty_append, totalQty_cons, totalQty_nil, add_zero]
    simp only [Buf.fits, Buf.space, I.cap, Option.map_some, Buf.quantity, decide_eq_true_eq] at hf
    rcases le_total 0 (c.maxFeed - totalQty s.inventory.items) with h0 | h0
    · rw [max_eq_right h0] at hf; linarith
    · rw [max_eq_left h0] at hf; linarith

/-- C76: whatever the market does, the feed inventory never exceeds `max_feed_inventory` by more
than `eps`, if deliveries are not negligible. -/
theorem C76_always {c : Cfg} (V : Valid c) {is : List In} {os : List Out} {s : State}
    (h : History c is os s) (hs : Substantial is) (hm : ∀ i ∈ is, ∀ m ∈ i.buys, c.eps < qty m) :
    totalQty s.inventory.items ≤ c.maxFeed + c.eps := by
  obtain ⟨s0, hb, hr⟩ := h
  obtain ⟨I0, -, -, -, hq⟩ := build_inv V hb
  have he := le_of_lt V.eps
  clear hb
  induction is generalizing s0 os with
  | nil =>
    simp only [run, Except.ok.injEq, Prod.mk.injEq] at hr
    rw [← hr.2]; exact hq
  | cons i is ih =>
    simp only [run, bind_ok] at hr
    obtain ⟨⟨o, s1⟩, h1, ⟨os1, s2⟩, h2, h3⟩ := hr
    simp only [pure_eq_ok, Except.ok.injEq, Prod.mk.injEq] at h3
    obtain ⟨rfl, rfl⟩ := h3
    refine ih (fun x hx => hs x (by simp [hx])) (fun x hx => hm x (by simp [hx])) _ h2
      (step_pres he I0 (hs i (by simp)) h1).1 ?_
    obtain ⟨t1, t2, l, S⟩ := step_inv h1
    obtain ⟨I1, -, -, -, a4, -⟩ := bids_pres he (I0.swu _) S.bids
    obtain ⟨I2, -, b3, -⟩ := sellAll_pres he I1 S.sells
    have : t2.inventory.quantity ≤ c.maxFeed + c.eps := by
      rw [a4] at b3; exact b3.trans hq
    exact accept_room I2 (hs i (by simp)) (hm i (by simp)) this S.buys

/-- A delivery that does not fit is refused. -/
example : (play exCfg [⟨fun _ => none, [], [natu.scale 10, natu]⟩]).toOption.isSome = false := by
  decide +kernel

/-- A step in an honest market: feed fills the inventory. -/
example : ∃ s, HonestHistory exCfg [⟨fun _ => none, [], [natu]⟩]
    [⟨some 100, (0, 100), ⟨none, none⟩, [], [], none⟩] s := by
  obtain ⟨s, hs⟩ : ∃ s, s = (⟨⟨some 200, [⟨[(u235, 1), (u238, 99)]⟩]⟩, ⟨none, []⟩, 0, none⟩ :
    State) := ⟨_, rfl⟩
  have hb : build exCfg = .ok s := ok_of_toOption (by rw [hs]; decide +kernel)
  refine ⟨⟨⟨some 200, [⟨[(u235, 1), (u238, 99)]⟩, natu]⟩, ⟨none, []⟩, 1, none⟩, s, hb,
    ok_of_toOption (by rw [hs]; decide +kernel), ⟨⟨?_, ?_⟩, ?_, ?_⟩, fun _ _ _ => trivial⟩
  · intro m hm
    rw [List.mem_singleton.1 hm]
    exact ⟨by decide +kernel, nonneg_of_all (by decide +kernel)⟩
  · rw [hs]; decide +kernel
  · intro k rs h; cases h
  · intro p s₁ h
    have h1 : bids exCfg (fun _ => none) (tick exCfg s) = .ok (⟨none, none⟩, tick exCfg s) := rfl
    have h : bids exCfg (fun _ => none) (tick exCfg s) = .ok (p, s₁) := h
    rw [h1] at h
    simp only [Except.ok.injEq, Prod.mk.injEq] at h
    obtain ⟨rfl, rfl⟩ := h
    refine ⟨?_, ?_, ?_, ?_, ?_, ?_⟩
    · intro t h; cases h
    · intro t h; cases h
    · intro t h; cases h
    · intro t h; cases h
    · intro t h; cases h
    · intro t h; cases h

end Cyc.Enrichment
