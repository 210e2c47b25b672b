import Verif.Enrichment.Lemmas6

/-!
# Enrichment: properties C35 and C36

Statements are about a facility that was deployed and then lived through any list of steps
(`History`), with deliveries of positive quantity (`Substantial`). The value function of separative
work is arbitrary.
-/

namespace Cyc.Enrichment

open Mat (massOf)

/-! ## An example facility -/

/-- Feed of 1 % uranium-235, tails of 1/4 %; at most 200 kg of feed, 100 of them initially. -/
def exCfg : Cfg where
  feedCommod := "natu"
  productCommod := "leu"
  tailsCommod := "tails"
  feedRecipe := ⟨[(u235, 1), (u238, 99)]⟩
  tailsAssay := 1/400
  swuCapacity := 1
  maxEnrich := 1/5
  initialFeed := 100
  maxFeed := 200
  orderPrefs := true
  value := fun x => (1 - 2 * x) * (1 - 2 * x)
  atomMass := fun n => if n = u235 then 235 else 238
  eps := 1/1000000
  lo := 0

/-- 10 kg of uranium of 4 %. -/
def leu : NMat := ⟨[(u235, 2/5), (u238, 48/5)]⟩

/-- 10 kg of feed. -/
def natu : NMat := ⟨[(u235, 1/10), (u238, 99/10)]⟩

/-- Requests for product only. -/
def forProduct (l : List NMat) : String → Option (List NMat) :=
  fun k => if k = "leu" then some l else none

/-- Requests for tails only. -/
def forTails (l : List NMat) : String → Option (List NMat) :=
  fun k => if k = "tails" then some l else none

/-- A delivery of feed; two sales of product in one step; a sale of tails; a step without sales. -/
def exIn : List In :=
  [⟨forProduct [leu], [⟨"leu", leu, 5⟩, ⟨"leu", leu, 2⟩], [natu, natu]⟩,
    ⟨forTails [leu], [⟨"tails", leu, 7⟩], []⟩, ⟨fun _ => none, [], []⟩]

/-- Deploy and run. -/
def play (c : Cfg) (is : List In) : R (List Out × State) := do
  let s ← build c
  run c s is

theorem ok_of_toOption {α : Type} {x : R α} {a : α} (h : x.toOption = some a) : x = .ok a := by
  cases x with
  | error e => simp [Except.toOption] at h
  | ok b => simp only [Except.toOption, Option.some.injEq] at h; rw [h]

theorem history_of_play {c : Cfg} {is : List In} {os : List Out} {s : State}
    (h : play c is = .ok (os, s)) : History c is os s := by
  simp only [play, bind_ok] at h
  exact h

theorem play_ok {c : Cfg} {is : List In} (h : (play c is).toOption.isSome = true) :
    ∃ os s, History c is os s := by
  cases hp : play c is with
  | error e => rw [hp] at h; simp [Except.toOption] at h
  | ok r => exact ⟨r.1, r.2, history_of_play hp⟩

theorem nonneg_of_all {m : NMat} (h : m.entries.all (fun e => decide (0 ≤ e.2)) = true) :
    Mat.Nonneg m := by
  intro e he
  simpa using List.all_eq_true.1 h e he

theorem exCfg_valid : Valid exCfg := by
  refine ⟨nonneg_of_all (by decide +kernel), ?_, ?_, ?_, ?_, ?_, ?_, ?_, ?_⟩ <;>
    norm_num [exCfg, Mat.qty_def]

theorem exIn_substantial : Substantial exIn := by
  intro i hi m hm
  simp only [exIn, List.mem_cons, List.not_mem_nil, or_false] at hi
  rcases hi with rfl | rfl | rfl <;>
    simp only [List.mem_cons, List.not_mem_nil, or_false, or_self] at hm
  subst hm
  exact ⟨by norm_num [natu, Mat.qty_def], nonneg_of_all (by decide +kernel)⟩

/-- The example runs: its sales, in quantity, and what it records. -/
example : ((play exCfg exIn).toOption.map fun r =>
    (r.1.map fun o => (o.sold.map qty, o.enrichments.map Enr.feed, o.series.map Prod.snd))) =
    some [([5, 2], [25, 10], some 35), ([7], [], some 0), ([], [], some 0)] := by
  decide +kernel

example : ∃ os s, History exCfg exIn os s := play_ok (by decide +kernel)

/-! ## C35 -/

/-- C35: a sale of product at any point of any history. What leaves the feed is the product and what
the tails gain, nuclide by nuclide; the product is the offer of the bid, cut to the traded
amount. If the inventory is not exhausted by the sale to within `eps`, the feed that leaves is the
recorded amount and the uranium the tails gain is exactly at the tails assay; otherwise all feed
leaves, and the tails deviate by at most `eps`. The recorded work is that of the uranium in feed,
product and tails.
Missing: tails exactly at the tails assay when the sale exhausts the feed to within `eps`, where it is
false (`C35_counterexample`); offers with
other nuclides than uranium-235 and uranium-238. -/
theorem C35_balance_partial {c : Cfg} (V : Valid c) {s s' : State} (hb : BeforeSale c s) {t : Trade}
    (hc : t.commod ≠ c.tailsCommod) (hp : Pure [t.offer]) (hq : 0 < qty t.offer) {m : NMat}
    {e : Option Enr} (h : sellOne c t s = .ok (m, e, s')) :
    m = cut t ∧ ∃ x added, e = some x ∧ s'.tails.items = s.tails.items ++ [added] ∧
      (∀ n, massOf s.inventory.items n = massOf s'.inventory.items n + m.mass n + added.mass n) ∧
      (|x.feed - totalQty s.inventory.items| > c.eps →
        totalQty s.inventory.items - totalQty s'.inventory.items = x.feed ∧
        HasAssay c.tailsAssay [added]) ∧
      (|x.feed - totalQty s.inventory.items| < c.eps → s'.inventory.items = []) ∧
      |added.mass u235 - c.tailsAssay * uranium [added]| ≤ c.eps ∧
      ∀ xp xf uf, HasAssay xp [t.offer] → HasAssay xf s.inventory.items →
        uf * totalQty s.inventory.items = x.feed * uranium s.inventory.items →
        uf * (xf - c.tailsAssay) = t.amt * (xp - c.tailsAssay) ∧
        x.swu = t.amt * c.value xp + (uf - t.amt) * c.value c.tailsAssay - uf * c.value xf := by
  have he := le_of_lt V.eps
  have I := beforeSale_inv V hb
  rcases sellOne_inv he I h with ⟨h1, -⟩ | ⟨-, hne, x, k, rfl, E⟩
  · exact absurd h1 hc
  have hB := I.squash_pos hne
  have hN := I.squash_nn
  generalize hBB : Mat.squash s.inventory.items = B at *
  have hmass : ∀ n, massOf s.inventory.items n = B.mass n := by intro n; rw [← hBB]; simp
  have hqB : totalQty s.inventory.items = qty B := by rw [← hBB]; simp
  have dev := tails_dev E hp (ne_of_gt hq)
  obtain ⟨f0, f1⟩ := frac_bounds hN
  obtain ⟨x0, x1⟩ := assay_bounds hN
  obtain ⟨hq0, hu, hu0⟩ := u_eq_of_frac E.frac
  refine ⟨E.response, x, (B.scale k).sub m, rfl, by rw [E.tails], ?_, ?_, ?_, ?_, ?_⟩
  · intro n
    rw [hmass]
    rcases E.inv with ⟨rfl, h'⟩ | ⟨-, h'⟩ <;> rw [h'] <;> simp <;> ring
  · intro hgt
    rw [hqB] at hgt ⊢
    have hk : k * qty B = x.feed := by
      rcases E.amount with h | ⟨-, h, -⟩
      · exact h
      · exact absurd h (not_le.2 hgt)
    constructor
    · rcases E.inv with ⟨rfl, h'⟩ | ⟨-, h'⟩ <;> rw [h'] <;> simp <;> linarith
    · rw [hk] at dev
      simp only [HasAssay, uranium, Mat.massOf_cons, Mat.massOf_nil, add_zero]
      linarith
  · intro hlt
    rw [hqB] at hlt
    rcases E.inv with ⟨-, h'⟩ | ⟨hk, h'⟩
    · rw [h']
    · exact absurd (E.full hlt) (ne_of_lt hk)
  · simp only [uranium, Mat.massOf_cons, Mat.massOf_nil, add_zero]
    rw [dev, abs_mul, abs_mul]
    have h1 : |k * qty B - x.feed| ≤ c.eps := by
      rcases E.amount with h | ⟨rfl, h, -⟩
      · rw [h]; simpa using he
      · rw [one_mul, abs_sub_comm]; exact h
    have h2 : |uFrac B| ≤ 1 := by rw [abs_of_nonneg f0]; exact f1
    have h3 : |assay B - c.tailsAssay| ≤ 1 := by
      have := V.tails; have := V.tailsLe
      rw [abs_le]; constructor <;> linarith
    calc |k * qty B - x.feed| * |uFrac B| * |assay B - c.tailsAssay|
        ≤ c.eps * 1 * 1 := by
          apply mul_le_mul (mul_le_mul h1 h2 (abs_nonneg _) he) h3 (abs_nonneg _)
          linarith
      _ = c.eps := by ring
  · intro xp xf uf hxp hxf huf
    have hpq := pure_qty hp
    have hm0 : t.offer.mass u235 + t.offer.mass u238 ≠ 0 := by rw [← hpq]; exact ne_of_gt hq
    have e1 : xp = assay t.offer := by
      simp only [HasAssay, uranium, Mat.massOf_cons, Mat.massOf_nil, add_zero] at hxp
      unfold assay; rw [if_neg hm0, eq_div_iff hm0]; exact hxp.symm
    have e2 : xf = assay B := by
      simp only [HasAssay, uranium, hmass] at hxf
      unfold assay; rw [if_neg hu0, eq_div_iff hu0]; exact hxf.symm
    have e3 : uf = x.feed * uFrac B := by
      simp only [uranium, hmass, hqB] at huf
      rw [hu] at huf
      have : qty B * (uf - x.feed * uFrac B) = 0 := by
        rw [mul_sub]; linarith
      rcases mul_eq_zero.1 this with h | h
      · exact absurd h hq0
      · linarith
    have n := need_mul (mat := t.offer) (q := t.amt) E.frac E.feedAssay
    rw [← E.feed] at n
    subst e1 e2 e3
    refine ⟨n, ?_⟩
    rw [E.swu]
    have e4 : x.feed * uFrac B =
        t.amt * ((assay t.offer - c.tailsAssay) / (assay B - c.tailsAssay)) := by
      have := sub_ne_zero.2 E.feedAssay
      field_simp; exact n
    rw [e4]; rfl

/-- The first sale of the example: 5 kg of product at 4 % from feed at 1 %, tails at 1/4 %. -/
example : ((build exCfg).toOption.bind fun s =>
    (sellOne exCfg ⟨"leu", leu, 5⟩ s).toOption.map fun r =>
      (qty r.1, r.1.mass u235, r.2.2.tails.items.map fun m => (qty m, m.mass u235))) =
    some (5, 1/5, [(20, 1/20)]) := by
  decide +kernel

/-- C35 fails when a sale leaves less feed than `eps`: all of it is used, and what is not needed for the
product goes to the tails, which are then richer than the tails assay. -/
theorem C35_counterexample : ((play exCfg [⟨forProduct [⟨[(u235, 4/5), (u238, 96/5)]⟩],
      [⟨"leu", leu, 20 - 1/10000000⟩], []⟩]).toOption.map fun r =>
    (r.1.map fun o => (o.sold.map qty, o.enrichments.map Enr.feed), totalQty r.2.inventory.items,
      decide (exCfg.tailsAssay * totalQty r.2.tails.items < massOf r.2.tails.items u235))) =
    some ([([20 - 1/10000000], [100 - 1/2000000])], 0, true) := by
  decide +kernel

/-! ## C36 -/

/-- C36: whatever the sales, the separative work of a step that succeeds is at most `swu_capacity`,
up to the tolerance of the check. -/
theorem C36_limit {c : Cfg} (V : Valid c) {is : List In} {os : List Out} {s : State}
    (h : History c is os s) (hs : Substantial is) {i : In} {o : Out} {s' : State}
    (ht : step c s i = .ok (o, s')) :
    (o.enrichments.map Enr.swu).sum ≤ c.swuCapacity + c.eps := by
  have he := le_of_lt V.eps
  have I := history_inv V h hs
  obtain ⟨s1, s2, l, S⟩ := step_inv ht
  obtain ⟨I1, a1, a2, -⟩ := bids_pres he (I.swu _) S.bids
  obtain ⟨I2, b1, b2, b3, b4, b5, b6⟩ := sellAll_pres he I1 S.sells
  rw [S.enrichments]
  change swuSum l ≤ _
  by_cases hn : i.sells = []
  · rw [(b5 hn).1]
    have := V.swu
    simp only [swuSum, List.filterMap_nil, List.map_nil, List.sum_nil]; linarith
  · have := b6 hn
    rw [b3, a2] at this
    simp only [tick] at this
    linarith

/-- C36: if the sales respect the constraints of the bids, the separative work of a step is at most
`swu_capacity` exactly. -/
theorem C36_exact {c : Cfg} (V : Valid c) {is : List In} {os : List Out} {s : State}
    (h : History c is os s) (hs : Substantial is) {i : In} {o : Out} {s' : State}
    (ht : step c s i = .ok (o, s')) (hh : HonestSales c o.ports i.sells) :
    (o.enrichments.map Enr.swu).sum ≤ c.swuCapacity := by
  have he := le_of_lt V.eps
  have I := history_inv V h hs
  obtain ⟨s1, s2, l, S⟩ := step_inv ht
  obtain ⟨I1, -⟩ := bids_pres he (I.swu _) S.bids
  rw [S.enrichments]
  change swuSum l ≤ _
  have hS := S.sells
  cases hn : i.sells with
  | nil =>
    rw [hn] at hS
    rw [((sellAll_pres he I1 hS).2.2.2.2.2.1 rfl).1]
    simpa [swuSum] using le_of_lt V.swu
  | cons t ts =>
    rw [hn] at hS hh
    obtain ⟨hl, -⟩ := sell_inv hS
    obtain ⟨-, ⟨hnone, -, -⟩ | ⟨rs, -, -, -, hne, rfl, hpp⟩⟩ := bids_inv he S.bids
    · -- no product portfolio: no product sales
      have hpt : productTrades c (t :: ts) = [] := by
        rw [List.eq_nil_iff_forall_not_mem]
        intro x hx
        obtain ⟨-, pp, hpp, -⟩ := hh.product x hx
        rw [hnone] at hpp; cases hpp
      rw [noProduct_swu hpt hl]; exact le_of_lt V.swu
    · obtain ⟨vs, h1, h2⟩ := hh.swu _ hpp
      have hb : Blend (Mat.squash (tick c s).inventory.items)
          [Mat.squash (tick c s).inventory.items] :=
        Or.inr ⟨1, by norm_num, by simp⟩
      rw [blend_swu he (I1.intra (some (0, 0))) hb hh.amt hl h1]
      exact h2

/-- The work of the first step of the example. -/
example : ((play exCfg exIn).toOption.map fun r => r.1.map fun o => o.enrichments.map Enr.swu) =
    some [[9/400, 9/1000], [], []] := by
  decide +kernel

end Cyc.Enrichment
