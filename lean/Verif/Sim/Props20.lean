import Verif.Sim.ReprocessLemmas

/-!
# Spent fuel is reprocessed: property C150
-/

namespace Cyc.Sim

variable {A : Agreement}

open Mat (massOf)
open Separations (fraction share yield yieldAll)

/-- What holds of the separations facility after some steps. -/
structure Worked (b : Nat) (c : Separations.Cfg) (r : ℚ) (l : List (List (Deal × NMat)))
    (s : Separations.State) : Prop where
  stock : ∀ x ∈ sellsOf (.separations c), totalQty (Separations.stock c s x) = 0
  feed : ∀ ν, massOf s.feed.items ν = massOf (before (l.map fun gs => givenTo gs b) 1 l.length) ν
  limit : ∀ gs ∈ l, totalQty (givenBy gs b) ≤ r
  streams : ∀ st ∈ c.streams, ∀ (t : Nat) gs, l[t]? = some gs → ∀ ν, massOf (givenAs gs b st.1) ν =
    fraction st.2.effs ν * massOf (before (l.map fun gs => givenTo gs b) 1 t) ν
  leftover : ∀ (t : Nat) gs, l[t]? = some gs → ∀ ν, massOf (givenAs gs b c.leftoverCommod) ν =
    (1 - share c.streams ν) * massOf (before (l.map fun gs => givenTo gs b) 1 t) ν

/-- Before a step: the feed is worked off, and what is then in stock. -/
theorem Worked.tick {b : Nat} {c : Separations.Cfg} (V : Separations.Valid c) {r : ℚ} (hr : 0 ≤ r)
    {l : List (List (Deal × NMat))}
    {s s₁ : Separations.State} (W : Worked b c r l s) (I : Separations.Inv c s) {ks : List Kind} {n : Nat}
    (hR : Reprocesses ks b c r n) (hb : ∀ gs ∈ l, totalQty (givenTo gs b) ≤ r ∧ Worthwhile c (givenTo gs b))
    {tr : Option Separations.TickRec} (h : Separations.tick c s = .ok (tr, s₁)) :
    totalQty (Separations.contents s) ≤ r ∧ totalQty s₁.feed.items = 0 ∧
    (∀ x ∈ sellsOf (.separations c), totalQty (Separations.stock c s₁ x) = 0 ∨
      c.eps < totalQty (Separations.stock c s₁ x)) ∧
    (∀ st ∈ c.streams, ∀ ν, massOf (Separations.stock c s₁ st.1) ν =
      fraction st.2.effs ν * massOf (before (l.map fun gs => givenTo gs b) 1 l.length) ν) ∧
    ∀ ν, massOf (Separations.stock c s₁ c.leftoverCommod) ν =
      (1 - share c.streams ν) * massOf (before (l.map fun gs => givenTo gs b) 1 l.length) ν := by
  set g := before (l.map fun gs => givenTo gs b) 1 l.length with hg
  have hgle : totalQty g ≤ r := before_le hr fun x hx => by
    obtain ⟨gs, hgs, rfl⟩ := List.mem_map.1 hx
    exact (hb gs hgs).1
  have hw : Worthwhile c g := by
    rw [hg]
    unfold before
    have empty : Worthwhile c [] := by
      refine ⟨fun _ _ => Or.inl rfl, Or.inl ?_⟩
      unfold yieldAll
      rw [List.sum_eq_zero]
      · rfl
      · intro x hx
        obtain ⟨st, -, rfl⟩ := List.mem_map.1 hx
        rfl
    split
    · cases e : (l.map fun gs => givenTo gs b)[l.length - 1]? with
      | none => exact empty
      | some x =>
        obtain ⟨gs, hgs, rfl⟩ := List.mem_map.1 (List.mem_of_getElem? e)
        exact (hb gs hgs).2
    · exact empty
  have hfeed : totalQty s.feed.items = totalQty g := Network.totalQty_eq W.feed
  have hy : ∀ effs, yield effs s.feed.items = yield effs g := fun effs => Separations.yield_congr W.feed
  have hya : yieldAll c.streams s.feed.items = yieldAll c.streams g := by
    unfold yieldAll
    simp only [hy]
  have held : ∀ t, ∀ st ∈ c.streams, Separations.stock c t st.1 = Separations.held t st.1 := by
    intro t st hst
    unfold Separations.stock Separations.held
    rw [if_neg]
    intro e
    exact V.leftover (e ▸ List.mem_map.2 ⟨st, hst, rfl⟩)
  have mem : ∀ st ∈ c.streams, st.1 ∈ sellsOf (.separations c) :=
    fun st hst => List.mem_cons_of_mem _ (List.mem_map.2 ⟨st, hst, rfl⟩)
  have h0 : ∀ st ∈ c.streams, totalQty (Separations.held s st.1) = 0 := fun st hst => by
    rw [← held s st hst, W.stock _ (mem st hst)]
  have l0 : totalQty s.leftover.items = 0 := by
    rw [← Separations.stock_leftover c, W.stock _ (List.mem_cons_self ..)]
  obtain ⟨k1, k2, k3, k4⟩ := Separations.tick_through V I h (by rw [hfeed]; exact hgle.trans hR.rate) (by
    intro st hst h'
    rw [h0 st hst, hfeed, zero_add]
    exact hgle.trans (hR.streams st hst h'))
  refine ⟨?_, k4, ?_, ?_, ?_⟩
  · rw [Separations.contents_feed V I W.stock, hfeed]
    exact hgle
  · intro x hx
    rcases List.mem_cons.1 hx with rfl | hx
    · rw [Separations.stock_leftover, k3, l0, hfeed, hya, zero_add, sub_eq_zero]
      exact hw.2
    · obtain ⟨st, hst, rfl⟩ := List.mem_map.1 hx
      rw [held s₁ st hst, (k1 st hst).2, h0 st hst, hy, zero_add]
      exact hw.1 st hst
  · intro st hst ν
    have : massOf (Separations.held s st.1) ν = 0 :=
      AllNonneg.massOf_eq_zero (held s st hst ▸ I.stockNN st.1) (h0 st hst) ν
    rw [held s₁ st hst, (k1 st hst).1, W.feed, this, zero_add]
  · intro ν
    rw [Separations.stock_leftover, k2, W.feed, AllNonneg.massOf_eq_zero I.leftNN l0, zero_add]

/-- Who buys only from number `i` is given no more than number `i` gives. -/
theorem seller_gives {ks : List Kind} (hks : ∀ k ∈ ks, Sensible k ∧ Suits A k)
    {ps : List (Running act)} (h : deployAll ks = .ok ps) {ex : Nat → Exchange}
    (hex : ∀ t, (ex t).Fair) {m : Nat} {l : List (List (Deal × NMat))}
    {ps₁ ps' : List (Running act)} {gs : List (Deal × NMat)} (e1 : simulate ex m 0 ps = .ok (l, ps₁))
    (e2 : round (ex m) ps₁ = .ok (gs, ps')) {x : String} {i j : Nat} (hl : Link ks x i j) :
    totalQty (givenTo gs j) ≤ totalQty (givenBy gs i) := by
  have T := trade_between hks h hex e1 e2
  obtain ⟨g0, kinds⟩ := deployAll_k h hks
  obtain ⟨l', ps'', r1, -, r2, r3, -⟩ := simulate_ok (A := A) hex m 0 g0
  obtain ⟨rfl, rfl⟩ := Prod.mk.inj (Except.ok.inj (r1.symm.trans e1))
  obtain ⟨asks, offers, gs', ps₂, a1, o1, b3, ⟨b4, b5⟩, -⟩ := round_ok (hex m) r2
  obtain ⟨rfl, rfl⟩ := Prod.mk.inj (Except.ok.inj (b3.symm.trans e2))
  obtain ⟨asks', a1', a2, a3, a4⟩ := askAll_ok r2
  obtain rfl := Except.ok.inj (a1.symm.trans a1')
  obtain ⟨offers', o1', o2, o3⟩ := offerAll_ok a3 r2
  obtain rfl := Except.ok.inj (o1.symm.trans o1')
  have F := hex m _ _ a4 o3
  unfold givenTo givenBy
  rw [← dealt_given (fun g hg => (b5 g hg).1.2) fun d => d.dst = j,
    ← dealt_given (fun g hg => (b5 g hg).1.2) fun d => d.src = i]
  refine dealt_mono (fun d hd => (F.pos d (b4.mem_iff.1 hd)).1.le) fun d hd e => ?_
  obtain ⟨g, hg, rfl⟩ := List.mem_map.1 hd
  obtain ⟨⟨k, t1, t2⟩, k', t3, t4⟩ := T g hg
  rw [of_decide_eq_true e] at t3
  exact decide_eq_true (hl.seller _ _ _ t1 t3 ⟨_, t4, t2⟩)

/-- One more step. -/
theorem at_each {l : List (List (Deal × NMat))} {gs : List (Deal × NMat)} {b m : Nat} {φ : Nat → ℚ} {x : String}
    (hlen : l.length = m) (h : ∀ (t : Nat) gs, l[t]? = some gs → ∀ ν, massOf (givenAs gs b x) ν =
      φ ν * massOf (before (l.map fun gs => givenTo gs b) 1 t) ν)
    (h' : ∀ ν, massOf (givenAs gs b x) ν = φ ν * massOf (before (l.map fun gs => givenTo gs b) 1 m) ν) :
    ∀ (t : Nat) gs', (l ++ [gs])[t]? = some gs' → ∀ ν, massOf (givenAs gs' b x) ν =
      φ ν * massOf (before ((l ++ [gs]).map fun gs => givenTo gs b) 1 t) ν := by
  intro t gs' ht ν
  have htm : t < m + 1 := by
    have := (List.getElem?_eq_some_iff.1 ht).1
    simp [hlen] at this
    omega
  rw [List.map_append, before_append (by rw [List.length_map]; omega) (by omega)]
  rcases Nat.lt_or_ge t m with h1 | h1
  · rw [List.getElem?_append_left (by omega)] at ht
    exact h t gs' ht ν
  · obtain rfl : t = m := by omega
    rw [List.getElem?_append_right (by omega), hlen] at ht
    simp only [Nat.sub_self, List.getElem?_cons_zero, Option.some.injEq] at ht
    subst ht
    exact h' ν

/-- The separations facility keeps up, step by step. -/
theorem worked {ks : List Kind} (hks : ∀ k ∈ ks, Sensible k ∧ Suits A k)
    {ps : List (Running act)} (h : deployAll ks = .ok ps) {ex : Nat → Exchange}
    (hex : ∀ t, (ex t).Fair) (hth : ∀ t, (ex t).Thorough) {n : Nat} {b : Nat} {r : ℚ} (hr : 0 < r)
    {c : Separations.Cfg} (hk : ks[b]? = some (.separations c)) (hR : Reprocesses ks b c r n) :
    ∀ {m : Nat}, m ≤ n → ∀ {l : List (List (Deal × NMat))} {ps' : List (Running act)},
    simulate ex m 0 ps = .ok (l, ps') →
    (∀ gs ∈ l, totalQty (givenTo gs b) ≤ r ∧ Worthwhile c (givenTo gs b)) →
    ∃ s : Separations.State, ps'[b]? = some ⟨.separations c, s⟩ ∧ Worked b c r l s := by
  intro m
  induction m with
  | zero =>
    intro _ l ps' hs _
    obtain ⟨hc, s, q1, s₀, is, os, k1, k2, -, k4, -⟩ := lived_at hks h hex hs hk
    obtain ⟨rfl⟩ := List.length_eq_zero_iff.1 k4
    simp only [Separations.run, Except.ok.injEq] at k2
    obtain ⟨-, rfl⟩ := k2
    obtain ⟨rfl⟩ := List.length_eq_zero_iff.1 (simulate_length _ hs)
    have I := (Separations.enter_Inv hc.1 k1).1
    have z : ∀ ν, massOf (Separations.contents s) ν = 0 := by
      intro ν
      have := (Separations.C27_conserved hc.1.eps (is := []) (os := []) ⟨s, k1, rfl⟩
        (fun i hi => by cases hi)).1 ν
      simpa [Separations.sold, Separations.received] using this.symm
    have zq : totalQty (Separations.contents s) = 0 := Network.totalQty_eq (l' := []) fun ν => by simpa using z ν
    refine ⟨s, q1, fun x _ => ?_, fun ν => ?_, by simp, by simp, by simp⟩
    · exact le_antisymm (zq ▸ Separations.stock_le hc.1 I x) (I.stockNN x).total_nonneg
    · rw [(Separations.enter_inv k1).1]
      rfl
  | succ m ih =>
    intro hm l ps' hs hb
    obtain ⟨l₁, ps₁, gs, e1, e2, rfl⟩ := simulate_snoc hs
    rw [Nat.zero_add] at e2
    obtain ⟨s, q1, W⟩ := ih (by omega) e1 fun gs hgs => hb gs (List.mem_append_left _ hgs)
    have hlen : l₁.length = m := simulate_length _ e1
    have T := trade_between hks h hex e1 e2
    obtain ⟨g0, kinds⟩ := deployAll_k h hks
    obtain ⟨l', ps'', r1, -, r2, r3, -⟩ := simulate_ok (A := A) hex m 0 g0
    obtain ⟨rfl, rfl⟩ := Prod.mk.inj (Except.ok.inj (r1.symm.trans e1))
    obtain ⟨asks, offers, gs', ps₂, a1, o1, b3, ⟨b4, b5⟩, -⟩ := round_ok (hex m) r2
    obtain ⟨rfl, rfl⟩ := Prod.mk.inj (Except.ok.inj (b3.symm.trans e2))
    obtain ⟨asks₂, offers₂, hs', a1', o1', sl, -, -, P⟩ := round_parts' (hex m) r2 e2
    obtain rfl := Except.ok.inj (a1.symm.trans a1')
    obtain rfl := Except.ok.inj (o1.symm.trans o1')
    obtain ⟨asks', a1'', a2, a3, a4⟩ := askAll_ok r2
    obtain rfl := Except.ok.inj (a1.symm.trans a1'')
    obtain ⟨offers', o1'', o2, o3⟩ := offerAll_ok a3 r2
    obtain rfl := Except.ok.inj (o1.symm.trans o1'')
    have F := hex m _ _ a4 o3
    have Th := hth m _ _ a4 o3
    set ds := ex m asks offers with hds
    have given : ∀ p : Deal → Bool, totalQty ((gs'.filter fun g => p g.1).map Prod.snd) = dealt ds p := by
      intro p
      rw [← dealt_perm b4, dealt_given fun g hg => (b5 g hg).1.2]
    have hby : totalQty (givenBy gs' b) = dealt ds fun d => d.src = b := given fun d => d.src = b
    obtain ⟨hc, s', q1', L⟩ := lived_at hks h hex e1 hk
    obtain rfl : s = s' := by
      have := Option.some.inj (q1.symm.trans q1')
      cases this
      rfl
    obtain ⟨os, lb, as, mm, s', Pb, q2, hlb, -⟩ := P b _ q1
    obtain ⟨s₁, N⟩ := OfSeparations.turn hc L Pb
    have V := hc.1
    have I := OfSeparations.lived_inv hc L
    obtain ⟨tr, ht⟩ := N.tick
    obtain ⟨w1, w2, w3, w4, w5⟩ := W.tick V hr.le I hR
      (fun gs hgs => hb gs (List.mem_append_left _ hgs)) ht
    have hsum : ∀ x, (((dealsOf ds b).map Deal.sale |>.filter fun t => t.commod = x).map Sale.amt).sum =
        dealt ds fun d => d.src = b ∧ d.commod = x := by
      intro x
      unfold dealt dealsOf
      have e : (fun d : Deal => decide (d.commod = x) && decide (d.src = b)) =
          fun d => decide (d.src = b ∧ d.commod = x) := by
        funext d
        rw [Bool.eq_iff_iff]
        simp [and_comm]
      rw [List.filter_map, List.map_map, List.filter_filter, ← e]
      rfl
    have hall : totalQty (givenBy gs' b) + totalQty (Separations.contents mm) =
        totalQty (Separations.contents s) := by
      rw [← totalQty_append, ← hlb]
      refine Network.totalQty_eq fun ν => ?_
      rw [Mat.massOf_append]
      exact N.all ν
    have hmm : 0 ≤ totalQty (Separations.contents mm) :=
      le_trans (N.invM.stockNN "").total_nonneg (Separations.stock_le V N.invM "")
    have zero : ∀ x ∈ sellsOf (.separations c), totalQty (Separations.stock c mm x) = 0 := by
      intro x hx
      have nn := (N.invM.stockNN x).total_nonneg
      have st := N.stock x
      rcases w3 x hx with hz | hz
      · have := N.traded x
        linarith
      obtain ⟨j, w, hl, hj, j1, j2, j3⟩ := hR.sinks x hx
      obtain ⟨hcw, sw, p1, Lw⟩ := lived_at hks h hex e1 hj
      obtain ⟨k', t1, t2⟩ := hl.buys
      obtain rfl := Option.some.inj (hj.symm.trans t1)
      have wants := sink_wants hcw (Nat.lt_of_succ_le hm) Lw hr (by rw [List.length_map, hlen]) j1 j2 j3 (by
        intro ms hms
        obtain ⟨gs, hgs, rfl⟩ := List.mem_map.1 hms
        obtain ⟨t, ht⟩ := List.mem_iff_getElem?.1 hgs
        obtain ⟨ps₃, ps₄, z1, z2⟩ := (simulate_at e1).2 t gs ht
        exact (seller_gives hks h hex z1 z2 hl).trans (W.limit gs hgs)) (x := x) t2
      obtain ⟨alts, u, tg, v1, v2, v3, v4⟩ := wants
      obtain ⟨asj, c1, c2⟩ := forall₂_get a2 p1
      obtain rfl := Except.ok.inj (v1.symm.trans c2)
      obtain ⟨osb, d1, d2⟩ := forall₂_get o2 q1
      obtain rfl := Except.ok.inj (Pb.offers.symm.trans d2)
      have hreq : quantities (requestsOf asks) x ≠ [] := by
        have hmem : (⟨x, tg⟩ : Req) ∈ requestsOf asks := by
          refine List.mem_flatMap.2 ⟨_, List.mem_flatten.2 ⟨_, List.mem_of_getElem? c1,
            List.mem_singleton.2 rfl⟩, List.mem_map.2 ⟨_, v2, rfl⟩⟩
        refine List.ne_nil_of_mem (a := qty tg) (List.mem_map.2 ⟨_, List.mem_filter.2 ⟨hmem, by simp⟩, rfl⟩)
      obtain ⟨p, hp, hpx⟩ := Separations.bid_made V N.inv hc.2.1 hreq hz.le
      have hos : ∀ o ∈ os, o.commod = x →
          o = ⟨x, totalQty (Separations.stock c s₁ x), c.lo, none, fun _ => true, []⟩ := by
        intro o ho e
        rw [N.offers] at ho
        obtain ⟨p, hp, rfl⟩ := List.mem_map.1 ho
        have e : p.commod = x := e
        rw [← e, ← Separations.bids_cap V N.inv hp]
      have hexo : ∃ o ∈ os, o.commod = x := by
        rw [N.offers]
        exact ⟨_, List.mem_map.2 ⟨p, hp, rfl⟩, hpx⟩
      rcases pours_in F Th d1 hexo hos hR.amounts c1 v2 v3 with hq | hq
      · rw [hsum] at st
        linarith
      · have le := seller_gives hks h hex e1 e2 hl
        rw [show totalQty (givenTo gs' j) = dealt ds fun d => d.dst = j from given fun d => d.dst = j] at le
        have := Separations.stock_le V N.invM x
        linarith
    have as_sold : ∀ x ∈ sellsOf (.separations c), ∀ ν,
        massOf (givenAs gs' b x) ν = massOf (Separations.stock c s₁ x) ν := by
      intro x hx ν
      have st := N.stock x
      rw [zero x hx] at st
      have := N.sold x ν
      rw [show (((dealsOf ds b).map Deal.sale |>.filter fun t => t.commod = x).map Sale.amt).sum =
        totalQty (Separations.stock c s₁ x) by linarith, upto_total (N.inv.stockNN x) le_rfl] at this
      rw [← this]
      obtain ⟨-, hz⟩ := sellAll_zip sl
      obtain ⟨lz, mz, f1, f2⟩ := hz b _ q1
      rw [Nat.zero_add] at f1 f2
      obtain ⟨rfl, -⟩ := Prod.mk.inj (Except.ok.inj (f1.symm.trans Pb.sell))
      unfold givenAs
      have : (gs'.filter fun g => g.1.src = b ∧ g.1.commod = x) =
          (gs'.filter fun g => g.1.src = b).filter fun g => g.1.commod = x := by
        rw [List.filter_filter]
        refine List.filter_congr fun g _ => ?_
        rw [Bool.eq_iff_iff]
        simp [and_comm]
      rw [this, f2, List.zip_map_left, List.filter_map, List.map_map]
      rfl
    refine ⟨s', q2, ?_, ?_, ?_, ?_, ?_⟩
    · intro x hx
      rw [N.still]
      exact zero x hx
    · intro ν
      have hm0 : massOf mm.feed.items ν = 0 := by
        rw [N.feedM]
        exact N.inv.feedNN.massOf_eq_zero w2 ν
      rw [N.feed, Mat.massOf_append, hm0, zero_add, List.map_map, List.map_append, List.length_append,
        before, if_pos (by simp), List.length_singleton, Nat.add_sub_cancel,
        List.getElem?_append_right (by simp)]
      simp
      rfl
    · intro gs hgs
      rcases List.mem_append.1 hgs with hgs | hgs
      · exact W.limit gs hgs
      · rw [List.mem_singleton.1 hgs]
        linarith
    · intro st hst
      refine at_each hlen (W.streams st hst) fun ν => ?_
      rw [as_sold _ (List.mem_cons_of_mem _ (List.mem_map.2 ⟨st, hst, rfl⟩)), w4 st hst, hlen]
    · refine at_each hlen W.leftover fun ν => ?_
      rw [as_sold _ (List.mem_cons_self ..), w5, hlen]

/-- The separations facility wants enough, as long as it has been given no more. -/
theorem Reprocesses.ends {ks : List Kind} (hks : ∀ k ∈ ks, Sensible k ∧ Suits A k)
    {ps : List (Running act)} (h : deployAll ks = .ok ps) {ex : Nat → Exchange}
    (hex : ∀ t, (ex t).Fair) (hth : ∀ t, (ex t).Thorough) {n : Nat} {b : Nat} {r : ℚ} (hr : 0 < r)
    {c : Separations.Cfg} (hk : ks[b]? = some (.separations c)) (hR : Reprocesses ks b c r n)
    {l : List (List (Deal × NMat))} {ps' : List (Running act)} (hs : simulate ex n 0 ps = .ok (l, ps'))
    (hw : ∀ gs ∈ l, Worthwhile c (givenTo gs b)) : Ends ks ex ps b r n := by
  intro m hm l₁ ps₁ e1 hb k hk' x hx
  obtain rfl := Option.some.inj (hk.symm.trans hk')
  obtain ⟨hlen, hat⟩ := simulate_at hs
  obtain ⟨ps₂, -, e2, -⟩ := hat m l[m] (List.getElem?_eq_getElem (by omega))
  obtain ⟨rfl, rfl⟩ := Prod.mk.inj (Except.ok.inj (e2.symm.trans e1))
  have hb' : ∀ gs ∈ l.take m, totalQty (givenTo gs b) ≤ r ∧ Worthwhile c (givenTo gs b) :=
    fun gs hgs => ⟨hb gs hgs, hw gs (List.mem_of_mem_take hgs)⟩
  obtain ⟨s, q1, W⟩ := worked hks h hex hth hr hk hR hm.le e1 hb'
  refine ⟨_, q1, ?_⟩
  obtain ⟨hc, s', q1', L⟩ := lived_at hks h hex e1 hk
  obtain rfl : s = s' := by
    have := Option.some.inj (q1.symm.trans q1')
    cases this
    rfl
  have I := OfSeparations.lived_inv hc L
  obtain ⟨V, heps, hleft, hf, hp, -⟩ := hc
  have hq : s.feed.quantity ≤ c.feedbufSize := by
    have h1 : totalQty s.feed.items ≤ r := by
      rw [Network.totalQty_eq W.feed]
      refine before_le hr.le fun x hx => ?_
      obtain ⟨gs, hgs, rfl⟩ := List.mem_map.1 hx
      exact hb gs hgs
    exact h1.trans hR.feed
  obtain ⟨tr, s₁, ht⟩ := Separations.tick_ok V I hq hleft
  have I1 := Separations.tick_inv V I ht
  obtain ⟨-, w2, -⟩ := W.tick V hr.le I hR hb' ht
  obtain ⟨d, rq, hrq⟩ := Separations.requests_ok I1 ⟨hf, hp⟩
  have hreq := Separations.requests_empty I1 ⟨hf, hp⟩ hR.stays w2 (hR.tolerance.trans hR.feed) V.feedbuf hrq
  subst hreq
  have hl := Separations.prefs_length I1 ⟨hf, hp⟩
  refine ⟨(c.feedCommods.zip s₁.prefs).map fun k => (k.1, blank c.feedbufSize), c.feedbufSize,
    blank c.feedbufSize, ?_, ?_, by rw [qty_blank], hR.feed⟩
  · show (separations c).asks s = _
    simp only [separations, ht, hrq, ok_bind, pure_eq_ok]
  · obtain ⟨i, hi⟩ := List.mem_iff_getElem?.1 hx
    have hi' := (List.getElem?_eq_some_iff.1 hi).1
    refine List.mem_map.2 ⟨(x, s₁.prefs[i]'(by rw [hl]; exact hi')), ?_, rfl⟩
    refine List.mem_iff_getElem?.2 ⟨i, ?_⟩
    rw [List.getElem?_zip_eq_some]
    exact ⟨hi, List.getElem?_eq_getElem _⟩

/-- All that the storage facilities pass on is separated. -/
theorem reprocessed {ks : List Kind} (hks : ∀ k ∈ ks, Sensible k ∧ Suits A k)
    {ps : List (Running act)} (h : deployAll ks = .ok ps) {ex : Nat → Exchange}
    (hex : ∀ t, (ex t).Fair) (hth : ∀ t, (ex t).Thorough) {n : Nat} {is : List Nat} {b : Nat} {r : ℚ}
    (hD : Conveys ks is b r) {c : Separations.Cfg} (hk : ks[b]? = some (.separations c))
    (hR : Reprocesses ks b c r n) {l : List (List (Deal × NMat))} {ps' : List (Running act)}
    (hs : simulate ex n 0 ps = .ok (l, ps')) (hw : ∀ gs ∈ l, Worthwhile c (givenTo gs b)) :
    Reprocessed b c l ps' := by
  have P := passed hks h hex hth hD (hR.ends hks h hex hth hD.pos hk hs hw) le_rfl hs
  obtain ⟨s, q1, W⟩ := worked hks h hex hth hD.pos hk hR le_rfl hs fun gs hgs => ⟨P.last gs hgs, hw gs hgs⟩
  refine ⟨W.streams, W.leftover, s, q1, fun ν => ?_⟩
  obtain ⟨hc, s', q1', L⟩ := lived_at hks h hex hs hk
  obtain rfl : s = s' := by
    have := Option.some.inj (q1.symm.trans q1')
    cases this
    rfl
  have I := OfSeparations.lived_inv hc L
  rw [← W.feed]
  unfold Separations.contents
  have e1 : massOf s.leftover.items ν = 0 := by
    refine I.leftNN.massOf_eq_zero ?_ ν
    rw [← Separations.stock_leftover c, W.stock _ (List.mem_cons_self ..)]
  have e2 : ∀ bs : List (String × Buf NMat), (∀ x ∈ bs, x ∈ s.bufs) →
      massOf (bs.flatMap fun b => b.2.items) ν = 0 := by
    intro bs
    induction bs with
    | nil => intro _; rfl
    | cons x bs ih =>
      intro hx
      obtain ⟨e, hk⟩ := Separations.buf_stock hc.1 I (hx x (List.mem_cons_self ..))
      rw [List.flatMap_cons, Mat.massOf_append, ih fun y hy => hx y (List.mem_cons_of_mem _ hy), e,
        (I.stockNN _).massOf_eq_zero (W.stock _ (List.mem_cons_of_mem _ hk)), add_zero]
  rw [Mat.massOf_append, Mat.massOf_append, e1, e2 _ fun _ hx => hx, add_zero, add_zero]

/-- C150. In a simulation with a source of fuel, reactors, storage facilities one after the other and a separations
facility at the end whose streams and leftover go to sinks, every reactor runs on schedule and spent fuel takes
its way through the storage facilities (both as in C149), and all of it is reprocessed: in each step the
separations facility gives as each stream, of each nuclide, the stream's efficiency times what it was given in
the step before, and the rest as leftover. It is enough that its throughput, its feed storage and its limited
streams have room for what all reactors can sell in a step, however long the simulation.

What comes in in a step must have more of each stream than the tolerance, or nothing (`Worthwhile`): the facility
makes no bids for less. Partial: as C125. -/
theorem C150_reprocessing_partial {ks : List Kind} (hks : ∀ k ∈ ks, Sensible k ∧ Suits A k)
    {ps : List (Running act)} (h : deployAll ks = .ok ps) {ex : Nat → Exchange}
    (hex : ∀ t, (ex t).Fair) (hea : ∀ t, (ex t).Eager) (hth : ∀ t, (ex t).Thorough) {n : Nat} {a : Nat}
    {f : Source.Cfg} (ha : ks[a]? = some (.source f)) (hS : Supplies ks f n) {is : List Nat} {b : Nat} {r : ℚ}
    (hD : Conveys ks is b r) {p : Separations.Cfg} (hp : ks[b]? = some (.separations p))
    (hR : Reprocesses ks b p r n) {l : List (List (Deal × NMat))} {ps' : List (Running act)}
    (hs : simulate ex n 0 ps = .ok (l, ps')) (hw : ∀ gs ∈ l, Worthwhile p (givenTo gs b)) :
    Disposed ks is b l ps' ∧ Reprocessed b p l ps' ∧
    ∀ {j : Nat} {c : Reactor.Cfg} {enc : NMat → Nat} {dec : Nat → NMat},
    ks[j]? = some (.reactor c enc dec) → f.outcommod ∈ c.inCommods → f.lo ≤ c.assemSize → c.exitTime = none →
    c.cycleStep = 0 → min c.nBatch c.nCore ≤ c.nSpent → ∃ (is : List Reactor.In) (os : List Reactor.Out)
      (s : Reactor.State × Nat), ps'[j]? = some ⟨.reactor c enc dec, s⟩ ∧
      Reactor.History c is os s.1 ∧ l.length = n ∧ os.length = n ∧
      is.map (fun i => i.buys.map Prod.snd) = numbered enc 0 (l.map fun gs => givenTo gs j) ∧
      os.map (fun o => material dec (o.shipped.map Prod.snd)) = (l.map fun gs => givenBy gs j) ∧
      (∀ (t : Nat) gs o, l[t]? = some gs → os[t]? = some o → OnTime c t gs j o) ∧
      Reactor.energy os = c.powerCap * Reactor.ideal c n := by
  have hE := hR.ends hks h hex hth hD.pos hp hs hw
  refine ⟨disposed hks h hex hth hD hE hs, reprocessed hks h hex hth hD hp hR hs hw, ?_⟩
  intro j c enc dec hj h1 h3 hx hz hsp
  obtain ⟨is, os, s, k1, k2, -, k4, k5, k6, k7, -, -, k10⟩ :=
    on_schedule' hks h hex hea hj (source_fills hks h hex hea ha hS hj h1 h3)
      (storage_takes hks h hex hth hD hE hj) hx hz hsp (le_refl n) hs
  refine ⟨is, os, s, k1, k2, k5, k4, k6, k7, k10, ?_⟩
  rw [Reactor.energy_eq (c := c), k4]
  intro t o ho
  have ht : t < l.length := by
    have := (List.getElem?_eq_some_iff.1 ho).1
    omega
  exact (k10 t l[t] o (List.getElem?_eq_getElem ht) ho).power

/-- C150, with a mine, any number of conversions and an enrichment facility in place of the source of fuel (as in
C149).

Partial: as C125. -/
theorem C150_fuel_cycle_partial {ks : List Kind} (hks : ∀ k ∈ ks, Sensible k ∧ Suits A k)
    {ps : List (Running act)} (h : deployAll ks = .ok ps) {ex : Nat → Exchange}
    (hex : ∀ t, (ex t).Fair) (hke : ∀ t, (ex t).Keen) (hth : ∀ t, (ex t).Thorough) {n i a : Nat}
    {e : Enrichment.Cfg} (hi : ks[i]? = some (.enrichment e)) {lo hi' φ σ : ℚ}
    (hE : Enriches A ks e lo hi' φ σ) {f : Source.Cfg} (ha : ks[a]? = some (.source f)) {js : List Nat}
    {q : ℚ} (hM : Feeds ks i e f js φ q n) {is : List Nat} {b : Nat} {r : ℚ} (hD : Conveys ks is b r)
    {p : Separations.Cfg} (hp : ks[b]? = some (.separations p)) (hR : Reprocesses ks b p r n)
    {l : List (List (Deal × NMat))} {ps' : List (Running act)}
    (hs : simulate ex n 0 ps = .ok (l, ps')) (hw : ∀ gs ∈ l, Worthwhile p (givenTo gs b)) :
    Disposed ks is b l ps' ∧ Reprocessed b p l ps' ∧
    ∀ {j : Nat} {c : Reactor.Cfg} {enc : NMat → Nat} {dec : Nat → NMat},
    ks[j]? = some (.reactor c enc dec) → e.productCommod ∈ c.inCommods → max e.lo e.eps ≤ c.assemSize →
    (∀ name r, Reactor.Names c e.productCommod name → c.recipe name = some r →
      Enrichment.Feasible e (dec r)) → c.exitTime = none →
    c.cycleStep = 0 → min c.nBatch c.nCore ≤ c.nSpent → ∃ (is : List Reactor.In) (os : List Reactor.Out)
      (s : Reactor.State × Nat), ps'[j]? = some ⟨.reactor c enc dec, s⟩ ∧
      Reactor.History c is os s.1 ∧ l.length = n ∧ os.length = n ∧
      is.map (fun i => i.buys.map Prod.snd) = numbered enc 0 (l.map fun gs => givenTo gs j) ∧
      os.map (fun o => material dec (o.shipped.map Prod.snd)) = (l.map fun gs => givenBy gs j) ∧
      (∀ (t : Nat) gs o, l[t]? = some gs → os[t]? = some o → OnTime c t gs j o) ∧
      Reactor.energy os = c.powerCap * Reactor.ideal c n := by
  have hB := hR.ends hks h hex hth hD.pos hp hs hw
  refine ⟨disposed hks h hex hth hD hB hs, reprocessed hks h hex hth hD hp hR hs hw, ?_⟩
  intro j c enc dec hj h1 h3 hf hx hz hsp
  obtain ⟨is, os, s, k1, k2, -, k4, k5, k6, k7, -, -, k10⟩ :=
    on_schedule' hks h hex (fun t => (hke t).eager) hj
      (enrichment_fills hks h hex hke hi hE hj h1 h3 hf fun hφ m hm l ps' hs =>
        let ⟨s, q1, q2, q3, _⟩ := chain_kept hks h hex hth hi hE ha hM hφ hm.le hs
        ⟨s, q1, q2, q3⟩)
      (storage_takes hks h hex hth hD hB hj) hx hz hsp (le_refl n) hs
  refine ⟨is, os, s, k1, k2, k5, k4, k6, k7, k10, ?_⟩
  rw [Reactor.energy_eq (c := c), k4]
  intro t o ho
  have ht : t < l.length := by
    have := (List.getElem?_eq_some_iff.1 ho).1
    omega
  exact (k10 t l[t] o (List.getElem?_eq_getElem ht) ho).power

/-- C150, from the reactors to the sinks: in each step the separations facility gives as each stream, of each
nuclide, the stream's efficiency times what reactors sold as many steps before as the storage facilities take and
one more, and the rest as leftover; and what it gives under a commodity goes to the sink that buys it.

Partial: as C125. -/
theorem C150_recovered_partial {ks : List Kind} (hks : ∀ k ∈ ks, Sensible k ∧ Suits A k)
    {ps : List (Running act)} (h : deployAll ks = .ok ps) {ex : Nat → Exchange}
    (hex : ∀ t, (ex t).Fair) (hth : ∀ t, (ex t).Thorough) {n : Nat} {is : List Nat} {b : Nat} {r : ℚ}
    (hD : Conveys ks is b r) {p : Separations.Cfg} (hp : ks[b]? = some (.separations p))
    (hR : Reprocesses ks b p r n) {l : List (List (Deal × NMat))} {ps' : List (Running act)}
    (hs : simulate ex n 0 ps = .ok (l, ps')) (hw : ∀ gs ∈ l, Worthwhile p (givenTo gs b)) {i : Nat}
    (hi : is[0]? = some i) {t : Nat} {gs : List (Deal × NMat)} (ht : l[t]? = some gs) :
    (∀ g ∈ gs, (∃ c enc dec, ks[g.1.src]? = some (.reactor c enc dec)) ↔ g.1.dst = i) ∧
    (∀ st ∈ p.streams, ∀ ν, massOf (givenAs gs b st.1) ν =
      fraction st.2.effs ν * massOf (before (l.map fun gs => givenTo gs i) (lags ks is + 1) t) ν) ∧
    (∀ ν, massOf (givenAs gs b p.leftoverCommod) ν =
      (1 - share p.streams ν) * massOf (before (l.map fun gs => givenTo gs i) (lags ks is + 1) t) ν) ∧
    ∀ x j, Link ks x b j → ∀ g ∈ gs, g.1.commod = x → g.1.dst = j := by
  have hE := hR.ends hks h hex hth hD.pos hp hs hw
  have D := disposed hks h hex hth hD hE hs
  have R := reprocessed hks h hex hth hD hp hR hs hw
  have htl := (List.getElem?_eq_some_iff.1 ht).1
  have arr : ∀ ν, massOf (before (l.map fun gs => givenTo gs b) 1 t) ν =
      massOf (before (l.map fun gs => givenTo gs i) (lags ks is + 1) t) ν := by
    intro ν
    refine before_before ν fun u hu => ?_
    have hu' : u < l.length := by omega
    rw [List.getElem?_map, List.getElem?_eq_getElem hu']
    exact D.arrived i hi u _ (List.getElem?_eq_getElem hu') ν
  refine ⟨fun g hg => D.collected i hi gs (List.mem_of_getElem? ht) g hg, fun st hst ν => ?_, fun ν => ?_, ?_⟩
  · rw [R.streams st hst t gs ht, arr]
  · rw [R.leftover t gs ht, arr]
  · intro x j hl g hg e
    obtain ⟨ps₁, ps₂, e1, e2⟩ := (simulate_at hs).2 t gs ht
    obtain ⟨-, k', t3, t4⟩ := trade_between hks h hex e1 e2 g hg
    exact hl.buyer _ _ t3 (e ▸ t4)

/-! ## An example -/

instance (c : Separations.Cfg) (ms : List NMat) : Decidable (Worthwhile c ms) :=
  inferInstanceAs (Decidable (_ ∧ _))

/-- Recovers plutonium and uranium from what comes out of the storage facilities. -/
def exReprocess : Separations.Cfg :=
  { exSeparations with
    feedCommods := ["old"]
    feedbufSize := 60
    throughput := 50
    streams := [("pu", ⟨48, [(940000000, 9/10)]⟩), ("u", ⟨-1, [(920000000, 1), (922350000, 1/2)]⟩)] }

/-- For plutonium. -/
def exVault : Sink.Cfg :=
  { exSink with
    commods := ["pu"]
    maxInv := 480 }

/-- For uranium and waste. -/
def exDepot : Sink.Cfg :=
  { exSink with
    commods := ["waste", "u"]
    maxInv := 480 }

/-- A source, two reactors, two storage facilities, a separations facility and two sinks. -/
def exRecovery : List Kind :=
  [.source exFuel, .storage exHold (exWant exHold), .reactor exReactor (fun _ => 1) exDec,
    .reactor exSecond (fun _ => 1) exDec, .storage exCool (exWant exCool), .separations exReprocess,
    .sink exVault, .sink exDepot]

theorem exRecovery_sensible : ∀ k ∈ exRecovery, Sensible k ∧ Suits exOpen k := by
  have base := exBackEnd_sensible
  simp only [exBackEnd, List.mem_cons, List.not_mem_nil, or_false, forall_eq_or_imp, forall_eq] at base
  obtain ⟨b1, b2, b3, b4, b5, -⟩ := base
  intro k hk
  simp only [exRecovery, List.mem_cons, List.not_mem_nil, or_false] at hk
  rcases hk with rfl | rfl | rfl | rfl | rfl | rfl | rfl | rfl
  · exact b1
  · exact b2
  · exact b3
  · exact b4
  · exact b5
  · refine ⟨⟨⟨by decide, by decide, ?_, Separations.exCfg_valid.share, by norm_num [exReprocess, exSeparations],
      by norm_num [exReprocess, exSeparations], by norm_num [exReprocess, exSeparations],
      by norm_num [exReprocess, exSeparations]⟩, by norm_num [exReprocess, exSeparations], rfl,
      by decide, Or.inl rfl, by decide⟩, fun _ _ _ _ => trivial, fun _ _ => trivial, fun _ _ _ _ => trivial⟩
    intro s hs e he
    simp only [exReprocess, List.mem_cons, List.not_mem_nil, or_false] at hs
    rcases hs with rfl | rfl <;> simp only [List.mem_cons, List.not_mem_nil, or_false] at he
    · subst he; norm_num
    · rcases he with rfl | rfl <;> norm_num
  · refine ⟨⟨⟨by norm_num [exVault, exSink], by norm_num [exVault, exSink],
      by norm_num [exVault, exSink], by norm_num [exVault, exSink], ?_⟩, ?_, Or.inl rfl, rfl, rfl⟩,
      fun _ _ _ _ => trivial⟩ <;>
    · intro r hr; cases hr
  · refine ⟨⟨⟨by norm_num [exDepot, exSink], by norm_num [exDepot, exSink],
      by norm_num [exDepot, exSink], by norm_num [exDepot, exSink], ?_⟩, ?_, Or.inl rfl, rfl, rfl⟩,
      fun _ _ _ _ => trivial⟩ <;>
    · intro r hr; cases hr

theorem exRecovery_supplied : Supplies exRecovery exFuel 10 := by
  refine ⟨?_, by decide +kernel, by decide +kernel, by decide +kernel⟩
  intro k hk
  simp only [exRecovery, List.mem_cons, List.not_mem_nil, or_false] at hk
  rcases hk with rfl | rfl | rfl | rfl | rfl | rfl | rfl | rfl <;> decide

theorem exRecovery_linked {x : String} {i j : Nat}
    (h : (x, i, j) ∈ [("cool", 4, 1), ("old", 1, 5), ("pu", 5, 6), ("u", 5, 7), ("waste", 5, 7)]) :
    Link exRecovery x i j := by
  simp only [List.mem_cons, Prod.mk.injEq, List.not_mem_nil, or_false] at h
  rcases h with ⟨rfl, rfl, rfl⟩ | ⟨rfl, rfl, rfl⟩ | ⟨rfl, rfl, rfl⟩ | ⟨rfl, rfl, rfl⟩ | ⟨rfl, rfl, rfl⟩
  all_goals
    refine ⟨⟨_, rfl, by decide⟩, ?_, ?_⟩
    · intro m k hm hk
      match m with
      | 0 | 1 | 2 | 3 | 4 | 5 | 6 | 7 => cases hm; first | rfl | exact absurd hk (by decide)
      | m + 8 => cases hm
    · intro m k k' hm hk' hy
      cases hk'
      match m with
      | 0 | 1 | 2 | 3 | 4 | 5 | 6 | 7 => cases hm; first | rfl | exact absurd hy (by decide)
      | m + 8 => cases hm

theorem exRecovery_conveyed : Conveys exRecovery [4, 1] 5 48 := by
  refine ⟨by norm_num, ⟨4, rfl, ?_, ?_, ?_, by decide +kernel⟩, ?_⟩
  · intro m k k' hm hk' hr hy
    simp only [exRecovery, List.mem_cons, List.not_mem_nil, or_false] at hk'
    match m with
    | 0 | 1 | 2 | 3 | 4 | 5 | 6 | 7 =>
      cases hm
      first
      | rfl
      | rcases hk' with rfl | rfl | rfl | rfl | rfl | rfl | rfl | rfl <;>
          first | exact absurd hr (by decide) | exact absurd hy (by decide)
    | m + 8 => cases hm
  · intro k k' hk hk' hy
    cases hk
    simp only [exRecovery, List.mem_cons, List.not_mem_nil, or_false] at hk'
    rcases hk' with rfl | rfl | rfl | rfl | rfl | rfl | rfl | rfl <;> first | rfl | exact absurd hy (by decide)
  · intro k k' hk hk' hr
    cases hk
    simp only [exRecovery, List.mem_cons, List.not_mem_nil, or_false] at hk'
    rcases hk' with rfl | rfl | rfl | rfl | rfl | rfl | rfl | rfl <;>
      first | exact absurd hr (by decide) | decide
  · intro k i hk
    match k with
    | 0 =>
      cases hk
      refine ⟨_, _, _, rfl, ⟨by decide +kernel, by decide +kernel, fun s hs => ?_, by decide +kernel⟩, rfl,
        exRecovery_linked (by simp)⟩
      exact le_min (by decide +kernel) hs
    | 1 =>
      cases hk
      refine ⟨_, _, _, rfl, ⟨by decide +kernel, by decide +kernel, fun s hs => ?_, by decide +kernel⟩, rfl,
        exRecovery_linked (by simp)⟩
      exact le_min (by decide +kernel) hs
    | k + 2 => cases hk

theorem exRecovery_reprocessed : Reprocesses exRecovery 5 exReprocess 48 10 := by
  refine ⟨rfl, by decide +kernel, by decide +kernel, by decide +kernel, by decide +kernel, by decide +kernel, ?_⟩
  intro x hx
  simp only [sellsOf, exReprocess, exSeparations, List.map_cons, List.map_nil, List.mem_cons, List.not_mem_nil,
    or_false] at hx
  rcases hx with rfl | rfl | rfl
  · exact ⟨7, _, exRecovery_linked (by simp), rfl, by decide +kernel, by decide +kernel, by decide +kernel⟩
  · exact ⟨6, _, exRecovery_linked (by simp), rfl, by decide +kernel, by decide +kernel, by decide +kernel⟩
  · exact ⟨7, _, exRecovery_linked (by simp), rfl, by decide +kernel, by decide +kernel, by decide +kernel⟩

/-- The example meets the hypotheses: six steps after reactors have sold spent fuel, nine tenths of its plutonium
and all of its uranium but half of the uranium-235 are recovered. -/
example : ∃ ps l ps', deployAll exRecovery = .ok ps ∧ simulate (fun _ => sating) 10 0 ps = .ok (l, ps') ∧
    (∀ gs ∈ l, Worthwhile exReprocess (givenTo gs 5)) ∧
    ∀ (t : Nat) gs gs', l[t]? = some gs → l[t + 6]? = some gs' →
      massOf (givenAs gs' 5 "pu") 942390000 = 9/10 * massOf (givenTo gs 4) 942390000 ∧
      massOf (givenAs gs' 5 "u") 922350000 = 1/2 * massOf (givenTo gs 4) 922350000 ∧
      massOf (givenAs gs' 5 "waste") 551370000 = massOf (givenTo gs 4) 551370000 := by
  obtain ⟨ps, h1, h2⟩ := C125_runs_partial exRecovery_sensible
  obtain ⟨l, ps', h3, -⟩ := h2 (fun _ => sating) (fun _ => sating_fair) 10
  have hw : ∀ gs ∈ l, Worthwhile exReprocess (givenTo gs 5) := by
    have e : ((deployAll exRecovery >>= simulate (fun _ => sating) 10 0).toOption.map fun r =>
        decide (∀ gs ∈ r.1, Worthwhile exReprocess (givenTo gs 5))) = some true := by
      decide +kernel
    rw [h1, ok_bind, h3] at e
    exact of_decide_eq_true (Option.some.inj e)
  refine ⟨ps, l, ps', h1, h3, hw, fun t gs gs' hg hg' => ?_⟩
  obtain ⟨-, e1, e2, -⟩ := C150_recovered_partial exRecovery_sensible h1 (fun _ => sating_fair)
    (fun _ => sating_thorough) exRecovery_conveyed rfl exRecovery_reprocessed h3 hw (i := 4) rfl hg'
  have e : lags exRecovery [4, 1] = 5 := rfl
  have eb : before (l.map fun gs => givenTo gs 4) (lags exRecovery [4, 1] + 1) (t + 6) = givenTo gs 4 := by
    rw [e]
    unfold before
    rw [if_pos (by omega), Nat.add_sub_cancel, List.getElem?_map, hg]
    rfl
  rw [eb] at e1 e2
  refine ⟨?_, ?_, ?_⟩
  · exact (e1 ("pu", ⟨48, [(940000000, 9/10)]⟩) (by simp [exReprocess]) _).trans (by congr 1)
  · exact (e1 ("u", ⟨-1, [(920000000, 1), (922350000, 1/2)]⟩) (by simp [exReprocess]) _).trans (by congr 1)
  · refine (e2 _).trans ?_
    have : (1 : ℚ) - share exReprocess.streams 551370000 = 1 := by decide +kernel
    rw [this, one_mul]

/-- What the reactors sell, what the separations facility is given, and the plutonium, uranium and waste it gives,
in kg. -/
example : ((deployAll exRecovery >>= simulate (fun _ => sating) 10 0).toOption.map fun r => r.1.map fun gs =>
      (totalQty (givenTo gs 4), totalQty (givenTo gs 5), totalQty (givenTo gs 6), totalQty (givenAs gs 5 "u"),
        totalQty (givenAs gs 5 "waste"))) =
    some [(0, 0, 0, 0, 0), (24, 0, 0, 0, 0), (12, 0, 0, 0, 0), (24, 0, 0, 0, 0), (0, 0, 0, 0, 0), (36, 0, 0, 0, 0),
      (0, 24, 0, 0, 0), (24, 12, 18/5, 15, 27/5), (12, 24, 9/5, 15/2, 27/10), (24, 0, 18/5, 15, 27/5)] := by
  decide +kernel

end Cyc.Sim
