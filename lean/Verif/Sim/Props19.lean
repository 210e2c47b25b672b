import Verif.Sim.BackEnd
import Verif.Sim.Props10
import Verif.Sim.Props15
import Verif.Network.Lemmas

/-!
# Spent fuel goes through interim storage: property C149
-/

namespace Cyc.Sim

variable {A : Agreement}

open Mat (massOf)

theorem massOf_flatten_take {ms : List (List NMat)} {k : Nat} (n : Nat) :
    massOf (ms.take (k + 1)).flatten n = massOf (ms.take k).flatten n + massOf (ms[k]?.getD []) n := by
  rw [List.take_add_one, List.flatten_append, Mat.massOf_append]
  cases ms[k]? <;> simp

theorem before_zero {ms : List (List NMat)} {d t : Nat} (h : t < d) : before ms d t = [] := by
  unfold before
  rw [if_neg (by omega)]

theorem before_append {ms ms' : List (List NMat)} {d t : Nat} (h : t ≤ ms.length) (hd : 1 ≤ d) :
    before (ms ++ ms') d t = before ms d t := by
  unfold before
  split
  · rw [List.getElem?_append_left (by omega)]
  · rfl

theorem before_before {ms ms' : List (List NMat)} {d e t : Nat} (n : Nat)
    (h : ∀ u, u < t + 1 → massOf (ms'[u]?.getD []) n = massOf (before ms d u) n) :
    massOf (before ms' e t) n = massOf (before ms (d + e) t) n := by
  by_cases h1 : e ≤ t
  · unfold before
    rw [if_pos h1, h _ (by omega)]
    unfold before
    by_cases h2 : d ≤ t - e
    · rw [if_pos h2, if_pos (by omega), show t - e - d = t - (d + e) by omega]
    · rw [if_neg h2, if_neg (by omega)]
  · rw [before_zero (by omega), before_zero (by omega)]

theorem before_le {ms : List (List NMat)} {d t : Nat} {r : ℚ} (hr : 0 ≤ r) (h : ∀ x ∈ ms, totalQty x ≤ r) :
    totalQty (before ms d t) ≤ r := by
  unfold before
  split
  · cases e : ms[t - d]? with
    | none => simpa [totalQty] using hr
    | some x => exact h x (List.mem_of_getElem? e)
  · simpa [totalQty] using hr

/-- If in each step is given what was got `d` steps before, then in all what was got in all but the last `d`
steps. -/
theorem flatten_before {got gave : List (List NMat)} {d n : Nat} (hd : 1 ≤ d) (ν : Nat)
    (h : ∀ t < n, massOf (gave[t]?.getD []) ν = massOf (before got d t) ν) :
    ∀ k ≤ n, massOf (gave.take k).flatten ν = massOf (got.take (k - d)).flatten ν := by
  intro k
  induction k with
  | zero => intro _; simp
  | succ k ih =>
    intro hk
    rw [massOf_flatten_take, ih (by omega), h k (by omega)]
    by_cases hdk : d ≤ k
    · rw [show k + 1 - d = k - d + 1 by omega, massOf_flatten_take]
      unfold before
      rw [if_pos hdk]
    · rw [before_zero (by omega), show k + 1 - d = k - d by omega]
      simp

namespace OfStorage
open Storage

theorem lived_history {c : Cfg} {want : Storage.State Nat → ℚ} {s : State Nat} {n : Nat}
    {got gave : List (List NMat)} (L : Lived (.storage c want) s n got gave) :
    ∃ is os, History c is os s ∧ Substantial is ∧ is.length = n ∧ is.map In.buys = got ∧
      os.map Out.sold = gave := by
  obtain ⟨p, s₀, is, os, b, r, H, -, h1, h2, h3⟩ := L
  exact ⟨is, os, ⟨p, s₀, b, r⟩, honest_all (step := step c) (run := run c)
    (fun _ => rfl) (fun _ _ _ => rfl) (H := Honest c) (fun _ _ _ => Iff.rfl)
    (fun _ _ _ _ h _ => h.buys) r H, h1, h2, h3⟩

/-- What is in stock and what there is in all, if all that was in stock was sold in every step. -/
theorem passing {c : Cfg} {want : Storage.State Nat → ℚ} (hc : Sensible (.storage c want)) {s : State Nat}
    {n : Nat} {got gave : List (List NMat)} (L : Lived (.storage c want) s n got gave)
    (hb : ∀ ms ∈ got, totalQty ms ≤ c.throughput)
    (hg : ∀ t < n, ∀ ν, massOf (gave[t]?.getD []) ν = massOf (before got (c.residence + 1) t) ν) (ν : Nat) :
    massOf s.stocks.items ν = massOf (before got (c.residence + 1) n) ν ∧
    massOf (contents s) ν = massOf (got.drop (n - (c.residence + 1))).flatten ν := by
  obtain ⟨is, os, H, S, h1, h2, h3⟩ := lived_history L
  have e1 : ∀ k, Storage.received (is.take k) = (got.take k).flatten := by
    intro k
    rw [← h2, ← List.map_take, ← List.flatMap_def]; rfl
  have e2 : Storage.sold os = gave.flatten := by rw [← h3, ← List.flatMap_def]; rfl
  have hlen : gave.length = n := by
    rw [← h3, List.length_map, (history_inv hc.2.1 H S).2.2.2, h1]
  have k1 := C25_on_time hc.2.1 H S (by
    intro i hi
    exact hb _ (h2 ▸ List.mem_map_of_mem hi)) ν
  have k2 := (C19_conserved hc.2.1 H S).1 ν
  have k3 := flatten_before (Nat.le_add_left 1 c.residence) ν (fun t ht => hg t ht ν) n le_rfl
  rw [List.take_of_length_le hlen.le] at k3
  have e3 := e1 is.length
  rw [List.take_length] at e3
  rw [List.take_of_length_le (by rw [← h2, List.length_map])] at e3
  rw [(history_inv hc.2.1 H S).2.2.1, e1, e2, h1, k3] at k1
  rw [e2, e3, k3] at k2
  constructor
  · by_cases hn : c.residence + 1 ≤ n
    · rw [show n - c.residence = n - (c.residence + 1) + 1 by omega, massOf_flatten_take] at k1
      unfold before
      rw [if_pos hn]
      linarith
    · rw [before_zero (by omega)]
      rw [show n - c.residence = n - (c.residence + 1) by omega] at k1
      simp only [Mat.massOf_nil]
      linarith
  · have : got.flatten = (got.take (n - (c.residence + 1))).flatten ++
        (got.drop (n - (c.residence + 1))).flatten := by
      rw [← List.flatten_append, List.take_append_drop]
    rw [this, Mat.massOf_append] at k2
    linarith

/-- If all that is in stock is sold, then it is. -/
theorem sold_out {c : Cfg} {want : Storage.State Nat → ℚ} (hc : Sensible (.storage c want)) {s s' m : State Nat}
    {n : Nat} {got gave : List (List NMat)} (L : Lived (.storage c want) s n got gave) {rs : List Req}
    {os : List Offer} {ts : List Sale} {l : List NMat} {as : List Ask} {ds : List Delivery}
    (P : Part (storage c want) rs s os ts l as ds m s') (h : totalQty l = totalQty s.stocks.items) (ν : Nat) :
    massOf l ν = massOf s.stocks.items ν := by
  obtain ⟨is, outs, H, S, -⟩ := lived_history L
  have I := (history_inv hc.2.1 H S).1
  obtain ⟨l', -, k1, k2, k3, -⟩ := sellLoop_inv hc.2.1 I.stockPos P.sell
  have : l' = [] := by
    by_contra hne
    obtain ⟨a, ha⟩ := List.exists_mem_of_ne_nil _ hne
    have h1 : totalQty l' = 0 := by linarith
    have h2 : qty a ≤ totalQty l' := List.single_le_sum (by
      intro x hx
      obtain ⟨y, hy, rfl⟩ := List.mem_map.1 hx
      exact (k1 y hy).le) _ (List.mem_map_of_mem ha)
    have := k1 a ha
    linarith
  rw [← k3 ν, this]
  simp

end OfStorage

/-- Who trades with whom. -/
theorem trade_between {ks : List Kind} (hks : ∀ k ∈ ks, Sensible k ∧ Suits A k)
    {ps : List (Running act)} (h : deployAll ks = .ok ps) {ex : Nat → Exchange}
    (hex : ∀ t, (ex t).Fair) {m : Nat} {l : List (List (Deal × NMat))} {ps₁ ps' : List (Running act)}
    {gs : List (Deal × NMat)} (e1 : simulate ex m 0 ps = .ok (l, ps₁))
    (e2 : round (ex m) ps₁ = .ok (gs, ps')) : ∀ g ∈ gs,
    (∃ k, ks[g.1.src]? = some k ∧ g.1.commod ∈ sellsOf k) ∧
      ∃ k, ks[g.1.dst]? = some k ∧ g.1.commod ∈ buysOf k := by
  obtain ⟨g0, kinds⟩ := deployAll_k h hks
  obtain ⟨l', ps'', r1, -, r2, r3, -⟩ := simulate_ok (A := A) hex m 0 g0
  obtain ⟨rfl, rfl⟩ := Prod.mk.inj (Except.ok.inj (r1.symm.trans e1))
  have kinds' := r3.trans kinds
  obtain ⟨asks, offers, gs', ps₂, a1, o1, b3, ⟨b4, b5⟩, -⟩ := round_ok (hex m) r2
  obtain ⟨rfl, rfl⟩ := Prod.mk.inj (Except.ok.inj (b3.symm.trans e2))
  obtain ⟨asks', a1', a2, a3, a4⟩ := askAll_ok r2
  obtain rfl := Except.ok.inj (a1.symm.trans a1')
  obtain ⟨offers', o1', o2, o3⟩ := offerAll_ok a3 r2
  obtain rfl := Except.ok.inj (o1.symm.trans o1')
  have F := hex m _ _ a4 o3
  intro g hg
  have hd := b4.mem_iff.1 (List.mem_map_of_mem (f := Prod.fst) hg)
  constructor
  · obtain ⟨os, i1, o, i2, i3, -⟩ := F.offered _ hd
    obtain ⟨p, p1, p2⟩ := forall₂_get o2.flip i1
    obtain ⟨k1, L⟩ := C132_lives_partial hks h hex e1 p1
    exact ⟨_, k1, i3 ▸ offered_commods (hks _ (List.mem_of_getElem? k1)).1 L p2 o i2⟩
  · obtain ⟨as, j1, a, j2, j3, -⟩ := F.asked _ hd
    obtain ⟨p, p1, p2⟩ := forall₂_get a2.flip j1
    exact ⟨p.k, by rw [← kinds', List.getElem?_map, p1]; rfl,
      asks_commods p2 _ (List.mem_of_getElem? j2) _ j3⟩

/-- The facility asks for `r` or more of the commodity `x`, and for nothing else. -/
def Wants (p : Running act) (x : String) (r : ℚ) : Prop := ∃ alts u t,
  (act p.k).asks p.s = .ok [⟨alts, u, false⟩] ∧ (x, t) ∈ alts ∧ u ≤ qty t ∧ r ≤ u

/-- All that a storage facility has in stock is sold if the only buyer wants that much. -/
theorem link_step {ks : List Kind} (hks : ∀ k ∈ ks, Sensible k ∧ Suits A k)
    {ps : List (Running act)} (h : deployAll ks = .ok ps) {ex : Nat → Exchange}
    (hex : ∀ t, (ex t).Fair) (hth : ∀ t, (ex t).Thorough) {m : Nat} {l : List (List (Deal × NMat))}
    {ps₁ ps' : List (Running act)} {gs : List (Deal × NMat)} (e1 : simulate ex m 0 ps = .ok (l, ps₁))
    (e2 : round (ex m) ps₁ = .ok (gs, ps')) {x : String} {i j : Nat} (hl : Link ks x i j)
    {c : Storage.Cfg} {want : Storage.State Nat → ℚ} (hi : ks[i]? = some (.storage c want))
    (hx : c.outCommods = [x]) (hlo : c.lo ≤ 0) {s : Storage.State Nat}
    (k1 : ps₁[i]? = some ⟨.storage c want, s⟩) {p : Running act} (k2 : ps₁[j]? = some p) {r : ℚ}
    (k3 : Wants p x r) (k4 : totalQty s.stocks.items ≤ r) :
    givenBy gs i = givenTo gs j ∧ totalQty (givenBy gs i) = totalQty s.stocks.items ∧
      ∀ ν, massOf (givenBy gs i) ν = massOf s.stocks.items ν := by
  have T := trade_between hks h hex e1 e2
  have same : ∀ g ∈ gs, g.1.src = i ↔ g.1.dst = j := by
    intro g hg
    obtain ⟨⟨k, t1, t2⟩, k', t3, t4⟩ := T g hg
    constructor
    · intro e
      rw [e, hi] at t1
      obtain rfl := Option.some.inj t1
      have t2 : g.1.commod ∈ c.outCommods := t2
      rw [hx, List.mem_singleton] at t2
      exact hl.buyer _ _ t3 (t2 ▸ t4)
    · intro e
      rw [e] at t3
      exact hl.seller _ _ _ t1 t3 ⟨_, t4, t2⟩
  have e3 : givenBy gs i = givenTo gs j := by
    unfold givenBy givenTo
    congr 1
    refine List.filter_congr fun g hg => ?_
    simp only [same g hg]
  obtain ⟨g0, kinds⟩ := deployAll_k h hks
  obtain ⟨l', ps'', r1, -, r2, r3, -⟩ := simulate_ok (A := A) hex m 0 g0
  obtain ⟨rfl, rfl⟩ := Prod.mk.inj (Except.ok.inj (r1.symm.trans e1))
  obtain ⟨asks, offers, gs', ps₂, a1, o1, b3, ⟨b4, b5⟩, -⟩ := round_ok (hex m) r2
  obtain ⟨rfl, rfl⟩ := Prod.mk.inj (Except.ok.inj (b3.symm.trans e2))
  obtain ⟨asks', a1', a2, a3, a4⟩ := askAll_ok r2
  obtain rfl := Except.ok.inj (a1.symm.trans a1')
  obtain ⟨offers', o1', o2, o3⟩ := offerAll_ok a3 r2
  obtain rfl := Except.ok.inj (o1.symm.trans o1')
  have F := hex m _ _ a4 o3
  have Th := hth m _ _ a4 o3
  have hto : totalQty (givenTo gs' j) = dealt (ex m asks offers) fun d => d.dst = j := by
    rw [← dealt_perm b4, dealt_given fun g hg => (b5 g hg).1.2]
    rfl
  have hby : totalQty (givenBy gs' i) = dealt (ex m asks offers) fun d => d.src = i := by
    rw [← dealt_perm b4, dealt_given fun g hg => (b5 g hg).1.2]
    rfl
  obtain ⟨alts, u, t, w1, w2, w3, w4⟩ := k3
  obtain ⟨as, c1, c2⟩ := forall₂_get a2 k2
  obtain rfl := Except.ok.inj (w1.symm.trans c2)
  obtain ⟨os, d1, d2⟩ := forall₂_get o2 k1
  have d2 : Except.ok (c.outCommods.take 1 |>.map fun k =>
    (⟨k, totalQty s.stocks.items, c.lo, none, fun _ => true, []⟩ : Offer)) = Except.ok os := d2
  rw [hx, Except.ok.injEq] at d2
  subst d2
  have ge : totalQty s.stocks.items ≤ totalQty (givenBy gs' i) := by
    rcases pours F Th d1 hlo c1 w2 w3 with hq | hq
    · rw [hby]
      exact hq
    · rw [e3, hto]
      linarith
  have le : totalQty (givenBy gs' i) ≤ totalQty s.stocks.items := by
    rw [hby]
    refine le_trans (dealt_mono (fun d hd => (F.pos d hd).1.le) ?_)
      (F.caps _ _ d1 _ (List.mem_singleton.2 rfl))
    intro d hd e
    have e := of_decide_eq_true e
    obtain ⟨os', i1, o', i2, i3, -⟩ := F.offered d hd
    rw [e, d1] at i1
    obtain rfl := Option.some.inj i1
    rw [List.mem_singleton.1 i2] at i3
    exact decide_eq_true ⟨e, i3.symm⟩
  have eq := le_antisymm le ge
  refine ⟨e3, eq, fun ν => ?_⟩
  obtain ⟨asks', offers', hs', -, -, -, -, -, P⟩ := round_parts' (hex m) r2 e2
  obtain ⟨os, l2, as, mm, s', Pi, -, rfl, -⟩ := P i _ k1
  obtain ⟨hc, s'', q1, L⟩ := lived_at hks h hex e1 hi
  obtain rfl : s = s'' := by
    have := Option.some.inj (k1.symm.trans q1)
    cases this
    rfl
  exact OfStorage.sold_out hc L Pi eq ν

/-- All reactors together sell no more than their spent fuel storage holds. -/
theorem reactors_sell {ks : List Kind} (hks : ∀ k ∈ ks, Sensible k ∧ Suits A k)
    {ps : List (Running act)} (h : deployAll ks = .ok ps) {ex : Nat → Exchange}
    (hex : ∀ t, (ex t).Fair) {m : Nat} {l : List (List (Deal × NMat))}
    {ps₁ ps' : List (Running act)} {gs : List (Deal × NMat)} (e1 : simulate ex m 0 ps = .ok (l, ps₁))
    (e2 : round (ex m) ps₁ = .ok (gs, ps')) {i : Nat} {r : ℚ} (hC : Collects ks i r) :
    totalQty (givenTo gs i) ≤ r ∧
      ∀ g ∈ gs, (∃ k, ks[g.1.src]? = some k ∧ k.isReactor = true) ↔ g.1.dst = i := by
  have T := trade_between hks h hex e1 e2
  have same : ∀ g ∈ gs, (∃ k, ks[g.1.src]? = some k ∧ k.isReactor = true) ↔ g.1.dst = i := by
    intro g hg
    obtain ⟨⟨k, t1, t2⟩, k', t3, t4⟩ := T g hg
    constructor
    · rintro ⟨k₂, q1, q2⟩
      obtain rfl := Option.some.inj (t1.symm.trans q1)
      exact hC.buyer _ _ _ t3 (List.mem_of_getElem? t1) q2 ⟨_, t2, t4⟩
    · intro e
      rw [e] at t3
      exact ⟨k, t1, hC.seller _ _ t3 (List.mem_of_getElem? t1) ⟨_, t4, t2⟩⟩
  refine ⟨le_trans ?_ hC.rate, same⟩
  obtain ⟨g0, kinds⟩ := deployAll_k h hks
  obtain ⟨l', ps'', r1, -, r2, r3, -⟩ := simulate_ok (A := A) hex m 0 g0
  obtain ⟨rfl, rfl⟩ := Prod.mk.inj (Except.ok.inj (r1.symm.trans e1))
  have kinds' := r3.trans kinds
  obtain ⟨asks, offers, gs', ps₂, a1, o1, b3, ⟨b4, b5⟩, -⟩ := round_ok (hex m) r2
  obtain ⟨rfl, rfl⟩ := Prod.mk.inj (Except.ok.inj (b3.symm.trans e2))
  obtain ⟨asks₂, offers₂, hs', a1', o1', -, -, -, P⟩ := round_parts' (hex m) r2 e2
  obtain rfl := Except.ok.inj (a1.symm.trans a1')
  obtain rfl := Except.ok.inj (o1.symm.trans o1')
  obtain ⟨asks', a1'', a2, a3, a4⟩ := askAll_ok r2
  obtain rfl := Except.ok.inj (a1.symm.trans a1'')
  obtain ⟨offers', o1'', o2, o3⟩ := offerAll_ok a3 r2
  obtain rfl := Except.ok.inj (o1.symm.trans o1'')
  have F := hex m _ _ a4 o3
  have hto : totalQty (givenTo gs' i) = dealt (ex m asks offers) fun d => d.dst = i := by
    rw [← dealt_perm b4, dealt_given fun g hg => (b5 g hg).1.2]
    rfl
  have posamt : ∀ d ∈ ex m asks offers, 0 ≤ d.amt := fun d hd => (F.pos d hd).1.le
  rw [hto, dealt_split Deal.src (n := ks.length)]
  · refine sum_le_of_get (by simp) fun x bd hb => ?_
    rw [List.getElem?_map, Option.map_eq_some_iff] at hb
    obtain ⟨k, hk, rfl⟩ := hb
    by_cases hr : k.isReactor = true
    · cases k <;> try exact absurd (show false = true from hr) Bool.false_ne_true
      rename_i c enc dec
      obtain ⟨hc, s, q1, L⟩ := lived_at hks h hex e1 hk
      obtain ⟨os, l2, as, mm, s', Px, -⟩ := P x _ q1
      obtain ⟨-, t2, t3⟩ := OfReactor.turn_limits hc L Px
      refine le_trans (dealt_mono posamt (q := fun d => d.src = x) fun d _ e => ?_) ?_
      · simp only [Bool.and_eq_true, decide_eq_true_eq] at e ⊢
        exact e.2
      · rw [dealt_const (w := c.assemSize) fun d hd e => t2 d.sale (List.mem_map_of_mem
          (List.mem_filter.2 ⟨hd, by simpa using e⟩)), countP_src]
        change _ ≤ (c.nSpent : ℚ) * c.assemSize
        rw [List.length_map] at t3
        exact mul_le_mul_of_nonneg_right (by exact_mod_cast (by omega)) hc.1.assemSize.le
    · rw [dealt_zero]
      · cases k <;> first | exact le_refl _ | exact absurd rfl hr
      · intro d hd
        by_contra hn
        simp only [Bool.not_eq_false, Bool.and_eq_true, decide_eq_true_eq] at hn
        obtain ⟨g, hg, rfl⟩ := List.mem_map.1 (b4.mem_iff.2 hd)
        obtain ⟨k', q1, q2⟩ := (same g hg).2 hn.1
        rw [hn.2, hk] at q1
        obtain rfl := Option.some.inj q1
        exact hr q2
  · intro d hd _
    obtain ⟨os, q, -⟩ := F.offered d hd
    have := (List.getElem?_eq_some_iff.1 q).1
    rw [← o2.length_eq] at this
    have e := congrArg List.length kinds'
    rw [List.length_map] at e
    omega

/-- A storage facility wants enough as long as it passes on what it gets. -/
theorem storage_wants {c : Storage.Cfg} {want : Storage.State Nat → ℚ} (hc : Sensible (.storage c want))
    {s : Storage.State Nat} {n : Nat} {got gave : List (List NMat)} (L : Lived (.storage c want) s n got gave)
    {r : ℚ} (hr : 0 < r) (hK : Copes c want r) (hb : ∀ ms ∈ got, totalQty ms ≤ r)
    (hg : ∀ t < n, ∀ ν, massOf (gave[t]?.getD []) ν = massOf (before got (c.residence + 1) t) ν) :
    r ≤ want s ∧ totalQty s.stocks.items = totalQty (before got (c.residence + 1) n) := by
  have P := OfStorage.passing hc L (fun ms hm => (hb ms hm).trans hK.rate) hg
  have e1 := Network.totalQty_eq fun ν => (P ν).1
  have e2 := Network.totalQty_eq fun ν => (P ν).2
  refine ⟨hK.asks s ?_, e1⟩
  have hlen : got.length = n := by
    obtain ⟨is, os, -, -, h1, h2, -⟩ := OfStorage.lived_history L
    rw [← h2, List.length_map, h1]
  have : totalQty (got.drop (n - (c.residence + 1))).flatten ≤ (c.residence + 1 : ℕ) * r := by
    refine le_trans (totalQty_flatten_le fun ms hm => hb ms (List.mem_of_mem_drop hm)) ?_
    refine mul_le_mul_of_nonneg_right ?_ hr.le
    rw [List.length_drop]
    exact_mod_cast (by omega)
  have := hK.room
  rw [e2]
  push_cast at *
  linarith

theorem asks_storage {c : Storage.Cfg} {want : Storage.State Nat → ℚ} {s : Storage.State Nat}
    (h : 0 < want s) : (act (.storage c want)).asks s =
      .ok [⟨c.inCommods.map fun k => (k, blank (want s)), want s, false⟩] := by
  show Except.ok (if 0 < want s then _ else _) = _
  rw [if_pos h]

/-- What holds after some steps. -/
structure Passed (ks : List Kind) (is : List Nat) (b : Nat) (r : ℚ) (l : List (List (Deal × NMat))) : Prop where
  limit : ∀ i ∈ is, ∀ gs ∈ l, totalQty (givenTo gs i) ≤ r
  last : ∀ gs ∈ l, totalQty (givenTo gs b) ≤ r
  pass : ∀ i ∈ is, ∀ c want, ks[i]? = some (.storage c want) → ∀ (t : Nat) gs, l[t]? = some gs → ∀ ν,
    massOf (givenBy gs i) ν = massOf (before (l.map fun gs => givenTo gs i) (c.residence + 1) t) ν
  same : ∀ (k i : Nat), is[k]? = some i → ∀ gs ∈ l, givenBy gs i = givenTo gs (is[k + 1]?.getD b)

theorem Passed.gave {ks : List Kind} {is : List Nat} {b : Nat} {r : ℚ} {l : List (List (Deal × NMat))}
    (P : Passed ks is b r l) {i : Nat} (hi : i ∈ is) {c : Storage.Cfg} {want : Storage.State Nat → ℚ}
    (hk : ks[i]? = some (.storage c want)) : ∀ t < l.length, ∀ ν,
    massOf ((l.map fun gs => givenBy gs i)[t]?.getD []) ν =
      massOf (before (l.map fun gs => givenTo gs i) (c.residence + 1) t) ν := by
  intro t ht ν
  rw [List.getElem?_map, List.getElem?_eq_getElem ht]
  exact P.pass i hi c want hk t _ (List.getElem?_eq_getElem ht) ν

/-- A sink wants enough as long as it has been given no more in each step, and has room. -/
theorem sink_wants {w : Sink.Cfg} (hc : Sensible (.sink w)) {s : ℤ × Sink.State} {m n : Nat} (hm : m < n)
    {got gave : List (List NMat)} (L : Lived (.sink w) s m got gave) {r : ℚ} (hr : 0 < r) (hlen : got.length = m)
    (k2 : r ≤ w.capacity) (k3 : w.eps < r) (k4 : n * r ≤ w.maxInv) (hb : ∀ ms ∈ got, totalQty ms ≤ r)
    {x : String} (hx : x ∈ w.commods) : Wants ⟨.sink w, s⟩ x r := by
  have hgot : totalQty got.flatten ≤ m * r := by
    refine le_trans (totalQty_flatten_le (r := r) hb) ?_
    rw [hlen]
  have hroom : r ≤ min w.capacity (w.maxInv - totalQty got.flatten) := by
    refine le_min k2 ?_
    have : ((m : ℚ) + 1) * r ≤ n * r :=
      mul_le_mul_of_nonneg_right (by exact_mod_cast hm) hr.le
    linarith
  have hw : wanted w (totalQty got.flatten) = min w.capacity (w.maxInv - totalQty got.flatten) := by
    unfold wanted
    rw [if_pos (lt_of_lt_of_le k3 hroom)]
  have hask : ∃ as, (sink w).asks s = .ok as := by
    obtain ⟨I, hb⟩ := OfSink.lived_ready hc L
    exact ⟨_, OfSink.asks_eq hc I hb⟩
  obtain ⟨as, ha⟩ := hask
  have := OfSink.asks_wanted hc L ha
  rw [hw, if_pos (lt_of_lt_of_le hr hroom)] at this
  subst this
  exact ⟨_, _, _, ha, List.mem_map.2 ⟨x, hx, rfl⟩, by rw [Sink.qty_target hc.1], hroom⟩

/-- Number `b` wants `r` in each of `n` steps, as long as it has been given no more in each step. -/
def Ends (ks : List Kind) (ex : Nat → Exchange) (ps : List (Running act)) (b : Nat) (r : ℚ) (n : Nat) : Prop :=
  ∀ m < n, ∀ l ps₁, simulate ex m 0 ps = .ok (l, ps₁) → (∀ gs ∈ l, totalQty (givenTo gs b) ≤ r) →
    ∀ k, ks[b]? = some k → ∀ x ∈ buysOf k, ∃ p, ps₁[b]? = some p ∧ Wants p x r

theorem Disposes.ends {ks : List Kind} (hks : ∀ k ∈ ks, Sensible k ∧ Suits A k)
    {ps : List (Running act)} (h : deployAll ks = .ok ps) {ex : Nat → Exchange}
    (hex : ∀ t, (ex t).Fair) {n : Nat} {is : List Nat} {b : Nat} {r : ℚ} (hD : Disposes ks is b r n) :
    Ends ks ex ps b r n := by
  intro m hm l ps₁ e1 hb k hk x hx
  obtain ⟨w, k1, k2, k3, k4⟩ := hD.sink
  obtain rfl := Option.some.inj (hk.symm.trans k1)
  obtain ⟨hc, s, q1, L⟩ := lived_at hks h hex e1 hk
  refine ⟨_, q1, sink_wants hc hm L hD.pos ?_ k2 k3 k4 ?_ hx⟩
  · rw [List.length_map]
    exact simulate_length _ e1
  · intro ms hms
    obtain ⟨gs, hgs, rfl⟩ := List.mem_map.1 hms
    exact hb gs hgs

/-- After some steps, everybody wants enough. -/
theorem Passed.wants {ks : List Kind} (hks : ∀ k ∈ ks, Sensible k ∧ Suits A k)
    {ps : List (Running act)} (h : deployAll ks = .ok ps) {ex : Nat → Exchange}
    (hex : ∀ t, (ex t).Fair) {n : Nat} {is : List Nat} {b : Nat} {r : ℚ} (hD : Conveys ks is b r)
    (hE : Ends ks ex ps b r n)
    {m : Nat} (hm : m < n) {l : List (List (Deal × NMat))} {ps₁ : List (Running act)}
    (e1 : simulate ex m 0 ps = .ok (l, ps₁)) (P : Passed ks is b r l) {j : Nat} (hj : j ∈ is ∨ j = b)
    {k : Kind} (hk : ks[j]? = some k) {x : String} (hx : x ∈ buysOf k) :
    ∃ p, ps₁[j]? = some p ∧ Wants p x r := by
  have hlen : l.length = m := simulate_length _ e1
  rcases hj with hj | rfl
  · obtain ⟨hc, s, q1, L⟩ := lived_at hks h hex e1 hk
    refine ⟨_, q1, ?_⟩
    obtain ⟨y, hy⟩ := List.mem_iff_getElem?.1 hj
    obtain ⟨c, want, x', k1, k2, -⟩ := hD.storages y j hy
    obtain rfl := Option.some.inj (hk.symm.trans k1)
    obtain ⟨w, -⟩ := storage_wants hc L hD.pos k2 (by
      intro ms hms
      obtain ⟨gs, hgs, rfl⟩ := List.mem_map.1 hms
      exact P.limit j hj gs hgs) (hlen ▸ P.gave hj hk)
    exact ⟨_, _, _, asks_storage (lt_of_lt_of_le hD.pos w), List.mem_map.2 ⟨x, hx, rfl⟩,
      by rw [qty_blank], w⟩
  · exact hE m hm l ps₁ e1 P.last k hk x hx

/-- Everything passes, step by step. -/
theorem passed {ks : List Kind} (hks : ∀ k ∈ ks, Sensible k ∧ Suits A k)
    {ps : List (Running act)} (h : deployAll ks = .ok ps) {ex : Nat → Exchange}
    (hex : ∀ t, (ex t).Fair) (hth : ∀ t, (ex t).Thorough) {n : Nat} {is : List Nat} {b : Nat} {r : ℚ}
    (hD : Conveys ks is b r) (hE : Ends ks ex ps b r n) : ∀ {m : Nat}, m ≤ n → ∀ {l : List (List (Deal × NMat))}
    {ps' : List (Running act)}, simulate ex m 0 ps = .ok (l, ps') → Passed ks is b r l := by
  intro m
  induction m with
  | zero =>
    intro _ l ps' hs
    simp only [simulate, Except.ok.injEq, Prod.mk.injEq] at hs
    obtain ⟨rfl, rfl⟩ := hs
    exact ⟨by simp, by simp, by simp, by simp⟩
  | succ m ih =>
    intro hm l ps' hs
    obtain ⟨l₁, ps₁, gs, e1, e2, rfl⟩ := simulate_snoc hs
    rw [Nat.zero_add] at e2
    have P := ih (by omega) e1
    have hlen : l₁.length = m := by
      obtain ⟨g0, kinds⟩ := deployAll_k h hks
      obtain ⟨l', ps'', r1, r2, -⟩ := simulate_ok (A := A) hex m 0 g0
      obtain ⟨rfl, rfl⟩ := Prod.mk.inj (Except.ok.inj (r1.symm.trans e1))
      exact r2
    have step : ∀ (k i : Nat), is[k]? = some i → givenBy gs i = givenTo gs (is[k + 1]?.getD b) ∧
        totalQty (givenBy gs i) ≤ r ∧ ∀ c want, ks[i]? = some (.storage c want) → ∀ ν,
          massOf (givenBy gs i) ν =
            massOf (before (l₁.map fun gs => givenTo gs i) (c.residence + 1) m) ν := by
      intro k i hi
      obtain ⟨c, want, x, k1, k2, k3, k4⟩ := hD.storages k i hi
      have hmem := List.mem_of_getElem? hi
      obtain ⟨hc, s, q1, L⟩ := lived_at hks h hex e1 k1
      have lim : ∀ ms ∈ l₁.map fun gs => givenTo gs i, totalQty ms ≤ r := by
        intro ms hms
        obtain ⟨gs, hgs, rfl⟩ := List.mem_map.1 hms
        exact P.limit i hmem gs hgs
      have gave := hlen ▸ P.gave hmem k1
      obtain ⟨-, stock⟩ := storage_wants hc L hD.pos k2 lim gave
      obtain ⟨k', t1, t2⟩ := k4.buys
      obtain ⟨p, t3, t4⟩ := P.wants hks h hex hD hE (by omega) e1 (j := is[k + 1]?.getD b) (by
        cases e : is[k + 1]? with
        | none => exact Or.inr rfl
        | some j => exact Or.inl (List.mem_of_getElem? e)) t1 t2
      have le : totalQty s.stocks.items ≤ r := by
        rw [stock]
        exact before_le hD.pos.le lim
      obtain ⟨u1, u2, u3⟩ := link_step hks h hex hth e1 e2 k4 k1 k3 k2.amounts q1 t3 t4 le
      refine ⟨u1, by rw [u2]; exact le, fun c' want' hk' ν => ?_⟩
      obtain ⟨rfl, rfl⟩ : c = c' ∧ want = want' := by
        have := Option.some.inj (k1.symm.trans hk')
        cases this
        exact ⟨rfl, rfl⟩
      rw [u3, (OfStorage.passing hc L (fun ms hm => (lim ms hm).trans k2.rate) gave ν).1]
    have lim : ∀ i ∈ is, totalQty (givenTo gs i) ≤ r := by
      intro i hi
      obtain ⟨k, hk⟩ := List.mem_iff_getElem?.1 hi
      cases k with
      | zero =>
        obtain ⟨i', q1, q2⟩ := hD.first
        obtain rfl := Option.some.inj (hk.symm.trans q1)
        exact (reactors_sell hks h hex e1 e2 q2).1
      | succ k =>
        have hlt := (List.getElem?_eq_some_iff.1 hk).1
        obtain ⟨q1, q2, -⟩ := step k is[k] (List.getElem?_eq_getElem (by omega))
        rw [hk] at q1
        rw [q1] at q2
        exact q2
    refine ⟨?_, ?_, ?_, ?_⟩
    · intro i hi gs' hgs
      rcases List.mem_append.1 hgs with hgs | hgs
      · exact P.limit i hi gs' hgs
      · rw [List.mem_singleton.1 hgs]
        exact lim i hi
    · intro gs' hgs
      rcases List.mem_append.1 hgs with hgs | hgs
      · exact P.last gs' hgs
      · rw [List.mem_singleton.1 hgs]
        obtain ⟨i, q1, -⟩ := hD.first
        have hlt := (List.getElem?_eq_some_iff.1 q1).1
        obtain ⟨q1, q2, -⟩ := step (is.length - 1) is[is.length - 1] (List.getElem?_eq_getElem (by omega))
        rw [show is.length - 1 + 1 = is.length by omega, List.getElem?_eq_none le_rfl] at q1
        rw [q1] at q2
        exact q2
    · intro i hi c want hk t gs' ht ν
      have htm : t < m + 1 := by
        have := (List.getElem?_eq_some_iff.1 ht).1
        simp [hlen] at this
        omega
      rw [List.map_append, before_append (by rw [List.length_map]; omega) (by omega)]
      rcases Nat.lt_or_ge t m with h1 | h1
      · rw [List.getElem?_append_left (by omega)] at ht
        exact P.pass i hi c want hk t gs' ht ν
      · obtain rfl : t = m := by omega
        rw [List.getElem?_append_right (by omega), hlen] at ht
        simp only [Nat.sub_self, List.getElem?_cons_zero, Option.some.injEq] at ht
        subst ht
        obtain ⟨k, hki⟩ := List.mem_iff_getElem?.1 hi
        exact (step k i hki).2.2 c want hk ν
    · intro k i hi gs' hgs
      rcases List.mem_append.1 hgs with hgs | hgs
      · exact P.same k i hi gs' hgs
      · rw [List.mem_singleton.1 hgs]
        exact (step k i hi).1

/-- The first storage facility takes all that reactors have to sell. -/
theorem storage_takes {ks : List Kind} (hks : ∀ k ∈ ks, Sensible k ∧ Suits A k)
    {ps : List (Running act)} (h : deployAll ks = .ok ps) {ex : Nat → Exchange}
    (hex : ∀ t, (ex t).Fair) (hth : ∀ t, (ex t).Thorough) {n : Nat} {is : List Nat} {b : Nat} {r : ℚ}
    (hD : Conveys ks is b r) (hE : Ends ks ex ps b r n) {j : Nat} {c : Reactor.Cfg} {enc : NMat → Nat} {dec : Nat → NMat}
    (hj : ks[j]? = some (.reactor c enc dec)) :
    ∀ m < n, ∀ l ps', simulate ex m 0 ps = .ok (l, ps') → Taken ps' c.outCommods := by
  intro m hm l ps₁ e1
  have P := passed hks h hex hth hD hE hm.le e1
  obtain ⟨g0, kinds⟩ := deployAll_k h hks
  obtain ⟨l', ps'', r1, hlen, r2, r3, -⟩ := simulate_ok (A := A) hex m 0 g0
  obtain ⟨rfl, rfl⟩ := Prod.mk.inj (Except.ok.inj (r1.symm.trans e1))
  have kinds' := r3.trans kinds
  obtain ⟨i, q1, hC⟩ := hD.first
  obtain ⟨c', want, x, k1, k2, -⟩ := hD.storages 0 i q1
  have hi := List.mem_of_getElem? q1
  obtain ⟨hc, s, q2, L⟩ := lived_at hks h hex e1 k1
  obtain ⟨w, -⟩ := storage_wants hc L hD.pos k2 (by
    intro ms hms
    obtain ⟨gs, hgs, rfl⟩ := List.mem_map.1 hms
    exact P.limit i hi gs hgs) (hlen ▸ P.gave hi k1)
  refine ⟨i, ⟨c'.inCommods.map fun k => (k, blank (want s)), want s, false⟩, fun asks ha => ?_, rfl, ?_, ?_, ?_⟩
  · obtain ⟨asks', a1, a2, -, -⟩ := askAll_ok r2
    obtain rfl := Except.ok.inj (ha.symm.trans a1)
    obtain ⟨as, e1, e2⟩ := forall₂_get a2 q2
    rw [asks_storage (lt_of_lt_of_le hD.pos w), Except.ok.injEq] at e2
    subst e2
    exact e1
  · intro y hy
    refine ⟨_, List.mem_map.2 ⟨y, hC.all _ _ k1 (List.mem_of_getElem? hj) rfl y hy, rfl⟩, ?_⟩
    rw [qty_blank, kinds']
    exact hC.rate.trans w
  · rintro k hk ⟨y, hy, hs⟩
    obtain ⟨y', hy', rfl⟩ := List.mem_map.1 hy
    rw [kinds'] at hk
    exact hC.seller _ _ k1 hk ⟨y', hy', hs⟩
  · rw [kinds']
    exact hC.rate.trans w

/-- What is given to a storage facility or to the sink is what was given to the first storage facility, as many
steps before as it takes. -/
theorem passed_to {ks : List Kind} {is : List Nat} {b : Nat} {r : ℚ} (hD : Conveys ks is b r)
    {l : List (List (Deal × NMat))} (P : Passed ks is b r l) {i : Nat} (hi : is[0]? = some i) (ν : Nat) :
    ∀ k ≤ is.length, ∀ t < l.length, massOf ((l.map fun gs => givenTo gs (is[k]?.getD b))[t]?.getD []) ν =
      massOf (before (l.map fun gs => givenTo gs i) (lags ks (is.take k)) t) ν := by
  intro k
  induction k with
  | zero =>
    intro _ t _
    rw [hi]
    simp [lags, before]
  | succ k ih =>
    intro hk t ht
    have hk' : is[k]? = some is[k] := List.getElem?_eq_getElem (by omega)
    obtain ⟨c, want, x, k1, -⟩ := hD.storages k _ hk'
    have ih := ih (by omega)
    rw [hk', Option.getD_some] at ih
    have e1 : (l.map fun gs => givenTo gs (is[k + 1]?.getD b)) = l.map fun gs => givenBy gs is[k] :=
      List.map_congr_left fun gs hgs => (P.same k _ hk' gs hgs).symm
    rw [e1, P.gave (List.mem_of_getElem? hk') k1 t ht ν, before_before ν fun u hu => ih u (by omega)]
    have e2 : lags ks (is.take (k + 1)) = lags ks (is.take k) + (c.residence + 1) := by
      unfold lags
      rw [List.take_add_one, hk', List.map_append, List.sum_append]
      simp [k1, lag]
    rw [e2]

/-- Spent fuel takes its way. -/
theorem disposed {ks : List Kind} (hks : ∀ k ∈ ks, Sensible k ∧ Suits A k)
    {ps : List (Running act)} (h : deployAll ks = .ok ps) {ex : Nat → Exchange}
    (hex : ∀ t, (ex t).Fair) (hth : ∀ t, (ex t).Thorough) {n : Nat} {is : List Nat} {b : Nat} {r : ℚ}
    (hD : Conveys ks is b r) (hE : Ends ks ex ps b r n) {l : List (List (Deal × NMat))} {ps' : List (Running act)}
    (hs : simulate ex n 0 ps = .ok (l, ps')) : Disposed ks is b l ps' := by
  have P := passed hks h hex hth hD hE le_rfl hs
  have hlen : l.length = n := by
    obtain ⟨g0, kinds⟩ := deployAll_k h hks
    obtain ⟨l', ps'', r1, r2, -⟩ := simulate_ok (A := A) hex n 0 g0
    obtain ⟨rfl, rfl⟩ := Prod.mk.inj (Except.ok.inj (r1.symm.trans hs))
    exact r2
  refine ⟨?_, P.pass, ?_, ?_⟩
  · intro i hi
    obtain ⟨i', q1, hC⟩ := hD.first
    obtain rfl := Option.some.inj (hi.symm.trans q1)
    clear P hlen hD hE
    induction n generalizing l ps' with
    | zero =>
      simp only [simulate, Except.ok.injEq, Prod.mk.injEq] at hs
      obtain ⟨rfl, rfl⟩ := hs
      simp
    | succ m ih =>
      obtain ⟨l₁, ps₁, gs, e1, e2, rfl⟩ := simulate_snoc hs
      rw [Nat.zero_add] at e2
      intro gs' hgs g hg
      rcases List.mem_append.1 hgs with hgs | hgs
      · exact ih e1 gs' hgs g hg
      · rw [List.mem_singleton.1 hgs] at hg
        rw [← (reactors_sell hks h hex e1 e2 hC).2 g hg]
        constructor
        · rintro ⟨c, enc, dec, e⟩
          exact ⟨_, e, rfl⟩
        · rintro ⟨k, e, hk⟩
          cases k <;> try exact absurd (show false = true from hk) Bool.false_ne_true
          exact ⟨_, _, _, e⟩
  · intro i hi t gs ht ν
    have := passed_to hD P hi ν is.length le_rfl t (List.getElem?_eq_some_iff.1 ht).1
    rw [List.getElem?_eq_none le_rfl, Option.getD_none, List.take_length, List.getElem?_map, ht] at this
    exact this
  · intro i hi c want hk
    obtain ⟨hc, s, q1, L⟩ := lived_at hks h hex hs hk
    refine ⟨s, q1, fun ν => ?_⟩
    obtain ⟨k, hki⟩ := List.mem_iff_getElem?.1 hi
    obtain ⟨c', want', x, k1, k2, -⟩ := hD.storages k i hki
    obtain ⟨rfl, rfl⟩ : c = c' ∧ want = want' := by
      have := Option.some.inj (hk.symm.trans k1)
      cases this
      exact ⟨rfl, rfl⟩
    rw [hlen]
    exact (OfStorage.passing hc L (by
      intro ms hms
      obtain ⟨gs, hgs, rfl⟩ := List.mem_map.1 hms
      exact (P.limit i hi gs hgs).trans k2.rate) (hlen ▸ P.gave hi hk) ν).2

/-- C149. In a simulation with a source of fuel, reactors, storage facilities one after the other and a sink at
the end, every reactor runs on schedule, in the same sense as with a sink for spent fuel (C136), and spent fuel
takes its way: the first storage facility is given all that reactors sell, each of them passes on in each step
what it was given one step more than its residence time before, nuclide by nuclide, and the sink is given what
reactors sold as many steps before as the storage facilities take together. It is enough that each storage
facility has room for what reactors sell in its residence time and two steps more, however long the simulation.

Partial: as C125. -/
theorem C149_back_end_partial {ks : List Kind} (hks : ∀ k ∈ ks, Sensible k ∧ Suits A k)
    {ps : List (Running act)} (h : deployAll ks = .ok ps) {ex : Nat → Exchange}
    (hex : ∀ t, (ex t).Fair) (hea : ∀ t, (ex t).Eager) (hth : ∀ t, (ex t).Thorough) {n : Nat} {a : Nat}
    {f : Source.Cfg} (ha : ks[a]? = some (.source f)) (hS : Supplies ks f n) {is : List Nat} {b : Nat} {r : ℚ}
    (hD : Disposes ks is b r n) {l : List (List (Deal × NMat))} {ps' : List (Running act)}
    (hs : simulate ex n 0 ps = .ok (l, ps')) : Disposed ks is b l ps' ∧
    ∀ {j : Nat} {c : Reactor.Cfg} {enc : NMat → Nat} {dec : Nat → NMat},
    ks[j]? = some (.reactor c enc dec) → f.outcommod ∈ c.inCommods → f.lo ≤ c.assemSize → c.exitTime = none →
    c.cycleStep = 0 → min c.nBatch c.nCore ≤ c.nSpent → ∃ (is : List Reactor.In) (os : List Reactor.Out)
      (s : Reactor.State × Nat), ps'[j]? = some ⟨.reactor c enc dec, s⟩ ∧
      Reactor.History c is os s.1 ∧ l.length = n ∧ os.length = n ∧
      is.map (fun i => i.buys.map Prod.snd) = numbered enc 0 (l.map fun gs => givenTo gs j) ∧
      os.map (fun o => material dec (o.shipped.map Prod.snd)) = (l.map fun gs => givenBy gs j) ∧
      (∀ (t : Nat) gs o, l[t]? = some gs → os[t]? = some o → OnTime c t gs j o) ∧
      Reactor.energy os = c.powerCap * Reactor.ideal c n := by
  refine ⟨disposed hks h hex hth hD.toConveys (hD.ends hks h hex) hs, ?_⟩
  intro j c enc dec hj h1 h3 hx hz hsp
  obtain ⟨is, os, s, k1, k2, -, k4, k5, k6, k7, -, -, k10⟩ :=
    on_schedule' hks h hex hea hj (source_fills hks h hex hea ha hS hj h1 h3)
      (storage_takes hks h hex hth hD.toConveys (hD.ends hks h hex) hj) hx hz hsp (le_refl n) hs
  refine ⟨is, os, s, k1, k2, k5, k4, k6, k7, k10, ?_⟩
  rw [Reactor.energy_eq (c := c), k4]
  intro t o ho
  have ht : t < l.length := by
    have := (List.getElem?_eq_some_iff.1 ho).1
    omega
  exact (k10 t l[t] o (List.getElem?_eq_getElem ht) ho).power

/-- C149, a whole fuel cycle: the same with a mine, conversions and an enrichment facility in place of the source
of fuel (C146).

Partial: as C125. -/
theorem C149_fuel_cycle_partial {ks : List Kind} (hks : ∀ k ∈ ks, Sensible k ∧ Suits A k)
    {ps : List (Running act)} (h : deployAll ks = .ok ps) {ex : Nat → Exchange}
    (hex : ∀ t, (ex t).Fair) (hke : ∀ t, (ex t).Keen) (hth : ∀ t, (ex t).Thorough) {n i a : Nat}
    {e : Enrichment.Cfg} (hi : ks[i]? = some (.enrichment e)) {lo hi' φ σ : ℚ}
    (hE : Enriches A ks e lo hi' φ σ) {f : Source.Cfg} (ha : ks[a]? = some (.source f)) {js : List Nat}
    {q : ℚ} (hM : Feeds ks i e f js φ q n) {is : List Nat} {b : Nat} {r : ℚ} (hD : Disposes ks is b r n)
    {l : List (List (Deal × NMat))} {ps' : List (Running act)}
    (hs : simulate ex n 0 ps = .ok (l, ps')) : Disposed ks is b l ps' ∧
    ∀ {j : Nat} {c : Reactor.Cfg} {enc : NMat → Nat} {dec : Nat → NMat},
    ks[j]? = some (.reactor c enc dec) → e.productCommod ∈ c.inCommods → max e.lo e.eps ≤ c.assemSize →
    (∀ name r, Reactor.Names c e.productCommod name → c.recipe name = some r →
      Enrichment.Feasible e (dec r)) → c.exitTime = none →
    c.cycleStep = 0 → min c.nBatch c.nCore ≤ c.nSpent → ∃ (is : List Reactor.In) (os : List Reactor.Out)
      (s : Reactor.State × Nat), ps'[j]? = some ⟨.reactor c enc dec, s⟩ ∧
      Reactor.History c is os s.1 ∧ l.length = n ∧ os.length = n ∧
      is.map (fun i => i.buys.map Prod.snd) = numbered enc 0 (l.map fun gs => givenTo gs j) ∧
      os.map (fun o => material dec (o.shipped.map Prod.snd)) = (l.map fun gs => givenBy gs j) ∧
      (∀ (t : Nat) gs o, l[t]? = some gs → os[t]? = some o → OnTime c t gs j o) ∧
      Reactor.energy os = c.powerCap * Reactor.ideal c n := by
  refine ⟨disposed hks h hex hth hD.toConveys (hD.ends hks h hex) hs, ?_⟩
  intro j c enc dec hj h1 h3 hf hx hz hsp
  obtain ⟨is, os, s, k1, k2, -, k4, k5, k6, k7, -, -, k10⟩ :=
    on_schedule' hks h hex (fun t => (hke t).eager) hj
      (enrichment_fills hks h hex hke hi hE hj h1 h3 hf fun hφ m hm l ps' hs =>
        let ⟨s, q1, q2, q3, _⟩ := chain_kept hks h hex hth hi hE ha hM hφ hm.le hs
        ⟨s, q1, q2, q3⟩)
      (storage_takes hks h hex hth hD.toConveys (hD.ends hks h hex) hj) hx hz hsp (le_refl n) hs
  refine ⟨is, os, s, k1, k2, k5, k4, k6, k7, k10, ?_⟩
  rw [Reactor.energy_eq (c := c), k4]
  intro t o ho
  have ht : t < l.length := by
    have := (List.getElem?_eq_some_iff.1 ho).1
    omega
  exact (k10 t l[t] o (List.getElem?_eq_getElem ht) ho).power

/-! ## An example -/

/-- Cools spent fuel for two steps, and buys as much as it may. -/
def exCool : Storage.Cfg :=
  { exStorage with
    inCommods := ["spent"]
    outCommods := ["cool"]
    residence := 2
    throughput := 48
    maxInv := 192 }

/-- Holds it for another step, in whole batches. -/
def exHold : Storage.Cfg :=
  { exStorage with
    inCommods := ["cool"]
    outCommods := ["old"]
    throughput := 50
    maxInv := 150
    discrete := true }

/-- A buy policy that asks for the throughput or for what fits. -/
def exWant (c : Storage.Cfg) (s : Storage.State Nat) : ℚ :=
  min c.throughput (c.maxInv - totalQty (Storage.contents s))

/-- The end. -/
def exRepository : Sink.Cfg :=
  { exSink with
    commods := ["old"]
    maxInv := 480 }

/-- A source, two reactors, two storage facilities and a sink. -/
def exBackEnd : List Kind :=
  [.source exFuel, .storage exHold (exWant exHold), .reactor exReactor (fun _ => 1) exDec,
    .reactor exSecond (fun _ => 1) exDec, .storage exCool (exWant exCool), .sink exRepository]

theorem exBackEnd_sensible : ∀ k ∈ exBackEnd, Sensible k ∧ Suits exOpen k := by
  have base := exFleet_sensible
  simp only [exFleet, List.mem_cons, List.not_mem_nil, or_false, forall_eq_or_imp, forall_eq] at base
  obtain ⟨b1, b2, b3, b4⟩ := base
  intro k hk
  simp only [exBackEnd, List.mem_cons, List.not_mem_nil, or_false] at hk
  rcases hk with rfl | rfl | rfl | rfl | rfl | rfl
  · exact b1
  · exact ⟨⟨⟨by decide, Or.inl rfl, rfl, Or.inl rfl, by norm_num [exHold, exStorage]⟩,
      by norm_num [exHold, exStorage], Or.inl rfl⟩, fun _ _ _ _ => trivial,
      fun _ _ => ⟨fun _ => True, OfSource.blendable_true, fun _ _ _ _ _ => trivial, fun _ _ _ => trivial⟩⟩
  · exact b2
  · exact b3
  · exact ⟨⟨⟨by decide, Or.inl rfl, rfl, Or.inl rfl, by norm_num [exCool, exStorage]⟩,
      by norm_num [exCool, exStorage], Or.inr (by norm_num [exCool, exStorage])⟩, fun _ _ _ _ => trivial,
      fun _ _ => ⟨fun _ => True, OfSource.blendable_true, fun _ _ _ _ _ => trivial, fun _ _ _ => trivial⟩⟩
  · refine ⟨⟨⟨by norm_num [exRepository, exSink], by norm_num [exRepository, exSink],
      by norm_num [exRepository, exSink], by norm_num [exRepository, exSink], ?_⟩, ?_, Or.inl rfl, rfl, rfl⟩,
      fun _ _ _ _ => trivial⟩ <;>
    · intro r hr; cases hr

theorem exBackEnd_supplied : Supplies exBackEnd exFuel 10 := by
  refine ⟨?_, by decide +kernel, by decide +kernel, by decide +kernel⟩
  intro k hk
  simp only [exBackEnd, List.mem_cons, List.not_mem_nil, or_false] at hk
  rcases hk with rfl | rfl | rfl | rfl | rfl | rfl <;> decide

theorem exBackEnd_linked {x : String} {i j : Nat} (h : (x, i, j) ∈ [("cool", 4, 1), ("old", 1, 5)]) :
    Link exBackEnd x i j := by
  simp only [List.mem_cons, Prod.mk.injEq, List.not_mem_nil, or_false] at h
  rcases h with ⟨rfl, rfl, rfl⟩ | ⟨rfl, rfl, rfl⟩
  all_goals
    refine ⟨⟨_, rfl, by decide⟩, ?_, ?_⟩
    · intro m k hm hk
      match m with
      | 0 | 1 | 2 | 3 | 4 | 5 => cases hm; first | rfl | exact absurd hk (by decide)
      | m + 6 => cases hm
    · intro m k k' hm hk' hy
      cases hk'
      match m with
      | 0 | 1 | 2 | 3 | 4 | 5 => cases hm; first | rfl | exact absurd hy (by decide)
      | m + 6 => cases hm

theorem exBackEnd_disposed : Disposes exBackEnd [4, 1] 5 48 10 := by
  refine ⟨⟨by norm_num, ⟨4, rfl, ?_, ?_, ?_, by decide +kernel⟩, ?_⟩, _, rfl, by decide +kernel,
    by decide +kernel, by decide +kernel⟩
  · intro m k k' hm hk' hr hy
    simp only [exBackEnd, List.mem_cons, List.not_mem_nil, or_false] at hk'
    match m with
    | 0 | 1 | 2 | 3 | 4 | 5 =>
      cases hm
      first
      | rfl
      | rcases hk' with rfl | rfl | rfl | rfl | rfl | rfl <;>
          first | exact absurd hr (by decide) | exact absurd hy (by decide)
    | m + 6 => cases hm
  · intro k k' hk hk' hy
    cases hk
    simp only [exBackEnd, List.mem_cons, List.not_mem_nil, or_false] at hk'
    rcases hk' with rfl | rfl | rfl | rfl | rfl | rfl <;> first | rfl | exact absurd hy (by decide)
  · intro k k' hk hk' hr
    cases hk
    simp only [exBackEnd, List.mem_cons, List.not_mem_nil, or_false] at hk'
    rcases hk' with rfl | rfl | rfl | rfl | rfl | rfl <;> first | exact absurd hr (by decide) | decide
  · intro k i hk
    match k with
    | 0 =>
      cases hk
      refine ⟨_, _, _, rfl, ⟨by decide +kernel, by decide +kernel, fun s hs => ?_, by decide +kernel⟩, rfl,
        exBackEnd_linked (by simp)⟩
      exact le_min (by decide +kernel) hs
    | 1 =>
      cases hk
      refine ⟨_, _, _, rfl, ⟨by decide +kernel, by decide +kernel, fun s hs => ?_, by decide +kernel⟩, rfl,
        exBackEnd_linked (by simp)⟩
      exact le_min (by decide +kernel) hs
    | k + 2 => cases hk

/-- The example meets the hypotheses: spent fuel gets to the repository five steps after it has left the
reactors, in whole and nuclide by nuclide. -/
example : ∃ ps l ps', deployAll exBackEnd = .ok ps ∧ simulate (fun _ => sating) 10 0 ps = .ok (l, ps') ∧
    (∀ j c, (j, c) ∈ [(2, exReactor), (3, exSecond)] → ∀ (t : Nat) gs, l[t]? = some gs →
      (givenBy gs j).length = Reactor.batchAt c t) ∧
    ∀ (t : Nat) gs gs', l[t]? = some gs → l[t + 5]? = some gs' → ∀ ν,
      massOf (givenTo gs' 5) ν = massOf (givenTo gs 4) ν := by
  obtain ⟨ps, h1, h2⟩ := C125_runs_partial exBackEnd_sensible
  obtain ⟨l, ps', h3, -⟩ := h2 (fun _ => sating) (fun _ => sating_fair) 10
  obtain ⟨D, on⟩ := C149_back_end_partial exBackEnd_sensible h1 (fun _ => sating_fair)
    (fun _ => sating_keen.eager) (fun _ => sating_thorough) (a := 0) rfl exBackEnd_supplied
    exBackEnd_disposed h3
  refine ⟨ps, l, ps', h1, h3, fun j c hjc t gs hg => ?_, fun t gs gs' hg hg' ν => ?_⟩
  · have key : ∀ {is : List Reactor.In} {os : List Reactor.Out}, l.length = 10 ∧ os.length = 10 →
        (∀ (t : Nat) gs o, l[t]? = some gs → os[t]? = some o → OnTime c t gs j o) →
        (givenBy gs j).length = Reactor.batchAt c t := by
      intro is os hl ho
      have := (List.getElem?_eq_some_iff.1 hg).1
      exact (ho t gs os[t] hg (List.getElem?_eq_getElem (by omega))).shipped
    simp only [List.mem_cons, Prod.mk.injEq, List.not_mem_nil, or_false] at hjc
    rcases hjc with ⟨rfl, rfl⟩ | ⟨rfl, rfl⟩
    · obtain ⟨is, os, s, -, -, e1, e2, -, -, e3, -⟩ := on (j := 2) rfl (by decide) (by decide +kernel) rfl rfl
        (by decide)
      exact key (is := is) ⟨e1, e2⟩ e3
    · obtain ⟨is, os, s, -, -, e1, e2, -, -, e3, -⟩ := on (j := 3) rfl (by decide) (by decide +kernel) rfl rfl
        (by decide)
      exact key (is := is) ⟨e1, e2⟩ e3
  · have := D.arrived 4 rfl (t + 5) gs' hg' ν
    have e : lags exBackEnd [4, 1] = 5 := rfl
    rw [this, e]
    unfold before
    rw [if_pos (by omega), Nat.add_sub_cancel, List.getElem?_map, hg]
    rfl

/-- What the reactors sell and what the repository is given, in kg. -/
example : ((deployAll exBackEnd >>= simulate (fun _ => sating) 9 0).toOption.map fun r => r.1.map fun gs =>
      (totalQty (givenTo gs 4), totalQty (givenBy gs 4), totalQty (givenBy gs 1), totalQty (givenTo gs 5))) =
    some [(0, 0, 0, 0), (24, 0, 0, 0), (12, 0, 0, 0), (24, 0, 0, 0), (0, 24, 0, 0), (36, 12, 0, 0),
      (0, 24, 24, 24), (24, 0, 12, 12), (12, 36, 24, 24)] := by
  decide +kernel

/-- A mine, two conversions, enrichment, two reactors, two storage facilities, a sink for spent fuel and one for
tails. -/
def exCycle : List Kind :=
  [.conversion exFluoride, .source exOreMine, .enrichment exSlowStart, .conversion exMill,
    .reactor exReactor (fun _ => 1) exDec, .reactor exSecond (fun _ => 1) exDec,
    .storage exCool (exWant exCool), .storage exHold (exWant exHold), .sink exRepository, .sink exSink]

theorem exCycle_sensible : ∀ k ∈ exCycle, Sensible k ∧ Suits exCakeAgreement k := by
  have base := exChain_sensible
  simp only [exChain, List.mem_cons, List.not_mem_nil, or_false, forall_eq_or_imp, forall_eq] at base
  obtain ⟨b1, b2, b3, b4, b5, b6, -, b8⟩ := base
  have back := exBackEnd_sensible
  simp only [exBackEnd, List.mem_cons, List.not_mem_nil, or_false, forall_eq_or_imp, forall_eq] at back
  obtain ⟨-, c2, -, -, c5, c6⟩ := back
  have any : ∀ k, k ≠ "fuel" → ∀ m, exCakeAgreement.target k m := fun k hk m e => absurd e hk
  have free : ∀ k, k ≠ "ore" → k ≠ "cake" → k ≠ "feed" → k ≠ "fuel" → Free exCakeAgreement k :=
    fun k h1 h2 h3 h4 m _ => ⟨fun e => (e.elim h1 fun e => e.elim h2 h3).elim, fun e => absurd e h4⟩
  have passes : ∀ ins k, Free exCakeAgreement k → Passes exCakeAgreement ins k := fun ins k h =>
    ⟨fun _ => True, OfSource.blendable_true, fun _ _ _ _ _ => trivial, fun m hm _ => h m hm⟩
  intro k hk
  simp only [exCycle, List.mem_cons, List.not_mem_nil, or_false] at hk
  rcases hk with rfl | rfl | rfl | rfl | rfl | rfl | rfl | rfl | rfl | rfl
  · exact b1
  · exact b2
  · exact b3
  · exact b4
  · exact b5
  · exact b6
  · refine ⟨c5.1, fun k hk q _ => any _ ?_ _, fun k hk => passes _ _ ?_⟩
    · simp only [exCool, List.mem_singleton] at hk; subst hk; decide
    · simp only [exCool, List.mem_singleton] at hk; subst hk
      exact free _ (by decide) (by decide) (by decide) (by decide)
  · refine ⟨c2.1, fun k hk q _ => any _ ?_ _, fun k hk => passes _ _ ?_⟩
    · simp only [exHold, List.mem_singleton] at hk; subst hk; decide
    · simp only [exHold, List.mem_singleton] at hk; subst hk
      exact free _ (by decide) (by decide) (by decide) (by decide)
  · refine ⟨c6.1, fun k hk q _ => any _ ?_ _⟩
    simp only [exRepository, List.mem_singleton] at hk; subst hk; decide
  · exact b8

theorem exCycle_enriched : Enriches exCakeAgreement exCycle exSlowStart (1/100) (1/100) 13 (1/2) := by
  have E := exChain_enriched
  refine ⟨?_, E.tails, E.recipe, E.feed, E.rich, E.uses, by decide +kernel⟩
  intro k hk
  simp only [exCycle, List.mem_cons, List.not_mem_nil, or_false] at hk
  rcases hk with rfl | rfl | rfl | rfl | rfl | rfl | rfl | rfl | rfl | rfl <;> decide

theorem exCycle_fed : Feeds exCycle 2 exSlowStart exOreMine [3, 0] 13 1250 10 := by
  have only : ∀ x a, (x, a) ∈ [("ore", 3), ("cake", 0), ("feed", 2)] → ∀ (j : Nat) k,
      exCycle[j]? = some k → x ∈ buysOf k → j = a := by
    intro x a hx j k hj hk
    simp only [List.mem_cons, Prod.mk.injEq, List.not_mem_nil, or_false] at hx
    rcases hx with ⟨rfl, rfl⟩ | ⟨rfl, rfl⟩ | ⟨rfl, rfl⟩
    all_goals
      match j with
      | 0 | 1 | 2 | 3 | 4 | 5 | 6 | 7 | 8 | 9 => cases hj; first | rfl | exact absurd hk (by decide)
      | j + 10 => cases hj
  exact ⟨⟨only _ _ (by decide), _, rfl, by decide, by decide +kernel, by decide +kernel,
    only _ _ (by decide), _, rfl, by decide, by decide +kernel, by decide +kernel, rfl,
    only _ _ (by decide)⟩, by decide +kernel, by decide +kernel, by decide +kernel, by decide +kernel,
    by decide +kernel, by decide +kernel, by decide +kernel, by decide +kernel⟩

theorem exCycle_disposed : Disposes exCycle [6, 7] 8 48 10 := by
  have linked : ∀ x i j, (x, i, j) ∈ [("cool", 6, 7), ("old", 7, 8)] → Link exCycle x i j := by
    intro x i j h
    simp only [List.mem_cons, Prod.mk.injEq, List.not_mem_nil, or_false] at h
    rcases h with ⟨rfl, rfl, rfl⟩ | ⟨rfl, rfl, rfl⟩
    all_goals
      refine ⟨⟨_, rfl, by decide⟩, ?_, ?_⟩
      · intro m k hm hk
        match m with
        | 0 | 1 | 2 | 3 | 4 | 5 | 6 | 7 | 8 | 9 => cases hm; first | rfl | exact absurd hk (by decide)
        | m + 10 => cases hm
      · intro m k k' hm hk' hy
        cases hk'
        match m with
        | 0 | 1 | 2 | 3 | 4 | 5 | 6 | 7 | 8 | 9 => cases hm; first | rfl | exact absurd hy (by decide)
        | m + 10 => cases hm
  refine ⟨⟨by norm_num, ⟨6, rfl, ?_, ?_, ?_, by decide +kernel⟩, ?_⟩, _, rfl, by decide +kernel,
    by decide +kernel, by decide +kernel⟩
  · intro m k k' hm hk' hr hy
    simp only [exCycle, List.mem_cons, List.not_mem_nil, or_false] at hk'
    match m with
    | 0 | 1 | 2 | 3 | 4 | 5 | 6 | 7 | 8 | 9 =>
      cases hm
      first
      | rfl
      | rcases hk' with rfl | rfl | rfl | rfl | rfl | rfl | rfl | rfl | rfl | rfl <;>
          first | exact absurd hr (by decide) | exact absurd hy (by decide)
    | m + 10 => cases hm
  · intro k k' hk hk' hy
    cases hk
    simp only [exCycle, List.mem_cons, List.not_mem_nil, or_false] at hk'
    rcases hk' with rfl | rfl | rfl | rfl | rfl | rfl | rfl | rfl | rfl | rfl <;>
      first | rfl | exact absurd hy (by decide)
  · intro k k' hk hk' hr
    cases hk
    simp only [exCycle, List.mem_cons, List.not_mem_nil, or_false] at hk'
    rcases hk' with rfl | rfl | rfl | rfl | rfl | rfl | rfl | rfl | rfl | rfl <;>
      first | exact absurd hr (by decide) | decide
  · intro k i hk
    match k with
    | 0 =>
      cases hk
      exact ⟨_, _, _, rfl, ⟨by decide +kernel, by decide +kernel, fun s hs => le_min (by decide +kernel) hs,
        by decide +kernel⟩, rfl, linked _ _ _ (by simp)⟩
    | 1 =>
      cases hk
      exact ⟨_, _, _, rfl, ⟨by decide +kernel, by decide +kernel, fun s hs => le_min (by decide +kernel) hs,
        by decide +kernel⟩, rfl, linked _ _ _ (by simp)⟩
    | k + 2 => cases hk

/-- The fuel cycle meets the hypotheses, from the mine to the repository. -/
example : ∃ ps l ps', deployAll exCycle = .ok ps ∧ simulate (fun _ => sating) 10 0 ps = .ok (l, ps') ∧
    Disposed exCycle [6, 7] 8 l ps' ∧ ∀ j c, (j, c) ∈ [(4, exReactor), (5, exSecond)] →
    ∀ (t : Nat) gs, l[t]? = some gs → (givenTo gs j).length = Reactor.supplyAt c t ∧
      (givenBy gs j).length = Reactor.batchAt c t := by
  obtain ⟨ps, h1, h2⟩ := C125_runs_partial exCycle_sensible
  obtain ⟨l, ps', h3, -⟩ := h2 (fun _ => sating) (fun _ => sating_fair) 10
  obtain ⟨D, on⟩ := C149_fuel_cycle_partial exCycle_sensible h1
    (fun _ => sating_fair) (fun _ => sating_keen) (fun _ => sating_thorough) (i := 2) (a := 1) rfl
    exCycle_enriched rfl exCycle_fed exCycle_disposed h3
  refine ⟨ps, l, ps', h1, h3, D, fun j c hjc t gs hg => ?_⟩
  have key : ∀ {is : List Reactor.In} {os : List Reactor.Out}, l.length = 10 ∧ os.length = 10 →
      (∀ (t : Nat) gs o, l[t]? = some gs → os[t]? = some o → OnTime c t gs j o) →
      (givenTo gs j).length = Reactor.supplyAt c t ∧ (givenBy gs j).length = Reactor.batchAt c t := by
    intro is os hl ho
    have := (List.getElem?_eq_some_iff.1 hg).1
    have := ho t gs os[t] hg (List.getElem?_eq_getElem (by omega))
    exact ⟨this.supplied, this.shipped⟩
  have fresh : Enrichment.Feasible exSlowStart (exDec 1) :=
    ⟨by decide +kernel, by decide +kernel, by decide +kernel⟩
  have feasible : ∀ name ∈ ["fresh"] ++ [], ∀ r, exReactor.recipe name = some r →
      Enrichment.Feasible exSlowStart (exDec r) := by
    intro name hn r hr
    simp only [List.append_nil, List.mem_singleton] at hn
    subst hn
    cases hr
    exact fresh
  simp only [List.mem_cons, Prod.mk.injEq, List.not_mem_nil, or_false] at hjc
  rcases hjc with ⟨rfl, rfl⟩ | ⟨rfl, rfl⟩
  · obtain ⟨is, os, s, -, -, e1, e2, -, -, e3, -⟩ := on (j := 4) rfl (by decide) (by decide +kernel)
      (fun name r hn => feasible name (Reactor.Names.given hn) r)
      rfl rfl (by decide)
    exact key (is := is) ⟨e1, e2⟩ e3
  · obtain ⟨is, os, s, -, -, e1, e2, -, -, e3, -⟩ := on (j := 5) rfl (by decide) (by decide +kernel)
      (fun name r hn => feasible name (Reactor.Names.given hn) r)
      rfl rfl (by decide)
    exact key (is := is) ⟨e1, e2⟩ e3

end Cyc.Sim
