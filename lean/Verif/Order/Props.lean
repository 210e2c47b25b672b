import Verif.Storage.Props
import Verif.Mixer.Props1
import Verif.Conversion.Props

/-!
# The order of the trades: C119 for `Storage`, `Mixer` and `Conversion`

The kernel hands the trades of a step to a facility in an order that depends on the addresses of
objects in memory. Here the sales of a step are permuted, and everything else is kept.
-/

namespace Cyc

open Mat (massOf)

theorem sum_perm {a b : List ℚ} (h : a.Perm b) : a.sum = b.sum := h.sum_eq

namespace Storage

variable {ν : Type}

/-- What honest sales leave and hand over, in terms of their sum. -/
theorem sellLoop_after {c : Cfg} (hε : 0 ≤ c.eps) {qs : List ℚ} {s : State ν}
    (hp : AllPos s.stocks.items) (hq : ∀ q ∈ qs, 0 < q ∧ c.lo ≤ q)
    (ht : qs.sum ≤ totalQty s.stocks.items) :
    ∃ ms, sellLoop c qs s =
        .ok (ms, { s with stocks := { s.stocks with items := after qs.sum s.stocks.items } }) ∧
      ms.map qty = qs := by
  induction qs generalizing s with
  | nil => exact ⟨[], by simp [sellLoop, after_zero hp], rfl⟩
  | cons q qs ih =>
    have h1 := hq q (by simp)
    have hs : 0 ≤ qs.sum := List.sum_nonneg fun x hx => (hq x (by simp [hx])).1.le
    rw [List.sum_cons] at ht
    obtain ⟨m, e1, e2, -, -⟩ := popEps_ok (lo := c.lo) hp hε h1.1 (Or.inl h1.2)
      (show q ≤ s.stocks.quantity by simp only [Buf.quantity]; linarith)
    obtain ⟨ms, e3, e4⟩ := ih
      (s := { s with stocks := { s.stocks with items := after q s.stocks.items } })
      (allPos_after hp h1.1.le) (fun x hx => hq x (by simp [hx]))
      (by simp only; rw [totalQty_after hp h1.1.le (by linarith)]; linarith)
    refine ⟨m :: ms, ?_, by simp [e2, e4]⟩
    simp only [sellLoop, e1, ok_bind, e3, pure_eq_ok, List.sum_cons, after_after hp h1.1.le hs]

/-- C119: a step that succeeds with honest sales succeeds with the same sales in any other order. The
facility is left in exactly the same state, each trade is answered with its amount, the same is
handed over in total, nuclide by nuclide, and everything else that can be observed is the same. -/
theorem C119_storage [DecidableEq ν] {c : Cfg} (hε : 0 ≤ c.eps) {is : List (In ν)}
    {os : List (Out ν)} {s s' : State ν} {i : In ν} {o : Out ν} (h : History c is os s)
    (hd : Substantial is) (H : Honest c s i) (hs : step c s i = .ok (o, s')) {l : List ℚ}
    (hl : i.sells.Perm l) :
    ∃ o', step c s { i with sells := l } = .ok (o', s') ∧ o.sold.map qty = i.sells ∧
      o'.sold.map qty = l ∧ (∀ n, massOf o'.sold n = massOf o.sold n) ∧
      o' = { o with sold := o'.sold } := by
  have I := (history_inv hε h hd).1
  obtain ⟨ms, e1, e2⟩ := sellLoop_after hε I.stockPos H.sells H.total
  obtain ⟨ms', f1, f2⟩ := sellLoop_after (qs := l) hε I.stockPos
    (fun q hq => H.sells q (hl.mem_iff.2 hq)) (by rw [← sum_perm hl]; exact H.total)
  rw [← sum_perm hl] at f1
  simp only [step, e1, f1, ok_bind, bind_ok] at hs ⊢
  obtain ⟨s2, h2, ⟨r, s3⟩, h3, h4⟩ := hs
  simp only [pure_eq_ok, Except.ok.injEq, Prod.mk.injEq] at h4
  obtain ⟨rfl, rfl⟩ := h4
  refine ⟨_, ⟨s2, h2, (r, s3), h3, rfl⟩, e2, f2, fun n => ?_, rfl⟩
  obtain ⟨l1, g1, -, -, g4, -⟩ := sellLoop_inv hε I.stockPos e1
  obtain ⟨l2, k1, -, -, k4, -⟩ := sellLoop_inv hε I.stockPos f1
  have : l1 = l2 := by
    have := g1.symm.trans k1
    simp only [State.mk.injEq, Buf.mk.injEq, true_and, and_true] at this
    exact this
  subst this
  have h1 := g4 n
  have h2 := k4 n
  show massOf ms' n = massOf ms n
  linarith

/-- The example history with three sales in its fourth step, in two orders: the amounts come in the
order of the trades, the state is the same. -/
example : ((play exCfg (exIn.take 3 ++ [⟨[2, 1/2, 1/4], []⟩])).toOption.map fun r =>
      (r.1.map fun o => o.sold.map qty).getLast?) = some (some [2, 1/2, 1/4]) ∧
    ((play exCfg (exIn.take 3 ++ [⟨[1/4, 2, 1/2], []⟩])).toOption.map fun r =>
      (r.1.map fun o => o.sold.map qty).getLast?) = some (some [1/4, 2, 1/2]) ∧
    ((play exCfg (exIn.take 3 ++ [⟨[2, 1/2, 1/4], []⟩])).toOption.map fun r => r.2.stocks.items) =
      (play exCfg (exIn.take 3 ++ [⟨[1/4, 2, 1/2], []⟩])).toOption.map fun r => r.2.stocks.items := by
  decide +kernel

end Storage

namespace Mixer

/-- What honest sales leave and hand over, in terms of their sum. -/
theorem sellLoop_after {c : Cfg} (hε : 0 ≤ c.eps) {qs : List ℚ} {s : State}
    (hp : AllPos s.output.items) (hq : ∀ q ∈ qs, 0 < q ∧ c.lo ≤ q)
    (ht : qs.sum ≤ totalQty s.output.items) :
    ∃ ms, sellLoop c qs s =
        .ok (ms, { s with output := { s.output with items := after qs.sum s.output.items } }) ∧
      ms.map qty = qs := by
  induction qs generalizing s with
  | nil => exact ⟨[], by simp [sellLoop, after_zero hp], rfl⟩
  | cons q qs ih =>
    have h1 := hq q (by simp)
    have hs : 0 ≤ qs.sum := List.sum_nonneg fun x hx => (hq x (by simp [hx])).1.le
    rw [List.sum_cons] at ht
    obtain ⟨m, e1, e2, -, -⟩ := popEps_ok (lo := c.lo) hp hε h1.1 (Or.inl h1.2)
      (show q ≤ s.output.quantity by simp only [Buf.quantity]; linarith)
    obtain ⟨ms, e3, e4⟩ := ih
      (s := { s with output := { s.output with items := after q s.output.items } })
      (allPos_after hp h1.1.le) (fun x hx => hq x (by simp [hx]))
      (by simp only; rw [totalQty_after hp h1.1.le (by linarith)]; linarith)
    refine ⟨m :: ms, ?_, by simp [e2, e4]⟩
    simp only [sellLoop, e1, ok_bind, e3, pure_eq_ok, List.sum_cons, after_after hp h1.1.le hs]

/-- C119: a step that succeeds with honest sales succeeds with the same sales in any other order. The
facility is left in exactly the same state, each trade is answered with its amount, the same is
handed over in total, nuclide by nuclide, and everything else that can be observed is the same. -/
theorem C119_mixer {c : Cfg} (V : Valid c) {is : List In} {os : List Out} {s s₁ s' : State} {i : In}
    {o : Out} (h : History c is os s) (hd : Substantial is) (ht : tick c s = .ok s₁)
    (H : Honest c s₁ i) (hs : step c s i = .ok (o, s')) {l : List ℚ} (hl : i.sells.Perm l) :
    ∃ o', step c s { i with sells := l } = .ok (o', s') ∧ o.sold.map qty = i.sells ∧
      o'.sold.map qty = l ∧ (∀ n, massOf o'.sold n = massOf o.sold n) ∧
      o' = { o with sold := o'.sold } := by
  obtain ⟨-, -, -, I1⟩ := tick_inv V (history_inv V hd h) ht
  obtain ⟨I2, -, -⟩ := requests_inv (addr := i.addr) I1
  have hout : (requests c i.addr s₁).2.output = s₁.output :=
    (requestLoop_spec c i.addr 0 c.streams s₁).2.2.1
  have hp : AllPos (requests c i.addr s₁).2.output.items := allPos_of_solid I2.outSolid
  have hq : i.sells.sum ≤ totalQty (requests c i.addr s₁).2.output.items := by
    rw [hout]; exact H.total
  obtain ⟨ms, e1, e2⟩ := sellLoop_after V.eps hp H.sells hq
  obtain ⟨ms', f1, f2⟩ := sellLoop_after (qs := l) V.eps hp
    (fun q hq => H.sells q (hl.mem_iff.2 hq)) (by rw [← sum_perm hl]; exact hq)
  rw [← sum_perm hl] at f1
  obtain ⟨-, -, -, -, g1, -⟩ := sellLoop_inv V.eps I2 e1
  obtain ⟨-, -, -, -, g2, -⟩ := sellLoop_inv V.eps I2 f1
  simp only [step, ht, e1, f1, ok_bind, bind_ok] at hs ⊢
  obtain ⟨s3, h3, h4⟩ := hs
  simp only [pure_eq_ok, Except.ok.injEq, Prod.mk.injEq] at h4
  obtain ⟨rfl, rfl⟩ := h4
  refine ⟨_, ⟨s3, h3, rfl⟩, e2, f2, fun n => ?_, rfl⟩
  have h1 := g1 n
  have h2 := g2 n
  show massOf ms' n = massOf ms n
  linarith

/-- The example history with two sales in its last step, in both orders. -/
example : ((run exCfg (enter exCfg) (exIn.take 2 ++ [⟨fun i j => 10 * i + j, [5, 1], []⟩])).toOption.map
      fun r => (r.1.map fun o => o.sold.map qty).getLast?) = some (some [5, 1]) ∧
    ((run exCfg (enter exCfg) (exIn.take 2 ++ [⟨fun i j => 10 * i + j, [5, 1], []⟩])).toOption.map
      Prod.snd) =
    (run exCfg (enter exCfg) (exIn.take 2 ++ [⟨fun i j => 10 * i + j, [1, 5], []⟩])).toOption.map
      Prod.snd := by
  decide +kernel

end Mixer

namespace Conversion

theorem Single.allPos {l : List NMat} (h : Single l) : AllPos l := by
  rcases h with rfl | ⟨m, rfl, hm, -⟩
  · intro x hx; simp at hx
  · intro x hx; rw [List.mem_singleton.1 hx]; exact hm

/-- What honest sales leave and hand over, in terms of their sum. -/
theorem sell_after {c : Cfg} {qs : List ℚ} {s : State}
    (hp : AllPos s.output.items) (hq : ∀ q ∈ qs, 0 < q ∧ c.lo ≤ q)
    (ht : qs.sum ≤ totalQty s.output.items) :
    ∃ ms, sell c qs s =
        .ok (ms, { s with output := { s.output with items := after qs.sum s.output.items } }) := by
  induction qs generalizing s with
  | nil => exact ⟨[], by simp [sell, after_zero hp]⟩
  | cons q qs ih =>
    have h1 := hq q (by simp)
    have hs : 0 ≤ qs.sum := List.sum_nonneg fun x hx => (hq x (by simp [hx])).1.le
    rw [List.sum_cons] at ht
    obtain ⟨m, e1, e2, -, -⟩ := popQty_ok (lo := c.lo) hp h1.1 h1.2
      (show q ≤ s.output.quantity by simp only [Buf.quantity]; linarith)
    obtain ⟨ms, e3⟩ := ih
      (s := { s with output := { s.output with items := after q s.output.items } })
      (allPos_after hp h1.1.le) (fun x hx => hq x (by simp [hx]))
      (by simp only; rw [totalQty_after hp h1.1.le (by linarith)]; linarith)
    refine ⟨m :: ms, ?_⟩
    simp only [sell, e1, ok_bind, e3, pure_eq_ok, List.sum_cons, after_after hp h1.1.le hs]

/-- C119: a step that succeeds with honest sales succeeds with the same sales in any other order. The
facility is left in exactly the same state, and the answers are the same up to the order: each trade
gets its amount with the same mass of each nuclide. Everything else that can be observed is the
same. -/
theorem C119_conversion {c : Cfg} {is : List In} {os : List Out} {s s₁ s' : State} {i : In} {o : Out}
    (h : History c is os s) (hd : Substantial is) (ht : tick c s = .ok s₁) (H : Honest c s₁ i)
    (hs : step c s i = .ok (o, s')) {l : List ℚ} (hl : i.sells.Perm l) :
    ∃ o', step c s { i with sells := l } = .ok (o', s') ∧ o.sold.map qty = i.sells ∧
      o'.sold.map qty = l ∧
      (o.sold.map fun m => (qty m, m.mass)).Perm (o'.sold.map fun m => (qty m, m.mass)) ∧
      o' = { o with sold := o'.sold } := by
  have I := (tick_inv (history_inv h hd) ht).1
  have hp := Single.allPos I.output
  obtain ⟨ms, e1⟩ := sell_after hp H.sells H.total
  obtain ⟨ms', f1⟩ := sell_after (qs := l) hp
    (fun q hq => H.sells q (hl.mem_iff.2 hq)) (by rw [← sum_perm hl]; exact H.total)
  rw [← sum_perm hl] at f1
  obtain ⟨-, -, e2, -, -, e3⟩ := sell_inv I e1
  obtain ⟨-, -, f2, -, -, f3⟩ := sell_inv I f1
  simp only [step, ht, e1, f1, ok_bind, bind_ok] at hs ⊢
  obtain ⟨b, hb, s3, h3, h4⟩ := hs
  simp only [pure_eq_ok, Except.ok.injEq, Prod.mk.injEq] at h4
  obtain ⟨rfl, rfl⟩ := h4
  refine ⟨_, ⟨b, hb, s3, h3, rfl⟩, e2, f2, ?_, rfl⟩
  have key : ∀ (ms : List NMat) (qs : List ℚ), ms.map qty = qs → (∀ q ∈ qs, 0 < q ∧ c.lo ≤ q) →
      qs.sum ≤ product s₁ → (∀ m ∈ ms, SameComposition m s₁.output.items) →
      (ms.map fun m => (qty m, m.mass)) =
        qs.map fun q => (q, fun n => q * massOf s₁.output.items n / product s₁) := by
    intro ms qs hq hpos hsum hc
    rw [← hq, List.map_map]
    refine List.map_congr_left fun m hm => ?_
    have hm0 := (hpos (qty m) (hq ▸ List.mem_map_of_mem hm)).1
    have hle : qty m ≤ qs.sum := by
      have : qty m ∈ qs := hq ▸ List.mem_map_of_mem hm
      exact List.single_le_sum (fun x hx => (hpos x hx).1.le) _ this
    have hne : product s₁ ≠ 0 := ne_of_gt (by linarith)
    simp only [Function.comp_apply, Prod.mk.injEq, true_and]
    funext n
    rw [eq_div_iff hne]
    exact hc m hm n
  show (ms.map _).Perm (ms'.map _)
  rw [key ms i.sells e2 H.sells H.total e3,
    key ms' l f2 (fun q hq => H.sells q (hl.mem_iff.2 hq)) (by rw [← sum_perm hl]; exact H.total) f3]
  exact hl.map _

/-- The second step of the example history with its sales in both orders. -/
example : ((run exCfg (enter exCfg) (exIs.take 1 ++ [⟨[⟨1, "uf6", 2⟩, ⟨3, "uf6", 50⟩], [1, 2], [w]⟩]
      )).toOption.map fun r => (r.1.map fun o => o.sold.map qty).getLast?) = some (some [1, 2]) ∧
    ((run exCfg (enter exCfg) (exIs.take 1 ++ [⟨[⟨1, "uf6", 2⟩, ⟨3, "uf6", 50⟩], [1, 2], [w]⟩]
      )).toOption.map Prod.snd) =
    (run exCfg (enter exCfg) (exIs.take 1 ++ [⟨[⟨1, "uf6", 2⟩, ⟨3, "uf6", 50⟩], [2, 1], [w]⟩]
      )).toOption.map Prod.snd := by
  decide +kernel

end Conversion

end Cyc
