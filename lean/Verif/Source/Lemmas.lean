import Verif.Source.Spec

/-!
# Lemmas about `Source`
-/

namespace Cyc.Source

open Mat (massOf)

theorem same_scale {m r : NMat} (h : SameComposition m r) (x : ℚ) : SameComposition (m.scale x) r := by
  intro n
  rw [Mat.mass_scale, Mat.qty_scale, mul_assoc, h n, mul_assoc]

theorem same_self (r : NMat) : SameComposition r r := fun _ => mul_comm _ _

theorem same_ofComp (q : ℚ) (r : NMat) : SameComposition (ofComp q r) r := same_scale (same_self r) _

theorem qty_ofComp {q : ℚ} {r : NMat} (h : 0 < qty r) : qty (ofComp q r) = q := by
  unfold ofComp
  rw [Mat.qty_scale]
  have := ne_of_gt h
  field_simp

theorem same_squash {l : List NMat} {r : NMat} (h : ∀ m ∈ l, SameComposition m r) :
    SameComposition (Mat.squash l) r := by
  intro n
  rw [Mat.mass_squash, Mat.qty_squash]
  induction l with
  | nil => simp
  | cons m l ih =>
    have h1 := h m (by simp) n
    have h2 := ih (fun x hx => h x (by simp [hx]))
    rw [Mat.massOf_cons, totalQty_cons, add_mul, add_mul, h1, h2]

/-- What holds in every reachable state: the stock has the composition of `stuff`, unless there is
none. -/
structure Inv (c : Cfg) (s : State) : Prop where
  cap : s.inventory.cap = none
  items : (AllPos s.inventory.items ∧ ∀ m ∈ s.inventory.items, SameComposition m (stuff c)) ∨
    stock s = 0

theorem Inv.nonneg {c : Cfg} {s : State} (I : Inv c s) : 0 ≤ stock s := by
  rcases I.items with ⟨h, -⟩ | h
  · exact h.total_nonneg
  · exact le_of_eq h.symm

theorem stuff_pos {c : Cfg} (V : Valid c) : 0 < qty (stuff c) := by
  unfold stuff
  cases h : c.recipe with
  | none =>
    show 0 < Mat.quantity ⟨[(0, 1)]⟩
    simp [Mat.quantity]
  | some r => exact V.recipe r h

theorem push_none {ε : ℚ} {b : Buf NMat} (h : b.cap = none) (m : NMat) :
    b.push ε m = .ok { b with items := b.items ++ [m] } := by
  unfold Buf.push Buf.fits Buf.space
  rw [h]; rfl

theorem build_eq {c : Cfg} : build c = .ok ⟨⟨none, [ofComp c.size (stuff c)]⟩⟩ := by
  unfold build
  rw [push_none rfl]; rfl

theorem build_inv {c : Cfg} (V : Valid c) {s : State} (h : build c = .ok s) :
    Inv c s ∧ stock s = c.size := by
  rw [build_eq] at h
  simp only [Except.ok.injEq] at h
  subst h
  have hq := qty_ofComp (q := c.size) (stuff_pos V)
  have hs : stock ⟨⟨none, [ofComp c.size (stuff c)]⟩⟩ = c.size := by
    unfold stock; simp [hq]
  refine ⟨⟨rfl, ?_⟩, hs⟩
  rcases eq_or_lt_of_le V.size with h0 | h0
  · right; rw [hs, ← h0]
  · left
    constructor
    · intro m hm
      simp only [List.mem_singleton] at hm
      rw [hm, hq]; exact h0
    · intro m hm
      simp only [List.mem_singleton] at hm
      rw [hm]; exact same_ofComp _ _

theorem same_after {r : NMat} {l : List NMat} {q : ℚ} (h : ∀ m ∈ l, SameComposition m r) :
    ∀ m ∈ after q l, SameComposition m r := by
  induction l generalizing q with
  | nil => simp [after]
  | cons x l ih =>
    unfold after
    split
    · exact ih (fun m hm => h m (by simp [hm]))
    · intro m hm
      rcases List.mem_cons.1 hm with rfl | hm
      · exact same_scale (h x (by simp)) _
      · exact h m (by simp [hm])

theorem same_popLoop {r : NMat} {l a b : List NMat} {q : ℚ} (h : ∀ m ∈ l, SameComposition m r)
    (hp : popLoop q l = .ok (a, b)) : ∀ m ∈ a, SameComposition m r := by
  induction l generalizing q a b with
  | nil =>
    unfold popLoop at hp
    split at hp
    · simp only [Except.ok.injEq, Prod.mk.injEq] at hp
      rw [← hp.1]; simp
    · cases hp
  | cons x l ih =>
    unfold popLoop at hp
    split at hp
    · simp only [Except.ok.injEq, Prod.mk.injEq] at hp
      rw [← hp.1]; simp
    · split at hp
      · simp only [Except.ok.injEq, Prod.mk.injEq] at hp
        rw [← hp.1]
        simp only [List.mem_singleton, forall_eq]
        exact same_scale (h x (by simp)) _
      · simp only [bind_ok] at hp
        obtain ⟨⟨a', b'⟩, h1, hp⟩ := hp
        simp only [pure_eq_ok, Except.ok.injEq, Prod.mk.injEq] at hp
        rw [← hp.1]
        intro m hm
        rcases List.mem_cons.1 hm with rfl | hm
        · exact h m (by simp)
        · exact ih (fun m hm => h m (by simp [hm])) h1 m hm

/-- What a removal from the stock does. -/
theorem pop_inv {c : Cfg} {s : State} (I : Inv c s) {q : ℚ} {m : NMat} {b : Buf NMat}
    (h : s.inventory.popQty c.lo q = .ok (m, b)) :
    0 < q ∧ q ≤ stock s ∧ qty m = q ∧ SameComposition m (stuff c) ∧ b.cap = none ∧
      AllPos b.items ∧ (∀ m ∈ b.items, SameComposition m (stuff c)) ∧
      totalQty b.items = stock s - q := by
  unfold Buf.popQty at h
  split at h
  · cases h
  rename_i hc
  push Not at hc
  obtain ⟨h1, h2, -⟩ := hc
  rcases I.items with ⟨hp, hs⟩ | h0
  · obtain ⟨a, e1, -, e3, -, -, -⟩ := popLoop_ok hp h2 h1
    rw [e1] at h
    simp only [ok_bind, pure_eq_ok, Except.ok.injEq, Prod.mk.injEq] at h
    obtain ⟨rfl, rfl⟩ := h
    refine ⟨h2, h1, by rw [Mat.qty_squash, e3], same_squash (same_popLoop hs e1), I.cap,
      allPos_after hp (le_of_lt h2), same_after hs, ?_⟩
    exact totalQty_after hp (le_of_lt h2) h1
  · exfalso
    change q ≤ stock s at h1
    linarith

theorem pop_ok {c : Cfg} {s : State} (I : Inv c s) {q : ℚ} (h0 : 0 < q) (hlo : c.lo ≤ q)
    (hq : q ≤ stock s) : ∃ m b, s.inventory.popQty c.lo q = .ok (m, b) := by
  unfold Buf.popQty
  rw [if_neg (by push Not; exact ⟨hq, h0, hlo⟩)]
  rcases I.items with ⟨hp, -⟩ | h
  · obtain ⟨a, e1, -⟩ := popLoop_ok hp h0 hq
    rw [e1]
    exact ⟨_, _, rfl⟩
  · linarith

/-- Packaging succeeds and divides as told. -/
theorem packLoop_ok {r : NMat} {ps : List ℚ} {m : NMat} (hp : ∀ p ∈ ps, 0 < p)
    (hs : ps.sum ≤ qty m) (hm : SameComposition m r) :
    ∃ xs m', packLoop ps m = .ok (xs, m') ∧ xs.map qty = ps ∧ qty m' = qty m - ps.sum ∧
      (∀ x ∈ xs, SameComposition x r) ∧ SameComposition m' r := by
  induction ps generalizing m with
  | nil => exact ⟨[], m, rfl, rfl, by simp, by simp, hm⟩
  | cons p ps ih =>
    have h0 := hp p (by simp)
    have hps : 0 ≤ ps.sum := List.sum_nonneg fun x hx => le_of_lt (hp x (by simp [hx]))
    rw [List.sum_cons] at hs
    have hm0 : qty m ≠ 0 := by intro h; linarith
    have e1 : qty (m.split p).1 = p := by
      unfold Mat.split; simp only [Mat.qty_scale]; field_simp
    have e2 : qty (m.split p).2 = qty m - p := by
      unfold Mat.split; simp only [Mat.qty_scale]; field_simp
    obtain ⟨xs, m', k1, k2, k3, k4, k5⟩ := ih (m := (m.split p).2)
      (fun x hx => hp x (by simp [hx])) (by rw [e2]; linarith) (same_scale hm _)
    refine ⟨(m.split p).1 :: xs, m', ?_, ?_, ?_, ?_, k5⟩
    · unfold packLoop Mat.extractQty
      rw [if_neg (by push Not; linarith)]
      simp only [ok_bind, k1, pure_eq_ok]
    · rw [List.map_cons, e1, k2]
    · rw [k3, e2, List.sum_cons]; ring
    · intro x hx
      rcases List.mem_cons.1 hx with rfl | hx
      · exact same_scale hm _
      · exact k4 x hx

/-- What of a removed quantity goes back to the inventory. -/
def back (c : Cfg) (q : ℚ) : ℚ := if q - (c.fill q).sum > c.eps then q - (c.fill q).sum else 0

theorem back_nonneg {c : Cfg} (V : Valid c) (q : ℚ) : 0 ≤ back c q := by
  unfold back
  have := V.eps
  split <;> linarith

theorem back_le {c : Cfg} (V : Valid c) {q : ℚ} (h0 : 0 < q) : back c q ≤ q - (c.fill q).sum := by
  unfold back
  have := V.packing.sum q h0
  split <;> linarith

/-- What packaging does to the inventory. -/
theorem pack_ok {c : Cfg} (V : Valid c) {b : Buf NMat} {m : NMat} (hcap : b.cap = none)
    (hp : AllPos b.items) (hs : ∀ m ∈ b.items, SameComposition m (stuff c)) (h0 : 0 < qty m)
    (hm : SameComposition m (stuff c)) :
    ∃ xs b', pack c b m = .ok (xs, b') ∧ xs.map qty = c.fill (qty m) ∧
      (∀ x ∈ xs, SameComposition x (stuff c)) ∧ Inv c ⟨b'⟩ ∧
      totalQty b'.items = totalQty b.items + back c (qty m) := by
  obtain ⟨xs, m', k1, k2, k3, k4, k5⟩ := packLoop_ok (r := stuff c) (V.packing.pos _ h0)
    (V.packing.sum _ h0) hm
  unfold pack
  rw [k1]
  simp only [ok_bind]
  unfold back
  rw [k3]
  have := V.eps
  split
  · rename_i hgt
    rw [push_none hcap]
    refine ⟨xs, _, rfl, k2, k4, ⟨hcap, Or.inl ⟨?_, ?_⟩⟩, ?_⟩
    · intro x hx
      rcases List.mem_append.1 hx with hx | hx
      · exact hp x hx
      · simp only [List.mem_singleton] at hx
        rw [hx, k3]; linarith
    · intro x hx
      rcases List.mem_append.1 hx with hx | hx
      · exact hs x hx
      · simp only [List.mem_singleton] at hx
        rw [hx]; exact k5
    · show totalQty (b.items ++ [m']) = _
      simp [k3]
  · refine ⟨xs, b, rfl, k2, k4, ⟨hcap, Or.inl ⟨hp, hs⟩⟩, by simp⟩

/-- The composition of what is sent. -/
def wanted (c : Cfg) (t : Trade) : NMat := c.recipe.getD t.target

theorem adjust_spec {c : Cfg} {t : Trade} {x : NMat} (hx : SameComposition x (stuff c))
    (ht : 0 < qty t.target) :
    qty (adjust c t x) = qty x ∧ SameComposition (adjust c t x) (wanted c t) := by
  unfold adjust wanted
  unfold stuff at hx
  cases h : c.recipe with
  | some r =>
    rw [h] at hx
    exact ⟨rfl, hx⟩
  | none => exact ⟨qty_ofComp ht, same_ofComp _ _⟩

theorem response_spec {c : Cfg} {xs : List NMat} {m : NMat}
    (hm : SameComposition m (stuff c)) (hxs : ∀ x ∈ xs, SameComposition x (stuff c)) :
    SameComposition (response xs m) (stuff c) ∧ qty (response xs m) = (xs.map qty).headD 0 := by
  unfold response
  cases xs with
  | nil => exact ⟨same_scale hm 0, by simp⟩
  | cons x xs => exact ⟨hxs x (by simp), by simp⟩

/-- A response is what it should be. -/
structure Good (c : Cfg) (t : Trade) (x : NMat) : Prop where
  qty : qty x = (c.fill t.amt).headD 0
  comp : SameComposition x (wanted c t)
  pos : 0 < t.amt

/-- What is removed from the inventory for a trade that is answered. -/
def net (c : Cfg) (p : Trade × Option NMat) : ℚ :=
  match p.2 with
  | none => 0
  | some _ => p.1.amt - back c p.1.amt

/-- What the loop over the trades does. -/
theorem sellLoop_inv {c : Cfg} (V : Valid c) {n : Nat} {ts : List Trade} {s s' : State}
    {l : List (Option NMat)} (I : Inv c s) (ht : ∀ t ∈ ts, 0 < qty t.target)
    (h : sellLoop c n ts s = .ok (l, s')) :
    Inv c s' ∧ List.Forall₂ (fun t o => ∀ x, o = some x → Good c t x) ts l ∧
      stock s' = stock s - ((ts.zip l).map (net c)).sum := by
  induction ts generalizing n s l with
  | nil =>
    cases n <;>
    · simp only [sellLoop, Except.ok.injEq, Prod.mk.injEq] at h
      obtain ⟨rfl, rfl⟩ := h
      exact ⟨I, .nil, by simp⟩
  | cons t ts ih =>
    have ht' : ∀ t ∈ ts, 0 < qty t.target := fun x hx => ht x (by simp [hx])
    cases n with
    | zero =>
      simp only [sellLoop, bind_ok] at h
      obtain ⟨⟨l', s₁⟩, h1, h⟩ := h
      simp only [pure_eq_ok, Except.ok.injEq, Prod.mk.injEq] at h
      obtain ⟨rfl, rfl⟩ := h
      obtain ⟨J, j1, j2⟩ := ih I ht' h1
      refine ⟨J, .cons (by simp) j1, ?_⟩
      rw [j2]; simp [net]
    | succ n =>
      simp only [sellLoop, bind_ok] at h
      obtain ⟨⟨m, b⟩, h1, ⟨xs, b'⟩, h2, ⟨l', s₁⟩, h3, h⟩ := h
      simp only [pure_eq_ok, Except.ok.injEq, Prod.mk.injEq] at h
      obtain ⟨rfl, rfl⟩ := h
      obtain ⟨p0, p1, p2, p3, p4, p5, p6, p7⟩ := pop_inv I h1
      obtain ⟨xs', b'', k1, k2, k3, k4, k5⟩ := pack_ok V p4 p5 p6 (by rw [p2]; exact p0) p3
      rw [k1] at h2
      simp only [Except.ok.injEq, Prod.mk.injEq] at h2
      obtain ⟨rfl, rfl⟩ := h2
      obtain ⟨J, j1, j2⟩ := ih k4 ht' h3
      obtain ⟨r1, r2⟩ := response_spec p3 k3
      obtain ⟨a1, a2⟩ := adjust_spec (t := t) r1 (ht t (by simp))
      refine ⟨J, .cons ?_ j1, ?_⟩
      · intro x hx
        simp only [Option.some.injEq] at hx
        subst hx
        exact ⟨by rw [a1, r2, k2, p2], a2, p0⟩
      · rw [j2]
        simp only [List.zip_cons_cons, List.map_cons, List.sum_cons, net]
        have : stock ⟨b''⟩ = stock s - t.amt + back c t.amt := by
          show totalQty b''.items = _
          rw [k5, p7, p2]
        rw [this]; ring

/-- Which trades are answered when each fills one package: the first ones. -/
theorem sellLoop_whole {c : Cfg} (V : Valid c) {n : Nat} {ts : List Trade} {s s' : State}
    {l : List (Option NMat)} (I : Inv c s) (hw : ∀ t ∈ ts, c.fill t.amt = [t.amt])
    (h : sellLoop c n ts s = .ok (l, s')) (k : Nat) (hk : k < ts.length) :
    (k < n → ∃ x, l[k]? = some (some x)) ∧ (n ≤ k → l[k]? = some none) := by
  induction ts generalizing n s l k with
  | nil => simp at hk
  | cons t ts ih =>
    have hw' : ∀ t ∈ ts, c.fill t.amt = [t.amt] := fun x hx => hw x (by simp [hx])
    cases n with
    | zero =>
      simp only [sellLoop, bind_ok] at h
      obtain ⟨⟨l', s₁⟩, h1, h⟩ := h
      simp only [pure_eq_ok, Except.ok.injEq, Prod.mk.injEq] at h
      obtain ⟨rfl, rfl⟩ := h
      refine ⟨by omega, fun _ => ?_⟩
      cases k with
      | zero => rfl
      | succ k => exact (ih I hw' h1 k (by simpa using hk)).2 (by omega)
    | succ n =>
      simp only [sellLoop, bind_ok] at h
      obtain ⟨⟨m, b⟩, h1, ⟨xs, b'⟩, h2, ⟨l', s₁⟩, h3, h⟩ := h
      simp only [pure_eq_ok, Except.ok.injEq, Prod.mk.injEq] at h
      obtain ⟨rfl, rfl⟩ := h
      obtain ⟨p0, p1, p2, p3, p4, p5, p6, p7⟩ := pop_inv I h1
      obtain ⟨xs', b'', k1, k2, k3, k4, k5⟩ := pack_ok V p4 p5 p6 (by rw [p2]; exact p0) p3
      rw [k1] at h2
      simp only [Except.ok.injEq, Prod.mk.injEq] at h2
      obtain ⟨rfl, rfl⟩ := h2
      have hne : xs' ≠ [] := by
        rintro rfl
        rw [p2, hw t (by simp)] at k2
        simp at k2
      rw [if_neg hne] at h3
      cases k with
      | zero => exact ⟨fun _ => ⟨_, rfl⟩, by omega⟩
      | succ k =>
        obtain ⟨i1, i2⟩ := ih k4 hw' h3 k (by simpa using hk)
        exact ⟨fun hh => i1 (by omega), fun hh => i2 (by omega)⟩

theorem sellLoop_ok {c : Cfg} (V : Valid c) {n : Nat} {ts : List Trade} {s : State} (I : Inv c s)
    (ht : ∀ t ∈ ts, 0 < t.amt ∧ c.lo ≤ t.amt) (hs : (ts.map Trade.amt).sum ≤ stock s) :
    ∃ l s', sellLoop c n ts s = .ok (l, s') := by
  induction ts generalizing n s with
  | nil => cases n <;> exact ⟨[], s, rfl⟩
  | cons t ts ih =>
    obtain ⟨t0, t1⟩ := ht t (by simp)
    have ht' : ∀ t ∈ ts, 0 < t.amt ∧ c.lo ≤ t.amt := fun x hx => ht x (by simp [hx])
    have h0 : 0 ≤ (ts.map Trade.amt).sum := by
      apply List.sum_nonneg
      intro x hx
      obtain ⟨y, hy, rfl⟩ := List.mem_map.1 hx
      exact le_of_lt (ht' y hy).1
    rw [List.map_cons, List.sum_cons] at hs
    cases n with
    | zero =>
      obtain ⟨l, s', h⟩ := ih (n := 0) I ht' (by linarith)
      exact ⟨none :: l, s', by simp only [sellLoop, h, ok_bind, pure_eq_ok]⟩
    | succ n =>
      obtain ⟨m, b, h1⟩ := pop_ok I t0 t1 (by linarith)
      obtain ⟨p0, p1, p2, p3, p4, p5, p6, p7⟩ := pop_inv I h1
      obtain ⟨xs, b', k1, k2, k3, k4, k5⟩ := pack_ok V p4 p5 p6 (by rw [p2]; exact p0) p3
      obtain ⟨l, s', h⟩ := ih (n := if xs = [] then n + 1 else n) k4 ht' (by
        show _ ≤ totalQty b'.items
        rw [k5, p7]
        have := back_nonneg V (qty m)
        linarith)
      exact ⟨_, s', by simp only [sellLoop, h1, k1, h, ok_bind, pure_eq_ok]; rfl⟩

/-- What is sent for a trade is no more than what leaves the inventory. -/
theorem good_le {c : Cfg} (V : Valid c) {t : Trade} {x : NMat} (G : Good c t x) :
    0 ≤ qty x ∧ qty x ≤ t.amt - back c t.amt := by
  have h1 := back_le V G.pos
  have h2 := V.packing.pos _ G.pos
  rw [G.qty]
  generalize c.fill t.amt = l at h1 h2
  cases l with
  | nil => simp at h1 ⊢; linarith
  | cons p ps =>
    have h3 : 0 ≤ ps.sum := List.sum_nonneg fun x hx => le_of_lt (h2 x (by simp [hx]))
    have h4 := h2 p (by simp)
    rw [List.sum_cons] at h1
    simp only [List.headD_cons]
    constructor <;> linarith

theorem sent_le {c : Cfg} (V : Valid c) {ts : List Trade} {l : List (Option NMat)}
    (h : List.Forall₂ (fun t o => ∀ x, o = some x → Good c t x) ts l) :
    0 ≤ totalQty (l.filterMap id) ∧
      totalQty (l.filterMap id) ≤ ((ts.zip l).map (net c)).sum := by
  induction h with
  | nil => simp
  | @cons t o ts l ho _ ih =>
    cases o with
    | none => simpa [net] using ih
    | some x =>
      obtain ⟨g0, g1⟩ := good_le V (ho x rfl)
      have e : (some x :: l).filterMap id = x :: l.filterMap id := rfl
      rw [e]
      simp only [totalQty_cons, List.zip_cons_cons, List.map_cons, List.sum_cons, net]
      constructor <;> linarith [ih.1, ih.2]

theorem net_le {c : Cfg} (V : Valid c) {ts : List Trade} {l : List (Option NMat)}
    (h : List.Forall₂ (fun t o => ∀ x, o = some x → Good c t x) ts l)
    (h0 : ∀ t ∈ ts, 0 ≤ t.amt) :
    ((ts.zip l).map (net c)).sum ≤ (ts.map Trade.amt).sum := by
  induction h with
  | nil => simp
  | @cons t o ts l ho _ ih =>
    have h1 := h0 t (by simp)
    have h2 := ih (fun x hx => h0 x (by simp [hx]))
    cases o with
    | none =>
      simp only [List.zip_cons_cons, List.map_cons, List.sum_cons, net]; linarith
    | some x =>
      have := back_nonneg V t.amt
      simp only [List.zip_cons_cons, List.map_cons, List.sum_cons, net]; linarith

theorem step_eq {c : Cfg} {s s' : State} {i : In} {o : Out} (h : step c s i = .ok (o, s')) :
    sellLoop c (c.ship i.trades.length) i.trades s = .ok (o.sent, s') ∧
      o.supply = maxQty c s ∧ o.bids = bids c i.reqs s := by
  simp only [step, sell, bind_ok] at h
  obtain ⟨⟨l, s₁⟩, h1, h⟩ := h
  simp only [pure_eq_ok, Except.ok.injEq, Prod.mk.injEq] at h
  obtain ⟨rfl, rfl⟩ := h
  exact ⟨h1, rfl, rfl⟩

theorem run_inv {c : Cfg} (V : Valid c) {is : List In} {s s' : State} {os : List Out} (I : Inv c s)
    (ht : Targets is) (h : run c s is = .ok (os, s')) :
    Inv c s' ∧ 0 ≤ totalQty (shipped os) ∧ stock s' + totalQty (shipped os) ≤ stock s := by
  induction is generalizing s os with
  | nil =>
    simp only [run, Except.ok.injEq, Prod.mk.injEq] at h
    obtain ⟨rfl, rfl⟩ := h
    exact ⟨I, by simp [shipped], by simp [shipped]⟩
  | cons i is ih =>
    simp only [run, bind_ok] at h
    obtain ⟨⟨o, s₁⟩, h1, ⟨os, s₂⟩, h2, h⟩ := h
    simp only [pure_eq_ok, Except.ok.injEq, Prod.mk.injEq] at h
    obtain ⟨rfl, rfl⟩ := h
    obtain ⟨e1, -, -⟩ := step_eq h1
    obtain ⟨J, j1, j2⟩ := sellLoop_inv V I (ht i (by simp)) e1
    obtain ⟨K, k1, k2⟩ := ih J (fun x hx => ht x (by simp [hx])) h2
    obtain ⟨l1, l2⟩ := sent_le V j1
    refine ⟨K, ?_, ?_⟩ <;>
    · unfold shipped at k1 k2 ⊢
      rw [List.flatMap_cons, totalQty_append]
      unfold sentIn at k1 k2 ⊢
      linarith

theorem history_inv {c : Cfg} (V : Valid c) {is : List In} {os : List Out} {s : State}
    (h : History c is os s) (ht : Targets is) : Inv c s := by
  obtain ⟨s₀, h0, h1⟩ := h
  exact (run_inv V (build_inv V h0).1 ht h1).1

theorem cut_eq (n : Nat) (l : List ℚ) : cut n l = l.take n := by
  unfold cut
  split
  · rfl
  · rw [List.take_of_length_le (by omega)]

theorem sum_take_le {l : List ℚ} (h : ∀ p ∈ l, 0 < p) (n : Nat) : (l.take n).sum ≤ l.sum := by
  have h1 : (l.take n).sum + (l.drop n).sum = l.sum := by
    rw [← List.sum_append, List.take_append_drop]
  have h2 : 0 ≤ (l.drop n).sum :=
    List.sum_nonneg fun x hx => le_of_lt (h x (List.mem_of_mem_drop hx))
  linarith

/-- A trade that an exchange can make fills one package, or none. -/
theorem honest_fill {c : Cfg} (V : Valid c) {s : State} {i : In} (H : Honest c s i) {t : Trade}
    (ht : t ∈ i.trades) : c.fill t.amt = [t.amt] ∨ c.fill t.amt = [] := by
  obtain ⟨p, hp, b, hb, h1, -⟩ := H.bid t ht
  unfold bids at hp
  split at hp
  · cases hp
  rename_i hmax
  split at hp
  · cases hp
  simp only [Option.some.injEq] at hp
  subst hp
  simp only [List.mem_flatMap, List.mem_filter] at hb
  obtain ⟨r, ⟨hr, -⟩, hb⟩ := hb
  unfold bidsFor at hb
  obtain ⟨q, hq, rfl⟩ := List.mem_map.1 hb
  unfold lots at hq
  rw [cut_eq] at hq
  have hq := List.mem_of_mem_take hq
  have hpos : 0 < min (qty r.target) (maxQty c s) :=
    lt_min (H.target r hr) (by have := V.eps; linarith)
  have e : qty (ofComp q (c.recipe.getD r.target)) = q := by
    apply qty_ofComp
    cases h : c.recipe with
    | none => exact H.target r hr
    | some x => exact V.recipe x h
  simp only [e] at h1
  exact V.packing.part _ hpos q hq _ (H.sizes t ht).1 h1

theorem honest_targets {c : Cfg} {s : State} {i : In} (H : Honest c s i) :
    ∀ t ∈ i.trades, 0 < qty t.target := by
  intro t ht
  obtain ⟨-, -, -, -, -, r, hr, -, -, e⟩ := H.bid t ht
  rw [← e]; exact H.target r hr

/-- What honest trades ask for is in stock, and within the throughput. -/
theorem honest_total {c : Cfg} (V : Valid c) {s : State} (I : Inv c s) {i : In}
    (H : Honest c s i) : (i.trades.map Trade.amt).sum ≤ maxQty c s := by
  cases hp : bids c i.reqs s with
  | none =>
    have : i.trades = [] := by
      cases e : i.trades with
      | nil => rfl
      | cons t ts =>
        obtain ⟨p, h, -⟩ := H.bid t (by rw [e]; simp)
        rw [hp] at h; cases h
    rw [this]
    simp only [List.map_nil, List.sum_nil]
    exact le_min V.throughput I.nonneg
  | some p =>
    have h1 := H.total p hp
    unfold bids at hp
    split at hp
    · cases hp
    split at hp
    · cases hp
    simp only [Option.some.injEq] at hp
    subst hp
    exact h1

end Cyc.Source
