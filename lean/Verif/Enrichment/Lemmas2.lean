import Verif.Enrichment.Lemmas

/-!
# The invariant of `Enrichment` and conservation
-/

namespace Cyc.Enrichment

open Mat (massOf)

/-- The invariant. -/
structure Inv (c : Cfg) (s : State) : Prop where
  cap : s.inventory.cap = some c.maxFeed
  tailsCap : s.tails.cap = none
  pos : AllPos s.inventory.items
  nn : AllNonneg s.inventory.items
  tnn : AllNonneg s.tails.items

theorem Inv.squash_pos {c : Cfg} {s : State} (I : Inv c s) (hne : s.inventory.items ≠ []) :
    0 < qty (Mat.squash s.inventory.items) := by
  rw [Mat.qty_squash]; exact I.pos.total_pos hne

theorem Inv.squash_nn {c : Cfg} {s : State} (I : Inv c s) :
    Mat.Nonneg (Mat.squash s.inventory.items) := Mat.Nonneg.squash I.nn

theorem Inv.merged {c : Cfg} {s : State} (I : Inv c s) (hne : s.inventory.items ≠ []) :
    Inv c { s with inventory :=
      { s.inventory with items := [Mat.squash s.inventory.items] } } :=
  ⟨I.cap, I.tailsCap, by simpa [AllPos] using I.squash_pos hne,
    by simpa [AllNonneg] using I.squash_nn, I.tnn⟩

theorem feedAssay_pres {c : Cfg} (he : 0 ≤ c.eps) {s s' : State} {x : ℚ} (I : Inv c s)
    (h : feedAssay c s = .ok (x, s')) :
    Inv c s' ∧ s'.tails = s.tails ∧ s'.swu = s.swu ∧ s'.intra = s.intra ∧
      s'.inventory.quantity = s.inventory.quantity ∧
      (∀ n, massOf s'.inventory.items n = massOf s.inventory.items n) := by
  rcases feedAssay_inv he h with ⟨-, -, rfl⟩ | ⟨hne, -, rfl⟩
  · exact ⟨I, rfl, rfl, rfl, rfl, fun _ => rfl⟩
  · exact ⟨I.merged hne, rfl, rfl, rfl, by simp [Buf.quantity], by simp⟩

/-- What the bids leave behind: the same state, with the inventory merged if there is a product
portfolio. -/
theorem bids_inv {c : Cfg} (he : 0 ≤ c.eps) {reqs : String → Option (List NMat)} {s s' : State}
    {p : Ports} (h : bids c reqs s = .ok (p, s')) :
    p.tails = tailsBids s (reqs c.tailsCommod) ∧
    ((p.product = none ∧ s' = s ∧ (reqs c.productCommod = none ∨ s.inventory.quantity ≤ 0)) ∨
     (∃ rs, reqs c.productCommod = some rs ∧ 0 < s.inventory.quantity ∧ 0 < c.swuCapacity ∧
       s.inventory.items ≠ [] ∧
       s' = { s with inventory :=
        { s.inventory with items := [Mat.squash s.inventory.items] } } ∧
       p.product = some ⟨(List.range rs.length).flatMap fun j =>
          if served c (rs.getD j ⟨[]⟩) then [(j, offer (rs.getD j ⟨[]⟩))] else [],
        assay (Mat.squash s.inventory.items), c.swuCapacity, s.inventory.quantity⟩)) := by
  simp only [bids, bind_ok] at h
  obtain ⟨⟨pp, s1⟩, h1, h2⟩ := h
  simp only [pure_eq_ok, Except.ok.injEq, Prod.mk.injEq] at h2
  obtain ⟨rfl, rfl⟩ := h2
  refine ⟨rfl, ?_⟩
  unfold productBids at h1
  split at h1
  · rename_i hr
    simp only [Except.ok.injEq, Prod.mk.injEq] at h1
    exact Or.inl ⟨h1.1.symm, h1.2.symm, Or.inl hr⟩
  · rename_i rs hr
    split at h1
    · rename_i hq
      right
      simp only [bind_ok] at h1
      obtain ⟨⟨x, s2⟩, h3, h4⟩ := h1
      simp only at h4
      split at h4
      · cases h4
      · rename_i hs
        simp only [pure_eq_ok, Except.ok.injEq, Prod.mk.injEq] at h4
        obtain ⟨rfl, rfl⟩ := h4
        have hne : s.inventory.items ≠ [] := by
          intro h0; simp [Buf.quantity, h0] at hq
        rcases feedAssay_inv he h3 with ⟨h0, -, -⟩ | ⟨-, rfl, rfl⟩
        · exact absurd h0 hne
        · exact ⟨rs, hr, hq, not_le.1 hs, hne, rfl, by simp [Buf.quantity]⟩
    · rename_i hq
      simp only [Except.ok.injEq, Prod.mk.injEq] at h1
      exact Or.inl ⟨h1.1.symm, h1.2.symm, Or.inr (not_lt.1 hq)⟩

theorem bids_pres {c : Cfg} (he : 0 ≤ c.eps) {reqs : String → Option (List NMat)} {s s' : State}
    {p : Ports} (I : Inv c s) (h : bids c reqs s = .ok (p, s')) :
    Inv c s' ∧ s'.tails = s.tails ∧ s'.swu = s.swu ∧ s'.intra = s.intra ∧
      s'.inventory.quantity = s.inventory.quantity ∧
      (∀ n, massOf s'.inventory.items n = massOf s.inventory.items n) := by
  obtain ⟨-, ⟨-, rfl, -⟩ | ⟨rs, -, -, -, hne, rfl, -⟩⟩ := bids_inv he h
  · exact ⟨I, rfl, rfl, rfl, rfl, fun _ => rfl⟩
  · exact ⟨I.merged hne, rfl, rfl, rfl, by simp [Buf.quantity], by simp⟩

theorem Enriched.pres {c : Cfg} {mat : NMat} {q : ℚ} {s s' : State} {resp : NMat}
    {e : Enr} {k : ℚ} (I : Inv c s) (hne : s.inventory.items ≠ [])
    (E : Enriched c mat q s (Mat.squash s.inventory.items) resp e s' k) : Inv c s' := by
  have hB := I.squash_pos hne
  have hN := I.squash_nn
  refine ⟨?_, ?_, ?_, ?_, ?_⟩
  · rcases E.inv with ⟨-, h⟩ | ⟨-, h⟩ <;> rw [h] <;> exact I.cap
  · rw [E.tails]; exact I.tailsCap
  · rcases E.inv with ⟨-, h⟩ | ⟨hk, h⟩ <;> rw [h]
    · simp [AllPos]
    · simp only [AllPos, List.mem_singleton, forall_eq, Mat.qty_scale]
      exact mul_pos (by linarith) hB
  · rcases E.inv with ⟨-, h⟩ | ⟨hk, h⟩ <;> rw [h]
    · exact AllNonneg.nil
    · simp only [AllNonneg, List.mem_singleton, forall_eq]
      exact hN.scale (by linarith)
  · rw [E.tails]
    exact AllNonneg.append.2 ⟨I.tnn, by simpa [AllNonneg] using E.rest⟩

theorem Enriched.conserve {c : Cfg} {mat : NMat} {q : ℚ} {s s' : State} {resp : NMat}
    {e : Enr} {k : ℚ}
    (E : Enriched c mat q s (Mat.squash s.inventory.items) resp e s' k) (n : Nat) :
    massOf (contents s) n = massOf (contents s') n + resp.mass n := by
  unfold contents
  rw [E.tails]
  rcases E.inv with ⟨rfl, h⟩ | ⟨hk, h⟩ <;> rw [h] <;> simp <;> ring

/-- Inversion of one sale. -/
theorem sellOne_inv {c : Cfg} (he : 0 ≤ c.eps) {t : Trade} {s s' : State} {m : NMat}
    {e : Option Enr} (I : Inv c s) (h : sellOne c t s = .ok (m, e, s')) :
    (t.commod = c.tailsCommod ∧ e = none ∧
      ∃ b, s.tails.popEps c.lo c.eps (min t.amt s.tails.quantity) = .ok (m, b) ∧
        s' = { s with tails := b }) ∨
    (t.commod ≠ c.tailsCommod ∧ s.inventory.items ≠ [] ∧ ∃ x k, e = some x ∧
      Enriched c t.offer t.amt s (Mat.squash s.inventory.items) m x s' k) := by
  unfold sellOne at h
  split at h
  · rename_i ht
    simp only [bind_ok] at h
    obtain ⟨⟨m', b⟩, h1, h2⟩ := h
    simp only [pure_eq_ok, Except.ok.injEq, Prod.mk.injEq] at h2
    obtain ⟨rfl, rfl, rfl⟩ := h2
    exact Or.inl ⟨ht, rfl, b, h1, rfl⟩
  · rename_i ht
    simp only [bind_ok] at h
    obtain ⟨⟨m', x, s1⟩, h1, h2⟩ := h
    simp only [pure_eq_ok, Except.ok.injEq, Prod.mk.injEq] at h2
    obtain ⟨rfl, rfl, rfl⟩ := h2
    obtain ⟨hne, k, E⟩ := enrich_inv he I.pos h1
    exact Or.inr ⟨ht, hne, x, k, rfl, E⟩

theorem sellOne_pres {c : Cfg} (he : 0 ≤ c.eps) {t : Trade} {s s' : State} {m : NMat}
    {e : Option Enr} (I : Inv c s) (h : sellOne c t s = .ok (m, e, s')) :
    Inv c s' ∧ (∀ n, massOf (contents s) n = massOf (contents s') n + m.mass n) ∧
      s'.inventory.quantity ≤ s.inventory.quantity ∧
      s'.swu = s.swu - (e.map Enr.swu).getD 0 ∧
      s'.intra = s.intra.map fun p => (p.1 + (e.map Enr.swu).getD 0, p.2 + (e.map Enr.feed).getD 0) := by
  rcases sellOne_inv he I h with ⟨-, rfl, b, h1, rfl⟩ | ⟨-, hne, x, k, rfl, E⟩
  · obtain ⟨a1, a2, a3, a4, a5, a6, a7, a8, a9⟩ :=
      popEps_invNN I.tnn he (min_le_right _ _) h1
    refine ⟨⟨I.cap, by rw [a1]; exact I.tailsCap, I.pos, I.nn, a7⟩, ?_, le_rfl, by simp, by simp⟩
    intro n; simp [contents, a5]; ring
  · refine ⟨E.pres I hne, E.conserve, ?_, E.capacity, ?_⟩
    · have hB := I.squash_pos hne
      have hq : s.inventory.quantity = qty (Mat.squash s.inventory.items) := by simp [Buf.quantity]
      rw [hq]
      rcases E.inv with ⟨-, h'⟩ | ⟨-, h'⟩ <;> rw [h'] <;> simp [Buf.quantity]
      · exact I.pos.total_nonneg
      · have := E.kpos
        have := I.pos.total_nonneg
        nlinarith
    · rw [E.intra]; rfl

/-- The sums over the enrichments of a list of sales. -/
def swuSum (l : List (NMat × Option Enr)) : ℚ := ((l.filterMap Prod.snd).map Enr.swu).sum

/-- The sums over the enrichments of a list of sales. -/
def feedSum (l : List (NMat × Option Enr)) : ℚ := ((l.filterMap Prod.snd).map Enr.feed).sum

theorem swuSum_cons (m : NMat) (e : Option Enr) (l : List (NMat × Option Enr)) :
    swuSum ((m, e) :: l) = (e.map Enr.swu).getD 0 + swuSum l := by
  cases e <;> simp [swuSum]

theorem feedSum_cons (m : NMat) (e : Option Enr) (l : List (NMat × Option Enr)) :
    feedSum ((m, e) :: l) = (e.map Enr.feed).getD 0 + feedSum l := by
  cases e <;> simp [feedSum]

theorem sellLoop_pres {c : Cfg} (he : 0 ≤ c.eps) {ts : List Trade} {s s' : State}
    {l : List (NMat × Option Enr)} (I : Inv c s) (h : sellLoop c ts s = .ok (l, s')) :
    Inv c s' ∧ (∀ n, massOf (contents s) n = massOf (contents s') n + massOf (l.map Prod.fst) n) ∧
      s'.inventory.quantity ≤ s.inventory.quantity ∧
      s'.swu = s.swu - swuSum l ∧
      s'.intra = s.intra.map fun p => (p.1 + swuSum l, p.2 + feedSum l) := by
  induction ts generalizing s l with
  | nil =>
    simp only [sellLoop, Except.ok.injEq, Prod.mk.injEq] at h
    obtain ⟨rfl, rfl⟩ := h
    refine ⟨I, by simp, le_rfl, by simp [swuSum], by simp [swuSum, feedSum]⟩
  | cons t ts ih =>
    simp only [sellLoop, bind_ok] at h
    obtain ⟨⟨m, e, s1⟩, h1, ⟨l1, s2⟩, h2, h3⟩ := h
    simp only [pure_eq_ok, Except.ok.injEq, Prod.mk.injEq] at h3
    obtain ⟨rfl, rfl⟩ := h3
    obtain ⟨I1, a1, a2, a3, a4⟩ := sellOne_pres he I h1
    obtain ⟨I2, b1, b2, b3, b4⟩ := ih I1 h2
    refine ⟨I2, ?_, le_trans b2 a2, ?_, ?_⟩
    · intro n; rw [a1 n, b1 n]; simp; ring
    · rw [b3, a3, swuSum_cons]; ring
    · rw [b4, a4, swuSum_cons, feedSum_cons]
      cases s.intra with
      | none => rfl
      | some p => simp [add_assoc]

theorem sell_inv {c : Cfg} {ts : List Trade} {s s' : State}
    {l : List (NMat × Option Enr)} (h : sell c ts s = .ok (l, s')) :
    sellLoop c ts { s with intra := some (0, 0) } = .ok (l, s') ∧ -c.eps ≤ s'.swu := by
  simp only [sell, bind_ok] at h
  obtain ⟨⟨l1, s1⟩, h1, h2⟩ := h
  simp only at h2
  split at h2
  · cases h2
  · split at h2
    · cases h2
    · rename_i hs
      simp only [pure_eq_ok, Except.ok.injEq, Prod.mk.injEq] at h2
      obtain ⟨rfl, rfl⟩ := h2
      exact ⟨h1, not_lt.1 hs⟩

theorem Inv.intra {c : Cfg} {s : State} (I : Inv c s) (x : Option (ℚ × ℚ)) :
    Inv c { s with intra := x } := ⟨I.cap, I.tailsCap, I.pos, I.nn, I.tnn⟩

theorem Inv.swu {c : Cfg} {s : State} (I : Inv c s) (x : ℚ) :
    Inv c { s with swu := x } := ⟨I.cap, I.tailsCap, I.pos, I.nn, I.tnn⟩

/-- The sales of a step. -/
theorem sellAll_pres {c : Cfg} (he : 0 ≤ c.eps) {ts : List Trade} {s s' : State}
    {l : List (NMat × Option Enr)} (I : Inv c s) (h : sellAll c ts s = .ok (l, s')) :
    Inv c s' ∧ (∀ n, massOf (contents s) n = massOf (contents s') n + massOf (l.map Prod.fst) n) ∧
      s'.inventory.quantity ≤ s.inventory.quantity ∧
      s'.swu = s.swu - swuSum l ∧
      s'.intra = (if ts = [] then s.intra else some (swuSum l, feedSum l)) ∧
      (ts = [] → l = [] ∧ s' = s) ∧ (ts ≠ [] → -c.eps ≤ s'.swu) := by
  cases ts with
  | nil =>
    simp only [sellAll, Except.ok.injEq, Prod.mk.injEq] at h
    obtain ⟨rfl, rfl⟩ := h
    exact ⟨I, by simp, le_rfl, by simp [swuSum], by simp, fun _ => ⟨rfl, rfl⟩, fun h => absurd rfl h⟩
  | cons t ts =>
    obtain ⟨h1, h2⟩ := sell_inv h
    obtain ⟨a, b, d, e, f⟩ := sellLoop_pres he (I.intra (some (0, 0))) h1
    refine ⟨a, b, d, e, ?_, by simp, fun _ => h2⟩
    rw [f]; simp

theorem accept_pres {c : Cfg} {ms : List NMat} {s s' : State}
    (I : Inv c s) (hm : ∀ m ∈ ms, 0 < qty m ∧ Mat.Nonneg m) (h : accept c ms s = .ok s') :
    Inv c s' ∧ s' = { s with inventory := { s.inventory with
      items := s.inventory.items ++ ms } } := by
  induction ms generalizing s with
  | nil =>
    simp only [accept, Except.ok.injEq] at h
    subst h
    exact ⟨I, by simp⟩
  | cons m ms ih =>
    simp only [accept, addMat, bind_ok] at h
    obtain ⟨s1, ⟨b, h1, h2⟩, h3⟩ := h
    obtain ⟨-, rfl⟩ := Buf.push_ok.1 h1
    simp only [pure_eq_ok, Except.ok.injEq] at h2
    subst h2
    have I1 : Inv c { s with inventory :=
        { s.inventory with items := s.inventory.items ++ [m] } } :=
      ⟨I.cap, I.tailsCap, AllPos.append.2 ⟨I.pos, by simpa [AllPos] using (hm m (by simp)).1⟩,
        AllNonneg.append.2 ⟨I.nn, by simpa [AllNonneg] using (hm m (by simp)).2⟩, I.tnn⟩
    obtain ⟨I2, e⟩ := ih I1 (fun x hx => hm x (by simp [hx])) h3
    exact ⟨I2, by rw [e]; simp⟩

/-- Everything about a step in terms of its stages. -/
structure Stages (c : Cfg) (s : State) (i : In) (o : Out) (s' : State) (s1 s2 : State)
    (l : List (NMat × Option Enr)) : Prop where
  bids : Enrichment.bids c i.reqs (tick c s) = .ok (o.ports, s1)
  sells : sellAll c i.sells s1 = .ok (l, s2)
  buys : accept c i.buys s2 = .ok s'
  request : o.request = requests c (tick c s)
  supply : o.supply = (s.tails.quantity, s.inventory.quantity)
  sold : o.sold = l.map Prod.fst
  enrichments : o.enrichments = l.filterMap Prod.snd
  series : o.series = s'.intra

theorem step_inv {c : Cfg} {s s' : State} {i : In} {o : Out} (h : step c s i = .ok (o, s')) :
    ∃ s1 s2 l, Stages c s i o s' s1 s2 l := by
  simp only [step, bind_ok] at h
  obtain ⟨⟨p, s1⟩, h1, ⟨l, s2⟩, h2, s3, h3, h4⟩ := h
  simp only [pure_eq_ok, Except.ok.injEq, Prod.mk.injEq] at h4
  obtain ⟨rfl, rfl⟩ := h4
  exact ⟨s1, s2, l, h1, h2, h3, rfl, rfl, rfl, rfl, rfl⟩

theorem step_pres {c : Cfg} (he : 0 ≤ c.eps) {s s' : State} {i : In} {o : Out} (I : Inv c s)
    (hm : ∀ m ∈ i.buys, 0 < qty m ∧ Mat.Nonneg m) (h : step c s i = .ok (o, s')) :
    Inv c s' ∧
      ∀ n, massOf (contents s) n + massOf i.buys n = massOf (contents s') n + massOf o.sold n := by
  obtain ⟨s1, s2, l, S⟩ := step_inv h
  obtain ⟨I1, a1, a2, a3, a4, a5⟩ := bids_pres he (I.swu _) S.bids
  obtain ⟨I2, b1, -⟩ := sellAll_pres he I1 S.sells
  obtain ⟨I3, rfl⟩ := accept_pres I2 hm S.buys
  refine ⟨I3, fun n => ?_⟩
  have e1 : massOf (contents s) n = massOf (contents s1) n := by
    simp only [contents, Mat.massOf_append, a1, a5, tick]
  rw [e1, b1, S.sold]
  simp [contents]; ring

theorem build_inv {c : Cfg} (V : Valid c) {s : State} (h : build c = .ok s) :
    Inv c s ∧ s.inventory.items = initial c ∧ s.tails.items = [] ∧ s.intra = none ∧
      s.inventory.quantity ≤ c.maxFeed + c.eps := by
  unfold build at h
  split at h
  · rename_i hi
    simp only [addMat, bind_ok] at h
    obtain ⟨b, h1, h2⟩ := h
    obtain ⟨hf, rfl⟩ := Buf.push_ok.1 h1
    simp only [pure_eq_ok, Except.ok.injEq] at h2
    subst h2
    have hd : 0 < c.initialFeed / qty c.feedRecipe := div_pos hi V.recipePos
    refine ⟨⟨rfl, rfl, ?_, ?_, AllNonneg.nil⟩, by simp [initial, hi], rfl, rfl, ?_⟩
    · simp only [List.nil_append, AllPos, List.mem_singleton, forall_eq, Mat.qty_scale]
      exact mul_pos hd V.recipePos
    · simp only [List.nil_append, AllNonneg, List.mem_singleton, forall_eq]
      exact V.recipe.scale (le_of_lt hd)
    · have hm := V.maxFeed
      simp only [Buf.fits, Buf.space, Option.map_some, Buf.quantity, totalQty_nil, sub_zero,
        decide_eq_true_eq, max_eq_right hm] at hf
      simp only [Buf.quantity, List.nil_append, totalQty_cons, totalQty_nil, add_zero]
      linarith
  · rename_i hi
    simp only [pure_eq_ok, Except.ok.injEq] at h
    subst h
    refine ⟨⟨rfl, rfl, by simp [AllPos], AllNonneg.nil, AllNonneg.nil⟩, by simp [initial, hi], rfl,
      rfl, ?_⟩
    have := V.maxFeed; have := V.eps
    simp only [Buf.quantity, totalQty_nil]; linarith

theorem run_pres {c : Cfg} (he : 0 ≤ c.eps) {is : List In} {s s' : State} {os : List Out}
    (I : Inv c s) (hs : Substantial is) (h : run c s is = .ok (os, s')) :
    Inv c s' ∧ ∀ n, massOf (contents s) n + massOf (received is) n =
      massOf (contents s') n + massOf (sold os) n := by
  induction is generalizing s os with
  | nil =>
    simp only [run, Except.ok.injEq, Prod.mk.injEq] at h
    obtain ⟨rfl, rfl⟩ := h
    exact ⟨I, by simp [received, sold]⟩
  | cons i is ih =>
    simp only [run, bind_ok] at h
    obtain ⟨⟨o, s1⟩, h1, ⟨os1, s2⟩, h2, h3⟩ := h
    simp only [pure_eq_ok, Except.ok.injEq, Prod.mk.injEq] at h3
    obtain ⟨rfl, rfl⟩ := h3
    obtain ⟨I1, a⟩ := step_pres he I (hs i (by simp)) h1
    obtain ⟨I2, b⟩ := ih I1 (fun x hx => hs x (by simp [hx])) h2
    refine ⟨I2, fun n => ?_⟩
    have a := a n; have b := b n
    simp only [received, sold, List.flatMap_cons, Mat.massOf_append] at b ⊢
    linarith

theorem history_inv {c : Cfg} (V : Valid c) {is : List In} {s : State} {os : List Out}
    (h : History c is os s) (hs : Substantial is) : Inv c s := by
  obtain ⟨s0, h1, h2⟩ := h
  exact (run_pres (le_of_lt V.eps) (build_inv V h1).1 hs h2).1

end Cyc.Enrichment
