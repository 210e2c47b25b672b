import Verif.Sim.Conversion
import Verif.Source.Lemmas

/-!
# `Source` keeps the contract
-/

namespace Cyc.Sim

namespace OfSource
open Source

/-- Removing from a buffer without negative masses. -/
theorem popQty_nonneg {lo : ℚ} {b : Buf NMat} {q : ℚ} (hl : AllNonneg b.items) (h0 : 0 < q)
    (hlo : lo ≤ q) (h : q ≤ totalQty b.items) :
    ∃ m l, b.popQty lo q = .ok (m, { b with items := l }) ∧ qty m = q ∧ Mat.Nonneg m ∧
      totalQty l = totalQty b.items - q ∧ AllNonneg l ∧
      ∀ n, m.mass n + Mat.massOf l n = Mat.massOf b.items n := by
  obtain ⟨a, l, e, -, e1, e2, e5, e6, e3, e4⟩ := popLoop_nonneg hl h0 h
  unfold Buf.popQty
  rw [if_neg (by push Not; exact ⟨h, h0, hlo⟩), e]
  exact ⟨_, l, rfl, by rw [Mat.qty_squash, e1], Mat.Nonneg.squash e3, e2, e4, fun n => by
    rw [Mat.mass_squash, e5, e6, massOf_after]; ring⟩

/-- Everything in one package. -/
theorem pack_plain {c : Cfg} (hf : ∀ q, c.fill q = [q]) (he : 0 < c.eps) {b : Buf NMat} {m : NMat}
    (h0 : 0 < qty m) (hm : Mat.Nonneg m) :
    ∃ x, pack c b m = .ok ([x], b) ∧ qty x = qty m ∧ Mat.Nonneg x ∧
      ∃ r, 0 ≤ r ∧ x = m.scale r ∧ ∀ n, x.mass n = m.mass n := by
  have hne : qty m ≠ 0 := ne_of_gt h0
  have e1 : qty (m.split (qty m)).1 = qty m := by
    unfold Mat.split; simp only [Mat.qty_scale]; field_simp
  have e2 : qty (m.split (qty m)).2 = 0 := by
    unfold Mat.split; simp only [Mat.qty_scale]; field_simp; ring
  refine ⟨(m.split (qty m)).1, ?_, e1, ?_, qty m / qty m, by positivity, rfl,
    fun n => by unfold Mat.split; rw [Mat.mass_scale, div_self hne, one_mul]⟩
  · unfold pack packLoop packLoop Mat.extractQty
    rw [hf]
    simp only [lt_irrefl, if_false, ok_bind, pure_eq_ok]
    rw [if_neg]
    rw [e2]; linarith
  · unfold Mat.split
    exact hm.scale (by positivity)

theorem solid_ofComp {q : ℚ} {m : NMat} (hq : 0 < q) (hm : Sim.Solid m) : Sim.Solid (ofComp q m) :=
  ⟨by rw [qty_ofComp hm.1]; exact hq, hm.2.scale (by have := hm.1; positivity)⟩

theorem adjust_solid {c : Cfg} {t : Trade} {x : NMat} (hx : Sim.Solid x)
    (ht : Sim.Solid t.target) : Sim.Solid (adjust c t x) ∧ qty (adjust c t x) = qty x := by
  unfold adjust
  cases c.recipe with
  | some r => exact ⟨hx, rfl⟩
  | none => exact ⟨solid_ofComp hx.1 ht, qty_ofComp ht.1⟩

theorem adjust_has {P : Sim.NMat → Prop} (H : Blendable P) {c : Cfg} {t : Trade} {x : NMat}
    (hx : Sim.Solid x) (ht : Sim.Solid t.target) (h1 : c.recipe ≠ none → P x)
    (h2 : c.recipe = none → P t.target) : P (adjust c t x) := by
  unfold adjust
  split
  · rename_i r h
    exact h1 (by rw [h]; simp)
  · rename_i h
    have := hx.1
    have := ht.1
    exact H.scale _ _ (by positivity) (h2 h)

theorem sell_plain {P : Sim.NMat → Prop} (H : Blendable P) {c : Cfg} (hf : ∀ q, c.fill q = [q])
    (he : 0 < c.eps) {ts : List Trade} {n : Nat} {s : State} (hn : ts.length ≤ n)
    (hc : s.inventory.cap = none) (hl : AllNonneg s.inventory.items)
    (ht : ∀ t ∈ ts, 0 < t.amt ∧ c.lo ≤ t.amt ∧ Sim.Solid t.target)
    (hP : c.recipe ≠ none → AllOf P s.inventory.items)
    (hT : c.recipe = none → ∀ t ∈ ts, P t.target)
    (hs : (ts.map Trade.amt).sum ≤ stock s) :
    ∃ (l : List Sim.NMat) (s' : State), sellLoop c n ts s = .ok (l.map some, s') ∧
      l.map qty = ts.map Trade.amt ∧ (∀ x ∈ l, Sim.Solid x) ∧ s'.inventory.cap = none ∧
      AllNonneg s'.inventory.items ∧ stock s' = stock s - (ts.map Trade.amt).sum ∧ AllOf P l ∧
      (c.recipe ≠ none → AllOf P s'.inventory.items) ∧ (c.recipe ≠ none → ∀ n,
        Mat.massOf s'.inventory.items n + Mat.massOf l n = Mat.massOf s.inventory.items n) := by
  induction ts generalizing n s with
  | nil =>
    exact ⟨[], s, by cases n <;> rfl, rfl, by simp, hc, hl, by simp, fun x hx => by simp at hx, hP,
      fun _ n => by simp⟩
  | cons t ts ih =>
    obtain ⟨t0, t1, t2⟩ := ht t (by simp)
    have hts : 0 ≤ (ts.map Trade.amt).sum := by
      apply List.sum_nonneg
      intro x hx
      obtain ⟨y, hy, rfl⟩ := List.mem_map.1 hx
      exact le_of_lt (ht y (by simp [hy])).1
    rw [List.map_cons, List.sum_cons] at hs
    cases n with
    | zero => simp at hn
    | succ n =>
      unfold stock at hs
      obtain ⟨m, l, p1, p2, p3, p4, p5, p6⟩ := popQty_nonneg (lo := c.lo) hl t0 t1 (by linarith)
      obtain ⟨x, q1, q2, q3, r, q4, q5, q6⟩ := pack_plain hf he (b := { s.inventory with items := l })
        (by rw [p2]; exact t0) p3
      obtain ⟨r, s', e1, e2, e3, e4, e5, e6, e7, e8, e9⟩ := ih (n := n)
        (s := ⟨{ s.inventory with items := l }⟩) (by simpa using hn) hc p5
        (fun y hy => ht y (by simp [hy])) (fun hr => (H.popQty (hP hr) p1).2)
        (fun hr y hy => hT hr y (by simp [hy])) (by unfold stock; simp only [p4]; linarith)
      have hx : Sim.Solid x := ⟨by rw [q2, p2]; exact t0, q3⟩
      obtain ⟨a1, a2⟩ := adjust_solid (c := c) (x := x) (t := t) hx t2
      have a3 : P (adjust c t x) := adjust_has H hx t2
        (fun hr => by rw [q5]; exact H.scale _ _ q4 (H.popQty (hP hr) p1).1)
        fun hr => hT hr t (by simp)
      refine ⟨adjust c t x :: r, s', ?_, ?_, ?_, e4, e5, ?_, ?_, e8, ?_⟩
      · unfold sellLoop
        simp only [p1, ok_bind, q1]
        rw [if_neg (by simp), e1]
        rfl
      · simp only [List.map_cons, a2, q2, p2, e2]
      · intro y hy
        rcases List.mem_cons.1 hy with rfl | hy
        · exact a1
        · exact e3 y hy
      · rw [e6, List.map_cons, List.sum_cons]
        unfold stock
        simp only [p4]
        ring
      · intro y hy
        rcases List.mem_cons.1 hy with rfl | hy
        · exact a3
        · exact e7 y hy
      · intro hr n
        have := e9 hr n
        have h6 := p6 n
        have ha : adjust c t x = x := by
          unfold adjust
          cases h : c.recipe with
          | none => exact absurd h hr
          | some _ => rfl
        rw [Mat.massOf_cons, ha, q6]
        simp only at this
        linarith

theorem sell_within {P : Sim.NMat → Prop} (H : Blendable P) {c : Cfg} (hc : Sensible (.source c))
    {s : State} {rs os ts} (k1 : s.inventory.cap = none) (k2 : AllNonneg s.inventory.items)
    (hrs : ∀ r ∈ rs, Sim.Solid r.target) (ho : (source c).offers rs s = .ok os)
    (W : WithinOffers rs os ts) (hP : c.recipe ≠ none → AllOf P s.inventory.items)
    (hT : c.recipe = none → ∀ t ∈ ts, P t.target) :
    ∃ l s', (source c).sell rs ts s = .ok (l, s') ∧ l.map qty = ts.map Sale.amt ∧
      (∀ x ∈ l, Sim.Solid x) ∧ s'.inventory.cap = none ∧ AllNonneg s'.inventory.items ∧
      totalQty s'.inventory.items + totalQty l = totalQty s.inventory.items ∧ AllOf P l ∧
      (c.recipe ≠ none → AllOf P s'.inventory.items) ∧ (c.recipe ≠ none → ∀ n,
        Mat.massOf s'.inventory.items n + Mat.massOf l n = Mat.massOf s.inventory.items n) := by
  obtain ⟨h0, h1, h2, h3, h4, h5⟩ := hc
  simp only [source, Except.ok.injEq] at ho
  subst ho
  have hq : (∀ q ∈ ts.map Sale.amt, 0 < q ∧ c.lo ≤ q) ∧ (ts.map Sale.amt).sum ≤ stock s := by
    unfold bids at W
    split at W
    · rw [WithinOffers.empty W]
      exact ⟨by simp, k2.total_nonneg⟩
    · rename_i p hp
      split at hp
      · cases hp
      · split at hp
        · cases hp
        · simp only [Option.some.injEq] at hp
          subst hp
          exact ⟨W.single.1, W.single.2.trans (min_le_right _ _)⟩
  obtain ⟨l, s', e1, e2, e3, e4, e5, e6, e7, e8, e9⟩ := sell_plain H h4 h2
    (n := c.ship (ts.map fun t : Sale => (⟨t.target, t.amt⟩ : Trade)).length)
    (ts := ts.map fun t => ⟨t.target, t.amt⟩) (by rw [h5]) k1 k2 (by
      intro t ht
      obtain ⟨u, hu, rfl⟩ := List.mem_map.1 ht
      obtain ⟨a, b⟩ := hq.1 u.amt (List.mem_map_of_mem hu)
      exact ⟨a, b, hrs _ (W.asked u hu)⟩) hP (by
      intro hr t ht
      obtain ⟨u, hu, rfl⟩ := List.mem_map.1 ht
      exact hT hr u hu) (by rw [List.map_map]; exact hq.2)
  refine ⟨l, s', ?_, by rw [e2, List.map_map]; rfl, e3, e4, e5, ?_, e7, e8, e9⟩
  · simp only [source, Source.sell, e1, ok_bind, pure_eq_ok, List.filterMap_map,
      Function.id_comp, List.filterMap_some]
  · have hl : totalQty l = ((ts.map fun t : Sale => (⟨t.target, t.amt⟩ : Trade)).map
        Trade.amt).sum := by unfold totalQty; rw [e2]
    unfold stock at e6
    rw [e6, hl]
    ring

theorem blendable_true : Blendable fun _ => True := ⟨fun _ _ _ _ => trivial, fun _ _ => trivial⟩

theorem contract {μ : Sim.NMat → ℚ} (hμ : Measure μ) {c : Cfg} (hq : c.recipe = none → μ = qty)
    (hc : Sensible (.source c)) : Contract (source c) μ (fun s => s.inventory.items) fun s =>
      s.inventory.cap = none ∧ AllNonneg s.inventory.items := by
  obtain ⟨h0, h1, h2, h3, h4, h5⟩ := hc
  have key : ∀ {s : State} {rs os ts}, s.inventory.cap = none → AllNonneg s.inventory.items →
      (∀ r ∈ rs, Sim.Solid r.target) → (source c).offers rs s = .ok os → WithinOffers rs os ts →
      ∃ l s', (source c).sell rs ts s = .ok (l, s') ∧ l.map qty = ts.map Sale.amt ∧
        (∀ x ∈ l, Sim.Solid x) ∧ s'.inventory.cap = none ∧ AllNonneg s'.inventory.items ∧
        tot μ (s'.inventory.items ++ l) = tot μ s.inventory.items := by
    intro s rs os ts k1 k2 hrs ho W
    obtain ⟨l, s', e1, e2, e3, e4, e5, e6, -, -, e9⟩ := sell_within blendable_true
      ⟨h0, h1, h2, h3, h4, h5⟩ k1 k2 hrs ho W (fun _ _ _ => trivial) fun _ _ _ => trivial
    refine ⟨l, s', e1, e2, e3, e4, e5, ?_⟩
    by_cases hr : c.recipe = none
    · rw [hq hr, tot_append]; exact e6
    · refine hμ _ _ fun n => ?_
      rw [Mat.massOf_append]; exact e9 hr n
  constructor
  · intro s _
    exact ⟨[], rfl, by simp⟩
  · rintro s rs ⟨-, k2⟩ -
    refine ⟨_, rfl, ?_⟩
    intro o ho
    unfold bids at ho
    split at ho
    · cases ho
    · rename_i p hp
      split at hp
      · cases hp
      · split at hp
        · cases hp
        · simp only [Option.some.injEq] at hp
          subst hp
          rw [List.mem_singleton] at ho
          subst ho
          exact le_min h1 k2.total_nonneg
  · rintro s rs os ts ⟨k1, k2⟩ hrs ho W
    obtain ⟨l, s', e1, e2, e3, -⟩ := key k1 k2 hrs ho W
    exact ⟨l, s', e1, forall₂_of_map e2 e3⟩
  · rintro s rs os ts l m as ds ⟨k1, k2⟩ hrs ho W hs ha WA
    cases ha
    obtain ⟨l', s', e1, -, -, e4, e5, e6⟩ := key k1 k2 hrs ho W
    rw [e1] at hs
    simp only [Except.ok.injEq, Prod.mk.injEq] at hs
    obtain ⟨rfl, rfl⟩ := hs
    have hd : ds = [] := WithinAsks.empty WA
    subst hd
    exact ⟨s', rfl, ⟨e4, e5⟩, by simpa using e6⟩
  · rintro s ⟨-, k⟩
    exact k

theorem offers_eq {c : Cfg} {s : State} {rs : List Sim.Req} {os : List Offer}
    (h : (source c).offers rs s = .ok os) : ∀ o ∈ os, o.limits = [] ∧ o.commod = c.outcommod := by
  simp only [source, Except.ok.injEq] at h
  subst h
  intro o ho
  split at ho
  · cases ho
  · rw [List.mem_singleton] at ho
    subst ho; exact ⟨rfl, rfl⟩

theorem deployed {μ : Sim.NMat → ℚ} (hμ : Measure μ) {A : Agreement} {c : Cfg}
    (hq : c.recipe = none → μ = qty) (hc : Sensible (.source c)) (hA : Suits A (.source c)) :
    ∃ p, deploy (.source c) = .ok p ∧ Sim.Good A μ holdings p := by
  have hc' := hc
  obtain ⟨h0, h1, h2, h3, h4, h5⟩ := hc
  obtain ⟨P, H, a1, a2, a3⟩ := hA
  have targets : ∀ {rs os ts s}, (∀ r ∈ rs, A.Allows r) → (source c).offers rs s = .ok os →
      WithinOffers rs os ts → c.recipe = none → ∀ t ∈ ts, P t.target := by
    intro rs os ts s hrs ho W hr t ht
    have := hrs _ (W.asked t ht)
    have hk := W.commod (fun o h => (offers_eq ho o h).2) t ht
    refine a2 hr _ this.1 ?_
    rw [← hk]
    exact this.2
  refine ⟨⟨.source c, ⟨⟨none, [ofComp c.size (stuff c)]⟩⟩⟩, ?_, _, (contract hμ hq hc').pledge
    (Inv' := fun s : State => c.recipe ≠ none → AllOf P s.inventory.items)
    (fun _ h o ho => (offers_eq h o ho).1) ?_ ?_ ?_, ⟨rfl, ?_⟩, ?_⟩
  · simp only [deploy, build_eq, ok_bind, pure_eq_ok]
  · intro s as _ h a ha
    cases h
    cases ha
  · rintro s rs os ts l m ⟨k1, k2⟩ hP hrs ho W hs hl
    obtain ⟨l', s', e1, -, -, -, -, -, e7, -, -⟩ := sell_within H hc' k1 k2
      (fun r hr => (hrs r hr).1) ho W hP (targets hrs ho W)
    rw [e1] at hs
    simp only [Except.ok.injEq, Prod.mk.injEq] at hs
    obtain ⟨rfl, rfl⟩ := hs
    exact forall₂_mat a3 (W.commod fun o h => (offers_eq ho o h).2) e7 hl
  · rintro s rs os ts l m as ds s' ⟨k1, k2⟩ hP hrs ho W hs ha WA hd h
    obtain ⟨l', s'', e1, -, -, -, -, -, -, e8, -⟩ := sell_within H hc' k1 k2
      (fun r hr => (hrs r hr).1) ho W hP (targets hrs ho W)
    rw [e1] at hs
    simp only [Except.ok.injEq, Prod.mk.injEq] at hs
    obtain ⟨rfl, rfl⟩ := hs
    cases h
    exact e8
  · have hstuff : Sim.Solid (stuff c) := by
      unfold stuff
      cases h : c.recipe with
      | none => exact solid_blank (q := 1) (by norm_num)
      | some r => exact h3 r h
    intro m hm
    simp only [List.mem_singleton] at hm
    subst hm
    exact hstuff.2.scale (by have := hstuff.1; positivity)
  · intro hr m hm
    simp only [List.mem_singleton] at hm
    subst hm
    obtain ⟨r, hr⟩ := Option.ne_none_iff_exists'.1 hr
    have := (h3 r hr).1
    unfold stuff
    rw [hr]
    exact H.scale _ _ (by show 0 ≤ c.size / qty r; positivity) (a1 r hr)

end OfSource

end Cyc.Sim
