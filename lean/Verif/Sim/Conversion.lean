import Verif.Sim.Blend
import Verif.Conversion.Props

/-!
# `Conversion` keeps the contract
-/

namespace Cyc.Sim

theorem qty_blank (q : ℚ) : qty (blank q) = q := by
  show Mat.quantity ⟨[(0, q)]⟩ = q
  simp [Mat.quantity]

theorem solid_blank {q : ℚ} (h : 0 < q) : Solid (blank q) := by
  refine ⟨by rw [qty_blank]; exact h, ?_⟩
  intro e he
  simp only [blank, List.mem_singleton] at he
  subst he; exact le_of_lt h

/-- All sales are in the one commodity on offer, so their sum is limited. -/
theorem WithinOffers.single {rs : List Req} {o : Offer} {ts : List Sale}
    (W : WithinOffers rs [o] ts) :
    (∀ q ∈ ts.map Sale.amt, 0 < q ∧ o.least ≤ q) ∧ (ts.map Sale.amt).sum ≤ o.cap := by
  have hc : ∀ t ∈ ts, t.commod = o.commod ∧ o.least ≤ t.amt := by
    intro t ht
    obtain ⟨o', h1, h2, h3, -⟩ := W.offered t ht
    rw [List.mem_singleton.1 h1] at h2 h3
    exact ⟨h2.symm, h3⟩
  constructor
  · intro q hq
    obtain ⟨t, ht, rfl⟩ := List.mem_map.1 hq
    exact ⟨(W.pos t ht).1, (hc t ht).2⟩
  · have := W.caps o (by simp)
    rwa [List.filter_eq_self.2 fun t ht => by simp [(hc t ht).1]] at this

theorem WithinOffers.empty {rs : List Req} {ts : List Sale} (W : WithinOffers rs [] ts) : ts = [] := by
  cases ts with
  | nil => rfl
  | cons t ts =>
    obtain ⟨o, h, -⟩ := W.offered t (by simp)
    cases h

theorem totalQty_mats (ds : List Delivery) :
    totalQty (ds.map Delivery.mat) = (ds.map fun d => qty d.mat).sum := by
  induction ds with
  | nil => simp
  | cons d ds ih => simp [ih]

/-- All deliveries are to the one portfolio, so their sum is limited. -/
theorem WithinAsks.single {a : Ask} {ds : List Delivery} (W : WithinAsks [a] ds) :
    totalQty (ds.map Delivery.mat) ≤ a.amount := by
  have hc : ∀ d ∈ ds, d.port = 0 := by
    intro d hd
    obtain ⟨b, h, -⟩ := W.asked d hd
    have := (List.getElem?_eq_some_iff.1 h).1
    simp at this
    exact this
  have := W.amounts 0 a rfl
  rw [List.filter_eq_self.2 fun d hd => by simp [hc d hd]] at this
  rwa [totalQty_mats]

theorem WithinAsks.empty {ds : List Delivery} (W : WithinAsks [] ds) : ds = [] := by
  cases ds with
  | nil => rfl
  | cons d ds =>
    obtain ⟨a, h, -⟩ := W.asked d (by simp)
    simp at h

theorem forall₂_of_map {ts : List Sale} {l : List NMat} (h : l.map qty = ts.map Sale.amt)
    (hs : ∀ m ∈ l, Solid m) : List.Forall₂ (fun t x => Solid x ∧ qty x = Sale.amt t) ts l := by
  induction ts generalizing l with
  | nil => cases l with
    | nil => exact .nil
    | cons => simp at h
  | cons t ts ih => cases l with
    | nil => simp at h
    | cons m l =>
      simp only [List.map_cons, List.cons.injEq] at h
      exact .cons ⟨hs m (by simp), h.1⟩ (ih h.2 fun x hx => hs x (by simp [hx]))

namespace OfConversion
open Conversion

theorem sell_nonneg {c : Cfg} {qs : List ℚ} {s s' : State} {l : List NMat} (I : Inv c s)
    (h : sell c qs s = .ok (l, s')) : ∀ m ∈ l, Sim.Solid m := by
  induction qs generalizing s l with
  | nil =>
    simp only [sell, Except.ok.injEq, Prod.mk.injEq] at h
    obtain ⟨rfl, rfl⟩ := h
    simp
  | cons q qs ih =>
    simp only [sell, bind_ok] at h
    obtain ⟨⟨m, b⟩, h1, ⟨ms, s₁⟩, h2, h3⟩ := h
    simp only [pure_eq_ok, Except.ok.injEq, Prod.mk.injEq] at h3
    obtain ⟨rfl, rfl⟩ := h3
    obtain ⟨k1, k2, -, -, k5, k6, -, k8, -⟩ := popQty_single I.output h1
    intro x hx
    rcases List.mem_cons.1 hx with rfl | hx
    · exact ⟨by rw [k5]; exact k2, k6⟩
    · exact ih (s := { s with output := b }) ⟨I.incap, by simpa [k1] using I.outcap, I.input, k8⟩
        h2 x hx

theorem contract {μ : NMat → ℚ} (hμ : Measure μ) {c : Cfg} (hc : Sensible (.conversion c)) :
    Contract (conversion c) μ (fun s => s.input.items ++ s.output.items) fun s =>
      Inv c s ∧ feed s ≤ c.capacity := by
  obtain ⟨h0, h1, h2, h3⟩ := hc
  have htick : ∀ {s}, Inv c s → ∃ s', tick c s = .ok s' := fun I =>
    tick_ok I h1 (by linarith) fun hp => by linarith
  constructor
  · rintro s ⟨I, hf⟩
    obtain ⟨s₁, e⟩ := htick I
    refine ⟨_, by simp only [conversion, e, ok_bind, pure_eq_ok]; rfl, ?_⟩
    intro a ha
    unfold requests at ha
    split at ha
    · simp at ha
    · rename_i p hp
      split at hp
      · cases hp
      · rename_i hav
        simp only [Option.some.injEq] at hp
        subst hp
        simp only [List.mem_singleton] at ha
        subst ha
        refine ⟨(not_le.1 hav).le, fun x hx => ?_⟩
        simp only [List.map_map, List.mem_map] at hx
        obtain ⟨k, -, rfl⟩ := hx
        exact solid_blank (not_le.1 hav)
  · rintro s rs ⟨I, hf⟩ -
    obtain ⟨s₁, e⟩ := htick I
    obtain ⟨b, hb⟩ := bids_ok (tick_inv I e).1 (conversionReqs rs)
    refine ⟨_, by simp only [conversion, e, hb, ok_bind, pure_eq_ok]; rfl, ?_⟩
    intro o ho
    rcases bids_eq (tick_inv I e).1 (conversionReqs rs) with ⟨-, h⟩ | ⟨m, -, -, h⟩
    · rw [h] at hb
      simp only [Except.ok.injEq] at hb
      subst hb
      cases ho
    · rw [h] at hb
      simp only [Except.ok.injEq] at hb
      subst hb
      rw [List.mem_singleton] at ho
      subst ho
      exact (tick_inv I e).1.output.nonneg
  · rintro s rs os ts ⟨I, hf⟩ - ho W
    obtain ⟨s₁, e⟩ := htick I
    have I1 := (tick_inv I e).1
    obtain ⟨b, hb⟩ := bids_ok I1 (conversionReqs rs)
    have hq : (∀ q ∈ ts.map Sale.amt, 0 < q ∧ c.lo ≤ q) ∧ (ts.map Sale.amt).sum ≤ product s₁ := by
      simp only [conversion, e, hb, ok_bind, pure_eq_ok, Except.ok.injEq] at ho
      subst ho
      rcases bids_eq I1 (conversionReqs rs) with ⟨-, h⟩ | ⟨m, -, -, h⟩
      · rw [h] at hb
        simp only [Except.ok.injEq] at hb
        subst hb
        rw [WithinOffers.empty W]
        exact ⟨by simp, by simp only [List.map_nil, List.sum_nil]; exact I1.output.nonneg⟩
      · rw [h] at hb
        simp only [Except.ok.injEq] at hb
        subst hb
        exact W.single
    obtain ⟨l, s₂, hs⟩ := sell_ok I1 hq.1 hq.2
    refine ⟨l, s₂, by simp only [conversion, e, hb, ok_bind]; exact hs,
      forall₂_of_map (sell_inv I1 hs).2.2.1 (sell_nonneg I1 hs)⟩
  · rintro s rs os ts l m as ds ⟨I, hf⟩ - ho W hs ha WA
    obtain ⟨s₁, e⟩ := htick I
    obtain ⟨I1, hmv⟩ := tick_inv I e
    simp only [conversion, bind_ok] at hs
    obtain ⟨s₁', e', b, hb, hs⟩ := hs
    rw [e] at e'
    simp only [Except.ok.injEq] at e'
    subst e'
    obtain ⟨I2, i2, -, -, i3, -⟩ := sell_inv I1 hs
    have hroom : feed m + totalQty (ds.map Delivery.mat) ≤ c.capacity := by
      have hw1 : feed s₁ ≤ c.capacity := by
        rcases hmv with ⟨-, rfl⟩ | ⟨-, t, M⟩
        · exact hf
        · have := M.pos
          rw [M.feed]; linarith
      have hfe : feed m = feed s₁ := by unfold feed; rw [i2]
      simp only [conversion, e, ok_bind, pure_eq_ok, Except.ok.injEq] at ha
      subst ha
      unfold requests at WA
      split at WA
      · rename_i hn
        rw [WithinAsks.empty WA]
        simpa [hfe] using hw1
      · rename_i p hp
        split at hp
        · cases hp
        · simp only [Option.some.injEq] at hp
          subst hp
          have := WA.single
          unfold available at this
          have hq : s₁.input.quantity = feed s₁ := rfl
          rw [hq] at this
          linarith
    have hsol : ∀ x ∈ ds.map Delivery.mat, Conversion.Solid x := by
      intro x hx
      obtain ⟨d, hd, rfl⟩ := List.mem_map.1 hx
      exact WA.solid d hd
    obtain ⟨s', h4⟩ := accept_ok I2 h2 hsol hroom
    obtain ⟨I3, o3, f3, n3⟩ := accept_inv I2 hsol h4
    refine ⟨s', h4, ⟨I3, by rw [f3]; exact hroom⟩, ?_⟩
    refine hμ _ _ fun n => ?_
    have hmass : Mat.massOf s₁.input.items n + Mat.massOf s₁.output.items n =
        Mat.massOf s.input.items n + Mat.massOf s.output.items n := by
      rcases hmv with ⟨-, rfl⟩ | ⟨-, t, M⟩
      · rfl
      · rw [M.input, M.output]; ring
    simp only [Mat.massOf_append]
    rw [n3 n, o3, i3 n, i2]
    linarith
  · rintro s ⟨I, -⟩ m hm
    rcases List.mem_append.1 hm with hm | hm
    · rcases I.input with e | ⟨x, e, -, hx⟩
      · rw [e] at hm; cases hm
      · rw [e, List.mem_singleton] at hm; exact hm ▸ hx
    · rcases I.output with e | ⟨x, e, -, hx⟩
      · rw [e] at hm; cases hm
      · rw [e, List.mem_singleton] at hm; exact hm ▸ hx

/-- Everything in the two buffers has the property. -/
def Has (P : Sim.NMat → Prop) (s : State) : Prop := AllOf P s.input.items ∧ AllOf P s.output.items

theorem tick_has {P : Sim.NMat → Prop} (H : Blendable P) {c : Cfg} {s s' : State} (h : Has P s)
    (ht : tick c s = .ok s') : Has P s' := by
  unfold tick at ht
  split at ht
  · simp only [bind_ok, pure_eq_ok, Except.ok.injEq] at ht
    obtain ⟨⟨m, b⟩, h1, o, h2, rfl⟩ := ht
    obtain ⟨k1, k2⟩ := H.popQty h.1 h1
    obtain ⟨-, rfl⟩ := Buf.pushBulk_ok.1 h2
    exact ⟨k2, H.merge h.2 k1⟩
  · cases ht; exact h

theorem sell_has {P : Sim.NMat → Prop} (H : Blendable P) {c : Cfg} {qs : List ℚ} {s s' : State}
    {l : List Sim.NMat} (h : Has P s) (hs : sell c qs s = .ok (l, s')) : AllOf P l ∧ Has P s' := by
  induction qs generalizing s l with
  | nil =>
    simp only [sell, Except.ok.injEq, Prod.mk.injEq] at hs
    obtain ⟨rfl, rfl⟩ := hs
    exact ⟨fun x hx => by simp at hx, h⟩
  | cons q qs ih =>
    simp only [sell, bind_ok, pure_eq_ok, Except.ok.injEq, Prod.mk.injEq] at hs
    obtain ⟨⟨m, b⟩, h1, ⟨ms, s₁⟩, h2, rfl, rfl⟩ := hs
    obtain ⟨k1, k2⟩ := H.popQty h.2 h1
    obtain ⟨j1, j2⟩ := ih (s := { s with output := b }) ⟨h.1, k2⟩ h2
    refine ⟨fun x hx => ?_, j2⟩
    rcases List.mem_cons.1 hx with rfl | hx
    · exact k1
    · exact j1 x hx

theorem accept_has {P : Sim.NMat → Prop} (H : Blendable P) {c : Cfg} {ms : List Sim.NMat}
    {s s' : State} (h : Has P s) (hm : AllOf P ms) (ha : accept c ms s = .ok s') : Has P s' := by
  induction ms generalizing s with
  | nil =>
    simp only [accept, Except.ok.injEq] at ha
    exact ha ▸ h
  | cons m ms ih =>
    simp only [accept, bind_ok] at ha
    obtain ⟨b, h1, h2⟩ := ha
    obtain ⟨-, rfl⟩ := Buf.pushBulk_ok.1 h1
    refine ih ?_ (fun x hx => hm x (by simp [hx])) h2
    exact ⟨H.merge h.1 (hm m (by simp)), h.2⟩

theorem offers_eq {c : Cfg} {s : State} {rs : List Sim.Req} {os : List Offer}
    (h : (conversion c).offers rs s = .ok os) : ∀ o ∈ os, o.limits = [] ∧ o.commod = c.outcommod := by
  simp only [conversion, bind_ok, pure_eq_ok, Except.ok.injEq] at h
  obtain ⟨s₁, -, b, -, rfl⟩ := h
  intro o ho
  split at ho
  · cases ho
  · rw [List.mem_singleton] at ho
    subst ho; exact ⟨rfl, rfl⟩

theorem deployed {μ : NMat → ℚ} (hμ : Measure μ) {A : Agreement} {c : Cfg}
    (hc : Sensible (.conversion c)) (hA : Suits A (.conversion c)) :
    ∃ p, deploy (.conversion c) = .ok p ∧ Sim.Good A μ holdings p := by
  obtain ⟨a1, P, H, a2, a3⟩ := hA
  have asked : ∀ {s as}, (conversion c).asks s = .ok as → ∀ a ∈ as, ∀ x ∈ a.alts,
      ∃ q, x.1 ∈ c.incommods ∧ x.2 = blank q := by
    intro s as h a ha x hx
    simp only [conversion, bind_ok, pure_eq_ok, Except.ok.injEq] at h
    obtain ⟨s₁, -, rfl⟩ := h
    unfold requests at ha
    split at ha
    · cases ha
    · rename_i p hp
      split at hp
      · cases hp
      · simp only [Option.some.injEq] at hp
        subst hp
        rw [List.mem_singleton] at ha
        subst ha
        simp only [List.map_map, List.mem_map] at hx
        obtain ⟨k, hk, rfl⟩ := hx
        exact ⟨_, hk, rfl⟩
  refine ⟨⟨.conversion c, enter c⟩, rfl, _, (contract hμ hc).pledge (Inv' := Has P)
    (fun _ h o ho => (offers_eq h o ho).1) ?_ ?_ ?_, ⟨enter_inv c, ?_⟩, ?_⟩
  · intro s as _ h a ha x hx hq
    obtain ⟨q, h1, h2⟩ := asked h a ha x hx
    rw [h2] at hq ⊢
    exact a1 _ h1 q (by simpa [qty_blank] using hq.1)
  · intro s rs os ts l m _ hP _ ho W hs hl
    simp only [conversion, bind_ok] at hs
    obtain ⟨s₁, h1, b, -, hs⟩ := hs
    exact forall₂_mat a3 (W.commod fun o h => (offers_eq ho o h).2)
      (sell_has H (tick_has H hP h1) hs).1 hl
  · intro s rs os ts l m as ds s' _ hP _ ho W hs ha WA hd h
    simp only [conversion, bind_ok] at hs
    obtain ⟨s₁, h1, b, -, hs⟩ := hs
    refine accept_has H (sell_has H (tick_has H hP h1) hs).2 ?_ h
    intro x hx
    obtain ⟨d, hd', rfl⟩ := List.mem_map.1 hx
    obtain ⟨a, k1, k2, -⟩ := WA.asked d hd'
    obtain ⟨y, hy, k2⟩ := List.mem_map.1 k2
    obtain ⟨q, h2, -⟩ := asked ha a (List.mem_of_getElem? k1) y hy
    rw [k2] at h2
    exact a2 _ h2 _ (WA.solid d hd') (hd d hd')
  · have : feed (enter c) = 0 := by simp [feed, enter, totalQty]
    rw [this]; exact hc.1
  · exact ⟨fun x hx => by simp [enter] at hx, fun x hx => by simp [enter] at hx⟩

end OfConversion

end Cyc.Sim
