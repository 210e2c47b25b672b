import Verif.Sim.Round
import Verif.Sim.Actors
import Verif.Toolkit.Bulk

/-!
# Properties that parts and mixtures inherit, in buffers
-/

namespace Cyc.Sim

/-- All materials have the property. -/
def AllOf (P : NMat → Prop) (l : List NMat) : Prop := ∀ m ∈ l, P m

namespace Blendable

variable {P : NMat → Prop} (H : Blendable P)
include H

theorem split {m : NMat} {q : ℚ} (h : P m) (h0 : 0 ≤ q) (h1 : q ≤ qty m) :
    P (m.split q).1 ∧ P (m.split q).2 := by
  have hq : 0 ≤ qty m := h0.trans h1
  have e1 : 0 ≤ q / qty m := by positivity
  have e2 : q / qty m ≤ 1 := div_le_one_of_le₀ h1 hq
  exact ⟨H.scale m _ e1 h, H.scale m _ (by linarith) h⟩

theorem absorb {a b : NMat} (ha : P a) (hb : P b) : P (a.absorb b) := by
  have := H.squash [a, b] (by
    intro m hm
    simp only [List.mem_cons, List.not_mem_nil, or_false] at hm
    rcases hm with rfl | rfl <;> assumption)
  simpa [Mat.squash, Mat.absorb] using this

theorem popLoop {q : ℚ} {l a b : List NMat} (hl : AllOf P l) (h : Cyc.popLoop q l = .ok (a, b)) :
    AllOf P a ∧ AllOf P b := by
  induction l generalizing q a b with
  | nil =>
    unfold Cyc.popLoop at h
    split at h
    · cases h; exact ⟨hl, hl⟩
    · cases h
  | cons m l ih =>
    have hm := hl m (by simp)
    have hl' : AllOf P l := fun x hx => hl x (by simp [hx])
    unfold Cyc.popLoop at h
    split at h
    · cases h
      exact ⟨fun x hx => by simp at hx, hl⟩
    · rename_i h0
      split at h
      · rename_i h1
        cases h
        obtain ⟨k1, k2⟩ := H.split hm (not_le.1 h0).le h1.le
        refine ⟨fun x hx => ?_, fun x hx => ?_⟩
        · rw [List.mem_singleton] at hx
          subst hx; exact k1
        · rcases List.mem_cons.1 hx with rfl | hx
          · exact k2
          · exact hl' x hx
      · simp only [bind_ok, pure_eq_ok, Except.ok.injEq, Prod.mk.injEq] at h
        obtain ⟨⟨a', b'⟩, h1, rfl, rfl⟩ := h
        obtain ⟨k1, k2⟩ := ih hl' h1
        refine ⟨fun x hx => ?_, k2⟩
        rcases List.mem_cons.1 hx with rfl | hx
        · exact hm
        · exact k1 x hx

theorem popQty {lo q : ℚ} {b b' : Buf NMat} {m : NMat} (hl : AllOf P b.items)
    (h : b.popQty lo q = .ok (m, b')) : P m ∧ AllOf P b'.items := by
  unfold Buf.popQty at h
  split at h
  · cases h
  · simp only [bind_ok, pure_eq_ok, Except.ok.injEq, Prod.mk.injEq] at h
    obtain ⟨⟨a, r⟩, h1, rfl, rfl⟩ := h
    obtain ⟨k1, k2⟩ := H.popLoop hl h1
    exact ⟨H.squash a k1, k2⟩

theorem popEps {lo ε q : ℚ} {b b' : Buf NMat} {m : NMat} (hl : AllOf P b.items)
    (h : b.popEps lo ε q = .ok (m, b')) : P m ∧ AllOf P b'.items := by
  unfold Buf.popEps at h
  split at h
  · cases h
  · split at h
    · split at h
      · cases h
      · cases h
        exact ⟨H.squash _ hl, fun x hx => by simp at hx⟩
    · exact H.popQty hl h

theorem merge {l : List NMat} {m : NMat} (hl : AllOf P l) (hm : P m) : AllOf P (Cyc.merge l m) := by
  cases l with
  | nil =>
    intro x hx
    rw [Cyc.merge, List.mem_singleton] at hx
    subst hx; exact hm
  | cons a l =>
    intro x hx
    rcases List.mem_cons.1 hx with rfl | hx
    · exact H.absorb (hl a (by simp)) hm
    · exact hl x (by simp [hx])

end Blendable

/-- What is sold is as agreed if it has the property. -/
theorem forall₂_mat {A : Agreement} {P : NMat → Prop} {out : String} {ts : List Sale} {l : List NMat}
    (hP : ∀ m, Solid m → P m → A.mat out m) (hc : ∀ t ∈ ts, t.commod = out) (hl : AllOf P l)
    (h : List.Forall₂ (fun t x => Solid x ∧ qty x = Sale.amt t) ts l) :
    List.Forall₂ (fun t x => A.mat (Sale.commod t) x) ts l := by
  induction h with
  | nil => exact .nil
  | @cons t x ts l h1 _ ih =>
    refine .cons ?_ (ih (fun y hy => hc y (by simp [hy])) fun y hy => hl y (by simp [hy]))
    rw [hc t (by simp)]
    exact hP x h1.1 (hl x (by simp))

/-- If any delivery is as agreed then what is sold is. -/
theorem forall₂_free {A : Agreement} {rs : List Req} {os : List Offer} {ts : List Sale}
    {l : List NMat} (W : WithinOffers rs os ts) (hf : ∀ o ∈ os, Free A o.commod)
    (h : List.Forall₂ (fun t x => Solid x ∧ qty x = Sale.amt t) ts l) :
    List.Forall₂ (fun t x => A.mat (Sale.commod t) x) ts l := by
  have hc : ∀ t ∈ ts, Free A t.commod := by
    intro t ht
    obtain ⟨o, h1, h2, -⟩ := W.offered t ht
    rw [← h2]; exact hf o h1
  clear W
  induction h with
  | nil => exact .nil
  | @cons t x ts l h1 _ ih =>
    exact .cons (hc t (by simp) x h1.1) (ih fun y hy => hc y (by simp [hy]))

/-- All sales are in the one commodity on offer. -/
theorem WithinOffers.commod {rs : List Req} {os : List Offer} {ts : List Sale} {k : String}
    (W : WithinOffers rs os ts) (h : ∀ o ∈ os, o.commod = k) : ∀ t ∈ ts, t.commod = k := by
  intro t ht
  obtain ⟨o, h1, h2, -⟩ := W.offered t ht
  rw [← h2]; exact h o h1

/-- A facility whose products are not restricted. -/
theorem Contract.free {A : Agreement} {F : Actor} {μ : NMat → ℚ} {has : F.S → List NMat}
    {Inv : F.S → Prop} (C : Contract F μ has Inv)
    (asks : ∀ {s as}, Inv s → F.asks s = .ok as → ∀ a ∈ as, ∀ x ∈ a.alts, Solid x.2 →
      A.target x.1 x.2)
    (offers : ∀ {s rs os}, Inv s → F.offers rs s = .ok os →
      ∀ o ∈ os, o.limits = [] ∧ Free A o.commod) :
    Pledge A F μ has fun s => Inv s ∧ True :=
  C.pledge (fun I ho o h => (offers I ho o h).1) asks
    (fun I _ _ ho W _ h => forall₂_free W (fun o h' => (offers I ho o h').2) h)
    fun _ _ _ _ _ _ _ _ _ _ => trivial

end Cyc.Sim
