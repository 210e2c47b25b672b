import Verif.Sim.Conversion
import Verif.Storage.Props

/-!
# `Storage` keeps the contract
-/

namespace Cyc.Sim

namespace OfStorage
open Storage

/-- Nothing in the four buffers has a negative mass. -/
structure NN (s : State Nat) : Prop where
  inventory : AllNonneg s.inventory.items
  processing : AllNonneg s.processing.items
  ready : AllNonneg s.ready.items
  stocks : AllNonneg s.stocks.items

theorem sell_nonneg {c : Cfg} (hε : 0 ≤ c.eps) {qs : List ℚ} {s : State Nat} (H : NN s)
    (hq : ∀ q ∈ qs, 0 < q ∧ c.lo ≤ q) (ht : qs.sum ≤ totalQty s.stocks.items) :
    ∃ l s', sellLoop c qs s = .ok (l, s') ∧ l.map qty = qs ∧ AllNonneg l ∧ NN s' := by
  induction qs generalizing s with
  | nil => exact ⟨[], s, rfl, rfl, AllNonneg.nil, H⟩
  | cons q qs ih =>
    have h1 := hq q (by simp)
    have hs : 0 ≤ qs.sum := List.sum_nonneg fun x hx => (hq x (by simp [hx])).1.le
    rw [List.sum_cons] at ht
    obtain ⟨m, l, e1, e2, e3, -, -, e4, e5⟩ := popEps_nonneg (lo := c.lo) (b := s.stocks) H.stocks hε
      h1.1 (Or.inl h1.2) (by show q ≤ totalQty _; linarith)
    obtain ⟨ms, s', k1, k2, k3, k4⟩ := ih (s := { s with stocks := { s.stocks with items := l } })
      ⟨H.inventory, H.processing, H.ready, e5⟩ (fun x hx => hq x (by simp [hx]))
      (by simp only [e3]; linarith)
    refine ⟨m :: ms, s', ?_, by simp [e2, k2], AllNonneg.cons.2 ⟨e4, k3⟩, k4⟩
    simp only [sellLoop, e1, ok_bind, k1, pure_eq_ok]

theorem addMat_nonneg {c : Cfg} {ms : List Sim.NMat} {s s' : State Nat} (H : NN s)
    (hm : AllNonneg ms) (h : ms.foldlM (addMat c) s = .ok s') : NN s' := by
  induction ms generalizing s with
  | nil =>
    rw [List.foldlM_nil, pure_eq_ok, Except.ok.injEq] at h
    exact h ▸ H
  | cons m ms ih =>
    obtain ⟨a, b⟩ := AllNonneg.cons.1 hm
    simp only [List.foldlM_cons, bind_ok] at h
    obtain ⟨s₁, h1, h2⟩ := h
    simp only [addMat, bind_ok, pure_eq_ok, Except.ok.injEq] at h1
    obtain ⟨b', h1, rfl⟩ := h1
    obtain ⟨-, rfl⟩ := Buf.push_ok.1 h1
    refine ih ?_ b h2
    exact ⟨AllNonneg.append.2 ⟨H.inventory, by simpa [AllNonneg] using a⟩, H.processing, H.ready,
      H.stocks⟩

theorem begin_nonneg {c : Cfg} {n : Nat} {s s' : State Nat} (H : NN s)
    (h : beginProcessing c n s = .ok s') : NN s' := by
  induction n generalizing s with
  | zero =>
    simp only [beginProcessing, Except.ok.injEq] at h
    exact h ▸ H
  | succ n ih =>
    unfold beginProcessing at h
    split at h
    · simp only [bind_ok] at h
      obtain ⟨⟨m, inv⟩, h1, pr, h2, h3⟩ := h
      obtain ⟨r, rs, e, h1⟩ := Buf.pop_ok.1 h1
      simp only [Prod.mk.injEq] at h1
      obtain ⟨rfl, rfl⟩ := h1
      obtain ⟨-, rfl⟩ := Buf.push_ok.1 h2
      have hi := H.inventory
      rw [e] at hi
      obtain ⟨a, b⟩ := AllNonneg.cons.1 hi
      refine ih ?_ h3
      exact ⟨b, AllNonneg.append.2 ⟨H.processing, by simpa [AllNonneg] using a⟩, H.ready,
        H.stocks⟩
    · simp only [Except.ok.injEq] at h
      exact h ▸ H

theorem AllNonneg.take {l : List Sim.NMat} (h : AllNonneg l) (n : Nat) : AllNonneg (l.take n) :=
  fun m hm => h m (List.mem_of_mem_take hm)

theorem AllNonneg.drop {l : List Sim.NMat} (h : AllNonneg l) (n : Nat) : AllNonneg (l.drop n) :=
  fun m hm => h m (List.mem_of_mem_drop hm)

theorem ready_nonneg {c : Cfg} {s s' : State Nat} (H : NN s) (h : tockReady c s = .ok s') :
    NN s' := by
  unfold tockReady at h
  split at h
  · simp only [readyMatl, bind_ok, pure_eq_ok, Except.ok.injEq] at h
    obtain ⟨⟨ms, pr⟩, h1, rd, h2, rfl⟩ := h
    obtain ⟨-, h1⟩ := Buf.popN_ok.1 h1
    simp only [Prod.mk.injEq] at h1
    obtain ⟨rfl, rfl⟩ := h1
    obtain ⟨-, rfl⟩ := Buf.pushAll_ok.1 h2
    exact ⟨H.inventory, AllNonneg.drop H.processing _,
      AllNonneg.append.2 ⟨H.ready, AllNonneg.take H.processing _⟩, H.stocks⟩
  · simp only [Except.ok.injEq] at h
    exact h ▸ H

theorem discrete_nonneg {c : Cfg} {x y : ℚ} {n : Nat} {s s' : State Nat} (H : NN s)
    (h : discreteLoop c x n y s = .ok s') : NN s' := by
  induction n generalizing s y with
  | zero =>
    simp only [discreteLoop, Except.ok.injEq] at h
    exact h ▸ H
  | succ n ih =>
    unfold discreteLoop at h
    split at h
    · simp only [bind_ok] at h
      obtain ⟨⟨m, rd⟩, h1, st, h2, h3⟩ := h
      obtain ⟨r, rs, e, h1⟩ := Buf.pop_ok.1 h1
      simp only [Prod.mk.injEq] at h1
      obtain ⟨rfl, rfl⟩ := h1
      obtain ⟨-, rfl⟩ := Buf.push_ok.1 h2
      have hi := H.ready
      rw [e] at hi
      obtain ⟨a, b⟩ := AllNonneg.cons.1 hi
      refine ih ?_ h3
      exact ⟨H.inventory, H.processing, b,
        AllNonneg.append.2 ⟨H.stocks, by simpa [AllNonneg] using a⟩⟩
    · simp only [Except.ok.injEq] at h
      exact h ▸ H

theorem process_nonneg {c : Cfg} {x : ℚ} (hε : 0 ≤ c.eps) {s s' : State Nat} (H : NN s)
    (h : processMat c x s = .ok s') : NN s' := by
  unfold processMat at h
  split at h
  · simp only [Except.ok.injEq] at h
    exact h ▸ H
  · dsimp only at h
    split at h
    · split at h
      · simp only [bind_ok, pure_eq_ok, Except.ok.injEq] at h
        obtain ⟨⟨ms, pr⟩, h1, rd, h2, rfl⟩ := h
        obtain ⟨-, h1⟩ := Buf.popN_ok.1 h1
        simp only [Prod.mk.injEq] at h1
        obtain ⟨rfl, rfl⟩ := h1
        obtain ⟨-, rfl⟩ := Buf.pushAll_ok.1 h2
        exact ⟨H.inventory, H.processing, AllNonneg.drop H.ready _,
          AllNonneg.append.2 ⟨H.stocks, AllNonneg.take H.ready _⟩⟩
      · exact discrete_nonneg H h
    · simp only [bind_ok, pure_eq_ok, Except.ok.injEq] at h
      obtain ⟨⟨m, rd⟩, h1, st, h2, rfl⟩ := h
      obtain ⟨-, -, -, -, -, e1, e2, -⟩ := popEps_invNN H.ready hε (min_le_right _ _) h1
      obtain ⟨-, rfl⟩ := Buf.push_ok.1 h2
      exact ⟨H.inventory, H.processing, e2,
        AllNonneg.append.2 ⟨H.stocks, by simpa [AllNonneg] using e1⟩⟩

theorem tock_nonneg {c : Cfg} (hε : 0 ≤ c.eps) {s s' : State Nat} {r : Report} (H : NN s)
    (h : tock c s = .ok (r, s')) : NN s' := by
  simp only [tock, bind_ok, pure_eq_ok, Except.ok.injEq, Prod.mk.injEq] at h
  obtain ⟨s1, h1, s2, h2, s3, h3, d, h4, o, h5, -, rfl⟩ := h
  exact process_nonneg hε (ready_nonneg (begin_nonneg H h1) h2) h3

theorem contract {μ : Sim.NMat → ℚ} (hμ : Measure μ) {c : Cfg} {want : State Nat → ℚ}
    (hc : Sensible (.storage c want)) : Contract (storage c want) μ contents fun s =>
      (∃ arr out, Inv c arr out s) ∧ NN s := by
  obtain ⟨hw, hε, ht⟩ := hc
  have hout : ∃ k, c.outCommods = [k] := List.length_eq_one_iff.1 hw.outCommods
  obtain ⟨k, hk⟩ := hout
  have sales : ∀ {s : State Nat} {rs os ts}, (storage c want).offers rs s = .ok os →
      WithinOffers rs os ts → (∀ q ∈ ts.map Sale.amt, 0 < q ∧ c.lo ≤ q) ∧
        (ts.map Sale.amt).sum ≤ totalQty s.stocks.items := by
    intro s rs os ts ho W
    simp only [storage, hk, Except.ok.injEq] at ho
    subst ho
    exact W.single
  constructor
  · intro s _
    refine ⟨_, rfl, ?_⟩
    intro a ha
    split at ha
    · rename_i hq
      rw [List.mem_singleton] at ha
      subst ha
      refine ⟨hq.le, fun x hx => ?_⟩
      simp only [List.mem_map] at hx
      obtain ⟨y, -, rfl⟩ := hx
      exact solid_blank hq
    · cases ha
  · rintro s rs ⟨-, H⟩ -
    refine ⟨_, rfl, ?_⟩
    intro o ho
    obtain ⟨k, -, rfl⟩ := List.mem_map.1 ho
    exact H.4.total_nonneg
  · rintro s rs os ts ⟨⟨arr, out, I⟩, H⟩ - ho W
    obtain ⟨hq, hs⟩ := sales ho W
    obtain ⟨l, s', e1, e2, e3, -⟩ := sell_nonneg hε H hq hs
    refine ⟨l, s', e1, forall₂_of_map e2 ?_⟩
    intro m hm
    refine ⟨?_, e3 m hm⟩
    have : qty m ∈ ts.map Sale.amt := e2 ▸ List.mem_map_of_mem hm
    exact (hq _ this).1
  · rintro s rs os ts l m as ds ⟨⟨arr, out, I⟩, H⟩ - ho W hs ha WA
    obtain ⟨hq, hsum⟩ := sales ho W
    obtain ⟨l', s', e1, -, -, e4⟩ := sell_nonneg hε H hq hsum
    have e1' : (storage c want).sell rs ts s = .ok (l', s') := e1
    rw [e1'] at hs
    simp only [Except.ok.injEq, Prod.mk.injEq] at hs
    obtain ⟨rfl, rfl⟩ := hs
    have hb : ∀ x ∈ ds.map Delivery.mat, Sim.Solid x := by
      intro x hx
      obtain ⟨d, hd, rfl⟩ := List.mem_map.1 hx
      exact WA.solid d hd
    have hh : Honest c s ⟨ts.map Sale.amt, ds.map Delivery.mat⟩ :=
      ⟨fun x hx => (hb x hx).1, hq, hsum⟩
    obtain ⟨o, s₃, h, -⟩ := step_ok hε hw ht I hh
    have I' := (step_inv hε I hh.buys h).1
    simp only [step, e1, ok_bind, bind_ok, pure_eq_ok, Except.ok.injEq, Prod.mk.injEq] at h
    obtain ⟨s1, h1, ⟨rep, s2⟩, h2, rfl, rfl⟩ := h
    have N := tock_nonneg hε (addMat_nonneg e4 (fun x hx => (hb x hx).2) h1) h2
    refine ⟨{ s2 with time := s2.time + 1 }, ?_, ⟨⟨_, _, I'⟩, N.1, N.2, N.3, N.4⟩, ?_⟩
    · simp only [storage, h1, h2, ok_bind, pure_eq_ok]
    · refine hμ _ _ fun n => ?_
      have b1 := (contents_total I).2.1 n
      have b2 := (contents_total I').2.1 n
      simp only [mats, List.map_append, Mat.massOf_append, batch, List.map_map, Function.comp_def]
        at b1 b2 ⊢
      show Mat.massOf (contents { s2 with time := s2.time + 1 }) n + _ = _
      linarith
  · rintro s ⟨-, H⟩ m hm
    simp only [contents, List.mem_append] at hm
    rcases hm with ((hm | hm) | hm) | hm
    · exact H.inventory m hm
    · exact H.processing m hm
    · exact H.ready m hm
    · exact H.stocks m hm

/-- Everything in the four buffers has the property. -/
structure Has (P : Sim.NMat → Prop) (s : State Nat) : Prop where
  inventory : AllOf P s.inventory.items
  processing : AllOf P s.processing.items
  ready : AllOf P s.ready.items
  stocks : AllOf P s.stocks.items

section Has

variable {P : Sim.NMat → Prop}

theorem allOf_append {l r : List Sim.NMat} (h : AllOf P l) (k : AllOf P r) : AllOf P (l ++ r) :=
  fun m hm => (List.mem_append.1 hm).elim (h m) (k m)

theorem allOf_cons {x : Sim.NMat} {l : List Sim.NMat} : AllOf P (x :: l) ↔ P x ∧ AllOf P l := by
  simp [AllOf]

theorem allOf_one {x : Sim.NMat} (h : P x) : AllOf P [x] :=
  allOf_cons.2 ⟨h, fun y hy => by simp at hy⟩

theorem allOf_take {l : List Sim.NMat} (h : AllOf P l) (n : Nat) : AllOf P (l.take n) :=
  fun m hm => h m (List.mem_of_mem_take hm)

theorem allOf_drop {l : List Sim.NMat} (h : AllOf P l) (n : Nat) : AllOf P (l.drop n) :=
  fun m hm => h m (List.mem_of_mem_drop hm)

theorem sell_has (B : Blendable P) {c : Cfg} {qs : List ℚ} {s s' : State Nat} {l : List Sim.NMat}
    (H : Has P s) (h : sellLoop c qs s = .ok (l, s')) : AllOf P l ∧ Has P s' := by
  induction qs generalizing s l with
  | nil =>
    simp only [sellLoop, Except.ok.injEq, Prod.mk.injEq] at h
    obtain ⟨rfl, rfl⟩ := h
    exact ⟨fun x hx => by simp at hx, H⟩
  | cons q qs ih =>
    simp only [sellLoop, bind_ok, pure_eq_ok, Except.ok.injEq, Prod.mk.injEq] at h
    obtain ⟨⟨m, b⟩, h1, ⟨ms, s₁⟩, h2, rfl, rfl⟩ := h
    obtain ⟨k1, k2⟩ := B.popEps H.stocks h1
    obtain ⟨j1, j2⟩ := ih (s := { s with stocks := b })
      ⟨H.inventory, H.processing, H.ready, k2⟩ h2
    exact ⟨allOf_cons.2 ⟨k1, j1⟩, j2⟩

theorem addMat_has {c : Cfg} {ms : List Sim.NMat} {s s' : State Nat} (H : Has P s)
    (hm : AllOf P ms) (h : ms.foldlM (addMat c) s = .ok s') : Has P s' := by
  induction ms generalizing s with
  | nil =>
    rw [List.foldlM_nil, pure_eq_ok, Except.ok.injEq] at h
    exact h ▸ H
  | cons m ms ih =>
    obtain ⟨a, b⟩ := allOf_cons.1 hm
    simp only [List.foldlM_cons, bind_ok] at h
    obtain ⟨s₁, h1, h2⟩ := h
    simp only [addMat, bind_ok, pure_eq_ok, Except.ok.injEq] at h1
    obtain ⟨b', h1, rfl⟩ := h1
    obtain ⟨-, rfl⟩ := Buf.push_ok.1 h1
    refine ih ?_ b h2
    exact ⟨allOf_append H.inventory (allOf_one a), H.processing, H.ready, H.stocks⟩

theorem begin_has {c : Cfg} {n : Nat} {s s' : State Nat} (H : Has P s)
    (h : beginProcessing c n s = .ok s') : Has P s' := by
  induction n generalizing s with
  | zero =>
    simp only [beginProcessing, Except.ok.injEq] at h
    exact h ▸ H
  | succ n ih =>
    unfold beginProcessing at h
    split at h
    · simp only [bind_ok] at h
      obtain ⟨⟨m, inv⟩, h1, pr, h2, h3⟩ := h
      obtain ⟨r, rs, e, h1⟩ := Buf.pop_ok.1 h1
      simp only [Prod.mk.injEq] at h1
      obtain ⟨rfl, rfl⟩ := h1
      obtain ⟨-, rfl⟩ := Buf.push_ok.1 h2
      have hi := H.inventory
      rw [e] at hi
      obtain ⟨a, b⟩ := allOf_cons.1 hi
      refine ih ?_ h3
      exact ⟨b, allOf_append H.processing (allOf_one a), H.ready, H.stocks⟩
    · simp only [Except.ok.injEq] at h
      exact h ▸ H

theorem ready_has {c : Cfg} {s s' : State Nat} (H : Has P s) (h : tockReady c s = .ok s') :
    Has P s' := by
  unfold tockReady at h
  split at h
  · simp only [readyMatl, bind_ok, pure_eq_ok, Except.ok.injEq] at h
    obtain ⟨⟨ms, pr⟩, h1, rd, h2, rfl⟩ := h
    obtain ⟨-, h1⟩ := Buf.popN_ok.1 h1
    simp only [Prod.mk.injEq] at h1
    obtain ⟨rfl, rfl⟩ := h1
    obtain ⟨-, rfl⟩ := Buf.pushAll_ok.1 h2
    exact ⟨H.inventory, allOf_drop H.processing _,
      allOf_append H.ready (allOf_take H.processing _), H.stocks⟩
  · simp only [Except.ok.injEq] at h
    exact h ▸ H

theorem discrete_has {c : Cfg} {x y : ℚ} {n : Nat} {s s' : State Nat} (H : Has P s)
    (h : discreteLoop c x n y s = .ok s') : Has P s' := by
  induction n generalizing s y with
  | zero =>
    simp only [discreteLoop, Except.ok.injEq] at h
    exact h ▸ H
  | succ n ih =>
    unfold discreteLoop at h
    split at h
    · simp only [bind_ok] at h
      obtain ⟨⟨m, rd⟩, h1, st, h2, h3⟩ := h
      obtain ⟨r, rs, e, h1⟩ := Buf.pop_ok.1 h1
      simp only [Prod.mk.injEq] at h1
      obtain ⟨rfl, rfl⟩ := h1
      obtain ⟨-, rfl⟩ := Buf.push_ok.1 h2
      have hi := H.ready
      rw [e] at hi
      obtain ⟨a, b⟩ := allOf_cons.1 hi
      refine ih ?_ h3
      exact ⟨H.inventory, H.processing, b, allOf_append H.stocks (allOf_one a)⟩
    · simp only [Except.ok.injEq] at h
      exact h ▸ H

theorem process_has (B : Blendable P) {c : Cfg} {x : ℚ} {s s' : State Nat} (H : Has P s)
    (h : processMat c x s = .ok s') : Has P s' := by
  unfold processMat at h
  split at h
  · simp only [Except.ok.injEq] at h
    exact h ▸ H
  · dsimp only at h
    split at h
    · split at h
      · simp only [bind_ok, pure_eq_ok, Except.ok.injEq] at h
        obtain ⟨⟨ms, pr⟩, h1, rd, h2, rfl⟩ := h
        obtain ⟨-, h1⟩ := Buf.popN_ok.1 h1
        simp only [Prod.mk.injEq] at h1
        obtain ⟨rfl, rfl⟩ := h1
        obtain ⟨-, rfl⟩ := Buf.pushAll_ok.1 h2
        exact ⟨H.inventory, H.processing, allOf_drop H.ready _,
          allOf_append H.stocks (allOf_take H.ready _)⟩
      · exact discrete_has H h
    · simp only [bind_ok, pure_eq_ok, Except.ok.injEq] at h
      obtain ⟨⟨m, rd⟩, h1, st, h2, rfl⟩ := h
      obtain ⟨e1, e2⟩ := B.popEps H.ready h1
      obtain ⟨-, rfl⟩ := Buf.push_ok.1 h2
      exact ⟨H.inventory, H.processing, e2, allOf_append H.stocks (allOf_one e1)⟩

theorem tock_has (B : Blendable P) {c : Cfg} {s s' : State Nat} {r : Report} (H : Has P s)
    (h : tock c s = .ok (r, s')) : Has P s' := by
  simp only [tock, bind_ok, pure_eq_ok, Except.ok.injEq, Prod.mk.injEq] at h
  obtain ⟨s1, h1, s2, h2, s3, h3, d, h4, o, h5, -, rfl⟩ := h
  exact process_has B (ready_has (begin_has H h1) h2) h3

end Has

theorem deployed {μ : Sim.NMat → ℚ} (hμ : Measure μ) {A : Agreement} {c : Cfg}
    {want : State Nat → ℚ} (hc : Sensible (.storage c want)) (hA : Suits A (.storage c want)) :
    ∃ p, deploy (.storage c want) = .ok p ∧ Sim.Good A μ holdings p := by
  obtain ⟨a1, a2⟩ := hA
  obtain ⟨k, hk⟩ := List.length_eq_one_iff.1 hc.1.outCommods
  obtain ⟨P, B, a2, a3⟩ := a2 k (by rw [hk]; simp)
  have offered : ∀ {s rs os}, (storage c want).offers rs s = .ok os →
      ∀ o ∈ os, o.limits = [] ∧ o.commod = k := by
    intro s rs os h o ho
    simp only [storage, hk, Except.ok.injEq] at h
    subst h
    obtain rfl := List.mem_singleton.1 ho
    exact ⟨rfl, rfl⟩
  have asked : ∀ {s as}, (storage c want).asks s = .ok as → ∀ a ∈ as, ∀ x ∈ a.alts,
      x.1 ∈ c.inCommods ∧ ∃ q, x.2 = blank q := by
    intro s as h a ha x hx
    simp only [storage, Except.ok.injEq] at h
    subst h
    split at ha
    · rw [List.mem_singleton] at ha
      subst ha
      obtain ⟨y, hy, rfl⟩ := List.mem_map.1 hx
      exact ⟨hy, _, rfl⟩
    · cases ha
  obtain ⟨p, s, h, -⟩ := C26_never_fails_partial (ν := Nat) hc.2.1 hc.1 hc.2.2
  refine ⟨⟨.storage c want, s⟩, by simp only [deploy, h, ok_bind, pure_eq_ok], _,
    (contract hμ hc).pledge (Inv' := fun s : State Nat => Has P s)
    (fun _ h o ho => (offered h o ho).1) ?_ ?_ ?_, ⟨⟨_, _, (enter_inv h).1⟩, ?_⟩, ?_⟩
  · intro s as _ h a ha x hx hq
    obtain ⟨h1, q, h2⟩ := asked h a ha x hx
    rw [h2] at hq ⊢
    exact a1 _ h1 q (by simpa [qty_blank] using hq.1)
  · intro s rs os ts l m _ H _ ho W hs hl
    exact forall₂_mat a3 (W.commod fun o h => (offered ho o h).2) (sell_has B H hs).1 hl
  · intro s rs os ts l m as ds s' _ H _ ho W hs ha WA hd h
    obtain ⟨s1, h1, h⟩ := bind_ok.1 h
    obtain ⟨⟨r, s2⟩, h2, h⟩ := bind_ok.1 h
    cases h
    have := tock_has B (addMat_has (sell_has B H hs).2 (fun x hx => by
      obtain ⟨d, hd', rfl⟩ := List.mem_map.1 hx
      obtain ⟨a, k1, k2, -⟩ := WA.asked d hd'
      obtain ⟨y, hy, k2⟩ := List.mem_map.1 k2
      obtain ⟨h2, -⟩ := asked ha a (List.mem_of_getElem? k1) y hy
      rw [k2] at h2
      exact a2 _ h2 _ (WA.solid d hd') (hd d hd')) h1) h2
    exact ⟨this.1, this.2, this.3, this.4⟩
  all_goals
    simp only [enter, bind_ok] at h
    obtain ⟨p', h1, u, h2, pr, h3, h4⟩ := h
    split at h4
    · cases h4
    · simp only [pure_eq_ok, Except.ok.injEq, Prod.mk.injEq] at h4
      obtain ⟨-, rfl⟩ := h4
      constructor <;> (intro x hx; cases hx)

end OfStorage

end Cyc.Sim
