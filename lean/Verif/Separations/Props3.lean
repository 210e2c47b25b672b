import Verif.Separations.Props2

/-!
# Separations: nothing negative, whatever the table of streams (C27)
-/

namespace Cyc.Separations

open Mat (massOf)

/-- No stream holds a negative mass. -/
def BufsNN (bufs : List (String × Buf NMat)) : Prop := ∀ x ∈ bufs, AllNonneg x.2.items

theorem BufsNN.get {bufs : List (String × Buf NMat)} (h : BufsNN bufs) (k : String) :
    AllNonneg (getBuf bufs k).items := by
  unfold getBuf Map.getD
  cases hg : Map.get? bufs k with
  | none => exact AllNonneg.nil
  | some b => exact h _ (Map.mem_of_get? hg)

theorem BufsNN.set {bufs : List (String × Buf NMat)} (h : BufsNN bufs) (k : String) {b : Buf NMat}
    (hb : AllNonneg b.items) : BufsNN (Map.set bufs k b) := by
  induction bufs with
  | nil =>
    intro x hx
    simp only [Map.set, List.mem_singleton] at hx
    subst hx; exact hb
  | cons y l ih =>
    obtain ⟨k', b'⟩ := y
    intro x hx
    simp only [Map.set] at hx
    split at hx
    · rcases List.mem_cons.1 hx with rfl | hx
      · exact hb
      · exact h x (List.mem_cons_of_mem _ hx)
    · rcases List.mem_cons.1 hx with rfl | hx
      · exact h _ (List.mem_cons_self ..)
      · exact ih (fun x hx => h x (List.mem_cons_of_mem _ hx)) x hx

theorem checkStaged_nonneg {l : List (String × NMat)} {u : Unit} (h : checkStaged l = .ok u) :
    ∀ x ∈ l, Mat.Nonneg x.2 := by
  unfold checkStaged at h
  split at h
  · cases h
  · rename_i hn
    intro x hx e he
    by_contra hc
    exact hn (List.any_eq_true.2 ⟨x, hx, List.any_eq_true.2 ⟨e, he, by simpa using hc⟩⟩)

theorem space_nonneg {b : Buf NMat} {sp : ℚ} (h : b.space = some sp) : 0 ≤ sp := by
  unfold Buf.space at h
  cases hc : b.cap with
  | none => simp [hc] at h
  | some x =>
    simp only [hc, Option.map_some, Option.some.injEq] at h
    rw [← h]; exact le_max_left _ _

theorem stage_nonneg {mat : NMat} {l : List (String × Stream)} {bufs : List (String × Buf NMat)} {f : ℚ}
    (hf : 0 ≤ f) (hb : BufsNN bufs) (h : ∀ x ∈ (stage mat l bufs f).1, Mat.Nonneg x.2) :
    0 ≤ (stage mat l bufs f).2.2 ∧ BufsNN (stage mat l bufs f).2.1 := by
  induction l generalizing bufs f with
  | nil => exact ⟨hf, hb⟩
  | cons s l ih =>
    simp only [stage] at h ⊢
    refine ih ?_ (hb.set _ (hb.get _)) fun x hx => h x (List.mem_cons_of_mem _ hx)
    have hq := (h _ (List.mem_cons_self ..)).qty_nonneg
    unfold limitFrac
    cases hs : (getBuf bufs s.1).space with
    | none => exact hf
    | some sp =>
      simp only
      split
      · exact hf
      · split
        · exact div_nonneg (space_nonneg hs) hq
        · exact hf

theorem sepLoop_bufs {eps f : ℚ} {l : List (String × NMat)} {mat mat' : NMat}
    {bufs bufs' : List (String × Buf NMat)} {rs : List SepRec} (hm : Mat.Nonneg mat) (hf : 0 ≤ f)
    (hl : ∀ x ∈ l, Mat.Nonneg x.2) (hb : BufsNN bufs)
    (h : sepLoop eps f l mat bufs = .ok (rs, mat', bufs')) : BufsNN bufs' := by
  induction l generalizing mat bufs rs with
  | nil =>
    simp only [sepLoop, Except.ok.injEq, Prod.mk.injEq] at h
    obtain ⟨-, -, rfl⟩ := h; exact hb
  | cons x l ih =>
    simp only [sepLoop, bind_ok] at h
    obtain ⟨⟨r, m1, b1⟩, h1, ⟨rs', m2, b2⟩, h2, h3⟩ := h
    simp only [pure_eq_ok, Except.ok.injEq, Prod.mk.injEq] at h3
    obtain ⟨-, rfl, rfl⟩ := h3
    have hx := hl x (List.mem_cons_self ..)
    unfold sepOne at h1
    split at h1
    · rename_i hq
      simp only [bind_ok] at h1
      obtain ⟨⟨ext, rest⟩, e1, b, e2, e3⟩ := h1
      simp only [pure_eq_ok, Except.ok.injEq, Prod.mk.injEq] at e3
      obtain ⟨-, rfl, rfl⟩ := e3
      obtain ⟨-, e4, -, e5⟩ := Mat.extractComp_inv e1
      refine ih e5 (fun y hy => hl y (List.mem_cons_of_mem _ hy)) (hb.set _ ?_) h2
      rw [Buf.push_ok] at e2
      rw [e2.2]
      refine AllNonneg.append.2 ⟨hb.get _, ?_⟩
      rw [e4]
      have : 0 ≤ if qty x.2 > qty mat then qty mat else qty x.2 := by
        split
        · exact hm.qty_nonneg
        · exact hx.qty_nonneg
      have : Mat.Nonneg (Mat.scale ((if qty x.2 > qty mat then qty mat else qty x.2) * f / qty x.2) x.2) :=
        hx.scale (div_nonneg (mul_nonneg this hf) hx.qty_nonneg)
      simpa [AllNonneg] using this
    · simp only [Except.ok.injEq, Prod.mk.injEq] at h1
      obtain ⟨-, rfl, rfl⟩ := h1
      exact ih hm (fun y hy => hl y (List.mem_cons_of_mem _ hy)) hb h2

theorem pushLeftover_nonneg {c : Cfg} {mat : NMat} {s s' : State} (hm : Mat.Nonneg mat)
    (hs : AllNonneg s.leftover.items) (h : pushLeftover c mat s = .ok s') : AllNonneg s'.leftover.items := by
  unfold pushLeftover at h
  split at h
  · simp only [bind_ok] at h
    obtain ⟨b, h1, h2⟩ := h
    simp only [pure_eq_ok, Except.ok.injEq] at h2
    subst h2
    rw [Buf.push_ok] at h1
    simp only [h1.2]
    exact AllNonneg.append.2 ⟨hs, by simpa [AllNonneg] using hm⟩
  · simp only [Except.ok.injEq] at h
    subst h; exact hs

theorem finish_nonneg {c : Cfg} {f orig : ℚ} {mat : NMat} {s s' : State} (hm : Mat.Nonneg mat)
    (hf : f ≤ 1) (ho : 0 ≤ orig) (hs : AllNonneg s.leftover.items)
    (h : finish c f orig mat s = .ok s') : AllNonneg s'.leftover.items ∧ s'.bufs = s.bufs := by
  unfold finish at h
  split at h
  · exact ⟨pushLeftover_nonneg hm hs h, (pushLeftover_feed h).2.1⟩
  · simp only [bind_ok] at h
    obtain ⟨⟨back, rest⟩, h1, b, h2, h3⟩ := h
    unfold Mat.extractQty at h1
    split at h1
    · cases h1
    · rename_i hq
      simp only [Except.ok.injEq] at h1
      have hsp := split_nonneg hm (mul_nonneg (by linarith : 0 ≤ 1 - f) ho) (not_lt.1 hq)
      rw [h1] at hsp
      exact ⟨pushLeftover_nonneg (s := { s with feed := b }) hsp.2 hs h3, (pushLeftover_feed h3).2.1⟩

/-- Nothing that the facility has is negative. -/
structure NN (s : State) : Prop where
  feed : AllNonneg s.feed.items
  left : AllNonneg s.leftover.items
  bufs : BufsNN s.bufs

theorem tick_nonneg {c : Cfg} (hε : 0 ≤ c.eps) {s s' : State} {r : Option TickRec} (hs : NN s)
    (h : tick c s = .ok (r, s')) : NN s' := by
  have hfeed := (tick_conserve hε hs.feed h).2
  unfold tick at h
  split at h
  · simp only [Except.ok.injEq, Prod.mk.injEq] at h
    obtain ⟨-, rfl⟩ := h; exact hs
  · simp only [bind_ok] at h
    obtain ⟨⟨mat, feed⟩, h1, u, hu, ⟨recs, rest, bufs⟩, h2, s1, h3, h4⟩ := h
    simp only [pure_eq_ok, Except.ok.injEq, Prod.mk.injEq] at h4
    obtain ⟨-, rfl⟩ := h4
    obtain ⟨-, -, -, -, -, hm, -, -, -⟩ := popEps_invNN hs.feed hε (min_le_right _ _) h1
    have hst := checkStaged_nonneg hu
    obtain ⟨hf, hb⟩ := stage_nonneg zero_le_one hs.bufs hst
    obtain ⟨g1, g2⟩ := finish_nonneg (sepLoop_nonneg hm h2) (stage_le _ _ _ _) hm.qty_nonneg
      (s := { s with feed := feed, bufs := bufs }) hs.left h3
    exact ⟨hfeed, g1, by rw [g2]; exact sepLoop_bufs hm hf hst hb h2⟩

theorem sellOne_nonneg {c : Cfg} (hε : 0 ≤ c.eps) {s s' : State} {t : String × ℚ} {m : NMat} (hs : NN s)
    (h : sellOne c s t = .ok (m, s')) : Mat.Nonneg m ∧ NN s' := by
  unfold sellOne at h
  split at h
  · simp only [bind_ok] at h
    obtain ⟨⟨m', b⟩, h1, h2⟩ := h
    simp only [pure_eq_ok, Except.ok.injEq, Prod.mk.injEq] at h2
    obtain ⟨rfl, rfl⟩ := h2
    obtain ⟨-, -, -, -, -, hm, hb, -, -⟩ := popEps_invNN hs.left hε (min_le_left _ _) h1
    exact ⟨hm, hs.feed, hb, hs.bufs⟩
  · split at h
    · rename_i b hb
      simp only [bind_ok] at h
      obtain ⟨⟨m', b'⟩, h1, h2⟩ := h
      simp only [pure_eq_ok, Except.ok.injEq, Prod.mk.injEq] at h2
      obtain ⟨rfl, rfl⟩ := h2
      obtain ⟨-, -, -, -, -, hm, hb', -, -⟩ :=
        popEps_invNN (hs.bufs _ (Map.mem_of_get? hb)) hε (min_le_left _ _) h1
      exact ⟨hm, hs.feed, hs.left, hs.bufs.set _ hb'⟩
    · cases h

theorem sellLoop_nonneg {c : Cfg} (hε : 0 ≤ c.eps) {ts : List (String × ℚ)} {s s' : State} {ms : List NMat}
    (hs : NN s) (h : sellLoop c ts s = .ok (ms, s')) : AllNonneg ms ∧ NN s' := by
  induction ts generalizing s ms with
  | nil =>
    simp only [sellLoop, Except.ok.injEq, Prod.mk.injEq] at h
    obtain ⟨rfl, rfl⟩ := h; exact ⟨AllNonneg.nil, hs⟩
  | cons t ts ih =>
    simp only [sellLoop, bind_ok] at h
    obtain ⟨⟨m, s1⟩, h1, ⟨ms', s2⟩, h2, h3⟩ := h
    simp only [pure_eq_ok, Except.ok.injEq, Prod.mk.injEq] at h3
    obtain ⟨rfl, rfl⟩ := h3
    obtain ⟨a1, a2⟩ := sellOne_nonneg hε hs h1
    obtain ⟨b1, b2⟩ := ih a2 h2
    exact ⟨AllNonneg.cons.2 ⟨a1, b1⟩, b2⟩

theorem run_nonneg {c : Cfg} (hε : 0 ≤ c.eps) {is : List In} {os : List Out} {s s' : State} (hs : NN s)
    (hi : Substantial is) (h : run c s is = .ok (os, s')) : AllNonneg (sold os) ∧ NN s' := by
  induction is generalizing s os with
  | nil =>
    simp only [run, Except.ok.injEq, Prod.mk.injEq] at h
    obtain ⟨rfl, rfl⟩ := h
    exact ⟨by simp [sold, AllNonneg], hs⟩
  | cons i is ih =>
    simp only [run, bind_ok] at h
    obtain ⟨⟨o, s1⟩, h1, ⟨os', s2⟩, h2, h3⟩ := h
    simp only [pure_eq_ok, Except.ok.injEq, Prod.mk.injEq] at h3
    obtain ⟨rfl, rfl⟩ := h3
    simp only [step, bind_ok] at h1
    obtain ⟨⟨tr, t1⟩, e1, ⟨d, rq⟩, -, -, -, ⟨sd, t2⟩, e3, t3, e4, e5⟩ := h1
    simp only [pure_eq_ok, Except.ok.injEq, Prod.mk.injEq] at e5
    obtain ⟨rfl, rfl⟩ := e5
    obtain ⟨a1, a2⟩ := sellLoop_nonneg hε (tick_nonneg hε hs e1) e3
    obtain ⟨-, c2, -, c4, c5, -, -⟩ := accept_conserve e4
    have hN : NN { t3 with time := t3.time + 1 } := by
      refine ⟨?_, by rw [show ({ t3 with time := t3.time + 1 } : State).leftover = t3.leftover from rfl, c4]; exact a2.left,
        by rw [show ({ t3 with time := t3.time + 1 } : State).bufs = t3.bufs from rfl, c5]; exact a2.bufs⟩
      show AllNonneg t3.feed.items
      rw [c2]
      exact AllNonneg.append.2 ⟨a2.feed, fun m hm => (hi i (List.mem_cons_self ..) m hm).2⟩
    obtain ⟨b1, b2⟩ := ih hN (fun j hj => hi j (List.mem_cons_of_mem _ hj)) h2
    refine ⟨?_, b2⟩
    simp only [sold, List.flatMap_cons]
    exact AllNonneg.append.2 ⟨a1, b1⟩

/-- C27: whatever the table of streams, also one with efficiencies below nought or above one, nothing that
the facility holds or has sold contains a negative mass of a nuclide; so of no nuclide does it hold, in any
inventory, or has it sold, more than it received. -/
theorem C27_nonneg {c : Cfg} (hε : 0 ≤ c.eps) {is : List In} {os : List Out} {s : State}
    (h : History c is os s) (hs : Substantial is) :
    (∀ m ∈ contents s ++ sold os, ∀ e ∈ m.entries, 0 ≤ e.2) ∧
    ∀ n, massOf (sold os) n ≤ massOf (received is) n ∧ massOf s.feed.items n ≤ massOf (received is) n ∧
      ∀ k, massOf (stock c s k) n ≤ massOf (received is) n := by
  have cons := (C27_conserved hε h hs).1
  obtain ⟨s0, h0, h1⟩ := h
  have hN0 : NN s0 := by
    have e := enter_contents h0
    simp only [contents, List.append_eq_nil_iff, List.flatMap_eq_nil_iff] at e
    obtain ⟨⟨e1, e2⟩, e3⟩ := e
    exact ⟨by rw [e1]; exact AllNonneg.nil, by rw [e2]; exact AllNonneg.nil,
      fun x hx => by rw [e3 x hx]; exact AllNonneg.nil⟩
  obtain ⟨a, b⟩ := run_nonneg hε hN0 hs h1
  have hB : AllNonneg (s.bufs.flatMap fun b => b.2.items) := by
    intro m hm
    obtain ⟨x, hx, hm⟩ := List.mem_flatMap.1 hm
    exact b.bufs x hx m hm
  have hC : AllNonneg (contents s) := AllNonneg.append.2 ⟨AllNonneg.append.2 ⟨b.feed, b.left⟩, hB⟩
  refine ⟨AllNonneg.append.2 ⟨hC, a⟩, fun n => ?_⟩
  have e := cons n
  have e' : massOf (contents s) n = massOf s.feed.items n + massOf s.leftover.items n +
      massOf (s.bufs.flatMap fun b => b.2.items) n := by
    simp only [contents, Mat.massOf_append]
  have p1 := a.massOf_nonneg n
  have p2 := b.feed.massOf_nonneg n
  have p3 := b.left.massOf_nonneg n
  have p4 := hB.massOf_nonneg n
  refine ⟨by linarith, by linarith, fun k => ?_⟩
  unfold stock
  split
  · linarith
  · have : massOf (getBuf s.bufs k).items n ≤ massOf (s.bufs.flatMap fun b => b.2.items) n := by
      unfold getBuf Map.getD
      cases hg : Map.get? s.bufs k with
      | none => simpa [emptyBuf] using p4
      | some x =>
        obtain ⟨l1, l2, hl⟩ := List.append_of_mem (Map.mem_of_get? hg)
        rw [hl] at hB
        simp only [List.flatMap_append, List.flatMap_cons] at hB
        rw [hl]
        simp only [Option.getD_some, List.flatMap_append, List.flatMap_cons, Mat.massOf_append]
        obtain ⟨q1, q2⟩ := AllNonneg.append.1 hB
        have := q1.massOf_nonneg n
        have := (AllNonneg.append.1 q2).2.massOf_nonneg n
        linarith
    linarith

/-- A stream that asks for minus a tenth of the uranium-235, where there is none of that: the hypotheses hold. -/
example : ∃ os s, History { exCfg with streams := [("pu", ⟨5, [(942390000, 9/10), (922350000, -1/10)]⟩)] }
    [⟨fun _ => [], [], [⟨[(922380000, 7), (942390000, 1)]⟩]⟩, ⟨fun _ => [], [], []⟩] os s := play_ok (by decide +kernel)

end Cyc.Separations
