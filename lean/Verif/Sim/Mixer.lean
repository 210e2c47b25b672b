import Verif.Sim.Conversion
import Verif.Mixer.Props2
import Verif.Network.Lemmas
import Mathlib.Data.Nat.Pairing

/-!
# `Mixer` keeps the contract
-/

namespace Cyc.Sim

namespace OfMixer
open Mixer

/-- The identifiers of the requests of one stream. -/
theorem mem_ids {c : Cfg} {bufs : List (String × Buf Sim.NMat)} {x : Stream × Nat} {id : Nat} :
    id ∈ ids (ask c mixerAddr bufs x) ↔ hasRoom c.eps (getBuf bufs (name x.2)) = true ∧
      ∃ j < x.1.commods.length, id = Nat.pair x.2 j := by
  unfold ask
  split
  · rename_i h
    simp only [ids, mkReqs, List.map_map, h, true_and, List.mem_map, mixerAddr, Function.comp]
    constructor
    · rintro ⟨y, hy, rfl⟩
      obtain ⟨-, h2, -⟩ := List.mem_zipIdx hy
      exact ⟨y.2, by omega, rfl⟩
    · rintro ⟨j, hj, rfl⟩
      exact ⟨(x.1.commods[j], j), by rw [List.mem_zipIdx_iff_getElem?]; simp [hj], rfl⟩
  · rename_i h
    simp [ids, h]

theorem nodup_ids {c : Cfg} {bufs : List (String × Buf Sim.NMat)} {x : Stream × Nat} :
    (ids (ask c mixerAddr bufs x)).Nodup := by
  unfold ask
  split
  · simp only [ids, mkReqs, List.map_map]
    have : (Req.id ∘ fun y : (String × ℚ) × Nat => (⟨mixerAddr x.2 y.2, y.1.1, y.1.2⟩ : Mixer.Req)) =
        (fun j => Nat.pair x.2 j) ∘ Prod.snd := rfl
    rw [this, ← List.map_map, List.zipIdx_map_snd]
    refine List.Nodup.map ?_ (List.nodup_range' ..)
    intro a b h
    exact (Nat.pair_eq_pair.1 h).2
  · simp [ids]

theorem asks_eq (c : Cfg) (s : State) :
    (requests c mixerAddr s).1 = c.streams.zipIdx.map (ask c mixerAddr s.bufs) :=
  (requestLoop_spec c mixerAddr 0 c.streams s).1

theorem asks_get (c : Cfg) (s : State) (k : Nat) : (requests c mixerAddr s).1[k]? =
    c.streams[k]?.map fun x => ask c mixerAddr s.bufs (x, k) := by
  rw [asks_eq, List.getElem?_map, List.getElem?_zipIdx]
  cases c.streams[k]? <;> simp

theorem distinct (c : Cfg) (s : State) : Distinct (requests c mixerAddr s).1 := by
  unfold Distinct
  rw [asks_eq, List.flatMap_map, List.nodup_flatMap]
  refine ⟨fun x _ => nodup_ids, ?_⟩
  have h : (c.streams.zipIdx).Pairwise fun a b => a.2 ≠ b.2 := by
    have := List.nodup_range' (s := 0) (n := c.streams.length) (step := 1)
    rw [← List.zipIdx_map_snd, List.Nodup, List.pairwise_map] at this
    exact this
  refine h.imp ?_
  intro a b hab id h1 h2
  obtain ⟨-, j, -, e1⟩ := mem_ids.1 h1
  obtain ⟨-, j', -, e2⟩ := mem_ids.1 h2
  rw [e1] at e2
  exact hab (Nat.pair_eq_pair.1 e2).1

theorem mem_idsAt {c : Cfg} {s : State} {k id : Nat} :
    id ∈ idsAt (requests c mixerAddr s).1 k ↔ ∃ x, c.streams[k]? = some x ∧
      hasRoom c.eps (getBuf s.bufs (name k)) = true ∧ ∃ j < x.commods.length, id = Nat.pair k j := by
  unfold idsAt
  rw [asks_get]
  cases h : c.streams[k]? with
  | none => simp [ids]
  | some x => simp [mem_ids]

/-- A delivery answers a request of its stream. -/
theorem answered {c : Cfg} {s : State} {ds : List Delivery}
    (W : WithinAsks ((requests c mixerAddr s).1.map mixerAsk) ds) {d : Delivery} (hd : d ∈ ds) (k : Nat) :
    mixerId c d ∈ idsAt (requests c mixerAddr s).1 k ↔ d.port = k := by
  obtain ⟨a, h1, h2, -⟩ := W.asked d hd
  rw [List.getElem?_map, asks_get] at h1
  cases hx : c.streams[d.port]? with
  | none => rw [hx] at h1; simp at h1
  | some x =>
    rw [hx] at h1
    simp only [Option.map_some, Option.some.injEq] at h1
    subst h1
    unfold ask at h2
    split at h2
    · rename_i hr
      have hm : d.commod ∈ x.commods.map Prod.fst := by
        simp only [mixerAsk, mkReqs, List.map_map, List.mem_map, Function.comp] at h2
        obtain ⟨y, hy, e⟩ := h2
        have := List.fst_mem_of_mem_zipIdx hy
        exact List.mem_map.2 ⟨y.1, this, e⟩
      have hlt : x.commods.findIdx (fun y => decide (y.1 = d.commod)) < x.commods.length := by
        rw [List.findIdx_lt_length]
        obtain ⟨y, hy, e⟩ := List.mem_map.1 hm
        exact ⟨y, hy, by simpa using e⟩
      rw [mem_idsAt]
      simp only [mixerId, mixerAddr, hx, Option.map_some, Option.getD_some]
      constructor
      · rintro ⟨x', -, -, j, -, e⟩
        exact (Nat.pair_eq_pair.1 e).1
      · rintro rfl
        exact ⟨x, hx, hr, _, hlt, rfl⟩
    · simp [mixerAsk] at h2

theorem answers_eq {c : Cfg} {s : State} {ds : List Delivery}
    (W : WithinAsks ((requests c mixerAddr s).1.map mixerAsk) ds) (k : Nat) :
    answers (requests c mixerAddr s).1 k (ds.map fun d => (mixerId c d, d.mat)) =
      (ds.filter fun d => d.port = k).map Delivery.mat := by
  unfold answers
  rw [List.filter_map, List.map_map]
  congr 1
  apply List.filter_congr
  intro d hd
  simp only [Function.comp]
  exact Bool.decide_congr (answered W hd k)

theorem solid_sold {c : Cfg} (hε : 0 ≤ c.eps) {qs : List ℚ} {s s' : State} {l : List Sim.NMat}
    (I : Inv c s) (h : sellLoop c qs s = .ok (l, s')) : ∀ m ∈ l, Sim.Solid m := by
  induction qs generalizing s l with
  | nil =>
    simp only [sellLoop, Except.ok.injEq, Prod.mk.injEq] at h
    rw [← h.1]; simp
  | cons q qs ih =>
    simp only [sellLoop, bind_ok] at h
    obtain ⟨⟨m, b⟩, h1, ⟨ms, s₁⟩, h2, h3⟩ := h
    simp only [pure_eq_ok, Except.ok.injEq, Prod.mk.injEq] at h3
    obtain ⟨rfl, rfl⟩ := h3
    obtain ⟨p1, -⟩ := pop_any I.outSolid hε h1
    have I1 := (sellLoop_inv (qs := [q]) (l := [m]) (s' := { s with output := b }) hε I (by
      simp only [sellLoop, h1, ok_bind, pure_eq_ok])).1
    intro x hx
    rcases List.mem_cons.1 hx with rfl | hx
    · exact p1
    · exact ih I1 h2 x hx

theorem ratios_pos {c : Cfg} (V : Valid c) (h : ∀ x ∈ c.streams, 0 < x.ratio) {s : State} (I : Inv c s) :
    ∀ r ∈ s.ratios, 0 < r := by
  rw [I.ratios]
  have hp : ∀ r ∈ c.streams.map Stream.ratio, 0 < r := by
    intro r hr
    obtain ⟨x, hx, rfl⟩ := List.mem_map.1 hr
    exact h x hx
  have hs : 0 < (c.streams.map Stream.ratio).sum := by
    obtain ⟨x, l, e⟩ := List.exists_cons_of_ne_nil V.streams
    rw [e] at hp ⊢
    rw [List.map_cons, List.sum_cons]
    have h1 := hp x.ratio (by simp)
    have h2 : 0 ≤ (l.map Stream.ratio).sum :=
      List.sum_nonneg fun r hr => le_of_lt (hp r (by simp only [List.map_cons, List.mem_cons, hr, or_true]))
    linarith
  unfold normalise
  rw [if_pos (ne_of_gt hs)]
  intro r hr
  obtain ⟨x, hx, rfl⟩ := List.mem_map.1 hr
  have := hp x hx
  positivity

theorem contract {μ : Sim.NMat → ℚ} (hμ : Measure μ) {c : Cfg} (hc : Sensible (.mixer c)) :
    Contract (mixer c) μ contents fun s =>
      Inv c s ∧ WithinSizes c s := by
  obtain ⟨V, hx, hlo⟩ := hc
  have htick : ∀ {s}, Inv c s → WithinSizes c s →
      ∃ s₁, tick c s = .ok s₁ ∧ Inv c s₁ ∧ WithinSizes c s₁ := by
    intro s I W
    have hp := ratios_pos V (fun x h => (hx x h).1) I
    obtain ⟨s₁, h⟩ := tick_ok V I hp (by
      intro t _ ht r hr
      have := hp r hr
      have : 0 < r * t := by positivity
      linarith)
    obtain ⟨-, -, -, I1⟩ := tick_inv V I h
    exact ⟨s₁, h, I1, tick_sizes V I W h⟩
  have sales : ∀ {s s₁ : State} {rs os ts}, tick c s = .ok s₁ → (mixer c).offers rs s = .ok os →
      WithinOffers rs os ts → (∀ q ∈ ts.map Sale.amt, 0 < q ∧ c.lo ≤ q) ∧
        (ts.map Sale.amt).sum ≤ totalQty s₁.output.items := by
    intro s s₁ rs os ts h ho W
    simp only [mixer, h, ok_bind, pure_eq_ok, Except.ok.injEq] at ho
    subst ho
    exact W.single
  constructor
  · rintro s ⟨I, W⟩
    obtain ⟨s₁, h, I1, W1⟩ := htick I W
    refine ⟨_, by simp only [mixer, h, ok_bind, pure_eq_ok]; rfl, ?_⟩
    intro a ha
    rw [asks_eq, List.map_map, List.mem_map] at ha
    obtain ⟨y, hy, rfl⟩ := ha
    have hk : c.streams[y.2]? = some y.1 := List.mem_zipIdx_iff_getElem?.1 hy
    have hcap := I1.caps y.2 y.1 hk
    rw [if_pos (hx y.1 (List.mem_of_getElem? hk)).2] at hcap
    simp only [Function.comp, ask]
    split
    · rename_i hr
      suffices hpos : 0 < ((getBuf s₁.bufs (name y.2)).space).getD 0 by
        refine ⟨hpos.le, fun x hx' => ?_⟩
        simp only [mixerAsk, List.mem_map] at hx'
        obtain ⟨z, -, rfl⟩ := hx'
        exact solid_blank hpos
      unfold hasRoom at hr
      split at hr
      · rename_i hn
        unfold Buf.space at hn
        rw [hcap] at hn
        cases hn
      · rename_i v hv
        rw [hv]
        have := V.eps
        simp only [decide_eq_true_eq] at hr
        simp only [Option.getD_some]
        linarith
    · simp [mixerAsk]
  · rintro s rs ⟨I, W⟩ -
    obtain ⟨s₁, h, I1, -⟩ := htick I W
    refine ⟨_, by simp only [mixer, h, ok_bind, pure_eq_ok]; rfl, ?_⟩
    intro o ho
    rw [List.mem_singleton] at ho
    subst ho
    refine List.sum_nonneg fun q hq => ?_
    obtain ⟨m, hm, rfl⟩ := List.mem_map.1 hq
    exact (I1.outSolid m hm).1.le
  · rintro s rs os ts ⟨I, W⟩ - ho WO
    obtain ⟨s₁, h, I1, W1⟩ := htick I W
    obtain ⟨hq, hs⟩ := sales h ho WO
    obtain ⟨h1, h2, h3, h4, -, -⟩ := requestLoop_spec c mixerAddr 0 c.streams s₁
    have I2 := (requests_inv (addr := mixerAddr) I1).1
    obtain ⟨l, s₂, e1, e2⟩ := sellLoop_ok V.eps I2 hq (by
      unfold requests; rw [h3]; exact hs)
    exact ⟨l, s₂, by simp only [mixer, h, ok_bind]; exact e1,
      forall₂_of_map e2 (solid_sold V.eps I2 e1)⟩
  · rintro s rs os ts l m as ds ⟨I, W⟩ - ho WO hs ha WA
    obtain ⟨s₁, h, I1, W1⟩ := htick I W
    obtain ⟨hq, hsum⟩ := sales h ho WO
    simp only [mixer, h, ok_bind, pure_eq_ok, Except.ok.injEq] at hs ha
    subst ha
    have H : Honest c s₁ ⟨mixerAddr, ts.map Sale.amt, ds.map fun d => (mixerId c d, d.mat)⟩ := by
      refine ⟨?_, distinct c s₁, ?_, ?_, hq, hsum⟩
      · intro x hx
        obtain ⟨d, hd, rfl⟩ := List.mem_map.1 hx
        exact WA.solid d hd
      · intro x hx
        obtain ⟨d, hd, rfl⟩ := List.mem_map.1 hx
        exact ⟨d.port, (answered WA hd _).2 rfl⟩
      · intro k p a hp ha
        simp only at hp ⊢
        rw [answers_eq WA, totalQty_mats]
        cases hk : (requests c mixerAddr s₁).1[k]? with
        | none => rw [hk] at hp; cases hp
        | some y =>
          rw [hk] at hp
          simp only [Option.getD_some] at hp
          subst hp
          have := WA.amounts k (mixerAsk (some p)) (by rw [List.getElem?_map, hk]; rfl)
          simpa [mixerAsk, ha] using this
    obtain ⟨o, s', hstep, -, W'⟩ := honest_step V I W h H
    have I' := (step_inv V I H.solid hstep).1
    obtain ⟨s₁', s₂', S⟩ := step_stages hstep
    have e1 := S.tick
    rw [h] at e1
    simp only [Except.ok.injEq] at e1
    subst e1
    have e2 := S.sells
    rw [hs] at e2
    simp only [Except.ok.injEq, Prod.mk.injEq] at e2
    obtain ⟨-, rfl⟩ := e2
    refine ⟨s', S.accept, ⟨I', W'⟩, ?_⟩
    refine hμ _ _ fun n => ?_
    have := (step_inv V I H.solid hstep).2 n
    simp only [Mat.massOf_append, List.map_map, Function.comp_def] at this ⊢
    linarith
  · rintro s ⟨I, -⟩ m hm
    rcases List.mem_append.1 hm with hm | hm
    · exact (I.outSolid m hm).2
    · obtain ⟨x, hx, hm⟩ := List.mem_flatMap.1 hm
      exact (I.good.solid x hx m hm).2

theorem deployed {μ : Sim.NMat → ℚ} (hμ : Measure μ) {A : Agreement} {c : Cfg}
    (hc : Sensible (.mixer c)) (hA : Suits A (.mixer c)) :
    ∃ p, deploy (.mixer c) = .ok p ∧ Good A μ holdings p := by
  refine ⟨⟨.mixer c, enter c⟩, rfl, _, (contract hμ hc).free ?_ ?_, ⟨enter_inv hc.1, enter_sizes c⟩,
    trivial⟩
  · intro s as _ h a ha x hx hq
    simp only [mixer, bind_ok, pure_eq_ok, Except.ok.injEq] at h
    obtain ⟨s₁, -, rfl⟩ := h
    rw [asks_eq, List.map_map, List.mem_map] at ha
    obtain ⟨y, hy, rfl⟩ := ha
    have hk := List.mem_of_getElem? (List.mem_zipIdx_iff_getElem?.1 hy)
    simp only [Function.comp, ask] at hx
    split at hx
    · simp only [mixerAsk, mkReqs, List.mem_map, exists_exists_and_eq_and] at hx
      obtain ⟨z, hz, rfl⟩ := hx
      refine hA.1 y.1 hk _ ?_ _ (by simpa [qty_blank] using hq.1)
      exact List.mem_map.2 ⟨z.1, List.mem_of_getElem? (List.mem_zipIdx_iff_getElem?.1 hz), rfl⟩
    · simp [mixerAsk] at hx
  · intro s rs os _ h o ho
    simp only [mixer, bind_ok, pure_eq_ok, Except.ok.injEq] at h
    obtain ⟨s₁, -, rfl⟩ := h
    rw [List.mem_singleton] at ho
    subst ho
    exact ⟨rfl, hA.2⟩

end OfMixer

end Cyc.Sim
