import Verif.Sim.Conversion
import Verif.Sim.Enrichment
import Verif.Sim.FuelFab
import Verif.Sim.Mixer
import Verif.Sim.Reactor
import Verif.Sim.Separations
import Verif.Sim.Sink
import Verif.Sim.Source
import Verif.Sim.Storage
import Verif.Sim.Lives
import Verif.Sim.Parts

/-!
# A time step of a simulation is a time step of each facility in an honest market
-/

namespace Cyc.Sim

section Snoc

variable {S I O : Type} {step : S → I → R (O × S)} {run : S → List I → R (List O × S)}

/-- One more step. -/
theorem run_more (h0 : ∀ s, run s [] = .ok ([], s)) (h1 : ∀ s i is, run s (i :: is) = (do
      let (o, s) ← step s i
      let (os, s) ← run s is
      pure (o :: os, s))) {is : List I} {i : I} {s s' s'' : S} {os : List O} {o : O}
    (h : run s is = .ok (os, s')) (h' : step s' i = .ok (o, s'')) :
    run s (is ++ [i]) = .ok (os ++ [o], s'') := by
  induction is generalizing s os with
  | nil =>
    simp only [h0, Except.ok.injEq, Prod.mk.injEq] at h
    obtain ⟨rfl, rfl⟩ := h
    simp [h1, h0, h', ok_bind, pure_eq_ok]
  | cons j is ih =>
    simp only [h1, bind_ok, pure_eq_ok, Except.ok.injEq, Prod.mk.injEq] at h
    obtain ⟨⟨o₁, s₁⟩, k1, ⟨os₁, s₂⟩, k2, rfl, rfl⟩ := h
    simp only [List.cons_append, h1, k1, ih k2, ok_bind, pure_eq_ok]

/-- One more honest step. -/
theorem honest_more {H : S → I → Prop} {HR : S → List I → Prop}
    (h0 : ∀ s, run s [] = .ok ([], s)) (h1 : ∀ s i is, run s (i :: is) = (do
      let (o, s) ← step s i
      let (os, s) ← run s is
      pure (o :: os, s))) (g0 : ∀ s, HR s [])
    (g1 : ∀ s i is, HR s (i :: is) ↔ H s i ∧ ∀ o s', step s i = .ok (o, s') → HR s' is)
    {is : List I} {i : I} {s s' : S} {os : List O}
    (h : run s is = .ok (os, s')) (hr : HR s is) (h' : H s' i) : HR s (is ++ [i]) := by
  induction is generalizing s os with
  | nil =>
    simp only [h0, Except.ok.injEq, Prod.mk.injEq] at h
    obtain ⟨rfl, rfl⟩ := h
    exact (g1 _ _ _).2 ⟨h', fun _ _ _ => g0 _⟩
  | cons j is ih =>
    simp only [h1, bind_ok, pure_eq_ok, Except.ok.injEq, Prod.mk.injEq] at h
    obtain ⟨⟨o₁, s₁⟩, k1, ⟨os₁, s₂⟩, k2, rfl, rfl⟩ := h
    obtain ⟨a, b⟩ := (g1 _ _ _).1 hr
    refine (g1 _ _ _).2 ⟨a, fun o s' hs => ?_⟩
    rw [k1] at hs
    simp only [Except.ok.injEq, Prod.mk.injEq] at hs
    obtain ⟨-, rfl⟩ := hs
    exact ih k2 (b _ _ k1)

/-- What holds in every honest step holds of every step of an honest history. -/
theorem honest_all {H : S → I → Prop} {HR : S → List I → Prop}
    (h0 : ∀ s, run s [] = .ok ([], s)) (h1 : ∀ s i is, run s (i :: is) = (do
      let (o, s) ← step s i
      let (os, s) ← run s is
      pure (o :: os, s)))
    (g1 : ∀ s i is, HR s (i :: is) ↔ H s i ∧ ∀ o s', step s i = .ok (o, s') → HR s' is)
    {Q : I → Prop} (hQ : ∀ s i o s', H s i → step s i = .ok (o, s') → Q i)
    {is : List I} {s s' : S} {os : List O}
    (h : run s is = .ok (os, s')) (hr : HR s is) : ∀ i ∈ is, Q i := by
  induction is generalizing s os with
  | nil => simp
  | cons j is ih =>
    simp only [h1, bind_ok, pure_eq_ok, Except.ok.injEq, Prod.mk.injEq] at h
    obtain ⟨⟨o₁, s₁⟩, k1, ⟨os₁, s₂⟩, k2, rfl, rfl⟩ := h
    obtain ⟨a, b⟩ := (g1 _ _ _).1 hr
    intro i hi
    rcases List.mem_cons.1 hi with rfl | hi
    · exact hQ _ _ _ _ a k1
    · exact ih k2 (b _ _ k1) i hi

end Snoc

variable {rs : List Req} {os : List Offer} {ts : List Sale} {l : List NMat} {as : List Ask}
  {ds : List Delivery} {n : Nat} {got gave : List (List NMat)}

namespace OfSource
open Source

theorem lives {c : Cfg} (hc : Sensible (.source c)) {s s' m : State}
    (hrs : ∀ r ∈ rs, Sim.Solid r.target) (L : Lived (.source c) s n got gave)
    (P : Part (source c) rs s os ts l as ds m s') :
    Lived (.source c) s' (n + 1) (got ++ [ds.map Delivery.mat]) (gave ++ [l]) := by
  obtain ⟨s₀, is, outs, b, r, H, hn, rfl, rfl⟩ := L
  obtain ⟨h0, h1, h2, h3, h4, h5⟩ := hc
  have ha := P.asks
  cases ha
  obtain rfl : ds = [] := WithinAsks.empty P.deliveries
  have hs := P.settle
  cases hs
  have hsell := P.sell
  simp only [source, bind_ok, pure_eq_ok, Except.ok.injEq, Prod.mk.injEq] at hsell
  obtain ⟨⟨l', s'⟩, e, rfl, rfl⟩ := hsell
  have ho := P.offers
  simp only [source, Except.ok.injEq] at ho
  have W := P.sales
  rw [← ho] at W
  set i : In := ⟨sourceReqs rs, ts.map fun t => ⟨t.target, t.amt⟩⟩ with hi
  have hst : step c s i = .ok (⟨maxQty c s, bids c i.reqs s, l'⟩, s') := by
    simp only [step, hi, e, ok_bind, pure_eq_ok]
  have hon : Honest c s i := by
    have hreq : ∀ r ∈ sourceReqs rs, Sim.Solid r.target := by
      intro r hr
      obtain ⟨x, hx, rfl⟩ := List.mem_map.1 hr
      exact hrs _ (List.fst_mem_of_mem_zipIdx hx)
    cases hb : bids c (sourceReqs rs) s with
    | none =>
      rw [hb] at W
      obtain rfl := WithinOffers.empty W
      exact ⟨fun r hr => (hreq r hr).1, by simp [hi], by simp [hi], fun p hp => by
        simp only [hi] at hp; rw [hb] at hp; cases hp⟩
    | some p =>
      rw [hb] at W
      obtain ⟨w1, w2⟩ := W.single
      have hcap : ∀ t ∈ ts, t.amt ≤ p.cap := by
        intro t ht
        refine le_trans ?_ w2
        exact List.single_le_sum (fun x hx => (w1 x hx).1.le) _ (List.mem_map_of_mem ht)
      refine ⟨fun r hr => (hreq r hr).1, ?_, ?_, ?_⟩
      · intro t ht
        obtain ⟨u, hu, rfl⟩ := List.mem_map.1 ht
        exact w1 u.amt (List.mem_map_of_mem hu)
      · intro t ht
        obtain ⟨u, hu, rfl⟩ := List.mem_map.1 ht
        refine ⟨p, hb, ?_⟩
        unfold bids at hb
        split at hb
        · cases hb
        · split at hb
          · cases hb
          · simp only [Option.some.injEq] at hb
            subst hb
            have hk := W.commod (k := c.outcommod) (fun o ho => by
              rw [List.mem_singleton.1 ho]) u hu
            obtain ⟨j, hj, e⟩ := List.getElem_of_mem (W.asked u hu)
            have hmem : (⟨j, u.commod, u.target⟩ : Source.Req) ∈ sourceReqs rs := by
              refine List.mem_map.2 ⟨(⟨u.commod, u.target⟩, j), ?_, rfl⟩
              rw [List.mem_zipIdx_iff_getElem?]
              simp [hj, e]
            have hq := (hreq _ hmem).1
            refine ⟨⟨j, ofComp (min (qty u.target) (maxQty c s)) (c.recipe.getD u.target)⟩, ?_, ?_,
              ⟨j, u.commod, u.target⟩, hmem, rfl, hk, rfl⟩
            · refine List.mem_flatMap.2 ⟨⟨j, u.commod, u.target⟩,
                List.mem_filter.2 ⟨hmem, by simpa using hk⟩, ?_⟩
              simp [bidsFor, lots, h4, h5, cut]
            · have hr : 0 < qty (c.recipe.getD u.target) := by
                cases hc : c.recipe with
                | none => exact hq
                | some r => exact (h3 r hc).1
              rw [qty_ofComp hr]
              exact le_min (W.pos u hu).2 (hcap u hu)
      · intro q hq
        simp only [hi] at hq
        rw [hb] at hq
        simp only [Option.some.injEq] at hq
        subst hq
        simp only [hi, List.map_map]
        exact w2
  refine ⟨s₀, is ++ [i], outs ++ [_], b, run_more (step := step c) (fun _ => rfl) (fun _ _ _ => rfl) r
    hst, honest_more (step := step c) (run := run c) (H := Honest c) (fun _ => rfl) (fun _ _ _ => rfl)
    (fun _ => trivial) (fun _ _ _ => Iff.rfl) r H hon, by simp [hn], by simp [List.replicate_succ'], ?_⟩
  simp [sentIn]

end OfSource

namespace OfStorage
open Storage

theorem lives {c : Cfg} {want : State Nat → ℚ} (hc : Sensible (.storage c want)) {s s' m : State Nat}
    (L : Lived (.storage c want) s n got gave)
    (P : Part (storage c want) rs s os ts l as ds m s') :
    Lived (.storage c want) s' (n + 1) (got ++ [ds.map Delivery.mat]) (gave ++ [l]) := by
  obtain ⟨p, s₀, is, outs, b, r, H, B, hn, rfl, rfl⟩ := L
  have hsell : sellLoop c (ts.map Sale.amt) s = .ok (l, m) := P.sell
  have hset := P.settle
  simp only [storage, bind_ok, pure_eq_ok, Except.ok.injEq] at hset
  obtain ⟨s1, e1, ⟨rep, s2⟩, e2, rfl⟩ := hset
  have ho := P.offers
  simp only [storage, Except.ok.injEq] at ho
  have W := P.sales
  rw [← ho] at W
  set i : In Nat := ⟨ts.map Sale.amt, ds.map Delivery.mat⟩ with hi
  have hst : step c s i = .ok (⟨s.time, s.stocks.items, l, m.stocks.items, s2.stocks.items, rep⟩,
      { s2 with time := s2.time + 1 }) := by
    simp only [step, hi, hsell, e1, e2, ok_bind, pure_eq_ok]
  have hon : Honest c s i := by
    have hl := hc.1.outCommods
    obtain ⟨k, hk⟩ := List.length_eq_one_iff.1 hl
    rw [hk] at W
    have w := W.single
    refine ⟨?_, w.1, w.2⟩
    intro x hx
    obtain ⟨d, hd, rfl⟩ := List.mem_map.1 hx
    exact (P.deliveries.solid d hd).1
  have hbuy : totalQty i.buys ≤ max 0 (want s) := by
    have ha := P.asks
    simp only [storage, Except.ok.injEq] at ha
    have WA := P.deliveries
    rw [← ha] at WA
    by_cases hw : 0 < want s
    · rw [if_pos hw] at WA
      exact WA.single.trans (le_max_right _ _)
    · rw [if_neg hw] at WA
      simp only [hi, WithinAsks.empty WA, List.map_nil, totalQty_nil]
      exact le_max_left _ _
  refine ⟨p, s₀, is ++ [i], outs ++ [_], b, run_more (step := step c) (fun _ => rfl)
    (fun _ _ _ => rfl) r hst, honest_more (step := step c) (run := run c) (H := Honest c)
    (fun _ => rfl) (fun _ _ _ => rfl) (fun _ => trivial) (fun _ _ _ => Iff.rfl) r H hon,
    honest_more (step := step c) (run := run c) (H := fun s i => totalQty i.buys ≤ max 0 (want s))
      (fun _ => rfl) (fun _ _ _ => rfl) (fun _ => trivial) (fun _ _ _ => Iff.rfl) r B hbuy,
    by simp [hn], by simp [hi], by simp⟩

end OfStorage

namespace OfConversion
open Conversion

theorem lives {c : Cfg} (hc : Sensible (.conversion c)) {s s' m : State}
    (L : Lived (.conversion c) s n got gave)
    (P : Part (conversion c) rs s os ts l as ds m s') :
    Lived (.conversion c) s' (n + 1) (got ++ [ds.map Delivery.mat]) (gave ++ [l]) := by
  obtain ⟨is, outs, r, H, hn, rfl, rfl⟩ := L
  obtain ⟨h0, h1, h2, h3⟩ := hc
  have g1 : ∀ s i is, HonestRun c s (i :: is) ↔
      ((0 < feed s → c.lo ≤ feed s) ∧ ∀ s₁, tick c s = .ok s₁ → Honest c s₁ i) ∧
        ∀ o s', step c s i = .ok (o, s') → HonestRun c s' is := fun _ _ _ => and_assoc.symm
  have S : Substantial is := honest_all (step := step c) (run := run c) (fun _ => rfl)
    (fun _ _ _ => rfl) g1 (Q := fun i => ∀ m ∈ i.buys, Conversion.Solid m) (by
      intro s i o s' h hs
      simp only [step, bind_ok] at hs
      obtain ⟨s₁, e, -⟩ := hs
      exact (h.2 s₁ e).solid) r H
  have I := history_inv r S
  have hsell := P.sell
  simp only [conversion, bind_ok] at hsell
  obtain ⟨s₁, e, b, hb, hs⟩ := hsell
  have I1 := (tick_inv I e).1
  have hset : accept c (ds.map Delivery.mat) m = .ok s' := P.settle
  have ho := P.offers
  simp only [conversion, e, hb, ok_bind, pure_eq_ok, Except.ok.injEq] at ho
  have ha := P.asks
  simp only [conversion, e, ok_bind, pure_eq_ok, Except.ok.injEq] at ha
  set i : In := ⟨conversionReqs rs, ts.map Sale.amt, ds.map Delivery.mat⟩ with hi
  have hst : step c s i = .ok (⟨requests c s₁, b, l⟩, s') := by
    simp only [step, hi, e, hb, hs, hset, ok_bind, pure_eq_ok]
  have hon : Honest c s₁ i := by
    have WA := P.deliveries
    have WO := P.sales
    rw [← ha] at WA
    rw [← ho] at WO
    refine ⟨?_, ?_, ?_, ?_, ?_⟩
    · intro x hx
      obtain ⟨d, hd, rfl⟩ := List.mem_map.1 hx
      exact P.deliveries.solid d hd
    · intro h
      rw [h] at WA
      simp only [hi]
      rw [WithinAsks.empty WA]; rfl
    · intro p h
      rw [h] at WA
      exact WA.single
    · cases b with
      | none =>
        rw [WithinOffers.empty WO] at hi
        simp [hi]
      | some p => exact WO.single.1
    · cases b with
      | none =>
        rw [WithinOffers.empty WO] at hi
        simp only [hi, List.map_nil, List.sum_nil]
        exact I1.output.nonneg
      | some p =>
        refine WO.single.2.trans ?_
        rcases bids_eq I1 (conversionReqs rs) with ⟨-, h⟩ | ⟨x, -, -, h⟩
        · rw [h] at hb; cases hb
        · rw [h] at hb
          simp only [Except.ok.injEq, Option.some.injEq] at hb
          subst hb
          exact le_refl _
  refine ⟨is ++ [i], outs ++ [_], run_more (step := step c) (run := run c) (fun _ => rfl)
    (fun _ _ _ => rfl) r hst, honest_more (step := step c) (run := run c)
    (fun _ => rfl) (fun _ _ _ => rfl) (fun _ => trivial) g1 r H ⟨fun hp => by linarith, ?_⟩,
    by simp [hn], by simp [hi], by simp⟩
  intro s₁' e'
  rw [e, Except.ok.injEq] at e'
  exact e' ▸ hon

end OfConversion

namespace OfMixer
open Mixer

theorem lives {c : Cfg} (hc : Sensible (.mixer c)) {s s' m : State}
    (L : Lived (.mixer c) s n got gave)
    (P : Part (mixer c) rs s os ts l as ds m s') :
    Lived (.mixer c) s' (n + 1) (got ++ [ds.map Delivery.mat]) (gave ++ [l]) := by
  obtain ⟨is, outs, r, H, hn, rfl, rfl⟩ := L
  obtain ⟨V, hx, hlo⟩ := hc
  have g1 : ∀ s i is, HonestRun c s (i :: is) ↔
      ((∀ t, IsGreatest {t | Mixable c s t} t → 0 < t → ∀ r ∈ s.ratios, c.lo ≤ r * t) ∧
        ∀ s₁, tick c s = .ok s₁ → Honest c s₁ i) ∧
        ∀ o s', step c s i = .ok (o, s') → HonestRun c s' is := fun _ _ _ => and_assoc.symm
  have S : Substantial is := honest_all (step := step c) (run := run c) (fun _ => rfl)
    (fun _ _ _ => rfl) g1 (Q := fun i => ∀ d ∈ i.buys, Mixer.Solid d.2) (by
      intro s i o s' h hs
      simp only [step, bind_ok] at hs
      obtain ⟨s₁, e, -⟩ := hs
      exact (h.2 s₁ e).solid) r H
  have I := history_inv V S r
  have hsell := P.sell
  simp only [mixer, bind_ok] at hsell
  obtain ⟨s₁, e, hs⟩ := hsell
  have hset : accept c (ds.map fun d => (mixerId c d, d.mat)) m = .ok s' := P.settle
  have ho := P.offers
  simp only [mixer, e, ok_bind, pure_eq_ok, Except.ok.injEq] at ho
  have ha := P.asks
  simp only [mixer, e, ok_bind, pure_eq_ok, Except.ok.injEq] at ha
  set i : In := ⟨mixerAddr, ts.map Sale.amt, ds.map fun d => (mixerId c d, d.mat)⟩ with hi
  have hst : step c s i = .ok (⟨s₁.output.items, demand c s₁, (requests c mixerAddr s₁).1, l⟩, s') := by
    simp only [step, hi, e, hs, hset, ok_bind, pure_eq_ok]
  have hon : Honest c s₁ i := by
    have WA := P.deliveries
    have WO := P.sales
    rw [← ha] at WA
    rw [← ho] at WO
    refine ⟨?_, distinct c s₁, ?_, ?_, WO.single.1, WO.single.2⟩
    · intro x hx
      obtain ⟨d, hd, rfl⟩ := List.mem_map.1 hx
      exact WA.solid d hd
    · intro x hx
      obtain ⟨d, hd, rfl⟩ := List.mem_map.1 hx
      exact ⟨d.port, (answered WA hd _).2 rfl⟩
    · intro k p a hp ha
      simp only [hi] at hp ⊢
      rw [answers_eq WA, totalQty_mats]
      cases hk : (requests c mixerAddr s₁).1[k]? with
      | none => rw [hk] at hp; cases hp
      | some y =>
        rw [hk] at hp
        simp only [Option.getD_some] at hp
        subst hp
        have := WA.amounts k (mixerAsk (some p)) (by rw [List.getElem?_map, hk]; rfl)
        simpa [mixerAsk, ha] using this
  refine ⟨is ++ [i], outs ++ [_], run_more (step := step c) (run := run c) (fun _ => rfl)
    (fun _ _ _ => rfl) r hst, honest_more (step := step c) (run := run c)
    (fun _ => rfl) (fun _ _ _ => rfl) (fun _ => trivial) g1 r H ⟨?_, ?_⟩,
    by simp [hn], by simp [hi, Function.comp_def], by simp⟩
  · intro t _ ht x hr
    have := ratios_pos V (fun x h => (hx x h).1) I x hr
    have : 0 < x * t := by positivity
    linarith
  · intro s₁' e'
    rw [e, Except.ok.injEq] at e'
    exact e' ▸ hon

end OfMixer

namespace OfSeparations
open Separations

theorem lives {c : Cfg} {s s' m : State}
    (L : Lived (.separations c) s n got gave)
    (P : Part (separations c) rs s os ts l as ds m s') :
    Lived (.separations c) s' (n + 1) (got ++ [ds.map Delivery.mat]) (gave ++ [l]) := by
  obtain ⟨s₀, is, outs, b, r, H, hn, rfl, rfl⟩ := L
  have hsell := P.sell
  simp only [separations, bind_ok] at hsell
  obtain ⟨⟨tr, s₁⟩, e1, ⟨d, rq⟩, e2, u, e3, hs⟩ := hsell
  have hset := P.settle
  simp only [separations, bind_ok, pure_eq_ok, Except.ok.injEq] at hset
  obtain ⟨s3, e4, rfl⟩ := hset
  have ho := P.offers
  simp only [separations, e1, e2, e3, ok_bind, pure_eq_ok, Except.ok.injEq] at ho
  have ha := P.asks
  simp only [separations, e1, e2, ok_bind, pure_eq_ok, Except.ok.injEq] at ha
  set i : In := ⟨quantities rs, ts.map fun t => (t.commod, t.amt), ds.map Delivery.mat⟩ with hi
  have hst : step c s i = .ok (⟨s.time, tr, d, rq, bids c s₁ (quantities rs), l, mayRetire s3⟩,
      { s3 with time := s3.time + 1 }) := by
    simp only [step, hi, e1, e2, e3, hs, e4, ok_bind, pure_eq_ok]
  have hon : Honest c s₁ i := by
    have WA := P.deliveries
    have WO := P.sales
    rw [← ha] at WA
    rw [← ho] at WO
    refine ⟨?_, ?_, ?_, ?_⟩
    · intro x hx
      obtain ⟨d, hd, rfl⟩ := List.mem_map.1 hx
      exact WA.solid d hd
    · intro d' rq' h
      rw [e2] at h
      simp only [Except.ok.injEq, Prod.mk.injEq] at h
      obtain ⟨-, rfl⟩ := h
      cases rq with
      | none =>
        simp only [hi]
        rw [WithinAsks.empty WA]; simp
      | some q => exact WA.single
    · intro x hx
      obtain ⟨t, ht, rfl⟩ := List.mem_map.1 hx
      obtain ⟨o, ho, h1, h2, -⟩ := WO.offered t ht
      obtain ⟨p, hp, rfl⟩ := List.mem_map.1 ho
      exact ⟨(WO.pos t ht).1, h2, p, hp, h1⟩
    · intro p hp
      have := WO.caps ⟨p.commod, p.cap, c.lo, none, fun _ => true, []⟩ (List.mem_map.2 ⟨p, hp, rfl⟩)
      simp only [hi, tradedIn, List.filter_map, List.map_map]
      exact this
  refine ⟨s₀, is ++ [i], outs ++ [_], b, run_more (step := step c) (fun _ => rfl)
    (fun _ _ _ => rfl) r hst, honest_more (step := step c) (run := run c)
    (H := fun s i => ∀ r s₁, tick c s = .ok (r, s₁) → Honest c s₁ i)
    (fun _ => rfl) (fun _ _ _ => rfl) (fun _ => trivial) (fun _ _ _ => Iff.rfl) r H ?_,
    by simp [hn], by simp [hi], by simp⟩
  intro r' s₁' e'
  rw [e1] at e'
  simp only [Except.ok.injEq, Prod.mk.injEq] at e'
  exact e'.2 ▸ hon

end OfSeparations

namespace OfSink
open Sink

theorem lives {c : Cfg} (hc : Sensible (.sink c)) {s s' m : ℤ × State}
    (L : Lived (.sink c) s n got gave) (P : Part (sink c) rs s os ts l as ds m s') :
    Lived (.sink c) s' (n + 1) (got ++ [ds.map Delivery.mat]) (gave ++ [l]) := by
  obtain ⟨s₀, is, outs, b, r, H, hg, ht, hn, rfl, hp, rfl⟩ := L
  have hsell := P.sell
  simp only [sink, bind_ok, pure_eq_ok, Except.ok.injEq, Prod.mk.injEq] at hsell
  obtain ⟨s1, e1, ⟨q, s2⟩, e2, rfl, rfl⟩ := hsell
  have hset := P.settle
  simp only [sink, bind_ok, pure_eq_ok, Except.ok.injEq] at hset
  obtain ⟨s3, e3, rfl⟩ := hset
  have ha := P.asks
  simp only [sink, e1, e2, ok_bind, pure_eq_ok, Except.ok.injEq] at ha
  have WA := P.deliveries
  rw [← ha] at WA
  set i : In := ⟨noRng, noRng, ds.map Delivery.mat, []⟩ with hi
  have hst : step c s.1 s.2 i = .ok (⟨demand c s1, q, prodRequests c s3⟩, s3) := by
    simp only [step, hi, e1, e2, e3, accept, List.map_nil, ok_bind, pure_eq_ok]
  have hon : Honest c s.1 s.2 i := by
    have h0 : ∀ o s', step c s.1 s.2 { i with mats := [], prods := [] } = .ok (o, s') →
        o.matl = q := by
      intro o s' h
      simp only [step, hi, e1, e2, accept, List.map_nil, ok_bind, pure_eq_ok, Except.ok.injEq,
        Prod.mk.injEq] at h
      rw [← h.1]
    refine ⟨?_, by simp [hi], ?_, ?_, Or.inr rfl⟩
    · intro x hx
      obtain ⟨d, hd, rfl⟩ := List.mem_map.1 hx
      exact (WA.solid d hd).1.le
    · intro o s' h
      unfold askedMatl
      rw [h0 o s' h]
      cases q with
      | none =>
        simp only [hi]
        rw [WithinAsks.empty WA]; simp
      | some p => exact WA.single
    · intro o s' h
      simp only [step, hi, e1, e2, accept, List.map_nil, ok_bind, pure_eq_ok, Except.ok.injEq,
        Prod.mk.injEq] at h
      rw [← h.1]
      have he := hc.1.eps
      simp only [hi, List.map_nil, List.sum_nil, askedProd, prodRequests]
      split_ifs with h1
      · linarith
      · exact le_refl _
  have htime : (0 : ℤ) + is.length = s.1 := by rw [ht, hn, zero_add]
  rw [← htime] at hst
  refine ⟨s₀, is ++ [i], outs ++ [_], b, run_append.2 ⟨_, _, _, r, run_one.2 ⟨_, hst, rfl⟩, rfl⟩, ?_,
    ⟨hg.1, ?_⟩, by simp [ht], by simp [hn], by simp [hi], ?_, by simp [List.replicate_succ']⟩
  · have key : ∀ (js : List In) (t : ℤ) (s₀ : State) (outs : List Out),
        run c t s₀ js = .ok (outs, s.2) → HonestRun c t s₀ js → t + js.length = s.1 →
        HonestRun c t s₀ (js ++ [i]) := by
      intro js
      induction js with
      | nil =>
        intro t s₀ outs h _ e
        simp only [run, Except.ok.injEq, Prod.mk.injEq] at h
        simp only [List.length_nil, Nat.cast_zero, add_zero] at e
        rw [e, h.2]
        exact ⟨hon, fun _ _ _ => trivial⟩
      | cons j js ih =>
        intro t s₀ outs h h' e
        simp only [run, bind_ok, pure_eq_ok, Except.ok.injEq, Prod.mk.injEq] at h
        obtain ⟨⟨o₁, s₁⟩, k1, ⟨os₁, s₂⟩, k2, rfl, rfl⟩ := h
        refine ⟨h'.1, fun o s' hs => ?_⟩
        rw [k1] at hs
        simp only [Except.ok.injEq, Prod.mk.injEq] at hs
        obtain ⟨-, rfl⟩ := hs
        refine ih _ _ _ k2 (h'.2 _ _ k1) ?_
        simp only [List.length_cons, Nat.cast_add, Nat.cast_one] at e
        rw [← e]; ring
    exact key is 0 s₀ outs r H htime
  · intro j hj
    rcases List.mem_append.1 hj with hj | hj
    · exact hg.2 j hj
    · rw [List.mem_singleton.1 hj]; exact ⟨hg.1, hg.1⟩
  · intro j hj
    rcases List.mem_append.1 hj with hj | hj
    · exact hp j hj
    · rw [List.mem_singleton.1 hj]

end OfSink

namespace OfEnrichment
open Enrichment

/-- Deals within the offers are honest to the bids. -/
theorem honest_sales {c : Cfg} (hc : Sensible (.enrichment c)) {rs : List Sim.Req} {ts : List Sale} {p : Ports}
    {s s1 : State} (hrs : ∀ r ∈ rs, Sim.Solid r.target) (hb : bids c (targets rs) s = .ok (p, s1))
    (W : WithinOffers rs (tailsOffer c p ++ productOffer c p) ts) :
    HonestSales c p (ts.map (enrichmentTrade c)) := by
  have hc' := hc
  obtain ⟨V, -, hne, -⟩ := hc
  have kinds : ∀ t ∈ ts, (t.commod = c.tailsCommod ∧ ∃ tp, p.tails = some tp) ∨
      (t.commod = c.productCommod ∧ t.commod ≠ c.tailsCommod ∧ served c t.target = true ∧
        ∃ pp, p.product = some pp) := by
    intro t ht
    obtain ⟨o, h1, h2, -, -, h4⟩ := W.offered t ht
    rcases mem_offers h1 with ⟨tp, e1, e2, -⟩ | ⟨pp, e1, e2, -, -, e4, -⟩
    · exact Or.inl ⟨by rw [← h2, e2], tp, e1⟩
    · exact Or.inr ⟨by rw [← h2, e2], by rw [← h2, e2]; exact hne, by rwa [e4] at h4, pp, e1⟩
  have htails : tailsTrades c (ts.map (enrichmentTrade c)) =
      (ts.filter fun t => t.commod = c.tailsCommod).map (enrichmentTrade c) := by
    unfold tailsTrades
    rw [List.filter_map]; rfl
  have hproduct : productTrades c (ts.map (enrichmentTrade c)) =
      (ts.filter fun t => t.commod = c.productCommod).map (enrichmentTrade c) := by
    unfold productTrades
    rw [List.filter_map]
    congr 1
    apply List.filter_congr
    intro t ht
    simp only [Function.comp, enrichmentTrade]
    rcases kinds t ht with ⟨e, -⟩ | ⟨e, e', -⟩
    · simp [e, hne.symm]
    · simp [e, hne]
  have hcut : ∀ (f : Enrichment.NMat → Option ℚ), ((productTrades c (ts.map (enrichmentTrade c))).map
      fun t => f (cut t)) = (ts.filter fun t => t.commod = c.productCommod).map fun t =>
        f (cut ⟨c.productCommod, offer t.target, t.amt⟩) := by
    intro f
    rw [hproduct, List.map_map]
    apply List.map_congr_left
    intro t ht
    have : t.commod = c.productCommod := by simpa using (List.mem_filter.1 ht).2
    simp only [Function.comp, enrichmentTrade, this, if_neg hne]
  refine ⟨?_, ?_, ?_, ?_, ?_, ?_⟩
  · intro x hx
    obtain ⟨t, h1, rfl⟩ := List.mem_map.1 hx
    have h2 := W.pos t h1
    refine ⟨h2.1, ?_⟩
    by_cases e : t.commod = c.tailsCommod
    · simpa [enrichmentTrade, e] using h2.2
    · rcases kinds t h1 with ⟨e', -⟩ | ⟨-, -, hs, -⟩
      · exact absurd e' e
      · have := (served_offer hc' (hrs _ (W.asked t h1)) hs).2.1
        simpa [enrichmentTrade, e, this] using h2.2
  · rw [htails]
    intro x hx
    obtain ⟨t, h1, rfl⟩ := List.mem_map.1 hx
    obtain ⟨h1, h2⟩ := List.mem_filter.1 h1
    have h2 : t.commod = c.tailsCommod := by simpa using h2
    rcases kinds t h1 with ⟨-, h⟩ | ⟨-, h, -⟩
    · exact h
    · exact absurd h2 h
  · intro tp htp
    have := W.caps ⟨c.tailsCommod, tp.cap, c.lo, none, fun _ => true, []⟩
      (List.mem_append_left _ (by unfold tailsOffer; rw [htp]; simp))
    rw [htails, List.map_map]
    exact this
  · rw [hproduct]
    intro x hx
    obtain ⟨t, h1, rfl⟩ := List.mem_map.1 hx
    obtain ⟨h1, h2⟩ := List.mem_filter.1 h1
    have h2 : t.commod = c.productCommod := by simpa using h2
    rcases kinds t h1 with ⟨e, -⟩ | ⟨-, e, hs, pp, hpp⟩
    · exact absurd (h2.symm.trans e) hne
    refine ⟨h2, pp, hpp, ?_⟩
    obtain ⟨-, ⟨e', -⟩ | ⟨rs', k1, -, -, -, -, k2⟩⟩ := bids_inv V.eps.le hb
    · rw [hpp] at e'; cases e'
    rw [k2] at hpp
    obtain rfl := Option.some.inj hpp
    have ht : t.target ∈ rs' := by
      unfold targets at k1
      split at k1
      · cases k1
      · rw [← Option.some.inj k1]
        have := W.asked t h1
        exact List.mem_map.2 ⟨⟨t.commod, t.target⟩, List.mem_filter.2 ⟨this, by simp [h2]⟩, rfl⟩
    obtain ⟨j, hj⟩ := List.mem_iff_getElem?.1 ht
    exact ⟨j, mem_productBids.2 ⟨t.target, hj, hs, by simp [enrichmentTrade, e]⟩⟩
  · intro pp hpp
    unfold Within
    rw [hcut]
    obtain ⟨vs, k1, k2⟩ := W.limits _ (List.mem_append_right _ (by
      unfold productOffer; rw [hpp]; exact List.mem_singleton.2 rfl)) _ (List.mem_cons_self ..)
    exact ⟨vs, k1, k2⟩
  · intro pp hpp
    unfold Within
    rw [hcut]
    obtain ⟨vs, k1, k2⟩ := W.limits _ (List.mem_append_right _ (by
      unfold productOffer; rw [hpp]; exact List.mem_singleton.2 rfl)) _
      (List.mem_cons_of_mem _ (List.mem_cons_self ..))
    exact ⟨vs, k1, k2⟩

theorem lives {c : Cfg} {s s' m : State} (hc : Sensible (.enrichment c))
    (hrs : ∀ r ∈ rs, Sim.Solid r.target) (L : Lived (.enrichment c) s n got gave) (P : Part (enrichment c) rs s os ts l as ds m s') :
    Lived (.enrichment c) s' (n + 1) (got ++ [ds.map Delivery.mat]) (gave ++ [l]) := by
  obtain ⟨s₀, is, outs, b, r, H, hn, rfl, rfl⟩ := L
  have hsell := P.sell
  simp only [enrichment, bind_ok, pure_eq_ok, Except.ok.injEq, Prod.mk.injEq] at hsell
  obtain ⟨⟨p, s1⟩, e1, ⟨l', s2⟩, e2, rfl, rfl⟩ := hsell
  have e3 : accept c (ds.map Delivery.mat) s2 = .ok s' := P.settle
  have ha := P.asks
  simp only [enrichment, Except.ok.injEq] at ha
  have WA := P.deliveries
  rw [← ha] at WA
  set i : In := ⟨targets rs, ts.map (enrichmentTrade c), ds.map Delivery.mat⟩ with hi
  have hst : step c s i = .ok (⟨requests c (tick c s),
      ((tick c s).tails.quantity, (tick c s).inventory.quantity), p, l'.map Prod.fst,
      l'.filterMap Prod.snd, s'.intra⟩, s') := by
    simp only [step, hi, e1, e2, e3, ok_bind, pure_eq_ok]
  have hof := P.offers
  simp only [enrichment, bind_ok, pure_eq_ok, Except.ok.injEq] at hof
  obtain ⟨⟨p', s1'⟩, o1, o2⟩ := hof
  rw [e1] at o1
  obtain ⟨rfl, -⟩ := Prod.mk.inj (Except.ok.inj o1)
  have W := P.sales
  rw [← o2] at W
  have hsales : ∀ q s₁, bids c i.reqs (tick c s) = .ok (q, s₁) → HonestSales c q i.sells := by
    intro q s₁ hq
    obtain ⟨rfl, -⟩ := Prod.mk.inj (Except.ok.inj (e1.symm.trans hq))
    exact honest_sales hc hrs e1 W
  have hreqs : ∀ k xs, i.reqs k = some xs → ∀ m ∈ xs, Mat.Nonneg m := by
    intro k xs hk m hm
    simp only [hi, targets] at hk
    split at hk
    · cases hk
    · rw [← Option.some.inj hk] at hm
      obtain ⟨r, hr, rfl⟩ := List.mem_map.1 hm
      exact (hrs r (List.mem_filter.1 hr).1).2
  have hon : HonestBuys c (tick c s) i.buys := by
    refine ⟨?_, ?_⟩
    · intro x hx
      obtain ⟨d, hd, rfl⟩ := List.mem_map.1 hx
      exact WA.solid d hd
    · cases hq : requests c (tick c s) with
      | none =>
        rw [hq] at WA
        simp only [hi]
        rw [WithinAsks.empty WA]; simp
      | some q =>
        rw [hq] at WA
        exact WA.single
  refine ⟨s₀, is ++ [i], outs ++ [_], b, run_more (step := step c) (fun _ => rfl)
    (fun _ _ _ => rfl) r hst, honest_more (step := step c) (run := run c)
    (H := Honest c)
    (fun _ => rfl) (fun _ _ _ => rfl) (fun _ => trivial) (fun _ _ _ => Iff.rfl) r H ⟨hon, hreqs, hsales⟩,
    by simp [hn], by simp [hi], by simp⟩

end OfEnrichment

namespace OfFuelFab
open FuelFab

theorem lives {c : Cfg} (hc : Sensible (.fuelFab c)) {s s' m : State}
    (hrs : ∀ r ∈ rs, Sim.Solid r.target)
    (L : Lived (.fuelFab c) s n got gave) (P : Part (fuelFab c) rs s os ts l as ds m s') :
    Lived (.fuelFab c) s' (n + 1) (got ++ [ds.map Delivery.mat]) (gave ++ [l]) := by
  obtain ⟨s₀, is, outs, b, r, H, hn, rfl, rfl⟩ := L
  have V := hc.1
  have g1 : ∀ s i is, fuelFed c s (i :: is) ↔
      (∀ a s₁, FuelFab.requests c i.addr s = .ok (a, s₁) →
      FuelFab.Distinct a ∧ FuelFab.HonestBuys a i.buys ∧ ∀ p, FuelFab.bids c i.reqs s₁ = .ok p →
        FuelFab.HonestSales c (i.reqs c.outCommod) p i.sells) ∧
    ∀ o s', FuelFab.step c s i = .ok (o, s') → fuelFed c s' is := fun _ _ _ => Iff.rfl
  have S : Substantial is := honest_all (step := step c) (run := run c) (fun _ => rfl)
    (fun _ _ _ => rfl) g1 (Q := fun i => ∀ d ∈ i.buys, FuelFab.Solid d.2) (by
      intro s i o s' h hs
      simp only [step, bind_ok] at hs
      obtain ⟨⟨a, s₁⟩, e, -⟩ := hs
      exact (h _ _ e).2.1.mass) r H
  have R : Reachable c s := ⟨is, outs, S, s₀, b, r⟩
  have hr := requests_ok (addr := id) (reachable_inv V R)
  have hsell := P.sell
  simp only [fuelFab, bind_ok] at hsell
  obtain ⟨⟨a, s₁⟩, e1, p, e2, e3⟩ := hsell
  have e4 : acceptAll c (ds.map fun d => (fuelId c d, d.mat)) m = .ok s' := P.settle
  have ha := P.asks
  simp only [fuelFab, e1, ok_bind, pure_eq_ok, Except.ok.injEq] at ha
  have ho := P.offers
  simp only [fuelFab, e1, e2, ok_bind, pure_eq_ok, Except.ok.injEq] at ho
  have WA := P.deliveries
  rw [← ha] at WA
  have WO := P.sales
  rw [← ho] at WO
  set i : In := ⟨id, fuelTargets rs, ts.map fun t => fuelTrade c s₁ t.target t.amt,
    ds.map fun d => (fuelId c d, d.mat)⟩ with hi
  have hst : step c s i = .ok (⟨a, p, l⟩, s') := by
    simp only [step, hi, e1, e2, e3, e4, ok_bind, pure_eq_ok]
  have ea : a = asksOf c id s := by
    rw [hr] at e1
    simp only [Except.ok.injEq, Prod.mk.injEq] at e1
    exact e1.1.symm
  have hon : ∀ a s₁, FuelFab.requests c i.addr s = .ok (a, s₁) →
      FuelFab.Distinct a ∧ FuelFab.HonestBuys a i.buys ∧ ∀ p, FuelFab.bids c i.reqs s₁ = .ok p →
        FuelFab.HonestSales c (i.reqs c.outCommod) p i.sells := by
    intro a' s₁' h
    have h' := e1.symm.trans h
    simp only [Except.ok.injEq, Prod.mk.injEq] at h'
    obtain ⟨rfl, rfl⟩ := h'
    refine ⟨ea ▸ distinct c s, ?_, ?_⟩
    · subst ea
      exact honestBuys WA
    · intro p' h
      have h' := e2.symm.trans h
      simp only [Except.ok.injEq] at h'
      subst h'
      cases p with
      | none =>
        obtain rfl := WithinOffers.empty WO
        exact ⟨by simp [hi], by simp, by simp, by simp, by simp⟩
      | some p => exact (honestSales V R e1 hrs e2 WO).1
  refine ⟨s₀, is ++ [i], outs ++ [_], b, run_more (step := step c) (fun _ => rfl)
    (fun _ _ _ => rfl) r hst, honest_more (step := step c) (run := run c)
    (fun _ => rfl) (fun _ _ _ => rfl) (fun _ => trivial) g1 r H hon,
    by simp [hn], by simp [hi, Function.comp_def], by simp⟩

end OfFuelFab

namespace OfReactor
open Reactor

theorem assemblies_eq (enc : Sim.NMat → Nat) (k : Nat) (ds : List Delivery) :
    (assemblies enc k ds).map Prod.snd =
      ((ds.map Delivery.mat).zipIdx k).map fun x => (⟨x.2, qty x.1, enc x.1⟩ : Assem) := by
  induction ds generalizing k with
  | nil => rfl
  | cons d ds ih => simp [assemblies, ih]

theorem run_held {c : Cfg} {is : List In} {s s' : State} {outs : List Out}
    (h : run c s is = .ok (outs, s')) :
    ((held s ++ received is).map tag).Perm ((held s' ++ shipped outs).map tag) := by
  induction is generalizing s outs with
  | nil =>
    simp only [run, Except.ok.injEq, Prod.mk.injEq] at h
    obtain ⟨rfl, rfl⟩ := h
    exact .refl _
  | cons i is ih =>
    simp only [run, bind_ok, pure_eq_ok, Except.ok.injEq, Prod.mk.injEq] at h
    obtain ⟨⟨o₁, s₁⟩, k1, ⟨os₁, s₂⟩, k2, rfl, rfl⟩ := h
    have h1 := step_held k1
    have h2 := ih k2
    simp only [received, shipped, List.flatMap_cons, List.map_append] at h1 h2 ⊢
    rw [← List.append_assoc]
    refine (h1.append_right _).trans ?_
    rw [List.append_assoc]
    refine (List.perm_append_comm.append_left _).trans ?_
    rw [← List.append_assoc]
    refine (h2.append_right _).trans ?_
    rw [List.append_assoc]
    exact List.perm_append_comm.append_left _

theorem numbered_flatten (enc : Sim.NMat → Nat) (k : Nat) (got : List (List Sim.NMat)) :
    (numbered enc k got).flatten =
      (got.flatten.zipIdx k).map fun x => (⟨x.2, qty x.1, enc x.1⟩ : Assem) := by
  induction got generalizing k with
  | nil => rfl
  | cons ms got ih =>
    rw [numbered, List.flatten_cons, List.flatten_cons, List.zipIdx_append, List.map_append, ih,
      Nat.add_comm]

theorem numbered_more (enc : Sim.NMat → Nat) (k : Nat) (got : List (List Sim.NMat))
    (ms : List Sim.NMat) : numbered enc k (got ++ [ms]) = numbered enc k got ++
      [(ms.zipIdx (k + got.flatten.length)).map fun x => (⟨x.2, qty x.1, enc x.1⟩ : Assem)] := by
  induction got generalizing k with
  | nil => simp [numbered]
  | cons m got ih => simp [numbered, ih, Nat.add_assoc]

theorem received_eq {enc : Sim.NMat → Nat} {is : List In} {got : List (List Sim.NMat)}
    (h : is.map (fun i => i.buys.map Prod.snd) = numbered enc 0 got) :
    received is = got.flatten.zipIdx.map fun x => (⟨x.2, qty x.1, enc x.1⟩ : Assem) := by
  rw [← numbered_flatten, ← h]
  rfl

/-- A time step of a reactor in a simulation is one of its own. -/
theorem turn {c : Cfg} {enc : Sim.NMat → Nat} {dec : Nat → Sim.NMat}
    (hc : Sensible (.reactor c enc dec)) {s s' m : State × Nat} {is : List In} {outs : List Out}
    (h : History c is outs s.1)
    (hg : is.map (fun i => i.buys.map Prod.snd) = numbered enc 0 got)
    (hid : s.2 = got.flatten.length) (P : Part (reactor c enc dec) rs s os ts l as ds m s') :
    ∃ o s1 s2 s3, History c (is ++ [⟨quantities rs, ts.map Sale.commod, assemblies enc s.2 ds⟩])
        (outs ++ [o]) s'.1 ∧
      StepSpec c s.1 ⟨quantities rs, ts.map Sale.commod, assemblies enc s.2 ds⟩ o s'.1 s1 s2 s3 ∧
      as = asksOf c dec s.1 s1 ∧ os = offersOf c rs s1 ∧
      l = o.shipped.map (fun x => (dec x.2.comp).scale x.2.qty) ∧ s'.2 = s.2 + ds.length := by
  obtain ⟨s₀, b, H, r⟩ := h
  have hw := hc.1
  have G : Reactor.Good c s.1 := run_good hw (enter_good hw b) H r
  have hlt : ∀ a ∈ held s.1, a.id < s.2 := by
    intro a ha
    have h1 : tag a ∈ (held s₀ ++ received is).map tag :=
      (run_held r).symm.subset (List.mem_map_of_mem (List.mem_append_left _ ha))
    have h0 : held s₀ = [] := by
      unfold enter at b
      dsimp only at b
      split at b
      · cases b
      · simp only [Except.ok.injEq] at b
        subst b
        simp [held]
    rw [h0, List.nil_append, received_eq hg] at h1
    obtain ⟨x, hx, e⟩ := List.mem_map.1 h1
    obtain ⟨y, hy, rfl⟩ := List.mem_map.1 hx
    have e' : y.2 = a.id := congrArg Prod.fst e
    rw [← e', hid]
    have := List.snd_lt_of_mem_zipIdx hy
    simpa using this
  obtain ⟨s1, t1, g1, -, -, -, of1⟩ := offerPhase_ok hw G (quantities rs)
  obtain ⟨s1', t1', -, -, -, -, of0⟩ := offerPhase_ok hw G fun _ => []
  rw [t1, Except.ok.injEq] at t1'
  subst t1'
  have ho := P.offers
  simp only [reactor, of1, ok_bind, pure_eq_ok, Except.ok.injEq] at ho
  have ha := P.asks
  simp only [reactor, of0, ok_bind, pure_eq_ok, Except.ok.injEq] at ha
  have WA := P.deliveries
  rw [← ha] at WA
  have WO := P.sales
  rw [← ho] at WO
  obtain ⟨hp, hcov⟩ := sold_covered (c := c) (rs := rs) (s1 := s1) WO
  set i : In := ⟨quantities rs, ts.map Sale.commod, assemblies enc s.2 ds⟩ with hi
  have hon : ∀ o s1, offerPhase c i.reqs s.1 = .ok (o, s1) → Honest c s.1 o i := by
    intro o st hof
    have hof' := of1.symm.trans hof
    simp only [Except.ok.injEq, Prod.mk.injEq] at hof'
    obtain ⟨rfl, -⟩ := hof'
    refine ⟨asked hw WA s.2, ?_, ?_, hcov⟩
    · simp only [hi, assemblies_ids]
      exact List.nodup_range'
    · intro d hd a ha
      have h1 := hlt a ha
      have h2 : d.2.id ∈ (assemblies enc s.2 ds).map fun d => d.2.id :=
        List.mem_map_of_mem (f := fun d : String × Assem => d.2.id) hd
      rw [assemblies_ids] at h2
      have := (List.mem_range'_1.1 h2).1
      omega
  obtain ⟨o, s'', u1, u2, u3, k1, sp⟩ := step_ok hw G hon
  obtain rfl : u1 = s1 := Except.ok.inj (sp.ticked.symm.trans t1)
  obtain ⟨m', m1, m2⟩ := actor_step (dec := dec) k1
  obtain ⟨rfl, rfl⟩ := Prod.mk.inj (Except.ok.inj (m1.symm.trans P.sell))
  obtain rfl := Except.ok.inj (m2.symm.trans P.settle)
  exact ⟨o, u1, u2, u3, ⟨s₀, b, honest_more (step := step c) (run := run c)
    (H := fun s i => ∀ o s1, offerPhase c i.reqs s = .ok (o, s1) → Honest c s o i)
    (fun _ => rfl) (fun _ _ _ => rfl) (fun _ => trivial) (fun _ _ _ => Iff.rfl) r H hon,
    run_more (step := step c) (fun _ => rfl) (fun _ _ _ => rfl) r k1⟩, sp, ha.symm, ho.symm, rfl, rfl⟩

theorem lives {c : Cfg} {enc : Sim.NMat → Nat} {dec : Nat → Sim.NMat}
    (hc : Sensible (.reactor c enc dec)) {s s' m : State × Nat}
    (L : Lived (.reactor c enc dec) s n got gave)
    (P : Part (reactor c enc dec) rs s os ts l as ds m s') :
    Lived (.reactor c enc dec) s' (n + 1) (got ++ [ds.map Delivery.mat]) (gave ++ [l]) := by
  obtain ⟨is, outs, h, hn, hg, rfl, hid⟩ := L
  obtain ⟨o, s1, s2, s3, h', -, -, -, rfl, e⟩ := turn hc h hg hid P
  refine ⟨_, _, h', by simp [hn], ?_, ?_, ?_⟩
  · rw [numbered_more, List.map_append, hg, Nat.zero_add, ← hid, ← assemblies_eq]; rfl
  · simp [material]
  · simp [hid, e]

end OfReactor

end Cyc.Sim
