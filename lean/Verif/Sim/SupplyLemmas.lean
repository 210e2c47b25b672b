import Verif.Sim.Supply
import Verif.Sim.Eager
import Verif.Sim.LimitsLemmas
import Verif.Reactor.Steady

/-!
# What facilities ask for and offer
-/

namespace Cyc.Sim

/-! ## States -/

theorem OfSeparations.lived_inv {c : Separations.Cfg} (hc : Sensible (.separations c))
    {s : Separations.State} {n : Nat} {got gave : List (List NMat)}
    (L : Lived (.separations c) s n got gave) : Separations.Inv c s := by
  obtain ⟨s₀, is, os, b, r, H, -⟩ := L
  refine Separations.history_inv hc.1 ⟨s₀, b, r⟩ ?_
  exact honest_all (step := Separations.step c) (run := Separations.run c) (fun _ => rfl)
    (fun _ _ _ => rfl) (H := fun s i => ∀ r s₁, Separations.tick c s = .ok (r, s₁) →
      Separations.Honest c s₁ i) (HR := Separations.HonestRun c) (fun _ _ _ => Iff.rfl) (by
      intro s i o s' h hs
      obtain ⟨tr, s₁, -, k1, -⟩ := Separations.C31_received hs
      exact (h _ _ k1).buys) r H

theorem OfFuelFab.lived_reachable {c : FuelFab.Cfg} {s : FuelFab.State} {n : Nat}
    {got gave : List (List NMat)} (L : Lived (.fuelFab c) s n got gave) : FuelFab.Reachable c s := by
  obtain ⟨s₀, is, os, b, r, H, -⟩ := L
  exact ⟨is, os, fuelFab_substantial r H, s₀, b, r⟩

theorem OfReactor.lived_good {c : Reactor.Cfg} {enc : NMat → Nat} {dec : Nat → NMat}
    (hc : Sensible (.reactor c enc dec)) {s : Reactor.State × Nat} {n : Nat}
    {got gave : List (List NMat)} (L : Lived (.reactor c enc dec) s n got gave) :
    Reactor.Good c s.1 := by
  obtain ⟨is, os, ⟨s₀, b, H, r⟩, -⟩ := L
  exact Reactor.run_good hc.1 (Reactor.enter_good hc.1 b) H r

namespace OfSink
open Sink

theorem run_ready {c : Cfg} (hc : Sensible (.sink c)) {is : List In} {t : ℤ} {s s' : State}
    {os : List Out} (I : Inv c s) (hn : s.nextBuy = -1) (S : ∀ i ∈ is, Sound i.rng)
    (h : run c t s is = .ok (os, s')) : Inv c s' ∧ s'.nextBuy = -1 := by
  induction is generalizing t s os with
  | nil =>
    simp only [run, Except.ok.injEq, Prod.mk.injEq] at h
    obtain ⟨-, rfl⟩ := h
    exact ⟨I, hn⟩
  | cons i is ih =>
    simp only [run, bind_ok, pure_eq_ok, Except.ok.injEq, Prod.mk.injEq] at h
    obtain ⟨⟨o, s₁⟩, k1, ⟨os₁, s₂⟩, k2, rfl, rfl⟩ := h
    obtain ⟨a, m, j1, j2, j3, -, j5⟩ := step_ok hc.1 I (S i (by simp)) k1
    have e : m = -1 := by
      unfold tickAmt at j1
      rw [if_pos hn] at j1
      unfold setRequestAmt at j1
      simp only [hc.2.2.2.1, if_true, pure_eq_ok, Except.ok.injEq] at j1
      have := congrArg State.nextBuy j1
      exact this.symm.trans hn
    refine ih (s := s₁) ?_ ?_ (fun x hx => S x (by simp [hx])) k2
    · subst j5; exact ⟨I.cap, I.prefs, I.length⟩
    · subst j5; exact e

theorem lived_ready {c : Cfg} (hc : Sensible (.sink c)) {s : ℤ × State} {n : Nat}
    {got gave : List (List Sim.NMat)} (L : Lived (.sink c) s n got gave) :
    Inv c s.2 ∧ s.2.nextBuy = -1 := by
  obtain ⟨s₀, is, os, b, r, -, S, -⟩ := L
  obtain ⟨I, -, -, hn⟩ := enter_ok b
  refine run_ready hc I (hn ?_) (fun i hi => (S.2 i hi).1) r
  unfold RandomTime
  rw [hc.2.2.2.2]; decide

/-- What a sink asks for. -/
theorem asks_eq {c : Cfg} (hc : Sensible (.sink c)) {s : ℤ × State} (I : Inv c s.2)
    (hn : s.2.nextBuy = -1) :
    (sink c).asks s = .ok (if room c s.2 > c.eps then [⟨(c.commods.zip (prefsOf c)).map fun r =>
      (r.1, target c (room c s.2)), room c s.2, false⟩] else []) := by
  obtain ⟨e1, e2⟩ := asked hc.1 hc.2.2.2.1 (t := s.1) I hn
  simp only [sink, e1, e2, ok_bind, pure_eq_ok, outOf]
  split
  · rename_i h
    split at h
    · cases h
    · rename_i h'; rw [if_neg h']
  · rename_i p h
    split at h
    · rename_i h'
      rw [if_pos h']
      simp only [Option.some.injEq] at h
      subst h
      simp only [qty_target hc.1]
    · cases h

end OfSink

/-! ## Commodities -/

/-- A facility asks for what its prototype buys. -/
theorem asked_commods {k : Kind} (hc : Sensible k) {s : (act k).S} {n : Nat} {got gave : List (List NMat)}
    (L : Lived k s n got gave) {as : List Ask} (h : (act k).asks s = .ok as) :
    ∀ a ∈ as, ∀ x ∈ a.alts, x.1 ∈ buysOf k := by
  intro a ha x hx
  cases k with
  | conversion c =>
    simp only [act, conversion, bind_ok, pure_eq_ok, Except.ok.injEq] at h
    obtain ⟨s₁, -, rfl⟩ := h
    unfold Conversion.requests at ha
    split at ha
    · cases ha
    · rename_i p hp
      split at hp
      · cases hp
      · simp only [Option.some.injEq] at hp
        subst hp
        rw [List.mem_singleton] at ha
        subst ha
        simp only [List.map_map, List.mem_map] at hx
        obtain ⟨k, hk, rfl⟩ := hx
        exact hk
  | enrichment c =>
    simp only [act, enrichment, Except.ok.injEq] at h
    subst h
    split at ha
    · cases ha
    · rw [List.mem_singleton] at ha
      subst ha
      rw [List.mem_singleton] at hx
      subst hx
      simp [buysOf]
  | fuelFab c =>
    have hr := FuelFab.requests_ok (addr := id) (FuelFab.reachable_inv hc.1 (OfFuelFab.lived_reachable L))
    change (fuelFab c).asks s = _ at h
    simp only [fuelFab, hr, ok_bind, pure_eq_ok, Except.ok.injEq] at h
    subst h
    simp only [List.mem_cons, List.not_mem_nil, or_false] at ha
    simp only [buysOf, List.mem_append]
    rcases ha with rfl | rfl | rfl
    · exact Or.inl (Or.inl (OfFuelFab.mem_alts hx).2.1)
    · exact Or.inl (Or.inr (OfFuelFab.mem_alts hx).2.1)
    · exact Or.inr (OfFuelFab.mem_alts hx).2.1
  | mixer c =>
    simp only [act, mixer, bind_ok, pure_eq_ok, Except.ok.injEq] at h
    obtain ⟨s₁, -, rfl⟩ := h
    rw [OfMixer.asks_eq, List.map_map, List.mem_map] at ha
    obtain ⟨y, hy, rfl⟩ := ha
    have hk := List.mem_of_getElem? (List.mem_zipIdx_iff_getElem?.1 hy)
    simp only [Function.comp, Mixer.ask] at hx
    split at hx
    · simp only [mixerAsk, Mixer.mkReqs, List.mem_map, exists_exists_and_eq_and] at hx
      obtain ⟨z, hz, rfl⟩ := hx
      exact List.mem_flatMap.2 ⟨_, hk, List.mem_map.2
        ⟨z.1, List.mem_of_getElem? (List.mem_zipIdx_iff_getElem?.1 hz), rfl⟩⟩
    · simp [mixerAsk] at hx
  | reactor c enc dec =>
    obtain ⟨s1, -, -, -, -, -, h2⟩ := Reactor.offerPhase_ok hc.1 (OfReactor.lived_good hc L) fun _ => []
    change (reactor c enc dec).asks s = _ at h
    simp only [reactor, h2, ok_bind, pure_eq_ok, Except.ok.injEq] at h
    subst h
    obtain ⟨p, hp, rfl⟩ := List.mem_map.1 ha
    rw [List.eq_of_mem_replicate hp] at hx
    obtain ⟨r, hr, rfl⟩ := List.mem_map.1 hx
    exact (Reactor.mem_onePortfolio hr).1
  | separations c =>
    have I := OfSeparations.lived_inv hc L
    obtain ⟨V, -, -, -, hp, -⟩ := hc
    change (separations c).asks s = _ at h
    simp only [separations, bind_ok, pure_eq_ok, Except.ok.injEq] at h
    obtain ⟨⟨r, s₁⟩, h1, ⟨d, rq⟩, h2, rfl⟩ := h
    split at ha
    · cases ha
    · rename_i p
      simp only at p
      subst p
      rw [List.mem_singleton] at ha
      subst ha
      obtain ⟨k, hk, rfl⟩ := List.mem_map.1 hx
      unfold Separations.requests at h2
      simp only [bind_ok] at h2
      obtain ⟨k', -, h2⟩ := h2
      split at h2
      · simp only [pure_eq_ok, Except.ok.injEq, Prod.mk.injEq, reduceCtorEq, and_false] at h2
      · split at h2
        · simp only [pure_eq_ok, Except.ok.injEq, Prod.mk.injEq, reduceCtorEq, and_false] at h2
        · simp only [bind_ok, pure_eq_ok, Except.ok.injEq, Prod.mk.injEq, Option.some.injEq] at h2
          obtain ⟨l, h2, -, rfl⟩ := h2
          rw [Separations.mkRequests_ok, Except.ok.injEq] at h2
          · subst h2
            exact (List.of_mem_zip hk).1
          · rw [(Separations.tick_inv V I h1).prefs]
            split
            · simp
            · rename_i hp'
              exact (hp.resolve_left hp').ge
  | sink c =>
    obtain ⟨I, hn⟩ := OfSink.lived_ready hc L
    rw [show (act (.sink c)).asks s = _ from OfSink.asks_eq hc I hn, Except.ok.injEq] at h
    subst h
    split at ha
    · rw [List.mem_singleton] at ha
      subst ha
      obtain ⟨r, hr, rfl⟩ := List.mem_map.1 hx
      exact (List.of_mem_zip hr).1
    · cases ha
  | source c =>
    simp only [act, source, Except.ok.injEq] at h
    subst h
    cases ha
  | storage c want =>
    simp only [act, storage, Except.ok.injEq] at h
    subst h
    split at ha
    · rw [List.mem_singleton] at ha
      subst ha
      obtain ⟨k, hk, rfl⟩ := List.mem_map.1 hx
      exact hk
    · cases ha

/-- A facility offers what its prototype sells. -/
theorem offered_commods {k : Kind} (hc : Sensible k) {s : (act k).S} {n : Nat}
    {got gave : List (List NMat)} (L : Lived k s n got gave) {rs : List Req} {os : List Offer}
    (h : (act k).offers rs s = .ok os) : ∀ o ∈ os, o.commod ∈ sellsOf k := by
  intro o ho
  cases k with
  | conversion c => simp [sellsOf, (OfConversion.offers_eq h o ho).2]
  | enrichment c =>
    change (enrichment c).offers rs s = _ at h
    simp only [enrichment, bind_ok, pure_eq_ok, Except.ok.injEq] at h
    obtain ⟨⟨p, q⟩, hq, rfl⟩ := h
    simp only [sellsOf]
    rcases List.mem_append.1 ho with ho | ho
    · unfold tailsOffer at ho
      split at ho
      · cases ho
      · rw [List.mem_singleton.1 ho]; simp
    · unfold productOffer at ho
      split at ho
      · cases ho
      · rw [List.mem_singleton.1 ho]; simp
  | fuelFab c =>
    change (fuelFab c).offers rs s = _ at h
    simp only [fuelFab, bind_ok, pure_eq_ok, Except.ok.injEq] at h
    obtain ⟨⟨a, s₁⟩, -, b, -, rfl⟩ := h
    split at ho
    · cases ho
    · rw [List.mem_singleton.1 ho]; simp [sellsOf, fuelOffer]
  | mixer c =>
    change (mixer c).offers rs s = _ at h
    simp only [mixer, bind_ok, pure_eq_ok, Except.ok.injEq] at h
    obtain ⟨s₁, -, rfl⟩ := h
    rw [List.mem_singleton.1 ho]; simp [sellsOf]
  | reactor c enc dec => exact (OfReactor.offered hc.1 (OfReactor.lived_good hc L) h o ho).2
  | separations c =>
    have I := OfSeparations.lived_inv hc L
    change (separations c).offers rs s = _ at h
    simp only [separations, bind_ok, pure_eq_ok, Except.ok.injEq] at h
    obtain ⟨⟨r, s₁⟩, h1, ⟨d, rq⟩, -, u, -, rfl⟩ := h
    obtain ⟨p, hp', rfl⟩ := List.mem_map.1 ho
    have key : ∀ {k b qs}, p ∈ Separations.bidsFor c.eps k b qs → p.commod = k := by
      intro k b qs hb
      unfold Separations.bidsFor at hb
      split at hb
      · cases hb
      · split at hb
        · cases hb
        · rw [List.mem_singleton] at hb
          subst hb; rfl
    show p.commod ∈ _
    rcases List.mem_append.1 hp' with hp' | hp'
    · obtain ⟨b, hb, hp'⟩ := List.mem_flatMap.1 hp'
      rw [key hp']
      exact List.mem_cons_of_mem _ ((Separations.tick_inv hc.1 I h1).keys b.1 (List.mem_map_of_mem hb))
    · rw [key hp']
      simp [sellsOf]
  | sink c =>
    simp only [act, sink, Except.ok.injEq] at h
    subst h
    cases ho
  | source c => simp [sellsOf, (OfSource.offers_eq h o ho).2]
  | storage c want =>
    simp only [act, storage, Except.ok.injEq] at h
    subst h
    obtain ⟨k, hk, rfl⟩ := List.mem_map.1 ho
    exact List.mem_of_mem_take hk

/-! ## The source and the sink -/

namespace OfSource
open Source

/-- A source that lasts offers as much as it can hand over in a step. -/
theorem offers_full {c : Cfg} (hc : Sensible (.source c)) {s : State} {t n : Nat}
    {got gave : List (List Sim.NMat)} (L : Lived (.source c) s t got gave) (ht : t < n)
    (hn : n * c.throughput ≤ c.size) (he : c.eps ≤ c.throughput)
    (hb : c.size ≤ stock s + totalQty gave.flatten) {rs : List Sim.Req} {os : List Offer}
    (hr : ∃ r ∈ rs, r.commod = c.outcommod) (h : (source c).offers rs s = .ok os) :
    os = [⟨c.outcommod, c.throughput, c.lo, none, fun _ => true, []⟩] := by
  have h2 := totalQty_flatten_le (lived_perStep hc L rfl)
  rw [lived_length L rfl] at h2
  have h4 : (t : ℚ) + 1 ≤ n := by exact_mod_cast ht
  have h5 : c.throughput ≤ stock s := by
    have := hc.2.1
    nlinarith
  have hm : maxQty c s = c.throughput := min_eq_left h5
  simp only [source, Except.ok.injEq] at h
  subst h
  unfold bids
  rw [hm, if_neg (not_lt.2 he), if_neg]
  obtain ⟨q, hq, e⟩ := hr
  obtain ⟨x, hx⟩ := List.getElem?_of_mem hq
  intro hnil
  have := List.filter_eq_nil_iff.1 hnil ⟨x, q.commod, q.target⟩ (List.mem_map.2
    ⟨(q, x), List.mem_zipIdx_iff_getElem?.2 hx, rfl⟩)
  exact this (by simpa using e)

end OfSource

namespace OfSink
open Sink

/-- A sink that does not get full asks for as much as it takes in a step. -/
theorem asks_full {c : Cfg} (hc : Sensible (.sink c)) {s : ℤ × State} {t n : Nat}
    {got gave : List (List Sim.NMat)} (L : Lived (.sink c) s t got gave) (ht : t < n)
    (hn : n * c.capacity ≤ c.maxInv) (he : c.eps < c.capacity) {as : List Ask}
    (h : (sink c).asks s = .ok as) :
    as = [⟨c.commods.map fun k => (k, target c c.capacity), c.capacity, false⟩] := by
  obtain ⟨I, hb⟩ := lived_ready hc L
  obtain ⟨s₀, is, outs, b, r, H, S, -, hlen, hg, hz, -⟩ := L
  have h1 := C97_keeps hc.1 (g := noRng) (t := 0) ⟨s₀, b, r⟩ S
  have h2 : held s.2 = totalQty (is.map In.mats).flatten := by
    unfold held
    rw [h1]
    clear h1 h r H S hlen hg
    induction is with
    | nil => simp [totalQty]
    | cons i is ih =>
      rw [List.flatMap_cons, totalQty_append, ih fun x hx => hz x (by simp [hx]), hz i (by simp)]
      simp only [List.map_nil, List.append_nil, List.map_cons, List.flatten_cons, totalQty_append]
      congr 1
      unfold totalQty; rw [List.map_map]; rfl
  have h3 : totalQty (is.map In.mats).flatten ≤ is.length * c.capacity := by
    have := totalQty_flatten_le (r := c.capacity) (l := is.map In.mats) (by
      intro ms hms
      obtain ⟨i, hi, rfl⟩ := List.mem_map.1 hms
      exact (limits hc b r S H hz).2 i hi)
    rw [List.length_map] at this
    exact this
  have h4 : (t : ℚ) + 1 ≤ n := by exact_mod_cast ht
  have h5 : room c s.2 = c.capacity := by
    unfold room
    rw [hlen, ← h2] at h3
    have := hc.1.capacity
    refine min_eq_left (le_max_of_le_right ?_)
    nlinarith
  rw [asks_eq hc I hb, h5, if_pos he, Except.ok.injEq] at h
  have h6 : (c.commods.zip (prefsOf c)).map (fun r => (r.1, target c c.capacity)) =
      c.commods.map fun k => (k, target c c.capacity) := by
    conv_rhs => rw [← List.map_fst_zip (l₁ := c.commods) (l₂ := prefsOf c) I.length.ge]
    rw [List.map_map]; rfl
  rw [← h, h6]

end OfSink

end Cyc.Sim
