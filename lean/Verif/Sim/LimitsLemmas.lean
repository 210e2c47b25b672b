import Verif.Conversion.Props
import Verif.Mixer.Props2
import Verif.Reactor.Props1
import Verif.Network.Lemmas
import Verif.Sim.Limits
import Verif.Sim.RestartLemmas

/-!
# Facilities keep their limits
-/

namespace Cyc.Sim

open Mat (massOf)

section Snoc

variable {S I O : Type} {step : S → I → R (O × S)} {run : S → List I → R (List O × S)}

/-- Induction over the steps of an honest history. -/
theorem honest_rec {H : S → I → Prop} {HR : S → List I → Prop}
    (h0 : ∀ s, run s [] = .ok ([], s)) (h1 : ∀ s i is, run s (i :: is) = (do
      let (o, s) ← step s i
      let (os, s) ← run s is
      pure (o :: os, s))) (g0 : ∀ s, HR s [])
    (g1 : ∀ s i is, HR s (i :: is) ↔ H s i ∧ ∀ o s', step s i = .ok (o, s') → HR s' is)
    {s₀ : S} {P : List I → List O → S → Prop} (base : P [] [] s₀)
    (more : ∀ is os s i o s', run s₀ is = .ok (os, s) → HR s₀ is → P is os s → H s i →
      step s i = .ok (o, s') → P (is ++ [i]) (os ++ [o]) s') {is : List I} {os : List O} {s : S}
    (h : run s₀ is = .ok (os, s)) (hr : HR s₀ is) : P is os s := by
  have aux : ∀ (is : List I) (os : List O) (s : S) (pre : List I) (pos : List O) (s₁ : S),
      run s₀ pre = .ok (pos, s₁) → HR s₀ pre → P pre pos s₁ → run s₁ is = .ok (os, s) → HR s₁ is →
      P (pre ++ is) (pos ++ os) s := by
    intro is
    induction is with
    | nil =>
      intro os s pre pos s₁ _ _ p h _
      simp only [h0, Except.ok.injEq, Prod.mk.injEq] at h
      obtain ⟨rfl, rfl⟩ := h
      simpa using p
    | cons i is ih =>
      intro os s pre pos s₁ a b p h hr
      simp only [h1, bind_ok, pure_eq_ok, Except.ok.injEq, Prod.mk.injEq] at h
      obtain ⟨⟨o, s₂⟩, k1, ⟨os₁, s₃⟩, k2, rfl, rfl⟩ := h
      obtain ⟨x, y⟩ := (g1 _ _ _).1 hr
      have := ih os₁ s₃ (pre ++ [i]) (pos ++ [o]) s₂ (run_more h0 h1 a k1)
        (honest_more h0 h1 g0 g1 a b x) (more _ _ _ _ _ _ a b p x k1) k2 (y _ _ k1)
      simpa using this
  simpa using aux is os s [] [] s₀ (h0 _) (g0 _) base h hr

/-- One observation for every step. -/
theorem run_length (h0 : ∀ s, run s [] = .ok ([], s)) (h1 : ∀ s i is, run s (i :: is) = (do
      let (o, s) ← step s i
      let (os, s) ← run s is
      pure (o :: os, s))) {is : List I} {os : List O} {s s' : S} (h : run s is = .ok (os, s')) :
    os.length = is.length := by
  induction is generalizing s os with
  | nil =>
    simp only [h0, Except.ok.injEq, Prod.mk.injEq] at h
    rw [← h.1]; rfl
  | cons i is ih =>
    simp only [h1, bind_ok, pure_eq_ok, Except.ok.injEq, Prod.mk.injEq] at h
    obtain ⟨⟨o, s₂⟩, k1, ⟨os₁, s₃⟩, k2, rfl, rfl⟩ := h
    rw [List.length_cons, List.length_cons, ih k2]

end Snoc

namespace OfConversion
open Conversion

theorem limits {c : Cfg} (hc : Sensible (.conversion c)) {s : State} {is : List In} {os : List Out}
    (h : History c is os s) (H : HonestRun c (enter c) is) :
    totalQty s.input.items ≤ c.capacity ∧ totalQty (os.map Out.sold).flatten ≤ is.length * c.throughput ∧
      ∀ i ∈ is, totalQty i.buys ≤ c.capacity := by
  obtain ⟨h1, h2, h3, -⟩ := hc
  have hrec : Inv c s ∧ totalQty (os.map Out.sold).flatten + product s ≤ is.length * c.throughput ∧
      ∀ i ∈ is, totalQty i.buys ≤ c.capacity := by
    refine honest_rec (step := step c) (run := run c) (H := fun s i => (0 < feed s → c.lo ≤ feed s) ∧
      ∀ s₁, tick c s = .ok s₁ → Honest c s₁ i) (HR := HonestRun c) (s₀ := enter c)
      (P := fun is os s => Inv c s ∧ totalQty (os.map Out.sold).flatten + product s ≤
        is.length * c.throughput ∧ ∀ i ∈ is, totalQty i.buys ≤ c.capacity)
      (fun _ => rfl) (fun _ _ _ => rfl) (fun _ => trivial) (fun _ _ _ => and_assoc.symm) ?_ ?_ h H
    · exact ⟨enter_inv c, by simp [product, enter], by simp⟩
    · intro is os s i o s' r H ⟨I, p, q⟩ hh hs
      obtain ⟨a, b, S⟩ := step_stages hs
      have hon := hh.2 a S.tick
      obtain ⟨I1, ht⟩ := tick_inv I S.tick
      obtain ⟨I2, e1, -, -, e2, -⟩ := sell_inv I1 S.sell
      obtain ⟨I3, e3, e4, -⟩ := accept_inv I2 hon.solid S.accept
      have hp : product a ≤ product s + c.throughput := by
        rcases ht with ⟨-, rfl⟩ | ⟨-, t, M⟩
        · linarith
        · rw [M.product, M.amount]; linarith [min_le_right (feed s) c.throughput]
      have hq : product b + totalQty o.sold = product a := by
        unfold product
        rw [← totalQty_append]
        exact Network.totalQty_eq fun n => by rw [Mat.massOf_append, e2]; ring
      have hb : product s' = product b := by unfold product; rw [e3]
      have hf : 0 ≤ feed b := I2.input.nonneg
      have cap : feed s' ≤ c.capacity := C87_capacity h3 h1 (honest_more (step := step c) (run := run c)
        (H := fun s i => (0 < feed s → c.lo ≤ feed s) ∧ ∀ s₁, tick c s = .ok s₁ → Honest c s₁ i)
        (fun _ => rfl) (fun _ _ _ => rfl) (fun _ => trivial) (fun _ _ _ => and_assoc.symm) r H hh)
        (run_more (step := step c) (fun _ => rfl) (fun _ _ _ => rfl) r hs)
      refine ⟨I3, ?_, ?_⟩
      · simp only [List.map_append, List.map_cons, List.map_nil, List.flatten_append,
          List.flatten_cons, List.flatten_nil, List.append_nil, totalQty_append, List.length_append,
          List.length_cons, List.length_nil, Nat.cast_add, Nat.cast_one, zero_add]
        rw [hb]; linarith
      · intro j hj
        rcases List.mem_append.1 hj with hj | hj
        · exact q j hj
        · rw [List.mem_singleton.1 hj]; linarith
  refine ⟨C87_capacity h3 h1 H h, ?_, hrec.2.2⟩
  have : 0 ≤ product s := hrec.1.output.nonneg
  linarith [hrec.2.1]

end OfConversion

namespace OfEnrichment
open Enrichment

theorem limits {c : Cfg} (hc : Sensible (.enrichment c)) {s₀ s : State} {is : List In} {os : List Out}
    (b : build c = .ok s₀) (h : run c s₀ is = .ok (os, s)) (H : HonestRun c s₀ is) :
    totalQty s.inventory.items ≤ c.maxFeed ∧ ∀ i ∈ is, totalQty i.buys ≤ c.maxFeed := by
  obtain ⟨V, h1, -⟩ := hc
  refine ⟨(C76_limit V ⟨s₀, b, h, H⟩).2 h1, ?_⟩
  obtain ⟨I0, -⟩ := build_inv V b
  have he := le_of_lt V.eps
  refine (honest_rec (step := step c) (run := run c) (H := Honest c) (HR := HonestRun c)
      (P := fun is _ s => Inv c s ∧ ∀ i ∈ is, totalQty i.buys ≤ c.maxFeed)
      (fun _ => rfl) (fun _ _ _ => rfl) (fun _ => trivial) (fun _ _ _ => Iff.rfl) ⟨I0, by simp⟩ ?_ h H).2
  intro is os s i o s' r _ ⟨I, q⟩ hh hs
  refine ⟨(step_pres he I hh.buys.mass hs).1, ?_⟩
  intro j hj
  rcases List.mem_append.1 hj with hj | hj
  · exact q j hj
  · rw [List.mem_singleton.1 hj]
    have h1 := hh.buys.total
    have h2 := requests_le he (tick c s)
    have h3 : 0 ≤ (tick c s).inventory.quantity := I.nn.total_nonneg
    have h4 := V.maxFeed
    have h5 : max 0 (c.maxFeed - (tick c s).inventory.quantity) ≤ c.maxFeed := max_le h4 (by linarith)
    linarith

end OfEnrichment

namespace OfFuelFab
open FuelFab

theorem limits {c : Cfg} (V : Valid c) {s₀ s : State} {is : List In} {os : List Out}
    (b : enter c = .ok s₀) (h : run c s₀ is = .ok (os, s)) (H : fuelFed c s₀ is) :
    (totalQty s.fill.items ≤ max 0 c.fillSize ∧ totalQty s.fiss.items ≤ max 0 c.fissSize ∧
      totalQty s.topup.items ≤ max 0 c.topupSize) ∧ ∀ o ∈ os, totalQty o.sold ≤ c.throughput := by
  refine honest_rec (step := step c) (run := run c)
      (H := fun s i => ∀ a s₁, FuelFab.requests c i.addr s = .ok (a, s₁) →
        FuelFab.Distinct a ∧ FuelFab.HonestBuys a i.buys ∧ ∀ p, FuelFab.bids c i.reqs s₁ = .ok p →
        FuelFab.HonestSales c (i.reqs c.outCommod) p i.sells) (HR := fuelFed c)
      (P := fun is os s => (totalQty s.fill.items ≤ max 0 c.fillSize ∧
        totalQty s.fiss.items ≤ max 0 c.fissSize ∧ totalQty s.topup.items ≤ max 0 c.topupSize) ∧
        ∀ o ∈ os, totalQty o.sold ≤ c.throughput)
      (fun _ => rfl) (fun _ _ _ => rfl) (fun _ => trivial) (fun _ _ _ => Iff.rfl) ?_ ?_ h H
  · have := (enter_inv b).2.1
    simp only [contents, List.append_eq_nil_iff] at this
    obtain ⟨⟨e1, e2⟩, e3⟩ := this
    simp [e1, e2, e3]
  · intro is os s i o s' r HR ⟨⟨p1, p2, p3⟩, q⟩ hh hs
    have hreach : Reachable c s := ⟨is, os, fuelFab_substantial r HR, s₀, b, r⟩
    obtain ⟨s1, s2, k1, k2, k3, k4⟩ := step_inv hs
    obtain ⟨hd, hb, hsale⟩ := hh _ _ k1
    refine ⟨?_, ?_⟩
    · have I := reachable_inv V hreach
      obtain ⟨m1, m2, m3⟩ := C47_routed V hreach k1 hd k3 hb.mass hb.req k4 |> fun f =>
        (⟨fun n => (f n).1, fun n => (f n).2.1, fun n => (f n).2.2⟩ : (∀ n, _) ∧ (∀ n, _) ∧ ∀ n, _)
      have ha : o.asks = asksOf c i.addr s := by
        rw [requests_ok I] at k1
        simp only [Except.ok.injEq, Prod.mk.injEq] at k1
        exact k1.1.symm
      obtain ⟨wl, wf, wt, k3'⟩ := sell_inv k3
      have hq := sellLoop_le V (I.same (requests_same I k1)) k3'
      obtain ⟨e1, e2, e3, -, -⟩ := requests_same I k1
      rw [e1, e2, e3] at hq
      have key : ∀ {b : Buf NMat} {l2 l3 : List NMat} {k : ℚ} {n : Nat} {r : Option NMat}
          {ks : List String} {ps : List ℚ} {p : Option ReqPort}, b.cap = some k →
          totalQty b.items ≤ max 0 k → totalQty l2 ≤ b.quantity → p = portFor c i.addr n b r ks ps →
          totalQty (answers p i.buys) ≤ FuelFab.amount p →
          (∀ n, massOf l3 n = massOf l2 n + massOf (answers p i.buys) n) → totalQty l3 ≤ max 0 k := by
        intro b l2 l3 k n r ks ps p hb hle h2 hp hans hm
        have e : totalQty l3 = totalQty l2 + totalQty (answers p i.buys) := by
          rw [← totalQty_append]
          exact Network.totalQty_eq fun n => by rw [Mat.massOf_append, hm]
        have hb2 : b.quantity ≤ max 0 k := hle
        unfold portFor at hp
        split at hp
        · rename_i hsp
          have hp2 : FuelFab.amount p = space b := by rw [hp]; rfl
          rw [hp2] at hans
          unfold space at hsp hans
          rw [Buf.space, hb] at hsp hans
          simp only [Option.map_some, Option.getD_some] at hsp hans
          rcases le_total (k - b.quantity) 0 with h0 | h0
          · rw [max_eq_left h0] at hsp; linarith [V.eps]
          · rw [max_eq_right h0] at hans
            apply le_max_of_le_right; linarith
        · have : answers p i.buys = [] := by rw [hp]; simp [answers]
          rw [e, this, totalQty_nil]; linarith
      exact ⟨key I.fillCap p1 hq.1 (by rw [ha]; rfl) hb.fill m2,
        key I.fissCap p2 hq.2.1 (by rw [ha]; rfl) hb.fiss m1,
        key I.topupCap p3 hq.2.2 (by rw [ha]; rfl) hb.topup m3⟩
    · intro x hx
      rcases List.mem_append.1 hx with hx | hx
      · exact q x hx
      · rw [List.mem_singleton.1 hx]
        exact C45_honest V hreach hs (hsale _ k2)

end OfFuelFab

namespace OfMixer
open Mixer

theorem limits {c : Cfg} (hc : Sensible (.mixer c)) {s : State} {is : List In} {os : List Out}
    (h : History c is os s) (H : HonestRun c (enter c) is) :
    (totalQty s.output.items ≤ c.outSize ∧
      ∀ (k : Nat) x, c.streams[k]? = some x → totalQty (Mixer.held s k) ≤ x.size) ∧
    totalQty (os.map Out.sold).flatten ≤ is.length * c.throughput := by
  obtain ⟨V, h1, -⟩ := hc
  have hrec : Inv c s ∧ totalQty (os.map Out.sold).flatten + totalQty s.output.items ≤
      is.length * c.throughput := by
    refine honest_rec (step := step c) (run := run c) (H := fun s i =>
      (∀ t, IsGreatest {t | Mixable c s t} t → 0 < t → ∀ r ∈ s.ratios, c.lo ≤ r * t) ∧
      ∀ s₁, tick c s = .ok s₁ → Honest c s₁ i) (HR := HonestRun c) (s₀ := enter c)
      (P := fun is os s => Inv c s ∧ totalQty (os.map Out.sold).flatten + totalQty s.output.items ≤
        is.length * c.throughput)
      (fun _ => rfl) (fun _ _ _ => rfl) (fun _ => trivial) (fun _ _ _ => and_assoc.symm) ?_ ?_ h H
    · exact ⟨enter_inv V, by simp [enter]⟩
    · intro is os s i o s' r H ⟨I, p⟩ hh hs
      obtain ⟨a, b, S⟩ := step_stages hs
      have hon := hh.2 a S.tick
      obtain ⟨t, G, T, I1⟩ := tick_inv V I S.tick
      have ht : totalQty a.output.items ≤ totalQty s.output.items + c.throughput := by
        rcases T.output with ⟨-, e⟩ | ⟨-, m, e1, -, e3⟩
        · rw [e]; linarith [V.throughput]
        · rw [e3]; simp [e1, G.1.2.1]
      obtain ⟨I2, -, m2, -⟩ := requests_inv (addr := i.addr) I1
      obtain ⟨I3, -, -, -, -, e3⟩ := sellLoop_inv V.eps I2 S.sells
      obtain ⟨I4, e4, -, -⟩ := accept_inv I3 hon.solid S.accept
      have e2 : (requests c i.addr a).2.output = a.output := (requestLoop_spec c i.addr 0 c.streams a).2.2.1
      rw [e2] at e3
      refine ⟨I4, ?_⟩
      simp only [List.map_append, List.map_cons, List.map_nil, List.flatten_append,
        List.flatten_cons, List.flatten_nil, List.append_nil, totalQty_append, List.length_append,
        List.length_cons, List.length_nil, Nat.cast_add, Nat.cast_one, zero_add]
      rw [e4]; linarith
  refine ⟨⟨hrec.1.outQty, fun k x hk => C86_streams V h H k x hk (h1 x (List.mem_of_getElem? hk)).2⟩, ?_⟩
  have : 0 ≤ totalQty s.output.items := by
    refine List.sum_nonneg fun q hq => ?_
    obtain ⟨m, hm, rfl⟩ := List.mem_map.1 hq
    exact (hrec.1.outSolid m hm).1.le
  linarith [hrec.2]

end OfMixer

namespace OfSeparations
open Separations

theorem limits {c : Cfg} (hc : Sensible (.separations c)) {s₀ s : State} {is : List In} {os : List Out}
    (b : enter c = .ok s₀) (h : run c s₀ is = .ok (os, s)) (H : HonestRun c s₀ is) :
    (totalQty s.feed.items ≤ c.feedbufSize ∧
      ∀ x ∈ c.streams, 0 ≤ x.2.cap → totalQty (held s x.1) ≤ x.2.cap) ∧
    totalQty (os.map Out.sold).flatten ≤ is.length * c.throughput ∧
    ∀ i ∈ is, totalQty i.buys ≤ c.feedbufSize := by
  obtain ⟨V, he, hl, hf, hp, hn⟩ := hc
  have PF : PrefsFit c := ⟨hf, hp⟩
  have hrec : (Substantial is ∧ s.feed.quantity ≤ c.feedbufSize) ∧
      totalQty (received is) - totalQty s.feed.items ≤ is.length * c.throughput ∧
      ∀ i ∈ is, totalQty i.buys ≤ c.feedbufSize := by
    refine honest_rec (step := step c) (run := run c)
      (H := fun s i => ∀ r s₁, tick c s = .ok (r, s₁) → Honest c s₁ i) (HR := HonestRun c) (s₀ := s₀)
      (P := fun is _ s => (Substantial is ∧ s.feed.quantity ≤ c.feedbufSize) ∧
        totalQty (received is) - totalQty s.feed.items ≤ is.length * c.throughput ∧
        ∀ i ∈ is, totalQty i.buys ≤ c.feedbufSize)
      (fun _ => rfl) (fun _ _ _ => rfl) (fun _ => trivial) (fun _ _ _ => Iff.rfl) ?_ ?_ h H
    · refine ⟨⟨fun _ hi => by simp at hi, (enter_Inv V b).2⟩, ?_, by simp⟩
      rw [(enter_inv b).1]; simp [received]
    · intro is os s i o s' r _ ⟨⟨sub, fq⟩, p, q⟩ hh hs
      have I := history_inv V ⟨s₀, b, r⟩ sub
      obtain ⟨tr, s₁, s₂, k1, k2, k3, -⟩ := C31_received hs
      have hon := hh _ _ k1
      obtain ⟨o', s'', j1, I', j2⟩ := step_ok V PF I fq
        (fun x hx => by rw [hl] at hx; cases hx) ⟨_, _, k1⟩ hh
      obtain ⟨rfl, rfl⟩ := Prod.mk.inj (Except.ok.inj (j1.symm.trans hs))
      have h1 := ((C29_limits V ⟨s₀, b, r⟩ sub).2.2 _ _ k1).1
      have h2 : totalQty s''.feed.items = totalQty s₁.feed.items + totalQty i.buys := by
        rw [k3, totalQty_append]
      have h3 : 0 ≤ totalQty s₁.feed.items := (tick_inv V I k1).feedNN.total_nonneg
      have h4 : totalQty s''.feed.items ≤ c.feedbufSize := j2
      refine ⟨⟨?_, j2⟩, ?_, ?_⟩
      · intro j hj
        rcases List.mem_append.1 hj with hj | hj
        · exact sub j hj
        · rw [List.mem_singleton.1 hj]; exact hon.buys
      · simp only [received, List.flatMap_append, List.flatMap_cons, List.flatMap_nil, List.append_nil,
          totalQty_append, List.length_append, List.length_cons, List.length_nil, Nat.cast_add,
          Nat.cast_one, zero_add] at p ⊢
        linarith
      · intro j hj
        rcases List.mem_append.1 hj with hj | hj
        · exact q j hj
        · rw [List.mem_singleton.1 hj]; linarith
  obtain ⟨⟨sub, fq⟩, p, q⟩ := hrec
  have hist : History c is os s := ⟨s₀, b, h⟩
  refine ⟨⟨fq, (C29_limits V hist sub).2.1⟩, ?_, q⟩
  have I := history_inv V hist sub
  have e : totalQty (received is) = totalQty (contents s) + totalQty (sold os) := by
    rw [← totalQty_append]
    exact Network.totalQty_eq fun n => by
      rw [Mat.massOf_append]; exact (C27_conserved V.eps hist sub).1 n
  have e2 : (os.map Out.sold).flatten = sold os := by rw [← List.flatMap_def]; rfl
  have e3 : totalQty s.feed.items ≤ totalQty (contents s) := by
    unfold contents
    rw [totalQty_append, totalQty_append]
    have h1 := I.leftNN.total_nonneg
    have h2 : 0 ≤ totalQty (s.bufs.flatMap fun b => b.2.items) := by
      refine AllNonneg.total_nonneg fun m hm => ?_
      obtain ⟨x, hx, hm⟩ := List.mem_flatMap.1 hm
      have := I.bufNN x.1
      unfold getBuf Map.getD at this
      rw [Map.get?_of_mem I.nodup (k := x.1) (b := x.2) hx] at this
      exact this m hm
    linarith
  rw [e2]; linarith

end OfSeparations

namespace OfSink
open Sink

theorem limits {c : Cfg} (hc : Sensible (.sink c)) {s₀ s : State} {is : List In} {os : List Out}
    (b : enter c noRng 0 = .ok s₀) (h : run c 0 s₀ is = .ok (os, s)) (S : AllSound noRng is)
    (H : HonestRun c 0 s₀ is) (hz : ∀ i ∈ is, i.prods = []) :
    totalQty s.inventory.items ≤ c.maxInv ∧ ∀ i ∈ is, totalQty i.mats ≤ c.capacity := by
  have V := hc.1
  refine ⟨C59_inventory V b h S H, ?_⟩
  have aux : ∀ {is : List In} {t : ℤ} {s s' : State} {os : List Out}, Inv c s →
      (∀ i ∈ is, Sound i.rng) → run c t s is = .ok (os, s') → HonestRun c t s is →
      (∀ i ∈ is, i.prods = []) → ∀ i ∈ is, totalQty i.mats ≤ c.capacity := by
    intro is
    induction is with
    | nil => simp
    | cons i is ih =>
      intro t s s' os I S h H hz
      simp only [run, bind_ok, pure_eq_ok, Except.ok.injEq, Prod.mk.injEq] at h
      obtain ⟨⟨o, s₁⟩, k1, ⟨os₁, s₂⟩, k2, rfl, rfl⟩ := h
      obtain ⟨a, n, j1, j2, j3, -, j5⟩ := step_ok V I (S i (by simp)) k1
      have I1 : Inv c s₁ := by subst j5; exact ⟨I.cap, I.prefs, I.length⟩
      intro j hj
      rcases List.mem_cons.1 hj with rfl | hj
      · have h1 := (honest_fits V I (S j (by simp)) H.1 j1).2.1
        rw [delivered_total, hz j (by simp)] at h1
        simp only [List.map_nil, List.sum_nil, add_zero] at h1
        have : room c s ≤ c.capacity := min_le_left _ _
        linarith
      · exact ih I1 (fun x hx => S x (by simp [hx])) k2 (H.2 _ _ k1) (fun x hx => hz x (by simp [hx])) j hj
  exact aux (enter_ok b).1 (fun i hi => (S.2 i hi).1) h H hz

end OfSink

namespace OfSource
open Source

theorem limits {c : Cfg} (hc : Sensible (.source c)) {s₀ s : State} {is : List In} {os : List Out}
    (b : build c = .ok s₀) (h : run c s₀ is = .ok (os, s)) (H : HonestRun c s₀ is) :
    totalQty s.inventory.items ≤ c.size ∧ ∀ o ∈ os, totalQty (sentIn o) ≤ c.throughput := by
  have V := valid hc
  have T : ∀ {is : List In} {os : List Out} {s : State}, run c s₀ is = .ok (os, s) → HonestRun c s₀ is →
      Targets is := fun r H => honest_all (step := step c) (run := run c)
    (fun _ => rfl) (fun _ _ _ => rfl) (H := Honest c) (fun _ _ _ => Iff.rfl)
    (fun _ _ _ _ h _ => honest_targets h) r H
  constructor
  · have h1 := (C56_life V ⟨s₀, b, h⟩ (T h H)).1
    have h2 : 0 ≤ totalQty (shipped os) := by
      refine honest_rec (step := step c) (run := run c) (H := Honest c) (HR := HonestRun c)
        (P := fun _ os _ => 0 ≤ totalQty (shipped os))
        (fun _ => rfl) (fun _ _ _ => rfl) (fun _ => trivial) (fun _ _ _ => Iff.rfl) (by simp [shipped])
        ?_ h H
      intro is os s i o s' r HR q hh hs
      obtain ⟨e, -, -⟩ := step_eq hs
      obtain ⟨-, j1, -⟩ := sellLoop_inv V (history_inv V ⟨s₀, b, r⟩ (T r HR)) (honest_targets hh) e
      have := (sent_le V j1).1
      simp only [shipped, List.flatMap_append, List.flatMap_cons, List.flatMap_nil, List.append_nil,
        totalQty_append] at q ⊢
      unfold sentIn
      exact add_nonneg q this
    unfold stock at h1
    linarith
  · refine honest_rec (step := step c) (run := run c) (H := Honest c) (HR := HonestRun c)
      (P := fun _ os _ => ∀ o ∈ os, totalQty (sentIn o) ≤ c.throughput)
      (fun _ => rfl) (fun _ _ _ => rfl) (fun _ => trivial) (fun _ _ _ => Iff.rfl) (by simp) ?_ h H
    intro is os s i o s' r HR q hh hs x hx
    rcases List.mem_append.1 hx with hx | hx
    · exact q x hx
    · rw [List.mem_singleton.1 hx]
      exact C56_throughput V ⟨s₀, b, r⟩ (T r HR) hh hs

end OfSource

namespace OfStorage
open Storage

theorem limits {c : Cfg} {want : Storage.State Nat → ℚ} (hc : Sensible (.storage c want)) {p : Policy}
    {s₀ s : State Nat} {is : List (In Nat)} {os : List (Out Nat)}
    (b : enter c = .ok (p, s₀)) (h : run c s₀ is = .ok (os, s)) (H : HonestRun c s₀ is)
    (W : stocked c want s₀ is) :
    (0 ≤ c.maxInv → (∀ s, want s ≤ c.maxInv - totalQty (contents s)) →
      totalQty (contents s) ≤ c.maxInv) ∧
    (0 ≤ c.throughput → totalQty (os.map Out.sold).flatten ≤ is.length * c.throughput) ∧
    totalQty (os.map Out.sold).flatten ≤
      totalQty ((is.take (is.length - 1 - c.residence)).map In.buys).flatten := by
  obtain ⟨-, he, -⟩ := hc
  have sub : ∀ {is : List (In Nat)} {os : List (Out Nat)} {s : State Nat}, run c s₀ is = .ok (os, s) →
      HonestRun c s₀ is → Substantial is := fun r H => honest_all (step := step c) (run := run c)
    (fun _ => rfl) (fun _ _ _ => rfl) (H := Honest c) (fun _ _ _ => Iff.rfl)
    (fun _ _ _ _ h _ => h.buys) r H
  refine ⟨fun h0 hw => ?_, fun h0 => ?_, ?_⟩
  · refine honest_rec (step := step c) (run := run c)
      (H := fun s i => Honest c s i ∧ totalQty i.buys ≤ max 0 (want s))
      (HR := fun s is => HonestRun c s is ∧ stocked c want s is) (s₀ := s₀)
      (P := fun _ _ s => totalQty (contents s) ≤ c.maxInv)
      (fun _ => rfl) (fun _ _ _ => rfl) (fun _ => ⟨trivial, trivial⟩) ?_ ?_ ?_ h ⟨H, W⟩
    · intro s i is
      constructor
      · rintro ⟨⟨a, b⟩, d, e⟩
        exact ⟨⟨a, d⟩, fun o s' h => ⟨b o s' h, e o s' h⟩⟩
      · rintro ⟨⟨a, b⟩, d⟩
        exact ⟨⟨a, fun o s' h => (d o s' h).1⟩, b, fun o s' h => (d o s' h).2⟩
    · have := (C19_conserved he (is := []) (os := []) ⟨p, s₀, b, rfl⟩ (by simp [Substantial])).2
      simp only [received, sold, List.flatMap_nil, totalQty_nil] at this
      linarith
    · intro is os s i o s' r HR q hh hs
      have r' := run_more (step := step c) (run := run c) (fun _ => rfl) (fun _ _ _ => rfl) r hs
      have S' : Substantial (is ++ [i]) := by
        intro j hj
        rcases List.mem_append.1 hj with hj | hj
        · exact sub r HR.1 j hj
        · rw [List.mem_singleton.1 hj]; exact hh.1.buys
      have e1 := (C19_conserved he ⟨p, s₀, b, r⟩ (sub r HR.1)).2
      have e2 := (C19_conserved he ⟨p, s₀, b, r'⟩ S').2
      simp only [received, sold, List.flatMap_append, List.flatMap_cons, List.flatMap_nil,
        List.append_nil, totalQty_append] at e1 e2
      have e3 := hh.2
      have e4 := hw s
      rw [max_def] at e3
      have e5 : 0 ≤ totalQty o.sold := (step_inv he
        (history_inv he ⟨p, s₀, b, r⟩ (sub r HR.1)).1 hh.1.buys hs).2.soldNonneg
      split at e3 <;> linarith
  · have e2 : (os.map Out.sold).flatten = sold os := by rw [← List.flatMap_def]; rfl
    rw [e2]
    have key : released os ≤ is.length * c.throughput := by
      have S := sub h H
      have hh : History c is os s := ⟨p, s₀, b, h⟩
      clear h H W e2
      induction is using List.reverseRecOn generalizing os s with
      | nil =>
        have := (ready_total he hh S).1
        simpa [received] using this
      | append_singleton is i ih =>
        obtain ⟨os, o, s1, rel, rfl, h1, -, r1, r3, -⟩ := step_released he hh S
        have := ih (fun j hj => S j (by simp [hj])) h1
        have := r3.limit h0
        simp only [List.length_append, List.length_cons, List.length_nil, Nat.cast_add, Nat.cast_one,
          zero_add]
        linarith
    have h1 := (history_inv he ⟨p, s₀, b, h⟩ (sub h H))
    have h2 := h1.1.stockPos.total_nonneg
    unfold released at key
    rw [h1.2.2.1] at key
    linarith
  · have e2 : (os.map Out.sold).flatten = sold os := by rw [← List.flatMap_def]; rfl
    have e3 : ∀ js : List (In Nat), (js.map In.buys).flatten = received js := fun js => by
      rw [← List.flatMap_def]; rfl
    rw [e2, e3]
    have S := sub h H
    have hh : History c is os s := ⟨p, s₀, b, h⟩
    clear h H W e2
    rcases List.eq_nil_or_concat is with rfl | ⟨is, i, rfl⟩
    · have h1 := history_inv he hh S
      have h2 := h1.1.stockPos.total_nonneg
      have := (ready_total he hh S).1
      unfold released at this
      rw [h1.2.2.1] at this
      simp only [List.length_nil, List.take_nil, Nat.zero_sub] at this ⊢
      linarith
    · rw [List.concat_eq_append] at hh S ⊢
      obtain ⟨os, o, s1, rfl, h1, hs1, -, -, F⟩ := history_last he hh S
      have h2 := (ready_total he h1 hs1).1
      have h3 := (history_inv he h1 hs1).2.2.1
      have h4 := F.left
      have h5 := F.leftPos.total_nonneg
      rw [F.offered] at h4
      unfold released at h2
      rw [h3] at h2
      have e4 : (is ++ [i]).take ((is ++ [i]).length - 1 - c.residence) =
          is.take (is.length - c.residence) := by
        rw [List.length_append, List.length_singleton, Nat.add_sub_cancel,
          List.take_append_of_le_length (Nat.sub_le _ _)]
      rw [e4, sold_append, totalQty_append]
      linarith

end OfStorage

theorem totalQty_flatten_le {r : ℚ} {l : List (List NMat)} (h : ∀ ms ∈ l, totalQty ms ≤ r) :
    totalQty l.flatten ≤ l.length * r := by
  induction l with
  | nil => simp
  | cons ms l ih =>
    have h1 := h ms (by simp)
    have h2 := ih fun x hx => h x (by simp [hx])
    rw [List.flatten_cons, totalQty_append, List.length_cons, Nat.cast_add, Nat.cast_one]
    linarith

theorem lived_within {k : Kind} (hc : Sensible k) {s : (act k).S} {n : Nat} {got gave : List (List NMat)}
    (L : Lived k s n got gave) : Within k s := by
  cases k with
  | conversion c =>
    obtain ⟨is, os, h, H, -⟩ := L
    exact (OfConversion.limits hc h H).1
  | enrichment c =>
    obtain ⟨s₀, is, os, b, h, H, -⟩ := L
    exact (OfEnrichment.limits hc b h H).1
  | fuelFab c =>
    obtain ⟨s₀, is, os, b, h, H, -⟩ := L
    exact (OfFuelFab.limits hc.1 b h H).1
  | mixer c =>
    obtain ⟨is, os, h, H, -⟩ := L
    exact (OfMixer.limits hc h H).1
  | reactor c enc dec =>
    obtain ⟨is, os, h, -⟩ := L
    exact (Reactor.C02_limits hc.1 h).1
  | separations c =>
    obtain ⟨s₀, is, os, b, h, H, -⟩ := L
    exact (OfSeparations.limits hc b h H).1
  | sink c =>
    obtain ⟨s₀, is, os, b, h, H, S, -, -, -, hz, -⟩ := L
    exact (OfSink.limits hc b h S H hz).1
  | source c =>
    obtain ⟨s₀, is, os, b, h, H, -⟩ := L
    exact (OfSource.limits hc b h H).1
  | storage c want =>
    obtain ⟨p, s₀, is, os, b, h, H, W, -⟩ := L
    exact (OfStorage.limits hc b h H W).1

theorem lived_perStep {k : Kind} (hc : Sensible k) {s : (act k).S} {n : Nat}
    {got gave : List (List NMat)} (L : Lived k s n got gave) {r : ℚ} (hr : perStep k = some r) :
    ∀ ms ∈ gave, totalQty ms ≤ r := by
  cases k with
  | fuelFab c =>
    obtain ⟨s₀, is, os, b, h, H, -, -, rfl⟩ := L
    obtain rfl := Option.some.inj hr
    intro ms hm
    obtain ⟨o, ho, rfl⟩ := List.mem_map.1 hm
    exact (OfFuelFab.limits hc.1 b h H).2 o ho
  | sink c =>
    obtain ⟨s₀, is, os, -, -, -, -, -, -, -, -, rfl⟩ := L
    obtain rfl := Option.some.inj hr
    intro ms hm
    rw [List.eq_of_mem_replicate hm]; simp
  | source c =>
    obtain ⟨s₀, is, os, b, h, H, -, -, rfl⟩ := L
    obtain rfl := Option.some.inj hr
    intro ms hm
    obtain ⟨o, ho, rfl⟩ := List.mem_map.1 hm
    exact (OfSource.limits hc b h H).2 o ho
  | _ => cases hr

theorem lived_intake {k : Kind} (hc : Sensible k) {s : (act k).S} {n : Nat}
    {got gave : List (List NMat)} (L : Lived k s n got gave) {r : ℚ} (hr : intake k = some r) :
    ∀ ms ∈ got, totalQty ms ≤ r := by
  cases k with
  | conversion c =>
    obtain ⟨is, os, h, H, -, rfl, -⟩ := L
    obtain rfl := Option.some.inj hr
    intro ms hm
    obtain ⟨i, hi, rfl⟩ := List.mem_map.1 hm
    exact (OfConversion.limits hc h H).2.2 i hi
  | enrichment c =>
    obtain ⟨s₀, is, os, b, h, H, -, rfl, -⟩ := L
    obtain rfl := Option.some.inj hr
    intro ms hm
    obtain ⟨i, hi, rfl⟩ := List.mem_map.1 hm
    exact (OfEnrichment.limits hc b h H).2 i hi
  | separations c =>
    obtain ⟨s₀, is, os, b, h, H, -, rfl, -⟩ := L
    obtain rfl := Option.some.inj hr
    intro ms hm
    obtain ⟨i, hi, rfl⟩ := List.mem_map.1 hm
    exact (OfSeparations.limits hc b h H).2.2 i hi
  | sink c =>
    obtain ⟨s₀, is, os, b, h, H, S, -, -, rfl, hz, -⟩ := L
    obtain rfl := Option.some.inj hr
    intro ms hm
    obtain ⟨i, hi, rfl⟩ := List.mem_map.1 hm
    exact (OfSink.limits hc b h S H hz).2 i hi
  | source c =>
    obtain ⟨s₀, is, os, -, -, -, -, rfl, -⟩ := L
    obtain rfl := Option.some.inj hr
    intro ms hm
    rw [List.eq_of_mem_replicate hm]; simp
  | _ => cases hr

theorem lived_length {k : Kind} {s : (act k).S} {n : Nat}
    {got gave : List (List NMat)} (L : Lived k s n got gave) {r : ℚ} (hr : perStep k = some r) :
    gave.length = n := by
  cases k with
  | fuelFab c =>
    obtain ⟨s₀, is, os, b, h, -, rfl, -, rfl⟩ := L
    rw [List.length_map]
    exact run_length (step := FuelFab.step c) (run := FuelFab.run c) (fun _ => rfl) (fun _ _ _ => rfl) h
  | sink c =>
    obtain ⟨s₀, is, os, -, -, -, -, -, -, -, -, rfl⟩ := L
    simp
  | source c =>
    obtain ⟨s₀, is, os, b, h, -, rfl, -, rfl⟩ := L
    rw [List.length_map]
    exact run_length (step := Source.step c) (run := Source.run c) (fun _ => rfl) (fun _ _ _ => rfl) h
  | _ => cases hr

theorem lived_pace {k : Kind} (hc : Sensible k) {s : (act k).S} {n : Nat}
    {got gave : List (List NMat)} (L : Lived k s n got gave) {r : ℚ} (hr : pace k = some r) :
    totalQty gave.flatten ≤ n * r := by
  cases k with
  | conversion c =>
    obtain ⟨is, os, h, H, rfl, -, rfl⟩ := L
    obtain rfl := Option.some.inj hr
    exact (OfConversion.limits hc h H).2.1
  | enrichment c => cases hr
  | fuelFab c =>
    have := totalQty_flatten_le (lived_perStep hc L (r := r) hr)
    rwa [lived_length L (r := r) hr] at this
  | mixer c =>
    obtain ⟨is, os, h, H, rfl, -, rfl⟩ := L
    obtain rfl := Option.some.inj hr
    exact (OfMixer.limits hc h H).2
  | reactor c enc dec => cases hr
  | separations c =>
    obtain ⟨s₀, is, os, b, h, H, rfl, -, rfl⟩ := L
    obtain rfl := Option.some.inj hr
    exact (OfSeparations.limits hc b h H).2.1
  | sink c =>
    have := totalQty_flatten_le (lived_perStep hc L (r := r) hr)
    rwa [lived_length L (r := r) hr] at this
  | source c =>
    have := totalQty_flatten_le (lived_perStep hc L (r := r) hr)
    rwa [lived_length L (r := r) hr] at this
  | storage c want =>
    obtain ⟨p, s₀, is, os, b, h, H, W, rfl, -, rfl⟩ := L
    change (if 0 ≤ c.throughput then some c.throughput else none) = some r at hr
    split at hr
    · rename_i h0
      obtain rfl := Option.some.inj hr
      exact (OfStorage.limits hc b h H W).2.1 h0
    · cases hr

theorem lived_residence {c : Storage.Cfg} {want : Storage.State Nat → ℚ} (hc : Sensible (.storage c want))
    {s : Storage.State Nat} {n : Nat} {got gave : List (List NMat)}
    (L : Lived (.storage c want) s n got gave) :
    totalQty gave.flatten ≤ totalQty (got.take (n - 1 - c.residence)).flatten := by
  obtain ⟨p, s₀, is, os, b, h, H, W, rfl, rfl, rfl⟩ := L
  have := (OfStorage.limits hc b h H W).2.2
  rwa [List.map_take] at this

end Cyc.Sim
