import Verif.Conversion.Props
import Verif.Enrichment.Props3
import Verif.FuelFab.Props1
import Verif.Reactor.Props1
import Verif.Separations.Props4
import Verif.Source.Props

/-!
# Nothing empty is offered (C152)

A comment in the program (`separations.cc:299-300`) says that the exchange of cyclus crashes when a bid of no
quantity is made. For each archetype that makes its own bids: every bid is of a positive quantity.
-/

namespace Cyc.Separations

/-- C152, separations. The hypotheses are those of `C72_bids`, with an example there. -/
theorem C152_separations {c : Cfg} (V : Valid c) {is : List In} {os : List Out} {s : State}
    (h : History c is os s) (hs : Substantial is) {r : Option TickRec} {s₁ : State}
    (ht : tick c s = .ok (r, s₁)) (reqs : String → List ℚ) :
    ∀ p ∈ bids c s₁ reqs, 0 ≤ p.cap ∧ ∀ b ∈ p.bids, 0 < qty b.2 := by
  intro p hp
  obtain ⟨-, -, h1, h2, h3⟩ := (C72_bids V h hs ht reqs).1 p hp
  refine ⟨V.eps.trans h1, fun b hb => ?_⟩
  obtain ⟨k, e, -⟩ := h3 b.1 (h2 b hb)
  have : b.2 ∈ (p.bids.filter fun x => x.1 = b.1).map Prod.snd :=
    List.mem_map.2 ⟨b, List.mem_filter.2 ⟨hb, by simp⟩, rfl⟩
  rw [e, List.mem_filter] at this
  exact lt_of_le_of_lt V.eps (by simpa using this.2)

end Cyc.Separations

namespace Cyc.Conversion

/-- C152, conversion. The hypotheses are those of `C55_bids`, with an example there. -/
theorem C152_conversion {c : Cfg} {is : List In} {os : List Out} {s s' : State} {i : In} {o : Out}
    (h : History c is os s) (hd : Substantial is) (hs : step c s i = .ok (o, s')) :
    ∀ p, o.bids = some p → 0 < p.cap ∧ ∀ b ∈ p.bids, 0 < qty b.offer := by
  intro p hp
  obtain ⟨a, b, S⟩ := step_stages hs
  have I := (tick_inv (history_inv h hd) S.tick).1
  obtain ⟨h1, h2⟩ := C55_bids h hd hs S.tick
  have hn : product a ≠ 0 := fun h0 => by rw [h1 h0] at hp; cases hp
  have hpos : 0 < product a := by
    rcases bids_eq I i.reqs with ⟨h0, -⟩ | ⟨m, -, h0, -⟩
    · exact absurd h0 hn
    · exact h0
  obtain ⟨p', e, hc, hb, -⟩ := h2 hn
  rw [hp] at e
  cases e
  refine ⟨by rw [hc]; exact hpos, fun b hb' => ?_⟩
  have := List.mem_map_of_mem (f := fun b => (b.id, qty b.offer)) hb'
  rw [hb] at this
  obtain ⟨r, hr, e⟩ := List.mem_map.1 this
  simp only [Prod.mk.injEq] at e
  rw [← e.2]
  have := (List.mem_filter.1 hr).2
  exact lt_min hpos (by simpa using this)

end Cyc.Conversion

namespace Cyc.Source

/-- C152, source: if requests are for something. The hypotheses are those of `C58_bids`, with an example
there. -/
theorem C152_source {c : Cfg} (V : Valid c) {s s' : State} {i : In} {o : Out}
    (hr : ∀ r ∈ i.reqs, 0 < qty r.target) (hs : step c s i = .ok (o, s')) :
    ∀ p, o.bids = some p → 0 < p.cap ∧ ∀ b ∈ p.bids, 0 < qty b.offer := by
  intro p hp
  obtain ⟨h1, h2⟩ := C58_bids V hr hs
  obtain ⟨hc, g, hb, hg⟩ := h2 p hp
  constructor
  · rw [hc]
    by_contra h
    have := h1.2 (Or.inl (lt_of_le_of_lt (not_lt.1 h) V.eps))
    rw [this] at hp; cases hp
  · intro b hb'
    rw [hb] at hb'
    obtain ⟨r, hr', hb'⟩ := List.mem_flatMap.1 hb'
    obtain ⟨m1, m2⟩ := List.mem_filter.1 hr'
    exact ((hg r m1 (by simpa using m2)).2.2.2 b hb').2.1

end Cyc.Source

namespace Cyc.FuelFab

/-- C152, fuel fabrication: if requests are for something. The hypotheses are those of `C78_bids`, with an
example there. -/
theorem C152_fuel_fab {c : Cfg} (V : Valid c) {s s₁ : State} (h : Reachable c s) {addr : Nat → Nat}
    {a : Asks} (hr : requests c addr s = .ok (a, s₁)) {reqs : String → List NMat} {port : Port}
    (hsol : ∀ m ∈ reqs c.outCommod, Solid m) (hb : bids c reqs s₁ = .ok (some port)) :
    0 < port.cap ∧ ∀ b ∈ port.bids, 0 < qty b.2 := by
  have I := reachable_inv V h
  have I1 := I.same (requests_same I hr)
  rcases bids_ok V I1 reqs hb with ⟨h0, -⟩ | ⟨k, bs, hc, K, hp, hbs⟩
  · cases h0
  simp only [Option.some.injEq] at hp
  refine ⟨?_, ?_⟩
  · rw [hp]
    show 0 < c.throughput
    by_contra hle
    unfold bids at hb
    split at hb
    · cases hb
    · split at hb
      · cases hb
      · simp only [bind_ok] at hb
        obtain ⟨k, -, l, -, hb⟩ := hb
        rw [if_pos (not_lt.1 hle)] at hb
        cases hb
  rintro ⟨j, m⟩ hj
  rw [hp] at hj
  obtain ⟨t, h1, h2⟩ := (hbs j m).1 hj
  rw [← hp] at hj
  rw [(C42_offer V h hr hb hj h1 (hsol t (List.mem_of_getElem? h1))).1]
  exact (hsol t (List.mem_of_getElem? h1)).1

end Cyc.FuelFab

namespace Cyc.Reactor

/-- C152, reactor. The hypotheses are those of `C12_offers`, with an example there. -/
theorem C152_reactor {c : Cfg} (hw : WellFormed c) {is : List In} {os : List Out}
    {s : State} (h : History c is os s) {reqs : String → List ℚ} {of : Offer} {sm : State}
    (ho : offerPhase c reqs s = .ok (of, sm)) :
    ∀ p ∈ of.bids, 0 < p.cap ∧ ∀ b ∈ p.bids, 0 < b.2.qty := by
  intro p hp
  obtain ⟨-, h2, h3, h4, -⟩ := (C12_offers hw h ho).1 p hp
  obtain ⟨s0, h0, hh, hr⟩ := h
  have inv := run_inv hw (enter_inv hw h0) hh hr
  obtain ⟨s1, ht, g1, _, hi, _, e⟩ := offerPhase_ok hw inv.good reqs
  rw [e] at ho
  simp only [Except.ok.injEq, Prod.mk.injEq] at ho
  obtain ⟨-, rfl⟩ := ho
  have hsz : ∀ a ∈ spentAs c is (demandedState c s s1) p.commod, a.qty = c.assemSize := by
    intro a ha
    exact g1.spent.size a (List.mem_filter.1 ha).1
  refine ⟨?_, fun b hb => ?_⟩
  · rw [h3, totalQty_const hsz]
    have : 0 < (spentAs c is (demandedState c s s1) p.commod).length := List.length_pos_of_ne_nil h2
    have := hw.assemSize
    positivity
  · rw [hsz _ (h4 b hb).2]; exact hw.assemSize

end Cyc.Reactor

namespace Cyc.Enrichment

/-- C152, enrichment, in part: if requests are for something, every bid of product is of a positive
quantity, and none of tails of a negative one. Missing: a bid of tails may be of nothing, see below. -/
theorem C152_enrichment_partial {c : Cfg} (V : Valid c) {is : List In} {os : List Out} {s : State}
    (h : History c is os s) (hs : Substantial is) {i : In} {o : Out} {s' : State}
    (ht : step c s i = .ok (o, s'))
    (hn : ∀ rs, i.reqs c.productCommod = some rs → ∀ m ∈ rs, Mat.Nonneg m ∧ 0 < qty m) :
    (∀ p, o.ports.product = some p → 0 < p.swuCap ∧ 0 < p.natuCap ∧ ∀ b ∈ p.bids, 0 < qty b.2) ∧
    ∀ p, o.ports.tails = some p → 0 < p.cap ∧ ∀ b ∈ p.bids, 0 ≤ qty b.2 := by
  have he := le_of_lt V.eps
  obtain ⟨s1, s2, l, S⟩ := step_inv ht
  obtain ⟨ht0, hbi⟩ := bids_inv he S.bids
  constructor
  · intro p hp
    rcases hbi with ⟨h1, -⟩ | ⟨rs, h1, h2, h3, h4, h5, h6⟩
    · rw [h1] at hp; cases hp
    · rw [h6] at hp
      simp only [Option.some.injEq] at hp
      subst hp
      refine ⟨h3, h2, ?_⟩
      rintro ⟨j, m⟩ hb
      obtain ⟨j', hj', hb'⟩ := List.mem_flatMap.1 hb
      have hlt := List.mem_range.1 hj'
      have hjj : j = j' := by
        split at hb'
        · exact congrArg Prod.fst (List.mem_singleton.1 hb')
        · cases hb'
      subst hjj
      have hget : rs[j]? = some rs[j] := List.getElem?_eq_getElem hlt
      obtain ⟨hnn, hpos⟩ := hn rs h1 _ (List.getElem_mem hlt)
      have := (C38_offers_partial V h hs ht h1 (fun m hm => (hn rs h1 m hm).1) hget).2 _ m h6 hb
      rw [this.amount]; exact hpos
  · intro p hp
    have I := history_inv V h hs
    obtain ⟨h1, h2⟩ := C75_bids V h ht
    cases hr : i.reqs c.tailsCommod with
    | none => rw [h2 (Or.inl hr)] at hp; cases hp
    | some rs =>
      by_cases h0 : 0 < totalQty s.tails.items
      · obtain ⟨tp, e, hc, hb⟩ := h1 rs hr h0
        rw [hp] at e
        cases e
        refine ⟨by rw [hc]; exact h0, ?_⟩
        rintro ⟨j, m⟩ hm
        exact (I.tnn m ((hb j m).1 hm).2).qty_nonneg
      · rw [h2 (Or.inr (not_lt.1 h0))] at hp; cases hp

/-- A sale of enriched uranium. -/
def saleHigh : In := ⟨forProduct [leu], [⟨"leu", leu, 5⟩], []⟩

/-- A sale of uranium at the assay of the feed. -/
def saleSame : In := ⟨forProduct [natu], [⟨"leu", natu, 10⟩], []⟩

/-- The claim is false of tails: a facility with sensible input, after an honest sale of a product of
the assay of the feed, has tails of no quantity, which it offers when asked for tails. -/
theorem C152_enrichment_counterexample : Valid exCfg ∧ ∃ os s o s',
    HonestHistory exCfg [saleHigh, saleSame] os s ∧
    step exCfg s ⟨forTails [leu], [], []⟩ = .ok (o, s') ∧
    ∃ p, o.ports.tails = some p ∧ ∃ b ∈ p.bids, qty b.2 = 0 := by
  refine ⟨exCfg_valid, ?_⟩
  obtain ⟨s0, hs0⟩ : ∃ s, s = (⟨⟨some 200, [⟨[(u235, 1), (u238, 99)]⟩]⟩, ⟨none, []⟩, 0, none⟩ :
    State) := ⟨_, rfl⟩
  have hb : build exCfg = .ok s0 := ok_of_toOption (by rw [hs0]; decide +kernel)
  obtain ⟨s1, hs1⟩ : ∃ s, s = (⟨⟨some 200, [⟨[(u235, 3/4), (u238, 297/4)]⟩]⟩,
    ⟨none, [⟨[(u235, 1/20), (u238, 399/20)]⟩]⟩, 391/400, some (9/400, 25)⟩ : State) := ⟨_, rfl⟩
  obtain ⟨s2, hs2⟩ : ∃ s, s = (⟨⟨some 200, [⟨[(u235, 13/20), (u238, 1287/20)]⟩]⟩,
    ⟨none, [⟨[(u235, 1/20), (u238, 399/20)]⟩, ⟨[(u235, 0), (u238, 0)]⟩]⟩, 1, some (0, 10)⟩ : State) :=
    ⟨_, rfl⟩
  have st : ∀ {s : State} {i : In} {t : State},
      ((step exCfg s i).toOption.map Prod.snd) = some t → ∃ o, step exCfg s i = .ok (o, t) := by
    intro s i t h
    cases hx : step exCfg s i with
    | error e => rw [hx] at h; simp [Except.toOption] at h
    | ok x =>
      rw [hx] at h
      simp only [Except.toOption, Option.map_some, Option.some.injEq] at h
      exact ⟨x.1, by rw [← h]⟩
  obtain ⟨o0, h0⟩ := st (s := s0) (i := saleHigh) (t := s1) (by rw [hs0, hs1]; decide +kernel)
  obtain ⟨o1, h1⟩ := st (s := s1) (i := saleSame) (t := s2) (by rw [hs1, hs2]; decide +kernel)
  have b0 : bids exCfg (forProduct [leu]) (tick exCfg s0) =
      .ok (⟨none, some ⟨[(0, leu)], 1/100, 1, 100⟩⟩, tick exCfg s0) :=
    ok_of_toOption (by rw [hs0]; decide +kernel)
  have b1 : bids exCfg (forProduct [natu]) (tick exCfg s1) =
      .ok (⟨none, some ⟨[(0, natu)], 1/100, 1, 75⟩⟩, tick exCfg s1) :=
    ok_of_toOption (by rw [hs1]; decide +kernel)
  cases h2 : step exCfg s2 ⟨forTails [leu], [], []⟩ with
  | error e =>
    have : (step exCfg s2 ⟨forTails [leu], [], []⟩).toOption.isSome = true := by
      rw [hs2]; decide +kernel
    rw [h2] at this; simp [Except.toOption] at this
  | ok x =>
    refine ⟨[o0, o1], s2, x.1, x.2, ⟨s0, hb, ?_, ⟨⟨honest_buys_nil _ _, ?_, ?_⟩, ?_⟩⟩, by rw [h2], ?_⟩
    · simp only [run, h0, h1, ok_bind, pure_eq_ok]
    · exact forProduct_nonneg (nonneg_of_all (by decide +kernel))
    · exact honest_one (w := 9/400) (n := 25) b0 (by decide) rfl (by decide +kernel)
        (by decide +kernel) (by decide +kernel) (by decide +kernel) (by decide +kernel)
    · intro o s' h
      rw [h0] at h
      simp only [Except.ok.injEq, Prod.mk.injEq] at h
      obtain ⟨-, rfl⟩ := h
      refine ⟨⟨honest_buys_nil _ _, ?_, ?_⟩, fun _ _ _ => trivial⟩
      · exact forProduct_nonneg (nonneg_of_all (by decide +kernel))
      · exact honest_one (w := 0) (n := 10) b1 (by decide) rfl (by decide +kernel)
          (by decide +kernel) (by decide +kernel) (by decide +kernel) (by decide +kernel)
    · have : ((step exCfg s2 ⟨forTails [leu], [], []⟩).toOption.bind fun r => r.1.ports.tails) =
          some ⟨[(0, ⟨[(u235, 1/20), (u238, 399/20)]⟩), (0, ⟨[(u235, 0), (u238, 0)]⟩)], 20⟩ := by
        rw [hs2]; decide +kernel
      rw [h2] at this
      refine ⟨_, this, (0, ⟨[(u235, 0), (u238, 0)]⟩), by simp, by decide +kernel⟩

end Cyc.Enrichment
