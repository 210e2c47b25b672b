import Verif.Enrichment.Props4
import Verif.FuelFab.Props4
import Verif.Reactor.Props5
import Verif.Sim.Props3
import Verif.Sim.Restart
import Verif.Storage.Props2

/-!
# Facilities that cannot be told apart

What a restart does not keep, and makes no difference in a simulation: the counters of an enrichment
facility, the table of requests of a fuel fabrication, the time of a sink that does not look at it.
-/

namespace Cyc.Sim

/-- States that differ only in what makes no difference. -/
def Same : (k : Kind) → (act k).S → (act k).S → Prop
  | .enrichment _ => fun (s s' : Enrichment.State) => s'.inventory = s.inventory ∧ s'.tails = s.tails
  | .fuelFab _ => fun (s s' : FuelFab.State) => ∃ inv, s' = FuelFab.withReq inv s
  | .sink _ => fun (s s' : ℤ × Sink.State) => s'.2.inventory = s.2.inventory ∧
    s'.2.prefs = s.2.prefs ∧ s.2.nextBuy = -1 ∧ s'.2.nextBuy = -1
  | _ => fun s s' => s' = s

namespace OfEnrichment
open Enrichment

theorem same_iff {s s' : State} : (s'.inventory = s.inventory ∧ s'.tails = s.tails) ↔
    ∃ x y, s' = { s with swu := y, intra := x } := by
  obtain ⟨a, b, c, d⟩ := s
  obtain ⟨a', b', c', d'⟩ := s'
  constructor
  · rintro ⟨h1, h2⟩
    simp only at h1 h2
    subst h1 h2
    exact ⟨d', c', rfl⟩
  · rintro ⟨x, y, h⟩
    simp only [State.mk.injEq] at h
    exact ⟨h.1, h.2.1⟩

variable {c : Cfg} {s : State} {x : Option (ℚ × ℚ)} {y : ℚ}

theorem same_asks : (enrichment c).asks ({ s with swu := y, intra := x } : State) =
    (enrichment c).asks s := rfl

theorem same_offers (rs : List Sim.Req) : (enrichment c).offers rs ({ s with swu := y, intra := x } : State) =
    (enrichment c).offers rs s := by
  show (bids c (targets rs) (withIntra x (tick c s)) >>= _) = (bids c (targets rs) (tick c s) >>= _)
  rw [bids_intra]
  cases bids c (targets rs) (tick c s) <;> rfl

theorem same_sell (rs : List Sim.Req) (ts : List Sale) :
    (enrichment c).sell rs ts ({ s with swu := y, intra := x } : State) =
      if ts = [] then ((enrichment c).sell rs ts s).map fun r => (r.1, withIntra x r.2)
      else (enrichment c).sell rs ts s := by
  show (bids c (targets rs) (withIntra x (tick c s)) >>= _) = _
  rw [bids_intra]
  simp only [enrichment]
  cases bids c (targets rs) (tick c s) with
  | error e => simp only [Except.map, error_bind, ite_self]
  | ok r =>
    simp only [Except.map, ok_bind]
    cases ts with
    | nil => rfl
    | cons t ts => simp only [reduceCtorEq, if_false]; rfl

theorem same_sold {s' : State} (S : s'.inventory = s.inventory ∧ s'.tails = s.tails) {rs : List Sim.Req}
    {ts : List Sale} {l : List Sim.NMat} {m : State} (h : (enrichment c).sell rs ts s = .ok (l, m)) :
    ∃ x, (enrichment c).sell rs ts s' = .ok (l, withIntra x m) := by
  obtain ⟨x, y, rfl⟩ := same_iff.1 S
  have e := same_sell (c := c) (s := s) (x := x) (y := y) rs ts
  rw [h] at e
  cases ts with
  | nil => exact ⟨x, e⟩
  | cons t ts => exact ⟨m.intra, e⟩

theorem same_settled {s' : State} (S : s'.inventory = s.inventory ∧ s'.tails = s.tails)
    {rs : List Sim.Req} {ts : List Sale} {l l' : List Sim.NMat} {m m' s₁ : State} {ds : List Delivery}
    (h : (enrichment c).sell rs ts s = .ok (l, m)) (h' : (enrichment c).sell rs ts s' = .ok (l', m'))
    (hs : (enrichment c).settle ds m = .ok s₁) :
    ∃ s₁' : State, (enrichment c).settle ds m' = .ok s₁' ∧ s₁'.inventory = s₁.inventory ∧
      s₁'.tails = s₁.tails := by
  obtain ⟨x, e⟩ := same_sold S h
  obtain ⟨-, rfl⟩ := Prod.mk.inj (Except.ok.inj (e.symm.trans h'))
  have hs : accept c (ds.map Delivery.mat) m = .ok s₁ := hs
  refine ⟨withIntra x s₁, ?_, rfl, rfl⟩
  show accept c (ds.map Delivery.mat) (withIntra x m) = _
  rw [accept_intra, hs]; rfl

end OfEnrichment

namespace OfFuelFab
open FuelFab

variable {c : Cfg} {s : State}

theorem same_requests (I : Inv c s) (inv : List (Nat × String)) :
    requests c id s = .ok (asksOf c id s, withReq (notes (asksOf c id s) s.reqInv) s) ∧
    requests c id (withReq inv s) = .ok (asksOf c id s, withReq (notes (asksOf c id s) inv) s) := by
  have I' : Inv c (withReq inv s) := I.same ⟨rfl, rfl, rfl, rfl, rfl⟩
  exact ⟨requests_ok I, requests_ok I'⟩

theorem same_asks (I : Inv c s) (inv : List (Nat × String)) :
    (fuelFab c).asks (withReq inv s) = (fuelFab c).asks s := by
  obtain ⟨h1, h2⟩ := same_requests I inv
  simp only [fuelFab, h1, h2, ok_bind]

theorem same_offers (I : Inv c s) (inv : List (Nat × String)) (rs : List Sim.Req) :
    (fuelFab c).offers rs (withReq inv s) = (fuelFab c).offers rs s := by
  obtain ⟨h1, h2⟩ := same_requests I inv
  simp only [fuelFab, h1, h2, ok_bind]
  rfl

theorem same_sell (I : Inv c s) (inv : List (Nat × String)) (rs : List Sim.Req) (ts : List Sale) :
    (fuelFab c).sell rs ts (withReq inv s) =
      ((fuelFab c).sell rs ts s).map fun r => (r.1, withReq (notes (asksOf c id s) inv) r.2) := by
  obtain ⟨h1, h2⟩ := same_requests I inv
  simp only [fuelFab, h1, h2, ok_bind]
  have eb : ∀ l, bids c (fuelTargets rs) (withReq l s) = bids c (fuelTargets rs) s := fun _ => rfl
  have et : ∀ l, (ts.map fun t => fuelTrade c (withReq l s) t.target t.amt) =
    ts.map fun t => fuelTrade c s t.target t.amt := fun _ => rfl
  rw [eb, eb, et, et]
  cases bids c (fuelTargets rs) s with
  | error e => rfl
  | ok p =>
    simp only [ok_bind, sell_withReq]
    cases sell c (ts.map fun t => fuelTrade c s t.target t.amt) s <;> rfl

/-- What is handed over does not change the table of requests. -/
theorem sell_table (I : Inv c s) {rs : List Sim.Req} {ts : List Sale} {l : List Sim.NMat} {m : State}
    (h : (fuelFab c).sell rs ts s = .ok (l, m)) : m.reqInv = notes (asksOf c id s) s.reqInv := by
  have := same_sell I s.reqInv rs ts
  have e : withReq s.reqInv s = s := rfl
  rw [e] at this
  rw [h] at this
  have := congrArg State.reqInv (Prod.mk.inj (Except.ok.inj this)).2
  exact this

theorem same_settled (I : Inv c s) {inv : List (Nat × String)}
    {rs : List Sim.Req} {ts : List Sale} {l l' : List Sim.NMat} {m m' s₁ : State} {as : List Ask}
    {ds : List Delivery} (ha : (fuelFab c).asks s = .ok as) (W : WithinAsks as ds)
    (h : (fuelFab c).sell rs ts s = .ok (l, m))
    (h' : (fuelFab c).sell rs ts (withReq inv s) = .ok (l', m'))
    (hs : (fuelFab c).settle ds m = .ok s₁) :
    ∃ inv', (fuelFab c).settle ds m' = .ok (withReq inv' s₁) := by
  rw [same_sell I inv, h] at h'
  obtain ⟨-, rfl⟩ := Prod.mk.inj (Except.ok.inj h')
  have hs : acceptAll c (ds.map fun d => (fuelId c d, d.mat)) m = .ok s₁ := hs
  have ht := sell_table I h
  simp only [fuelFab, (same_requests I inv).1, ok_bind, pure_eq_ok, Except.ok.injEq] at ha
  rw [← ha] at W
  have hb := honestBuys W
  have e := acceptAll_withReq (c := c) (ds := ds.map fun d => (fuelId c d, d.mat)) (s := m)
    (inv := notes (asksOf c id s) inv) (fun d hd => by rw [ht]; exact notes_getD (hb.req d hd))
  rw [hs] at e
  show ∃ inv', acceptAll c (ds.map fun d => (fuelId c d, d.mat))
    (withReq (notes (asksOf c id s) inv) m) = .ok (withReq inv' s₁)
  rw [e]
  simp only [Except.map]
  split
  · exact ⟨_, rfl⟩
  · exact ⟨s₁.reqInv, rfl⟩

end OfFuelFab

namespace OfSink
open Sink

/-- The amounts of the next purchase depend on the inventory alone. -/
theorem same_tick {c : Cfg} (hs : c.sizeType = "None") {t t' : ℤ} {s s' : State}
    (h1 : s'.inventory = s.inventory) (h2 : s'.prefs = s.prefs) (h3 : s.nextBuy = -1)
    (h4 : s'.nextBuy = -1) :
    tickAmt c noRng t' s' = tickAmt c noRng t s ∧
      tickAmt c noRng t s = .ok { s with requestAmt := spaceAvailable c s } := by
  obtain ⟨a, b, d, e⟩ := s
  obtain ⟨a', b', d', e'⟩ := s'
  simp only at h1 h2 h3 h4
  subst h1 h2 h3 h4
  simp [tickAmt, setRequestAmt, hs, spaceAvailable, pure_eq_ok]

theorem accept_nextBuy {c : Cfg} {l : List Res} {s s' : State} (h : accept c l s = .ok s') :
    s'.nextBuy = s.nextBuy ∧ s'.prefs = s.prefs := by
  induction l generalizing s with
  | nil => simp only [accept, Except.ok.injEq] at h; subst h; exact ⟨rfl, rfl⟩
  | cons r l ih =>
    simp only [accept, bind_ok] at h
    obtain ⟨b, -, h⟩ := h
    have := ih h
    exact this

theorem same_settled {c : Cfg} (hs : c.sizeType = "None") {s s' : ℤ × State}
    (h1 : s'.2.inventory = s.2.inventory) (h2 : s'.2.prefs = s.2.prefs) (h3 : s.2.nextBuy = -1)
    (h4 : s'.2.nextBuy = -1) {rs : List Sim.Req} {ts : List Sale} {l l' : List Sim.NMat}
    {m m' s₁ : ℤ × State} {ds : List Delivery}
    (h : (sink c).sell rs ts s = .ok (l, m)) (h' : (sink c).sell rs ts s' = .ok (l', m'))
    (hd : (sink c).settle ds m = .ok s₁) :
    ∃ s₁' : ℤ × State, (sink c).settle ds m' = .ok s₁' ∧ s₁'.2 = s₁.2 ∧ s₁.2.nextBuy = -1 := by
  obtain ⟨e, e'⟩ := same_tick (t := s.1) (t' := s'.1) hs h1 h2 h3 h4
  simp only [sink, e, e', ok_bind, bind_ok, pure_eq_ok, Except.ok.injEq, Prod.mk.injEq] at h h'
  obtain ⟨⟨p, s2⟩, k1, rfl, rfl⟩ := h
  obtain ⟨⟨p', s2'⟩, k2, rfl, rfl⟩ := h'
  obtain ⟨-, rfl⟩ := Prod.mk.inj (Except.ok.inj (k1.symm.trans k2))
  have hn : s2.nextBuy = -1 := by
    simp only [matlRequests, readjust, setRequestAmt, hs, if_true, bind_ok, pure_eq_ok,
      Except.ok.injEq, Prod.mk.injEq] at k1
    obtain ⟨x, hx, -, -, -, rfl⟩ := k1
    split at hx <;> (rw [Except.ok.injEq] at hx; rw [← hx]; exact h3)
  simp only [sink, bind_ok, pure_eq_ok, Except.ok.injEq] at hd ⊢
  obtain ⟨x, hx, rfl⟩ := hd
  exact ⟨_, ⟨x, hx, rfl⟩, rfl, (accept_nextBuy hx).1.trans hn⟩

end OfSink

/-! ## Facilities that cannot be told apart -/

/-- Two facilities that cannot be told apart: they differ only in what makes no difference, and the
first has lived in a market that respects its requests and offers. -/
inductive Twin : Running act → Running act → Prop
  | mk {k : Kind} {s s' : (act k).S} (sensible : Sensible k)
      (lived : ∃ n got gave, Lived k s n got gave) (same : Same k s s') : Twin ⟨k, s⟩ ⟨k, s'⟩

theorem fuelFab_inv {c : FuelFab.Cfg} {s : FuelFab.State} (hc : Sensible (.fuelFab c)) {n : Nat}
    {got gave : List (List NMat)} (L : Lived (.fuelFab c) s n got gave) : FuelFab.Inv c s := by
  obtain ⟨s₀, is, outs, b, r, H, -, -, -⟩ := L
  have S : FuelFab.Substantial is := honest_all (step := FuelFab.step c) (run := FuelFab.run c)
    (fun _ => rfl) (fun _ _ _ => rfl) (H := fun s i => ∀ a s₁, FuelFab.requests c i.addr s = .ok (a, s₁) →
      FuelFab.Distinct a ∧ FuelFab.HonestBuys a i.buys ∧ ∀ p, FuelFab.bids c i.reqs s₁ = .ok p →
        FuelFab.HonestSales c (i.reqs c.outCommod) p i.sells) (fun _ _ _ => Iff.rfl)
    (Q := fun i => ∀ d ∈ i.buys, FuelFab.Solid d.2) (by
      intro s i o s' h hs
      simp only [FuelFab.step, bind_ok] at hs
      obtain ⟨⟨a, s₁⟩, e, -⟩ := hs
      exact (h _ _ e).2.1.mass) r H
  exact FuelFab.reachable_inv hc.1 ⟨is, outs, S, s₀, b, r⟩

theorem twin_asks {p p' : Running act} (h : Twin p p') :
    p'.k = p.k ∧ (act p'.k).asks p'.s = (act p.k).asks p.s := by
  obtain ⟨hk, ⟨n, got, gave, L⟩, S⟩ := h
  refine ⟨rfl, ?_⟩
  rename_i k s s'
  cases k with
  | enrichment c =>
    obtain ⟨x, y, rfl⟩ := OfEnrichment.same_iff.1 S
    rfl
  | fuelFab c =>
    obtain ⟨inv, rfl⟩ := S
    exact OfFuelFab.same_asks (fuelFab_inv hk L) inv
  | sink c =>
    obtain ⟨h1, h2, h3, h4⟩ := S
    obtain ⟨e, -⟩ := OfSink.same_tick (t := s.1) (t' := s'.1) hk.2.2.2.1 h1 h2 h3 h4
    show (sink c).asks s' = (sink c).asks s
    simp only [sink, e]
  | _ => rw [show s' = s from S]

theorem twin_offers {p p' : Running act} (h : Twin p p') (rs : List Req) :
    (act p'.k).offers rs p'.s = (act p.k).offers rs p.s := by
  obtain ⟨hk, ⟨n, got, gave, L⟩, S⟩ := h
  rename_i k s s'
  cases k with
  | enrichment c =>
    obtain ⟨x, y, rfl⟩ := OfEnrichment.same_iff.1 S
    exact OfEnrichment.same_offers rs
  | fuelFab c =>
    obtain ⟨inv, rfl⟩ := S
    exact OfFuelFab.same_offers (fuelFab_inv hk L) inv rs
  | sink c => rfl
  | _ => rw [show s' = s from S]

theorem twin_sell {k : Kind} {s s' : (act k).S} (h : Twin ⟨k, s⟩ ⟨k, s'⟩) {rs : List Req} {ts : List Sale}
    {l : List NMat} {m : (act k).M} (hs : (act k).sell rs ts s = .ok (l, m)) :
    ∃ m', (act k).sell rs ts s' = .ok (l, m') := by
  cases h with
  | mk hk L S =>
  obtain ⟨n, got, gave, L⟩ := L
  cases k with
  | enrichment c =>
    obtain ⟨x, e⟩ := OfEnrichment.same_sold S hs
    exact ⟨_, e⟩
  | fuelFab c =>
    obtain ⟨inv, rfl⟩ := S
    have e := OfFuelFab.same_sell (fuelFab_inv hk L) inv rs ts
    have hs' : (fuelFab c).sell rs ts s = .ok (l, m) := hs
    rw [hs'] at e
    exact ⟨_, e⟩
  | sink c =>
    obtain ⟨h1, h2, h3, h4⟩ := S
    obtain ⟨e, -⟩ := OfSink.same_tick (t := s.1) (t' := s'.1) hk.2.2.2.1 h1 h2 h3 h4
    change (sink c).sell rs ts s = .ok (l, m) at hs
    show ∃ m', (sink c).sell rs ts s' = .ok (l, m')
    simp only [sink, bind_ok, pure_eq_ok, Except.ok.injEq, Prod.mk.injEq] at hs ⊢
    obtain ⟨s1, e1, ⟨p, s2⟩, e2, rfl, rfl⟩ := hs
    exact ⟨_, s1, e.trans e1, (p, s2), e2, rfl, rfl⟩
  | _ =>
    rw [show s' = s from S]
    exact ⟨m, hs⟩

theorem twin_settle {k : Kind} {s s' : (act k).S} (h : Twin ⟨k, s⟩ ⟨k, s'⟩) {rs : List Req}
    (hrs : ∀ r ∈ rs, Solid r.target) {os : List Offer} {ts : List Sale}
    {l : List NMat} {as : List Ask} {ds : List Delivery} {m m' : (act k).M} {s₁ : (act k).S}
    (P : Part (act k) rs s os ts l as ds m s₁) (hm : (act k).sell rs ts s' = .ok (l, m')) :
    ∃ s₁', (act k).settle ds m' = .ok s₁' ∧ Twin ⟨k, s₁⟩ ⟨k, s₁'⟩ := by
  cases h with
  | mk hk L S =>
  obtain ⟨n, got, gave, L⟩ := L
  have L' := lived_step hk hrs L P
  cases k with
  | enrichment c =>
    obtain ⟨s₁', e1, e2⟩ := OfEnrichment.same_settled S P.sell hm P.settle
    exact ⟨s₁', e1, hk, ⟨_, _, _, L'⟩, e2⟩
  | fuelFab c =>
    obtain ⟨inv, rfl⟩ := S
    obtain ⟨inv', e⟩ := OfFuelFab.same_settled (fuelFab_inv hk L) P.asks P.deliveries P.sell hm P.settle
    exact ⟨_, e, hk, ⟨_, _, _, L'⟩, inv', rfl⟩
  | sink c =>
    obtain ⟨h1, h2, h3, h4⟩ := S
    obtain ⟨s₁', e1, e2, e3⟩ := OfSink.same_settled hk.2.2.2.1 h1 h2 h3 h4 P.sell hm P.settle
    refine ⟨s₁', e1, hk, ⟨_, _, _, L'⟩, ?_⟩
    show s₁'.2.inventory = _ ∧ s₁'.2.prefs = _ ∧ _ ∧ s₁'.2.nextBuy = -1
    rw [e2]
    exact ⟨rfl, rfl, e3, e3⟩
  | _ =>
    rw [show s' = s from S] at hm
    obtain ⟨-, rfl⟩ := Prod.mk.inj (Except.ok.inj (P.sell.symm.trans hm))
    exact ⟨s₁, P.settle, hk, ⟨_, _, _, L'⟩, rfl⟩

/-! ## Simulations of such facilities -/

theorem askAll_twin {ps ps' : List (Running act)} (h : List.Forall₂ Twin ps ps') :
    askAll ps' = askAll ps := by
  induction h with
  | nil => rfl
  | cons h _ ih => simp only [askAll, (twin_asks h).2, ih]

theorem offerAll_twin {ps ps' : List (Running act)} (h : List.Forall₂ Twin ps ps') (rs : List Req) :
    offerAll rs ps' = offerAll rs ps := by
  induction h with
  | nil => rfl
  | cons h _ ih => simp only [offerAll, twin_offers h, ih]

theorem sellAll_twin {ps ps' : List (Running act)} (h : List.Forall₂ Twin ps ps') {rs : List Req}
    {ds : List Deal} {k : Nat} {gs : List (Deal × NMat)} {hs : List (Halfway act)}
    (hr : sellAll rs ds k ps = .ok (gs, hs)) : ∃ hs', sellAll rs ds k ps' = .ok (gs, hs') := by
  induction h generalizing k gs hs with
  | nil =>
    simp only [sellAll, Except.ok.injEq, Prod.mk.injEq] at hr
    exact ⟨[], by simp [sellAll, hr.1]⟩
  | cons h _ ih =>
    simp only [sellAll, bind_ok, pure_eq_ok, Except.ok.injEq, Prod.mk.injEq] at hr
    obtain ⟨⟨l, m⟩, h1, ⟨gs', hs'⟩, h2, rfl, rfl⟩ := hr
    obtain ⟨hs'', e⟩ := ih h2
    obtain ⟨hk, L, S⟩ := h
    obtain ⟨m', e'⟩ := twin_sell ⟨hk, L, S⟩ h1
    refine ⟨⟨_, m'⟩ :: hs'', ?_⟩
    simp only [sellAll]
    rw [e', ok_bind]
    simp only [e, ok_bind, pure_eq_ok]

theorem settleAll_any {gs : List (Deal × NMat)} {hs : List (Halfway act)} {k : Nat}
    (h : ∀ (j : Nat) x, hs[j]? = some x → ∃ s,
      (act x.k).settle ((gs.filter fun g => g.1.dst = k + j).map delivery) x.m = .ok s) :
    ∃ ps, settleAll gs k hs = .ok ps := by
  induction hs generalizing k with
  | nil => exact ⟨[], rfl⟩
  | cons x hs ih =>
    obtain ⟨s, e⟩ := h 0 x rfl
    obtain ⟨ps, e'⟩ := ih (k := k + 1) fun j y hy => by
      obtain ⟨s, e⟩ := h (j + 1) y (by simpa using hy)
      rw [show k + (j + 1) = k + 1 + j by omega] at e
      exact ⟨s, e⟩
    exact ⟨⟨x.k, s⟩ :: ps, by simp only [settleAll, Nat.add_zero] at e ⊢; rw [e, ok_bind, e', ok_bind]; rfl⟩

theorem forall₂_of_get {α β : Type} {R : α → β → Prop} {l : List α} {l' : List β}
    (hl : l'.length = l.length)
    (h : ∀ (j : Nat) a, l[j]? = some a → ∃ b, l'[j]? = some b ∧ R a b) : List.Forall₂ R l l' := by
  induction l generalizing l' with
  | nil => rw [List.length_eq_zero_iff.1 hl]; exact .nil
  | cons a l ih =>
    cases l' with
    | nil => simp at hl
    | cons b l' =>
      obtain ⟨b', e, r⟩ := h 0 a rfl
      obtain rfl := Option.some.inj e
      exact .cons r (ih (by simpa using hl) fun j a ha => by simpa using h (j + 1) a (by simpa using ha))

theorem round_twin {A : Agreement} {μ : NMat → ℚ} {ex : Exchange} (hex : ex.Fair)
    {ps ps' qs : List (Running act)} {gs : List (Deal × NMat)} (hg : ∀ p ∈ ps, Good A μ holdings p)
    (h : List.Forall₂ Twin ps ps') (hr : round ex ps = .ok (gs, qs)) :
    ∃ qs', round ex ps' = .ok (gs, qs') ∧ List.Forall₂ Twin qs qs' := by
  obtain ⟨asks, offers, hs, a1, a2, a3, a4, a5, a6⟩ := round_parts' hex hg hr
  obtain ⟨hs', b1⟩ := sellAll_twin h a3
  obtain ⟨c1, -, c2⟩ := sellAll_parts b1
  obtain ⟨d1, -, -⟩ := sellAll_parts a3
  have hlen := h.length_eq
  have key : ∀ (j : Nat) p, ps[j]? = some p → ∃ p', ps'[j]? = some p' ∧ ∃ m' s₁', hs'[j]? = some ⟨p'.k, m'⟩ ∧
      (act p'.k).settle ((gs.filter fun g => g.1.dst = j).map delivery) m' = .ok s₁' ∧
      ∃ q, qs[j]? = some q ∧ Twin q ⟨p'.k, s₁'⟩ := by
    intro j p hj
    obtain ⟨p', hj', T⟩ := forall₂_get h hj
    obtain ⟨l', m', e1, e2, -⟩ := c2 j p' hj'
    obtain ⟨os, l, as, m, s₁, P, e3, -⟩ := a6 j p hj
    rw [Nat.zero_add] at e1
    obtain ⟨hk, L, S⟩ := T
    have T := Twin.mk hk L S
    obtain ⟨m'', e4⟩ := twin_sell T P.sell
    obtain ⟨rfl, rfl⟩ := Prod.mk.inj (Except.ok.inj (e4.symm.trans e1))
    obtain ⟨s₁', e5, T'⟩ := twin_settle T (fun r hr => (a5 r hr).1) P e1
    exact ⟨_, hj', m'', s₁', e2, e5, _, e3, T'⟩
  have get : ∀ (j : Nat) x, hs'[j]? = some x → ∃ p, ps[j]? = some p := by
    intro j x hx
    have := (List.getElem?_eq_some_iff.1 hx).1
    exact ⟨ps[j]'(by omega), List.getElem?_eq_getElem _⟩
  obtain ⟨qs', f⟩ := settleAll_any (gs := gs) (hs := hs') (k := 0) (by
    intro j x hx
    obtain ⟨p, hp⟩ := get j x hx
    obtain ⟨p', -, m', s₁', e, e', -⟩ := key j p hp
    rw [hx, Option.some.injEq] at e
    subst e
    rw [Nat.zero_add]
    exact ⟨s₁', e'⟩)
  obtain ⟨f1, f2⟩ := settleAll_parts f
  obtain ⟨f3, -⟩ := settleAll_parts a4
  refine ⟨qs', ?_, forall₂_of_get (by omega) ?_⟩
  · simp only [round, askAll_twin h, offerAll_twin h, a1, a2, ok_bind]
    rw [b1, ok_bind]
    simp only [f, ok_bind, pure_eq_ok]
  · intro j q hq
    have : ∃ p, ps[j]? = some p := by
      have := (List.getElem?_eq_some_iff.1 hq).1
      exact ⟨ps[j]'(by omega), List.getElem?_eq_getElem _⟩
    obtain ⟨p, hp⟩ := this
    obtain ⟨p', -, m', s₁', e, e', q', k1, k2⟩ := key j p hp
    obtain ⟨s, g1, g2⟩ := f2 j _ e
    rw [Nat.zero_add] at g1
    obtain rfl := Except.ok.inj (e'.symm.trans g1)
    rw [hq, Option.some.injEq] at k1
    subst k1
    exact ⟨_, g2, k2⟩

end Cyc.Sim
