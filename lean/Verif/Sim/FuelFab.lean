import Verif.Sim.Conversion
import Verif.FuelFab.Props3

/-!
# `FuelFab` keeps the contract, if nothing is asked of it that it cannot keep
-/

namespace Cyc.Sim

namespace OfFuelFab
open FuelFab

/-! ## Requests and deliveries -/

theorem mem_ids {c : Cfg} {k : Nat} {b : Buf NMat} {r : Option NMat} {ks : List String}
    {ps : List ℚ} {i : Nat} : i ∈ (reqsOf (portFor c id k b r ks ps)).map FuelFab.Req.id ↔
      space b > c.eps ∧ ∃ j < ks.length, i = k + j := by
  unfold portFor
  split
  · rename_i h
    simp only [reqsOf, reqsFor, List.map_map, List.mem_map, List.mem_range, Function.comp, id, h,
      true_and]
    constructor
    · rintro ⟨j, hj, rfl⟩; exact ⟨j, hj, rfl⟩
    · rintro ⟨j, hj, rfl⟩; exact ⟨j, hj, rfl⟩
  · rename_i h
    simp [reqsOf, h]

theorem nodup_ids {c : Cfg} {k : Nat} {b : Buf NMat} {r : Option NMat} {ks : List String}
    {ps : List ℚ} : ((reqsOf (portFor c id k b r ks ps)).map FuelFab.Req.id).Nodup := by
  unfold portFor
  split
  · simp only [reqsOf, reqsFor, List.map_map]
    refine List.Nodup.map ?_ List.nodup_range
    intro a b h
    simp only [Function.comp, id] at h
    omega
  · simp [reqsOf]

theorem distinct (c : Cfg) (s : State) : Distinct (asksOf c id s) := by
  unfold Distinct
  rw [allReqs_eq, List.map_append, List.map_append, List.nodup_append, List.nodup_append]
  refine ⟨nodup_ids, ⟨nodup_ids, nodup_ids, ?_⟩, ?_⟩
  · intro a ha b hb
    obtain ⟨-, i, hi, rfl⟩ := mem_ids.1 ha
    obtain ⟨-, j, hj, rfl⟩ := mem_ids.1 hb
    omega
  · intro a ha b hb
    obtain ⟨-, i, hi, rfl⟩ := mem_ids.1 ha
    rcases List.mem_append.1 hb with hb | hb
    all_goals
      obtain ⟨-, j, hj, rfl⟩ := mem_ids.1 hb
      omega

/-- The three portfolios. -/
def ports (a : Asks) : List Ask := [fuelAsk a.fiss, fuelAsk a.fill, fuelAsk a.topup]

/-- The alternatives of a portfolio. -/
theorem mem_alts {c : Cfg} {k : Nat} {b : Buf NMat} {r : Option NMat} {ks : List String}
    {ps : List ℚ} {x : String × NMat} (h : x ∈ (fuelAsk (portFor c id k b r ks ps)).alts) :
    space b > c.eps ∧ x.1 ∈ ks ∧ x.2 = fuelTarget r (space b) := by
  unfold portFor at h
  split at h
  · rename_i h0
    simp only [fuelAsk, reqsFor, List.map_map, List.mem_map, List.mem_range, Function.comp] at h
    obtain ⟨i, hi, rfl⟩ := h
    refine ⟨h0, ?_, rfl⟩
    simp only [List.getD_eq_getElem?_getD, List.getElem?_eq_getElem hi, Option.getD_some]
    exact List.getElem_mem hi
  · simp [fuelAsk] at h

theorem findIdx_lt {ks : List String} {k : String} (h : k ∈ ks) :
    ks.findIdx (· = k) < ks.length := by
  rw [List.findIdx_lt_length]
  exact ⟨k, h, by simp⟩

/-- A delivery answers a request of its stream, and of no other. -/
theorem answered {c : Cfg} {s : State} {ds : List Delivery} (W : WithinAsks (ports (asksOf c id s)) ds)
    {d : Delivery} (hd : d ∈ ds) :
    (fuelId c d ∈ (reqsOf (asksOf c id s).fiss).map FuelFab.Req.id ↔ d.port = 0) ∧
    (fuelId c d ∈ (reqsOf (asksOf c id s).fill).map FuelFab.Req.id ↔ d.port = 1) ∧
    (fuelId c d ∈ (reqsOf (asksOf c id s).topup).map FuelFab.Req.id ↔ d.port = 2) ∧
    (d.port = 0 ∨ d.port = 1 ∨ d.port = 2) := by
  obtain ⟨a, h1, h2, -⟩ := W.asked d hd
  obtain ⟨x, hx, e⟩ := List.mem_map.1 h2
  unfold asksOf
  simp only [mem_ids]
  have hlt := (List.getElem?_eq_some_iff.1 h1).1
  simp only [ports, List.length_cons, List.length_nil] at hlt
  have hp : d.port = 0 ∨ d.port = 1 ∨ d.port = 2 := by omega
  rcases hp with hp | hp | hp
  · rw [hp] at h1
    simp only [ports, List.getElem?_cons_zero, Option.some.injEq] at h1
    subst h1
    obtain ⟨k1, k2, -⟩ := mem_alts hx
    rw [e] at k2
    have := findIdx_lt k2
    have hid : fuelId c d = c.fissCommods.findIdx (· = d.commod) := by simp only [fuelId, hp, if_true]
    rw [hid]
    refine ⟨⟨fun _ => hp, fun _ => ⟨k1, _, this, by omega⟩⟩, ?_, ?_, by omega⟩
    all_goals
      constructor
      · rintro ⟨-, j, hj, e⟩; omega
      · omega
  · rw [hp] at h1
    simp only [ports, List.getElem?_cons_succ, List.getElem?_cons_zero, Option.some.injEq] at h1
    subst h1
    obtain ⟨k1, k2, -⟩ := mem_alts hx
    rw [e] at k2
    have := findIdx_lt k2
    have hid : fuelId c d = c.fissCommods.length + c.fillCommods.findIdx (· = d.commod) := by
      simp only [fuelId, hp, if_true, one_ne_zero, if_false]
    rw [hid]
    refine ⟨?_, ⟨fun _ => hp, fun _ => ⟨k1, _, this, by omega⟩⟩, ?_, by omega⟩
    all_goals
      constructor
      · rintro ⟨-, j, hj, e⟩; omega
      · omega
  · rw [hp] at h1
    simp only [ports, List.getElem?_cons_succ, List.getElem?_cons_zero, Option.some.injEq] at h1
    subst h1
    obtain ⟨k1, k2, -⟩ := mem_alts hx
    have hid : fuelId c d = c.fissCommods.length + c.fillCommods.length := by
      simp only [fuelId, hp, if_false, show ¬ (2 : Nat) = 0 by omega, show ¬ (2 : Nat) = 1 by omega]
    rw [hid]
    refine ⟨?_, ?_, ⟨fun _ => hp, fun _ => ⟨k1, 0, by simp, by omega⟩⟩, by omega⟩
    all_goals
      constructor
      · rintro ⟨-, j, hj, e⟩; omega
      · omega

theorem answers_of {c : Cfg} {p : Option ReqPort} {ds : List Delivery} {k : Nat}
    (h : ∀ d ∈ ds, fuelId c d ∈ (reqsOf p).map FuelFab.Req.id ↔ d.port = k) :
    answers p (ds.map fun d => (fuelId c d, d.mat)) = (ds.filter fun d => d.port = k).map Delivery.mat := by
  rw [FuelFab.answers_eq, List.filter_map, List.map_map]
  congr 1
  apply List.filter_congr
  intro d hd
  exact Bool.decide_congr (h d hd)

theorem fuelAsk_amount (p : Option ReqPort) : (fuelAsk p).amount = amount p := by
  cases p <;> rfl

/-- The deliveries are honest. -/
theorem honestBuys {c : Cfg} {s : State} {ds : List Delivery}
    (W : WithinAsks (ports (asksOf c id s)) ds) :
    HonestBuys (asksOf c id s) (ds.map fun d => (fuelId c d, d.mat)) := by
  refine ⟨?_, ?_, ?_, ?_, ?_⟩
  · intro x hx
    obtain ⟨d, hd, rfl⟩ := List.mem_map.1 hx
    exact W.solid d hd
  · intro x hx
    obtain ⟨d, hd, rfl⟩ := List.mem_map.1 hx
    rw [allReqs_eq, List.map_append, List.map_append, List.mem_append, List.mem_append]
    obtain ⟨h1, h2, h3, h4 | h4 | h4⟩ := answered W hd
    · exact Or.inl (h1.2 h4)
    · exact Or.inr (Or.inl (h2.2 h4))
    · exact Or.inr (Or.inr (h3.2 h4))
  · rw [answers_of fun d hd => (answered W hd).1, totalQty_mats, ← fuelAsk_amount]
    exact W.amounts 0 _ rfl
  · rw [answers_of fun d hd => (answered W hd).2.1, totalQty_mats, ← fuelAsk_amount]
    exact W.amounts 1 _ rfl
  · rw [answers_of fun d hd => (answered W hd).2.2.1, totalQty_mats, ← fuelAsk_amount]
    exact W.amounts 2 _ rfl

/-! ## Sales -/

theorem run_snoc {c : Cfg} {is : List In} {i : In} {s s' s'' : State} {os : List Out} {o : Out}
    (h : run c s is = .ok (os, s')) (h' : step c s' i = .ok (o, s'')) :
    run c s (is ++ [i]) = .ok (os ++ [o], s'') := by
  induction is generalizing s os with
  | nil =>
    simp only [run, Except.ok.injEq, Prod.mk.injEq] at h
    obtain ⟨rfl, rfl⟩ := h
    simp [run, h', ok_bind, pure_eq_ok]
  | cons j is ih =>
    simp only [run, bind_ok, pure_eq_ok, Except.ok.injEq, Prod.mk.injEq] at h
    obtain ⟨⟨o₁, s₁⟩, h1, ⟨os₁, s₂⟩, h2, rfl, rfl⟩ := h
    simp only [List.cons_append, run, h1, ih h2, ok_bind, pure_eq_ok]

theorem reachable_step {c : Cfg} {s s' : State} {i : In} {o : Out} (h : Reachable c s)
    (hi : ∀ d ∈ i.buys, FuelFab.Solid d.2) (h' : step c s i = .ok (o, s')) : Reachable c s' := by
  obtain ⟨is, os, h1, s₀, h2, h3⟩ := h
  refine ⟨is ++ [i], os ++ [o], ?_, s₀, h2, run_snoc h3 h'⟩
  intro j hj
  rcases List.mem_append.1 hj with hj | hj
  · exact h1 j hj
  · rw [List.mem_singleton.1 hj]; exact hi

theorem fuelTakes_some {c : Cfg} {s : State} {p : Port} {t : Trade} {f l u : ℚ}
    (h : fuelTakes c s p t = some (f, l, u)) : fissConvert c p (cut t) = .ok f ∧
      fillConvert c p (cut t) = .ok l ∧ topupConvert c p (cut t) = .ok u ∧ fuelKept c s p t f l u := by
  unfold fuelTakes at h
  split at h
  · rename_i f' l' u' h1 h2 h3
    split at h
    · rename_i h4
      simp only [Option.some.injEq, Prod.mk.injEq] at h
      obtain ⟨rfl, rfl, rfl⟩ := h
      exact ⟨h1, h2, h3, h4⟩
    · cases h
  · cases h

/-- The values of a constraint. -/
theorem weighed {α : Type} {g : α → Option (ℚ × ℚ × ℚ)} {π : ℚ × ℚ × ℚ → ℚ} {conv : α → R ℚ}
    {ts : List α} {vs : List ℚ} (hc : ∀ t x, g t = some x → conv t = .ok (π x))
    (h : (ts.map fun t => (g t).map π) = vs.map some) :
    List.Forall₂ (fun t v => conv t = .ok v) ts vs ∧ ∀ t ∈ ts, ∃ x, g t = some x := by
  induction ts generalizing vs with
  | nil =>
    cases vs with
    | nil => exact ⟨.nil, by simp⟩
    | cons => simp at h
  | cons t ts ih =>
    cases vs with
    | nil => simp at h
    | cons v vs =>
      simp only [List.map_cons, List.cons.injEq] at h
      obtain ⟨k1, k2⟩ := ih h.2
      cases hg : g t with
      | none => rw [hg] at h; simp at h
      | some x =>
        have h1 := h.1
        rw [hg] at h1
        simp only [Option.map_some, Option.some.injEq] at h1
        refine ⟨.cons (by rw [hc t x hg, h1]) k1, ?_⟩
        intro y hy
        rcases List.mem_cons.1 hy with rfl | hy
        · exact ⟨x, hg⟩
        · exact k2 y hy

theorem forall₂_trade {c : Cfg} {s : State} {conv : NMat → R ℚ} {ts : List Sale} {vs : List ℚ}
    (h : List.Forall₂ (fun (t : Sale) v => conv (cut (fuelTrade c s t.target t.amt)) = .ok v) ts vs) :
    List.Forall₂ (fun (t : Trade) v => conv (cut t) = .ok v)
      (ts.map fun t => fuelTrade c s t.target t.amt) vs := by
  rw [List.forall₂_map_left_iff]; exact h

/-- The sales within the offers are honest, and can be kept. -/
theorem honestSales {c : Cfg} (V : Valid c) {s s₁ : State} (hR : Reachable c s) {a : Asks}
    (hr : requests c id s = .ok (a, s₁)) {rs : List Sim.Req} (hrs : ∀ r ∈ rs, Sim.Solid r.target)
    {p : Port} (hb : bids c (fuelTargets rs) s₁ = .ok (some p)) {ts : List Sale}
    (W : WithinOffers rs [fuelOffer c s₁ p] ts) :
    HonestSales c (fuelTargets rs c.outCommod) (some p)
      (ts.map fun t => fuelTrade c s₁ t.target t.amt) ∧
    ∀ t ∈ ts, ∃ f l u, fuelTakes c s₁ p (fuelTrade c s₁ t.target t.amt) = some (f, l, u) := by
  have I := reachable_inv V hR
  have I1 := I.same (requests_same I hr)
  have hk : ∀ t ∈ ts, t.commod = c.outCommod := W.commod fun o ho => by
    rw [List.mem_singleton.1 ho]; rfl
  have hcap := W.single.2
  have hall : (ts.filter fun t => t.commod = (fuelOffer c s₁ p).commod) = ts :=
    List.filter_eq_self.2 fun t ht => by simp [hk t ht, fuelOffer]
  have lim := W.limits (fuelOffer c s₁ p) (by simp)
  rw [hall] at lim
  obtain ⟨v1, w1, w1'⟩ := lim _ (List.mem_cons_self ..)
  obtain ⟨v2, w2, w2'⟩ := lim _ (List.mem_cons_of_mem _ (List.mem_cons_self ..))
  obtain ⟨v3, w3, w3'⟩ := lim _ (List.mem_cons_of_mem _ (List.mem_cons_of_mem _ (List.mem_cons_self ..)))
  obtain ⟨f1, f0⟩ := weighed (conv := fun t : Sale => fissConvert c p (cut (fuelTrade c s₁ t.target t.amt)))
    (fun t x h => (fuelTakes_some h).1) w1
  obtain ⟨f2, -⟩ := weighed (conv := fun t : Sale => fillConvert c p (cut (fuelTrade c s₁ t.target t.amt)))
    (fun t x h => (fuelTakes_some h).2.1) w2
  obtain ⟨f3, -⟩ := weighed (conv := fun t : Sale => topupConvert c p (cut (fuelTrade c s₁ t.target t.amt)))
    (fun t x h => (fuelTakes_some h).2.2.1) w3
  refine ⟨⟨?_, ?_, ?_, ?_, ?_⟩, ?_⟩
  · intro x hx
    obtain ⟨t, ht, rfl⟩ := List.mem_map.1 hx
    refine ⟨p, rfl, ?_⟩
    have hmem : t.target ∈ fuelTargets rs c.outCommod := by
      refine List.mem_map.2 ⟨⟨t.commod, t.target⟩, List.mem_filter.2 ⟨W.asked t ht, ?_⟩, rfl⟩
      simp [hk t ht]
    obtain ⟨j, hj⟩ := List.getElem?_of_mem hmem
    obtain ⟨o, ho, -, -, -, hserve⟩ := W.offered t ht
    rw [List.mem_singleton.1 ho] at hserve
    change (fuelBid c s₁ t.target).isSome = true at hserve
    obtain ⟨b, hbid⟩ := Option.isSome_iff_exists.1 hserve
    have hin : (j, b) ∈ p.bids := by
      rcases bids_ok V I1 _ hb with ⟨h0, -⟩ | ⟨k, bs, hk1, -, hp, hbs⟩
      · cases h0
      · simp only [Option.some.injEq] at hp
        subst hp
        refine (hbs j b).2 ⟨t.target, hj, ?_⟩
        have hc : decide (s₁.topup.count > 0) = decide (s₁.topup.items ≠ []) := by
          unfold Buf.count
          cases s₁.topup.items <;> simp
        simp only [fuelBid, hk1, bidOne_ok V, hc] at hbid
        exact hbid
    have hq := (C42_offer V hR hr hb hin hj (hrs _ (W.asked t ht))).1
    refine ⟨j, ?_, hj, (W.pos t ht).1, ?_⟩
    · simpa [fuelTrade, hbid] using hin
    · simp only [fuelTrade, hbid, Option.getD_some]
      rw [hq]; exact (W.pos t ht).2
  · rintro port ⟨⟩; exact ⟨v1, forall₂_trade f1, w1'⟩
  · rintro port ⟨⟩; exact ⟨v2, forall₂_trade f2, w2'⟩
  · rintro port ⟨⟩; exact ⟨v3, forall₂_trade f3, w3'⟩
  · rintro port ⟨⟩
    rw [List.map_map]
    exact hcap
  · intro t ht
    obtain ⟨⟨f, l, u⟩, h⟩ := f0 t ht
    exact ⟨f, l, u, h⟩

/-- The sales within the offers are carried out. -/
theorem sales {c : Cfg} (V : Valid c) {s s₁ : State} (hR : Reachable c s) {a : Asks}
    (hr : requests c id s = .ok (a, s₁)) {rs : List Sim.Req} (hrs : ∀ r ∈ rs, Sim.Solid r.target)
    {p : Port} (hb : bids c (fuelTargets rs) s₁ = .ok (some p)) {ts : List Sale}
    (W : WithinOffers rs [fuelOffer c s₁ p] ts) :
    ∃ l s₂, sell c (ts.map fun t => fuelTrade c s₁ t.target t.amt) s₁ = .ok (l, s₂) ∧
      List.Forall₂ (FuelFab.Delivered c) (ts.map fun t => fuelTrade c s₁ t.target t.amt) l := by
  obtain ⟨H, hk⟩ := honestSales V hR hr hrs hb W
  have I := reachable_inv V hR
  obtain ⟨e1, e2, e3, -, -⟩ := requests_same I hr
  have hsol : ∀ m ∈ fuelTargets rs c.outCommod, FuelFab.Solid m := by
    intro m hm
    obtain ⟨r, hr, rfl⟩ := List.mem_map.1 hm
    exact hrs r (List.mem_filter.1 hr).1
  have hn := V.near
  have pos : ∀ {l : List NMat}, c.near ≤ totalQty l → l ≠ [] := by
    rintro l h rfl
    rw [totalQty_nil] at h
    linarith
  -- what holds of one trade in view of the stock
  have each : ∀ t ∈ ts.map fun t => fuelTrade c s₁ t.target t.amt, ∀ f l u,
      fissConvert c p (cut t) = .ok f → fillConvert c p (cut t) = .ok l →
      topupConvert c p (cut t) = .ok u → fuelKept c s₁ p t f l u := by
    intro t ht f l u h1 h2 h3
    obtain ⟨t', ht', rfl⟩ := List.mem_map.1 ht
    obtain ⟨f', l', u', h4⟩ := hk t' ht'
    obtain ⟨k1, k2, k3, k4⟩ := fuelTakes_some h4
    rw [h1] at k1; rw [h2] at k2; rw [h3] at k3
    cases k1; cases k2; cases k3
    exact k4
  have ex : ∀ t ∈ ts.map fun t => fuelTrade c s₁ t.target t.amt, ∃ f l u,
      fissConvert c p (cut t) = .ok f ∧ fillConvert c p (cut t) = .ok l ∧
      topupConvert c p (cut t) = .ok u ∧ fuelKept c s₁ p t f l u := by
    intro t ht
    obtain ⟨t', ht', rfl⟩ := List.mem_map.1 ht
    obtain ⟨f', l', u', h4⟩ := hk t' ht'
    exact ⟨f', l', u', fuelTakes_some h4⟩
  generalize (ts.map fun t => fuelTrade c s₁ t.target t.amt) = us at H each ex ⊢
  cases us with
  | nil =>
    obtain ⟨w1, h1⟩ := stockWeight_ok V s₁.fill
    obtain ⟨w2, h2⟩ := stockWeight_ok V s₁.topup
    obtain ⟨w3, h3⟩ := stockWeight_ok V s₁.fiss
    exact ⟨[], s₁, by simp only [sell, h1, h2, h3, ok_bind, sellLoop], .nil⟩
  | cons t₀ us =>
    obtain ⟨f, l, u, h1, h2, h3, h4⟩ := ex t₀ (by simp)
    rcases h4 with ⟨⟨g1, g2, g3⟩, -⟩ | ⟨g1, g2, -⟩ | ⟨g1, g2, g3, -⟩
    · have key : ∀ t ∈ t₀ :: us, ∀ f l u, fissConvert c p (cut t) = .ok f →
          fillConvert c p (cut t) = .ok l → topupConvert c p (cut t) = .ok u →
          (0 < f ∧ c.lo ≤ f) ∧ (l = 0 ∨ c.lo ≤ l) ∧ (u = 0 ∨ c.lo ≤ u) ∧
          ((weight c p.fill ≤ weight c t.target ∧ weight c t.target ≤ weight c p.fiss) ∨ 0 < u) := by
        intro t ht f l u k1 k2 k3
        rcases each t ht f l u k1 k2 k3 with ⟨-, k⟩ | ⟨k, -⟩ | ⟨k, -⟩
        · exact k
        · exact absurd k (pos g1)
        · exact absurd k (pos g2)
      refine C46_delivers_partial V hR hr hsol hb H ⟨?_, ?_, ?_, ?_, ?_, ?_, ?_⟩
      · rw [← e2]; exact g1
      · rw [← e1]; exact g2
      · rw [← e3]; exact g3
      · rintro port ⟨⟩ t ht v hv
        obtain ⟨f, l, u, k1, k2, k3, -⟩ := ex t ht
        rw [hv] at k1; cases k1
        exact (key t ht v l u hv k2 k3).1
      · rintro port ⟨⟩ t ht v hv
        obtain ⟨f, l, u, k1, k2, k3, -⟩ := ex t ht
        rw [hv] at k2; cases k2
        exact (key t ht f v u k1 hv k3).2.1
      · rintro port ⟨⟩ t ht v hv
        obtain ⟨f, l, u, k1, k2, k3, -⟩ := ex t ht
        rw [hv] at k3; cases k3
        exact (key t ht f l v k1 k2 hv).2.2.1
      · rintro port ⟨⟩ t ht v hv
        obtain ⟨f, l, u, k1, k2, k3, -⟩ := ex t ht
        rw [hv] at k3; cases k3
        exact (key t ht f l v k1 k2 hv).2.2.2
    · have key : ∀ t ∈ t₀ :: us, c.lo ≤ t.amt ∧ fissConvert c p (cut t) = .ok 0 ∧
          topupConvert c p (cut t) = .ok 0 := by
        intro t ht
        obtain ⟨f, l, u, k1, k2, k3, k⟩ := ex t ht
        rcases k with ⟨⟨k, -⟩, -⟩ | ⟨-, -, k4, rfl, rfl⟩ | ⟨-, -, k, -⟩
        · exact absurd g1 (pos k)
        · exact ⟨k4, k1, k3⟩
        · exact absurd g1 (pos k)
      refine C46_filler V hR hr hb H (by rw [← e2]; exact g1) (by rw [← e1]; exact g2)
        (fun t ht => (key t ht).1) ?_
      rintro port ⟨⟩ t ht
      exact (key t ht).2
    · have key : ∀ t ∈ t₀ :: us, (c.lo ≤ t.amt ∧ 0 ≤ weight c t.target) ∧
          fillConvert c p (cut t) = .ok 0 := by
        intro t ht
        obtain ⟨f, l, u, k1, k2, k3, k⟩ := ex t ht
        rcases k with ⟨⟨-, k, -⟩, -⟩ | ⟨-, k, -⟩ | ⟨-, -, -, k4, rfl⟩
        · exact absurd g1 (pos k)
        · exact absurd g1 (pos k)
        · exact ⟨k4, k2⟩
      refine C46_fissile V hR hr hsol hb H (by rw [← e1]; exact g1) (by rw [← e3]; exact g2)
        (by rw [← e2]; exact g3) (fun t ht => (key t ht).1) ?_
      rintro port ⟨⟩ t ht
      exact (key t ht).2

theorem solid_fuelTarget {r : Option NMat} (hr : ∀ m, r = some m → FuelFab.Solid m) {q : ℚ}
    (hq : 0 < q) : Sim.Solid (fuelTarget r q) := by
  cases r with
  | none => exact solid_blank hq
  | some m =>
    have hm := hr m rfl
    exact ⟨by simp only [fuelTarget]; rw [ofComp_qty hm.1.ne']; exact hq, ofComp_nonneg hm hq.le⟩

theorem initPrefs_some {ks : List String} {ps : List ℚ} (h : ps = [] ∨ ps.length = ks.length) :
    ∃ l, initPrefs ks ps = .ok l := by
  unfold initPrefs
  split
  · exact ⟨_, rfl⟩
  · rename_i h0
    rcases h with h | h
    · exact absurd h h0
    · rw [if_neg (by simpa using h)]; exact ⟨_, rfl⟩

theorem deployed {μ : Sim.NMat → ℚ} (hμ : Measure μ) {A : Agreement} {c : Cfg}
    (hc : Sensible (.fuelFab c)) (hA : Suits A (.fuelFab c)) :
    ∃ p, deploy (.fuelFab c) = .ok p ∧ Sim.Good A μ holdings p := by
  obtain ⟨V, hp1, hp2⟩ := hc
  obtain ⟨a1, a2, a3, a4⟩ := hA
  obtain ⟨l1, e1⟩ := initPrefs_some hp1
  obtain ⟨l2, e2⟩ := initPrefs_some hp2
  obtain ⟨s, hs⟩ : ∃ s, enter c = .ok s := by
    simp only [enter, e1, e2, ok_bind, pure_eq_ok]; exact ⟨_, rfl⟩
  have heps := V.eps
  have hnear := V.near
  -- what the facility publishes
  have offered : ∀ {s rs os}, Reachable c s → (fuelFab c).offers rs s = .ok os → ∃ s₁ b,
      requests c id s = .ok (asksOf c id s, s₁) ∧ bids c (fuelTargets rs) s₁ = .ok b ∧
      ((b = none ∧ os = []) ∨ ∃ p, b = some p ∧ os = [fuelOffer c s₁ p]) := by
    intro s rs os hR h
    have hr := requests_ok (addr := id) (reachable_inv V hR)
    simp only [fuelFab, bind_ok, pure_eq_ok, Except.ok.injEq] at h
    obtain ⟨⟨a, s₁⟩, k1, b, k2, k3⟩ := h
    rw [hr] at k1
    simp only [Except.ok.injEq, Prod.mk.injEq] at k1
    obtain ⟨rfl, rfl⟩ := k1
    refine ⟨_, b, hr, k2, ?_⟩
    cases b with
    | none => exact Or.inl ⟨rfl, k3.symm⟩
    | some p => exact Or.inr ⟨p, rfl, k3.symm⟩
  have sold : ∀ {s rs os ts}, Reachable c s → (∀ r ∈ rs, A.Allows r) →
      (fuelFab c).offers rs s = .ok os → WithinOffers rs os ts →
      ∃ s₁ b l s₂, requests c id s = .ok (asksOf c id s, s₁) ∧
        bids c (fuelTargets rs) s₁ = .ok b ∧
        sell c (ts.map fun t => fuelTrade c s₁ t.target t.amt) s₁ = .ok (l, s₂) ∧
        List.Forall₂ (fun t x => Sim.Solid x ∧ qty x = Sale.amt t) ts l := by
    intro s rs os ts hR hrs ho W
    obtain ⟨s₁, b, k1, k2, k3⟩ := offered hR ho
    have I1 := (reachable_inv V hR).same (requests_same (reachable_inv V hR) k1)
    have key : ∃ l s₂, sell c (ts.map fun t => fuelTrade c s₁ t.target t.amt) s₁ = .ok (l, s₂) ∧
        List.Forall₂ (FuelFab.Delivered c) (ts.map fun t => fuelTrade c s₁ t.target t.amt) l := by
      rcases k3 with ⟨-, rfl⟩ | ⟨p, rfl, rfl⟩
      · obtain rfl := WithinOffers.empty W
        obtain ⟨w1, h1⟩ := stockWeight_ok V s₁.fill
        obtain ⟨w2, h2⟩ := stockWeight_ok V s₁.topup
        obtain ⟨w3, h3⟩ := stockWeight_ok V s₁.fiss
        exact ⟨[], s₁, by simp only [sell, h1, h2, h3, ok_bind, List.map_nil, sellLoop], .nil⟩
      · exact sales V hR k1 (fun r hr => (hrs r hr).1) k2 W
    obtain ⟨l, s₂, h1, h2⟩ := key
    refine ⟨s₁, b, l, s₂, k1, k2, h1, ?_⟩
    obtain ⟨wl, wf, wt, h3⟩ := sell_inv h1
    obtain ⟨-, -, -, h4, -⟩ := sellLoop_inv V I1 h3
    rw [List.forall₂_map_left_iff] at h2 h4
    clear h1 h3 W
    induction h2 with
    | nil => exact .nil
    | cons x _ ih =>
      cases h4 with
      | cons y z => exact .cons ⟨y.1, x.1⟩ (ih z)
  refine ⟨⟨.fuelFab c, s⟩, by simp only [deploy, hs, ok_bind, pure_eq_ok], Reachable c, ?_,
    ⟨[], [], by intro i hi; simp at hi, s, hs, rfl⟩⟩
  constructor
  · intro s hR
    have hr := requests_ok (addr := id) (reachable_inv V hR)
    refine ⟨ports (asksOf c id s), ?_, ?_⟩
    · show (fuelFab c).asks s = _
      simp only [fuelFab, hr, ok_bind, pure_eq_ok]; rfl
    · intro a ha
      simp only [ports, List.mem_cons, List.not_mem_nil, or_false] at ha
      have am : ∀ {k : Nat} {b : Buf NMat} {r : Option NMat} {ks : List String} {ps : List ℚ},
          0 ≤ (fuelAsk (portFor c id k b r ks ps)).amount := by
        intro k b r ks ps
        unfold portFor
        split
        · rename_i h
          show 0 ≤ space b
          linarith
        · exact le_refl _
      have al : ∀ {k : Nat} {b : Buf NMat} {r : Option NMat} {ks : List String} {ps : List ℚ},
          (∀ m, r = some m → FuelFab.Solid m) →
          (∀ x ∈ ks, ∀ q, 0 < q → A.target x (fuelTarget r q)) →
          ∀ x ∈ (fuelAsk (portFor c id k b r ks ps)).alts, A.Allows ⟨x.1, x.2⟩ := by
        intro k b r ks ps hs hA x hx
        obtain ⟨h1, h2, h3⟩ := mem_alts hx
        have hq : 0 < space b := by linarith
        rw [h3]
        exact ⟨solid_fuelTarget hs hq, hA _ h2 _ hq⟩
      rcases ha with rfl | rfl | rfl
      · exact ⟨am, al (fun m hm => V.recipes m (Or.inr (Or.inl hm))) a1⟩
      · exact ⟨am, al (fun m hm => V.recipes m (Or.inl hm)) a2⟩
      · refine ⟨am, al (fun m hm => V.recipes m (Or.inr (Or.inr hm))) ?_⟩
        intro x hx
        rw [List.mem_singleton.1 hx]; exact a3
  · intro s rs hR _
    have I := reachable_inv V hR
    have hr := requests_ok (addr := id) I
    obtain ⟨b, hb⟩ := bids_total V (I.same (requests_same I hr)) (fuelTargets rs)
    have ho : (fuelFab c).offers rs s = .ok (match b with
        | none => []
        | some p => [fuelOffer c { s with reqInv := notes (asksOf c id s) s.reqInv } p]) := by
      simp only [fuelFab, hr, hb, ok_bind, pure_eq_ok]
      cases b <;> rfl
    refine ⟨_, ho, ?_⟩
    intro o h
    rcases bids_ok V (I.same (requests_same I hr)) _ hb with ⟨rfl, -⟩ | ⟨k, bs, -, -, rfl, -⟩
    · cases h
    · rw [List.mem_singleton] at h
      subst h
      refine ⟨V.throughput, ?_⟩
      intro L hL
      simp only [fuelOffer, List.mem_cons, List.not_mem_nil, or_false] at hL
      rcases hL with rfl | rfl | rfl <;> exact le_trans hnear.le (le_max_right _ _)
  · intro s rs os ts hR hrs ho W
    obtain ⟨s₁, b, l, s₂, k1, k2, k3, k4⟩ := sold hR hrs ho W
    refine ⟨l, s₂, ?_, ?_⟩
    · show (fuelFab c).sell rs ts s = _
      simp only [fuelFab, k1, k2, k3, ok_bind]
      rfl
    · have hk : ∀ t ∈ ts, t.commod = c.outCommod := W.commod fun o h => by
        obtain ⟨s₁', b', -, -, ⟨-, rfl⟩ | ⟨p, -, rfl⟩⟩ := offered hR ho
        · cases h
        · rw [List.mem_singleton.1 h]; rfl
      clear k3 W ho
      induction k4 with
      | nil => exact .nil
      | @cons t x ts l h _ ih =>
        refine .cons ⟨h, ?_⟩ (ih fun t ht => hk t (by simp [ht]))
        rw [hk t (by simp)]; exact a4 x h.1
  · intro s rs os ts l m as ds hR hrs ho W hsell ha WA _
    obtain ⟨s₁, b, l', s₂, k1, k2, k3, -⟩ := sold hR hrs ho W
    change (fuelFab c).sell rs ts s = _ at hsell
    simp only [fuelFab, k1, k2, k3, ok_bind, Except.ok.injEq, Prod.mk.injEq] at hsell
    obtain ⟨rfl, rfl⟩ := hsell
    change (fuelFab c).asks s = _ at ha
    simp only [fuelFab, k1, ok_bind, pure_eq_ok, Except.ok.injEq] at ha
    subst ha
    have B := honestBuys (c := c) (s := s) WA
    obtain ⟨s₃, h3⟩ := C81_accepts V hR k1 (distinct c s) k3 B
    have hstep : step c s ⟨id, fuelTargets rs, ts.map fun t => fuelTrade c s₁ t.target t.amt,
        ds.map fun d => (fuelId c d, d.mat)⟩ = .ok (⟨asksOf c id s, b, l⟩, s₃) := by
      simp only [step, k1, k2, k3, h3, ok_bind, pure_eq_ok]
    refine ⟨s₃, h3, reachable_step hR B.mass hstep, ?_⟩
    refine hμ _ _ fun n => ?_
    have := (step_pres V (reachable_inv V hR) B.mass hstep).2 n
    show Mat.massOf (contents s₃ ++ l) n = Mat.massOf (contents s ++ ds.map Delivery.mat) n
    simp only [Mat.massOf_append, List.map_map, Function.comp_def] at this ⊢
    linarith
  · intro s hR m hm
    have I := reachable_inv V hR
    have k : ∀ {b : Buf NMat}, FuelFab.Single b → m ∈ b.items → Mat.Nonneg m := by
      intro b hb h
      rcases hb with e | ⟨x, hx, e⟩
      · rw [e] at h; cases h
      · rw [e, List.mem_singleton] at h; exact h ▸ hx.2
    rcases List.mem_append.1 hm with hm | hm
    · rcases List.mem_append.1 hm with hm | hm
      · exact k I.fill hm
      · exact k I.fiss hm
    · exact k I.topup hm

end OfFuelFab

end Cyc.Sim
