import Verif.Sim.Flow
import Verif.Sim.Thorough
import Verif.Sim.Props8

/-!
# What flows from sources to sinks in a time step
-/

namespace Cyc.Sim

variable {A : Agreement}

theorem dealt_given {gs : List (Deal × NMat)} (h : ∀ g ∈ gs, qty g.2 = g.1.amt) (p : Deal → Bool) :
    dealt (gs.map Prod.fst) p = totalQty ((gs.filter fun g => p g.1).map Prod.snd) := by
  induction gs with
  | nil => rfl
  | cons g gs ih =>
    have ih := ih fun x hx => h x (by simp [hx])
    rw [List.map_cons, dealt_cons, ih]
    by_cases hp : p g.1
    · simp only [hp, if_true, List.filter_cons_of_pos, List.map_cons, totalQty_cons, h g (by simp)]
    · simp only [hp, List.filter_cons_of_neg, not_false_eq_true, Bool.false_eq_true, if_false, zero_add]

namespace OfSource
open Source

/-- What a source offers when somebody asks for its commodity. -/
theorem offers_left {c : Cfg} (hc : Sensible (.source c)) {s : State} {q : ℚ} (hq : stock s = c.size - q)
    {rs : List Sim.Req} {os : List Offer} (h : (source c).offers rs s = .ok os) :
    (∀ o ∈ os, o.commod = c.outcommod ∧ o.cap = left c q) ∧
    ((∃ r ∈ rs, r.commod = c.outcommod) → 0 < left c q →
      os = [⟨c.outcommod, left c q, c.lo, none, fun _ => true, []⟩]) := by
  have hm : maxQty c s = min c.throughput (c.size - q) := by
    show min c.throughput (stock s) = _
    rw [hq]
  simp only [source, Except.ok.injEq] at h
  subst h
  unfold bids left
  rw [hm]
  by_cases h1 : min c.throughput (c.size - q) < c.eps
  · rw [if_pos h1, if_pos h1]
    exact ⟨by simp, fun _ h => absurd h (lt_irrefl _)⟩
  · rw [if_neg h1, if_neg h1]
    constructor
    · intro o ho
      split at ho
      · cases ho
      · rename_i p hp
        split at hp
        · cases hp
        · cases hp
          rw [List.mem_singleton.1 ho]
          exact ⟨rfl, rfl⟩
    · intro hr _
      rw [if_neg]
      obtain ⟨r, hr, e⟩ := hr
      obtain ⟨x, hx⟩ := List.getElem?_of_mem hr
      intro hnil
      have := List.filter_eq_nil_iff.1 hnil ⟨x, r.commod, r.target⟩ (List.mem_map.2
        ⟨(r, x), List.mem_zipIdx_iff_getElem?.2 hx, rfl⟩)
      exact this (by simpa using e)

end OfSource

namespace OfSink
open Sink

/-- A sink has what it was given. -/
theorem lived_held {c : Cfg} (hc : Sensible (.sink c)) {s : ℤ × State} {t : Nat}
    {got gave : List (List Sim.NMat)} (L : Lived (.sink c) s t got gave) :
    held s.2 = totalQty got.flatten := by
  obtain ⟨s₀, is, outs, b, r, H, S, -, hlen, hg, hz, -⟩ := L
  have h1 := C97_keeps hc.1 (g := noRng) (t := 0) ⟨s₀, b, r⟩ S
  unfold held
  rw [h1, ← hg]
  clear h1 r H S hlen hg
  induction is with
  | nil => simp [totalQty]
  | cons i is ih =>
    rw [List.flatMap_cons, totalQty_append, ih fun x hx => hz x (by simp [hx]), hz i (by simp)]
    simp only [List.map_nil, List.append_nil, List.map_cons, List.flatten_cons, totalQty_append]
    congr 1
    unfold totalQty; rw [List.map_map]; rfl

/-- What a sink asks for. -/
theorem asks_wanted {c : Cfg} (hc : Sensible (.sink c)) {s : ℤ × State} {t : Nat}
    {got gave : List (List Sim.NMat)} (L : Lived (.sink c) s t got gave) {as : List Ask}
    (h : (sink c).asks s = .ok as) :
    as = if 0 < wanted c (totalQty got.flatten) then
      [⟨c.commods.map fun k => (k, target c (wanted c (totalQty got.flatten))),
        wanted c (totalQty got.flatten), false⟩] else [] := by
  obtain ⟨I, hb⟩ := lived_ready hc L
  have hh := lived_held hc L
  have hroom : room c s.2 = min c.capacity (max 0 (c.maxInv - totalQty got.flatten)) := by
    unfold room; rw [hh]
  have he := hc.1.eps
  have h6 : ∀ q, (c.commods.zip (prefsOf c)).map (fun r => (r.1, target c q)) =
      c.commods.map fun k => (k, target c q) := by
    intro q
    conv_rhs => rw [← List.map_fst_zip (l₁ := c.commods) (l₂ := prefsOf c) I.length.ge]
    rw [List.map_map]; rfl
  rw [asks_eq hc I hb, Except.ok.injEq] at h
  rw [← h]
  unfold wanted
  by_cases h0 : 0 ≤ c.maxInv - totalQty got.flatten
  · rw [max_eq_right h0] at hroom
    rw [hroom]
    by_cases h1 : c.eps < min c.capacity (c.maxInv - totalQty got.flatten)
    · rw [if_pos h1, if_pos h1, if_pos (lt_trans he h1), h6]
    · rw [if_neg h1, if_neg h1, if_neg (lt_irrefl _)]
  · rw [max_eq_left (by linarith)] at hroom
    have n1 : ¬ room c s.2 > c.eps := by
      rw [hroom]
      exact not_lt.2 ((min_le_right c.capacity 0).trans he.le)
    have n2 : ¬ c.eps < min c.capacity (c.maxInv - totalQty got.flatten) := by
      have := min_le_right c.capacity (c.maxInv - totalQty got.flatten)
      intro h; linarith
    rw [if_neg n1, if_neg n2, if_neg (lt_irrefl _)]

end OfSink

/-- Of somebody who offers in any amounts and somebody who asks for any amount, one is served, if no deal
can be added. -/
theorem pours {asks : List (List Ask)} {offers : List (List Offer)} {ds : List Deal}
    (F : Fair asks offers ds) (T : ∀ d, Loose asks offers d → ¬ Fair asks offers (ds ++ [d])) {i j : Nat}
    {x : String} {v b u : ℚ} {m : NMat} {alts : List (String × NMat)}
    (e2 : offers[i]? = some [⟨x, v, b, none, fun _ => true, []⟩]) (hlo : b ≤ 0)
    (e1 : asks[j]? = some [⟨alts, u, false⟩]) (hmem : (x, m) ∈ alts) (hu : u ≤ qty m) :
    v ≤ (dealt ds fun d => d.src = i) ∨ u ≤ dealt ds fun d => d.dst = j := by
  by_contra hno
  push Not at hno
  obtain ⟨n1, n2⟩ := hno
  have posamt : ∀ d ∈ ds, 0 ≤ d.amt := fun d hd => (F.pos d hd).1.le
  have k1 : (dealt ds fun d => d.src = i) = dealt ds fun d => d.src = i ∧ d.commod = x := by
    unfold dealt
    congr 2
    refine List.filter_congr fun d hd => ?_
    obtain ⟨os', k2, o, k3, k4, -⟩ := F.offered d hd
    rw [Bool.eq_iff_iff]
    simp only [decide_eq_true_eq]
    refine ⟨fun e => ⟨e, ?_⟩, fun e => e.1⟩
    rw [e, e2] at k2
    obtain rfl := Option.some.inj k2
    rw [← k4, List.mem_singleton.1 k3]
  have hport : (dealt ds fun d => d.dst = j ∧ d.port = 0) = dealt ds fun d => d.dst = j := by
    unfold dealt
    congr 2
    refine List.filter_congr fun d hd => ?_
    obtain ⟨as', m1, a, m2, -⟩ := F.asked d hd
    rw [Bool.eq_iff_iff]
    simp only [decide_eq_true_eq]
    refine ⟨fun e => e.1, fun e => ⟨e, ?_⟩⟩
    rw [e, e1] at m1
    obtain rfl := Option.some.inj m1
    have := (List.getElem?_eq_some_iff.1 m2).1
    simpa using this
  set r := min (v - dealt ds fun d => d.src = i) (u - dealt ds fun d => d.dst = j) with hr'
  have r0 : 0 < r := lt_min (by linarith) (by linarith)
  have r1 : r ≤ v - dealt ds fun d => d.src = i := min_le_left _ _
  have r2 : r ≤ u - dealt ds fun d => d.dst = j := min_le_right _ _
  have r3 : r ≤ qty m := by
    have := dealt_nonneg posamt fun d => d.dst = j
    linarith
  have hl : ∀ os, offers[i]? = some os → ∀ o ∈ os, o.commod = x → o.limits = [] ∧ o.piece = none := by
    intro os' hos' o ho _
    obtain rfl := Option.some.inj (e2.symm.trans hos')
    rw [List.mem_singleton.1 ho]
    exact ⟨rfl, rfl⟩
  refine T ⟨i, j, 0, x, m, r⟩ ⟨hl, _, e1, _, rfl, rfl⟩
    (F.add ⟨r0, r3⟩ ⟨_, e2, _, List.mem_singleton.2 rfl, rfl, hlo.trans r0.le, ?_, rfl⟩
      ⟨_, e1, _, rfl, hmem, fun h => by cases h⟩ (fun os' h o ho e => (hl os' h o ho e).1) ?_ ?_)
  · intro v hv; cases hv
  · intro os' hos' o ho _
    obtain rfl := Option.some.inj (e2.symm.trans hos')
    rw [List.mem_singleton.1 ho, dealt_append, dealt_single, if_pos (by simp)]
    change (dealt ds fun d => d.src = i ∧ d.commod = x) + r ≤ v
    rw [← k1]; linarith
  · intro as' has' a ha
    obtain rfl := Option.some.inj (e1.symm.trans has')
    obtain rfl : _ = a := by simpa using ha
    rw [dealt_append, dealt_single, if_pos (by simp)]
    change (dealt ds fun d => d.dst = j ∧ d.port = 0) + r ≤ u
    rw [hport]; linarith

/-- A time step with a thorough exchange: what a source gives and a sink is given. -/
theorem round_flow {ex : Exchange} (hex : ex.Fair) (hth : ex.Thorough) {ps ps' : List (Running act)}
    {gs : List (Deal × NMat)} {t : Nat} (h : ∀ p ∈ ps, Good A qty holdings p)
    (hr : round ex ps = .ok (gs, ps')) :
    (∀ (i : Nat) f (s : Source.State) q, ps[i]? = some ⟨.source f, s⟩ → Sensible (.source f) →
      Source.stock s = f.size - q → totalQty (givenBy gs i) ≤ left f q) ∧
    (∀ (j : Nat) w (s : ℤ × Sink.State) got gave, ps[j]? = some ⟨.sink w, s⟩ → Sensible (.sink w) →
      Lived (.sink w) s t got gave → totalQty (givenTo gs j) ≤ wanted w (totalQty got.flatten)) ∧
    ∀ (i j : Nat) f (s : Source.State) q w (s' : ℤ × Sink.State) got gave, ps[i]? = some ⟨.source f, s⟩ →
      Sensible (.source f) → Source.stock s = f.size - q → f.lo ≤ 0 → ps[j]? = some ⟨.sink w, s'⟩ →
      Sensible (.sink w) → Lived (.sink w) s' t got gave → f.outcommod ∈ w.commods →
      left f q ≤ totalQty (givenBy gs i) ∨ wanted w (totalQty got.flatten) ≤ totalQty (givenTo gs j) := by
  obtain ⟨asks, offers, gs', ps'', a1, o1, b3, ⟨b4, b5⟩, -⟩ := round_ok hex h
  obtain ⟨rfl, rfl⟩ := Prod.mk.inj (Except.ok.inj (b3.symm.trans hr))
  obtain ⟨asks', a1', a2, a3, a4⟩ := askAll_ok h
  obtain rfl := Except.ok.inj (a1.symm.trans a1')
  obtain ⟨offers', o1', o2, o3⟩ := offerAll_ok a3 h
  obtain rfl := Except.ok.inj (o1.symm.trans o1')
  have F := hex _ _ a4 o3
  have T := hth _ _ a4 o3
  set ds := ex asks offers with hds
  have given : ∀ p : Deal → Bool, totalQty ((gs'.filter fun g => p g.1).map Prod.snd) = dealt ds p := by
    intro p
    rw [← dealt_perm b4, dealt_given fun g hg => (b5 g hg).1.2]
  have hby : ∀ i, totalQty (givenBy gs' i) = dealt ds fun d => d.src = i :=
    fun i => given fun d => d.src = i
  have hto : ∀ j, totalQty (givenTo gs' j) = dealt ds fun d => d.dst = j :=
    fun j => given fun d => d.dst = j
  have getA : ∀ {j : Nat} {p : Running act}, ps[j]? = some p → ∃ as, asks[j]? = some as ∧
      (act p.k).asks p.s = .ok as := fun hj => forall₂_get a2 hj
  have getO : ∀ {j : Nat} {p : Running act}, ps[j]? = some p → ∃ os, offers[j]? = some os ∧
      (act p.k).offers (requestsOf asks) p.s = .ok os := fun hj => forall₂_get o2 hj
  have posamt : ∀ d ∈ ds, 0 ≤ d.amt := fun d hd => (F.pos d hd).1.le
  have nonleft : ∀ {f : Source.Cfg} (q : ℚ), Sensible (.source f) → 0 ≤ left f q := by
    intro f q hf
    unfold left
    split
    · exact le_refl _
    · rename_i hn
      exact (hf.2.2.1.le).trans (not_lt.1 hn)
  have nonwant : ∀ {w : Sink.Cfg} (q : ℚ), Sensible (.sink w) → 0 ≤ wanted w q := by
    intro w q hw
    unfold wanted
    split
    · rename_i hn
      exact (hw.1.eps.trans hn).le
    · exact le_refl _
  -- what a source gives
  have bySource : ∀ {i : Nat} {f : Source.Cfg} {s : Source.State} {q : ℚ},
      ps[i]? = some ⟨.source f, s⟩ → Sensible (.source f) → Source.stock s = f.size - q →
      (dealt ds fun d => d.src = i) = (dealt ds fun d => d.src = i ∧ d.commod = f.outcommod) ∧
      (dealt ds fun d => d.src = i) ≤ left f q := by
    intro i f s q hi hf hq
    obtain ⟨os, e1, e2⟩ := getO hi
    obtain ⟨k1, -⟩ := OfSource.offers_left hf hq e2
    have same : (dealt ds fun d => d.src = i) = dealt ds fun d => d.src = i ∧ d.commod = f.outcommod := by
      unfold dealt
      congr 2
      refine List.filter_congr fun d hd => ?_
      obtain ⟨os', k2, o, k3, k4, -⟩ := F.offered d hd
      rw [Bool.eq_iff_iff]
      simp only [decide_eq_true_eq]
      refine ⟨fun e => ⟨e, ?_⟩, fun e => e.1⟩
      rw [e, e1] at k2
      obtain rfl := Option.some.inj k2
      rw [← k4, (k1 o k3).1]
    refine ⟨same, ?_⟩
    cases os with
    | nil =>
      rw [dealt_zero]
      · exact nonleft q hf
      · intro d hd
        obtain ⟨os', k2, o, k3, k4, -⟩ := F.offered d hd
        simp only [decide_eq_false_iff_not]
        intro e
        rw [e, e1] at k2
        obtain rfl := Option.some.inj k2
        cases k3
    | cons o os =>
      rw [same]
      have := F.caps i _ e1 o (by simp)
      rw [(k1 o (by simp)).1, (k1 o (by simp)).2] at this
      exact this
  have bySink : ∀ {j : Nat} {w : Sink.Cfg} {s : ℤ × Sink.State} {got gave : List (List NMat)},
      ps[j]? = some ⟨.sink w, s⟩ → Sensible (.sink w) → Lived (.sink w) s t got gave →
      (0 < wanted w (totalQty got.flatten) → asks[j]? =
        some [⟨w.commods.map fun k => (k, Sink.target w (wanted w (totalQty got.flatten))),
          wanted w (totalQty got.flatten), false⟩]) ∧
      (dealt ds fun d => d.dst = j) ≤ wanted w (totalQty got.flatten) := by
    intro j w s got gave hj hw L
    obtain ⟨as, e1, e2⟩ := getA hj
    have e3 := OfSink.asks_wanted hw L e2
    have le : (dealt ds fun d => d.dst = j) ≤ (as.map Ask.amount).sum := received_le (by
      intro d hd
      obtain ⟨as', k1, a, k2, k3, -⟩ := F.asked d hd
      exact ⟨as', k1, a, k2, k3⟩) F.amounts e1
    refine ⟨fun hp => ?_, ?_⟩
    · rw [if_pos hp] at e3
      rw [e1, e3]
    · refine le.trans ?_
      rw [e3]
      split
      · simp
      · simpa using nonwant _ hw
  refine ⟨?_, ?_, ?_⟩
  · intro i f s q hi hf hq
    rw [hby]
    exact (bySource hi hf hq).2
  · intro j w s got gave hj hw L
    rw [hto]
    exact (bySink hj hw L).2
  · intro i j f s q w s' got gave hi hf hq hlo hj hw L hx
    rw [hby, hto]
    by_contra hno
    push Not at hno
    obtain ⟨n1, n2⟩ := hno
    obtain ⟨k1, k2⟩ := bySource hi hf hq
    obtain ⟨k3, k4⟩ := bySink hj hw L
    have p1 : 0 < left f q := lt_of_le_of_lt (dealt_nonneg posamt _) n1
    have p2 : 0 < wanted w (totalQty got.flatten) := lt_of_le_of_lt (dealt_nonneg posamt _) n2
    have e1 := k3 p2
    set u := wanted w (totalQty got.flatten) with hu
    obtain ⟨os, e2, e3⟩ := getO hi
    have hmem : (f.outcommod, Sink.target w u) ∈ w.commods.map fun k => (k, Sink.target w u) :=
      List.mem_map.2 ⟨_, hx, rfl⟩
    have e4 := (OfSource.offers_left hf hq e3).2 ⟨⟨f.outcommod, Sink.target w u⟩, List.mem_flatMap.2
      ⟨_, List.mem_flatten.2 ⟨_, List.mem_of_getElem? e1, List.mem_singleton.2 rfl⟩,
        List.mem_map.2 ⟨_, hmem, rfl⟩⟩, rfl⟩ p1
    subst e4
    rcases pours F T e2 hlo e1 hmem (Sink.qty_target hw.1 u).ge with h | h
    · linarith
    · linarith

end Cyc.Sim
