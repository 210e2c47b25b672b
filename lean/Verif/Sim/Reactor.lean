import Verif.Sim.Conversion
import Verif.Reactor.Lemmas6
import Verif.Reactor.Conserve

/-!
# `Reactor` keeps the contract
-/

namespace Cyc.Sim

namespace OfReactor
open Reactor

theorem assemblies_length (enc : Sim.NMat → Nat) (n : Nat) (ds : List Delivery) :
    (assemblies enc n ds).length = ds.length := by
  induction ds generalizing n with
  | nil => rfl
  | cons d ds ih => simp [assemblies, ih]

theorem assemblies_ids (enc : Sim.NMat → Nat) (n : Nat) (ds : List Delivery) :
    ((assemblies enc n ds).map fun d => d.2.id) = List.range' n ds.length := by
  induction ds generalizing n with
  | nil => rfl
  | cons d ds ih => simp [assemblies, ih, List.range'_succ]

theorem assemblies_mass (enc : Sim.NMat → Nat) (n : Nat) (ds : List Delivery) :
    totalQty ((assemblies enc n ds).map Prod.snd) = totalQty (ds.map Delivery.mat) := by
  induction ds generalizing n with
  | nil => rfl
  | cons d ds ih =>
    simp only [assemblies, List.map_cons, totalQty_cons, ih]
    rfl

/-- Exclusive orders of a positive amount are each filled at most once. -/
theorem ports_nodup {as : List Ask} {ds : List Delivery} {w : ℚ} (hw : 0 < w)
    (ha : ∀ a ∈ as, a.whole = true ∧ a.amount = w) (W : WithinAsks as ds) :
    (ds.map Delivery.port).Nodup := by
  rw [List.nodup_iff_count_le_one]
  intro p
  by_contra hlt
  push Not at hlt
  have hp : p ∈ ds.map Delivery.port := List.count_pos_iff.1 (by omega)
  obtain ⟨d, hd, rfl⟩ := List.mem_map.1 hp
  obtain ⟨a, h1, -, -⟩ := W.asked d hd
  have h2 := W.amounts d.port a h1
  have h3 : ∀ x ∈ (ds.filter fun e => e.port = d.port).map (fun e => qty e.mat), x = w := by
    intro x hx
    obtain ⟨e, he, rfl⟩ := List.mem_map.1 hx
    obtain ⟨he, hpe⟩ := List.mem_filter.1 he
    obtain ⟨b, k1, -, k2⟩ := W.asked e he
    obtain ⟨l1, l2⟩ := ha b (List.mem_of_getElem? k1)
    rw [k2 l1, l2]
  rw [(ha a (List.mem_of_getElem? h1)).2, List.eq_replicate_of_mem h3, List.sum_replicate,
    List.length_map] at h2
  have h4 : (ds.filter fun e => e.port = d.port).length = (ds.map Delivery.port).count d.port := by
    rw [List.count, List.countP_map, List.countP_eq_length_filter]
    rfl
  rw [h4, nsmul_eq_mul] at h2
  have h5 : (2 : ℚ) ≤ ((ds.map Delivery.port).count d.port : ℚ) := by exact_mod_cast hlt
  nlinarith

theorem length_le_of_ports {n : Nat} {l : List Nat} (h : l.Nodup) (hl : ∀ x ∈ l, x < n) :
    l.length ≤ n := by
  have : l ⊆ List.range n := fun x hx => List.mem_range.2 (hl x hx)
  simpa using (h.subperm this).length_le

/-- The requests as the exchange sees them. -/
def asksOf (c : Cfg) (dec : Nat → Sim.NMat) (s s1 : State) : List Ask :=
  (List.replicate (nOrders c s s1) (onePortfolio c s1)).map fun p =>
    ⟨p.map fun r => (r.commod, (dec r.comp).scale r.qty), c.assemSize, true⟩

/-- The offers as the exchange sees them. -/
def offersOf (c : Cfg) (rs : List Req) (s1 : State) : List Sim.Offer :=
  ((uniqOutCommods c).filterMap (bidPort c (quantities rs) s1)).map fun b =>
    ⟨b.commod, b.cap, 0, some c.assemSize, fun _ => true, []⟩

theorem asked {c : Cfg} {enc : Sim.NMat → Nat} {dec : Nat → Sim.NMat} (hw : WellFormed c)
    {s s1 : State} {ds : List Delivery} (W : WithinAsks (asksOf c dec s s1) ds) (n : Nat) :
    ∃ ps, ps.Subperm (List.replicate (nOrders c s s1) (onePortfolio c s1)) ∧
      List.Forall₂ (fun (d : String × Assem) (p : List Request) =>
        ∃ r ∈ p, r.commod = d.1 ∧ r.qty = d.2.qty) (assemblies enc n ds) ps := by
  refine ⟨List.replicate ds.length (onePortfolio c s1), ?_, ?_⟩
  · have h1 := ports_nodup hw.assemSize (w := c.assemSize) (by
      intro a ha
      obtain ⟨p, -, rfl⟩ := List.mem_map.1 ha
      exact ⟨rfl, rfl⟩) W
    have h2 := length_le_of_ports h1 (n := nOrders c s s1) (by
      intro x hx
      obtain ⟨d, hd, rfl⟩ := List.mem_map.1 hx
      obtain ⟨a, h, -⟩ := W.asked d hd
      have := (List.getElem?_eq_some_iff.1 h).1
      simpa [asksOf] using this)
    rw [List.length_map] at h2
    exact (List.replicate_sublist_replicate _ |>.2 h2).subperm
  · have h3 : ∀ d ∈ ds, ∃ r ∈ onePortfolio c s1, r.commod = d.commod ∧ r.qty = qty d.mat := by
      intro d hd
      obtain ⟨a, k1, k2, k3⟩ := W.asked d hd
      obtain ⟨p, hp, rfl⟩ := List.mem_map.1 (List.mem_of_getElem? k1)
      rw [List.eq_of_mem_replicate hp] at k2 k3
      simp only [List.map_map, List.mem_map, Function.comp_apply] at k2
      obtain ⟨r, hr, e⟩ := k2
      exact ⟨r, hr, e, by rw [(mem_onePortfolio hr).2, k3 rfl]⟩
    clear W
    induction ds generalizing n with
    | nil => exact .nil
    | cons d ds ih =>
      exact .cons (h3 d (by simp)) (ih (n + 1) fun x hx => h3 x (by simp [hx]))

theorem sold_covered {c : Cfg} {rs : List Req} {s1 : State} {ts : List Sale}
    (W : WithinOffers rs (offersOf c rs s1) ts) :
    (∀ t ∈ ts, t.amt = c.assemSize) ∧ ∀ k ∈ ts.map Sale.commod,
      ∃ b ∈ (uniqOutCommods c).filterMap (bidPort c (quantities rs) s1), b.commod = k ∧
        ((ts.map Sale.commod).count k : ℚ) * c.assemSize ≤ b.cap := by
  have hp : ∀ t ∈ ts, t.amt = c.assemSize := by
    intro t ht
    obtain ⟨o, h1, -, -, h2⟩ := W.offered t ht
    obtain ⟨b, -, rfl⟩ := List.mem_map.1 h1
    exact h2.1 _ rfl
  refine ⟨hp, ?_⟩
  intro k hk
  obtain ⟨t, ht, rfl⟩ := List.mem_map.1 hk
  obtain ⟨o, h1, h2, -, -⟩ := W.offered t ht
  have h3 := W.caps o h1
  obtain ⟨b, hb, rfl⟩ := List.mem_map.1 h1
  refine ⟨b, hb, h2, ?_⟩
  simp only at h2 h3
  rw [h2] at h3
  have h4 : ∀ x ∈ (ts.filter fun u => u.commod = t.commod).map Sale.amt, x = c.assemSize := by
    intro x hx
    obtain ⟨u, hu, rfl⟩ := List.mem_map.1 hx
    exact hp u (List.mem_filter.1 hu).1
  rw [List.eq_replicate_of_mem h4, List.sum_replicate, List.length_map, nsmul_eq_mul] at h3
  have h5 : (ts.filter fun u => u.commod = t.commod).length = (ts.map Sale.commod).count t.commod := by
    rw [List.count, List.countP_map, List.countP_eq_length_filter]
    rfl
  rwa [h5] at h3

/-- What the actor does in a time step is what `step` does. -/
theorem actor_step {c : Cfg} {enc : Sim.NMat → Nat} {dec : Nat → Sim.NMat} {s : State} {n : Nat}
    {rs : List Req} {ts : List Sale} {ds : List Delivery} {o : Out} {s' : State}
    (h : step c s ⟨quantities rs, ts.map Sale.commod, assemblies enc n ds⟩ = .ok (o, s')) :
    ∃ m, (reactor c enc dec).sell rs ts (s, n) =
        .ok (o.shipped.map fun x => (dec x.2.comp).scale x.2.qty, m) ∧
      (reactor c enc dec).settle ds m = .ok (s', n + ds.length) := by
  unfold step settlePhase at h
  by_cases he : ts.map Sale.commod = []
  · simp only [bind_ok, he, if_true, pure_eq_ok, ok_bind] at h
    obtain ⟨⟨o1, s1⟩, h1, ⟨l, s2⟩, ⟨s4, h4, s5, h5, h6⟩, h7⟩ := h
    simp only [Except.ok.injEq, Prod.mk.injEq] at h6 h7
    obtain ⟨rfl, rfl⟩ := h6
    obtain ⟨rfl, rfl⟩ := h7
    refine ⟨(s1, n), ?_, ?_⟩
    · simp only [reactor, h1, ok_bind, he, if_true, pure_eq_ok]
    · simp only [reactor, h4, h5, ok_bind, pure_eq_ok]
  · simp only [bind_ok, he, if_false, pure_eq_ok] at h
    obtain ⟨⟨o1, s1⟩, h1, ⟨l, s2⟩, ⟨⟨l', s3⟩, h3, s4, h4, s5, h5, h6⟩, h7⟩ := h
    simp only [Except.ok.injEq, Prod.mk.injEq] at h6 h7
    obtain ⟨rfl, rfl⟩ := h6
    obtain ⟨rfl, rfl⟩ := h7
    refine ⟨(s3, n), ?_, ?_⟩
    · simp only [reactor, h1, ok_bind, he, if_false, h3, pure_eq_ok]
    · simp only [reactor, h4, h5, ok_bind, pure_eq_ok]

theorem qty_material {dec : Nat → Sim.NMat} (hd : ∀ n, qty (dec n) = 1) (l : List Assem) :
    tot qty (material dec l) = totalQty l := by
  unfold tot material totalQty
  rw [List.map_map]
  congr 1
  apply List.map_congr_left
  intro x _
  simp only [Function.comp, Mat.qty_scale, hd, mul_one]
  rfl

theorem contract {c : Cfg} {enc : Sim.NMat → Nat} {dec : Nat → Sim.NMat}
    (hc : Sensible (.reactor c enc dec)) :
    Contract (reactor c enc dec) qty (fun s => material dec (held s.1)) fun s =>
      Reactor.Good c s.1 ∧ ∀ a ∈ held s.1, a.id < s.2 := by
  obtain ⟨hw, hd⟩ := hc
  have hasks : ∀ {s : State × Nat}, Reactor.Good c s.1 → ∃ s1, tick c s.1 = .ok s1 ∧
      (reactor c enc dec).asks s = .ok (asksOf c dec s.1 s1) := by
    intro s h
    obtain ⟨s1, h1, -, -, -, -, ho⟩ := offerPhase_ok hw h fun _ => []
    refine ⟨s1, h1, ?_⟩
    simp only [reactor, ho, ok_bind, pure_eq_ok, asksOf]
  have hoffers : ∀ {s : State × Nat} rs, Reactor.Good c s.1 → ∃ s1, tick c s.1 = .ok s1 ∧
      Reactor.Good c s1 ∧
      (reactor c enc dec).offers rs s = .ok (offersOf c rs s1) := by
    intro s rs h
    obtain ⟨s1, h1, g1, -, -, -, ho⟩ := offerPhase_ok hw h (quantities rs)
    refine ⟨s1, h1, g1, ?_⟩
    simp only [reactor, ho, ok_bind, pure_eq_ok, offersOf]
  have key : ∀ {s : State × Nat} {rs os ts as ds}, Reactor.Good c s.1 → (∀ a ∈ held s.1, a.id < s.2) →
      (reactor c enc dec).offers rs s = .ok os → WithinOffers rs os ts →
      (reactor c enc dec).asks s = .ok as → WithinAsks as ds →
      ∃ o s' s1 s2 s3, step c s.1 ⟨quantities rs, ts.map Sale.commod, assemblies enc s.2 ds⟩ =
        .ok (o, s') ∧ StepSpec c s.1 ⟨quantities rs, ts.map Sale.commod, assemblies enc s.2 ds⟩ o s'
          s1 s2 s3 ∧ ∀ t ∈ ts, t.amt = c.assemSize := by
    intro s rs os ts as ds h hid ho WO ha WA
    obtain ⟨s1, e1, -, e2⟩ := hoffers rs h
    obtain ⟨s1', e3, e4⟩ := hasks h
    rw [e1, Except.ok.injEq] at e3
    subst e3
    rw [e2, Except.ok.injEq] at ho
    rw [e4, Except.ok.injEq] at ha
    subst ho ha
    obtain ⟨hp, hcov⟩ := sold_covered WO
    obtain ⟨o, s', t1, t2, t3, k1, k2⟩ := step_ok hw h
      (i := ⟨quantities rs, ts.map Sale.commod, assemblies enc s.2 ds⟩) (by
        intro o st hof
        obtain ⟨s1', f1, -, -, -, -, f2⟩ := offerPhase_ok hw h (quantities rs)
        rw [e1, Except.ok.injEq] at f1
        subst f1
        rw [f2] at hof
        simp only [Except.ok.injEq, Prod.mk.injEq] at hof
        obtain ⟨rfl, -⟩ := hof
        refine ⟨asked hw WA s.2, ?_, ?_, hcov⟩
        · simp only [assemblies_ids]
          exact List.nodup_range'
        · intro d hd a ha
          have h1 := hid a ha
          have h2 : d.2.id ∈ (assemblies enc s.2 ds).map fun d => d.2.id :=
            List.mem_map_of_mem (f := fun d : String × Assem => d.2.id) hd
          rw [assemblies_ids] at h2
          have := (List.mem_range'_1.1 h2).1
          omega)
    exact ⟨o, s', t1, t2, t3, k1, k2, hp⟩
  constructor
  · rintro s ⟨h, -⟩
    obtain ⟨s1, -, e⟩ := hasks h
    refine ⟨_, e, ?_⟩
    intro a ha
    obtain ⟨p, hp, rfl⟩ := List.mem_map.1 ha
    refine ⟨hw.assemSize.le, fun x hx => ?_⟩
    rw [List.eq_of_mem_replicate hp] at hx
    obtain ⟨r, hr, rfl⟩ := List.mem_map.1 hx
    have hq := (mem_onePortfolio hr).2
    have := hw.assemSize
    refine ⟨?_, (hd r.comp).2.scale (by rw [hq]; exact this.le)⟩
    rw [Mat.qty_scale, (hd r.comp).1, hq]
    linarith
  · rintro s rs ⟨h, -⟩ -
    obtain ⟨s1, -, g1, e⟩ := hoffers rs h
    refine ⟨_, e, ?_⟩
    intro o ho
    obtain ⟨b, hb, rfl⟩ := List.mem_map.1 ho
    obtain ⟨k, -, hk⟩ := List.mem_filterMap.1 hb
    unfold bidPort at hk
    split at hk
    · cases hk
    · simp only [Option.some.injEq] at hk
      subst hk
      show 0 ≤ totalQty (spentOf c s1 k)
      rw [totalQty_spentOf g1]
      have := hw.assemSize
      positivity
  · rintro s rs os ts ⟨h, hid⟩ hrs ho WO
    obtain ⟨s1, -, e⟩ := hasks h
    obtain ⟨o, s', t1, t2, t3, k1, k2, hp⟩ := key h hid ho WO e (ds := [])
      ⟨by simp, by simp, by
        intro p a ha
        obtain ⟨q, -, rfl⟩ := List.mem_map.1 (List.mem_of_getElem? ha)
        simpa using hw.assemSize.le⟩
    obtain ⟨m, m1, -⟩ := actor_step (dec := dec) k1
    refine ⟨_, m, m1, ?_⟩
    have hq : ∀ x ∈ o.shipped, x.2.qty = c.assemSize := by
      intro x hx
      have : x.2 ∈ (demandedState c s.1 t1).spent.items :=
        k2.sold.perm.symm.subset (by
          rw [List.mem_append]; exact Or.inr (List.mem_map_of_mem hx))
      exact k2.good1.spent.size _ this
    have hlen : o.shipped.length = ts.length := by
      have := congrArg List.length k2.sold.commods
      simpa using this
    apply forall₂_of_map
    · apply List.ext_getElem
      · simp [hlen]
      · intro i h1 h2
        simp only [List.getElem_map, Mat.qty_scale, (hd _).1]
        rw [hq _ (List.getElem_mem _), hp _ (List.getElem_mem _)]
        ring
    · intro x hx
      obtain ⟨y, hy, rfl⟩ := List.mem_map.1 hx
      have h1 := hq y hy
      have := hw.assemSize
      refine ⟨?_, (hd _).2.scale (by rw [h1]; exact this.le)⟩
      rw [Mat.qty_scale, (hd _).1, h1]
      linarith
  · rintro s rs os ts l m as ds ⟨h, hid⟩ hrs ho WO hs ha WA
    obtain ⟨o, s', t1, t2, t3, k1, k2, hp⟩ := key h hid ho WO ha WA
    obtain ⟨m', m1, m2⟩ := actor_step (dec := dec) k1
    have hs' := m1.symm.trans hs
    simp only [Except.ok.injEq, Prod.mk.injEq] at hs'
    obtain ⟨rfl, rfl⟩ := hs'
    refine ⟨_, m2, ⟨k2.good, ?_⟩, ?_⟩
    on_goal 2 =>
      have h1 := (step_held k1).map Prod.snd |>.sum_eq
      have e1 : ∀ l : List Assem, ((l.map tag).map Prod.snd).sum = totalQty l := by
        intro l; unfold totalQty; rw [List.map_map]; rfl
      rw [e1, e1, totalQty_append, totalQty_append] at h1
      have e2 : totalQty (o.shipped.map fun x => (dec x.2.comp).scale x.2.qty) =
          totalQty (o.shipped.map Prod.snd) := by
        unfold totalQty
        rw [List.map_map, List.map_map]
        congr 1
        apply List.map_congr_left
        intro x _
        simp only [Function.comp, Mat.qty_scale, (hd _).1, mul_one]
        rfl
      have e3 : totalQty ((assemblies enc s.2 ds).map Prod.snd) =
          totalQty (ds.map Delivery.mat) := by
        rw [assemblies_mass]
      rw [tot_append, tot_append, qty_material fun n => (hd n).1, qty_material fun n => (hd n).1,
        tot_qty, tot_qty, e2, ← e3]
      exact h1.symm
    intro a ha
    have h1 : tag a ∈ (held s.1 ++ (assemblies enc s.2 ds).map Prod.snd).map tag :=
      (step_held k1).symm.subset (List.mem_map_of_mem (List.mem_append_left _ ha))
    obtain ⟨b, hb, e⟩ := List.mem_map.1 h1
    have e' : b.id = a.id := congrArg Prod.fst e
    rw [← e']
    show b.id < s.2 + ds.length
    rcases List.mem_append.1 hb with hb | hb
    · exact (hid b hb).trans_le (Nat.le_add_right _ _)
    · obtain ⟨d, hd', rfl⟩ := List.mem_map.1 hb
      have h2 : d.2.id ∈ (assemblies enc s.2 ds).map fun d => d.2.id :=
        List.mem_map_of_mem (f := fun d : String × Assem => d.2.id) hd'
      rw [assemblies_ids] at h2
      exact (List.mem_range'_1.1 h2).2
  · rintro s ⟨h, -⟩ m hm
    obtain ⟨a, ha, rfl⟩ := List.mem_map.1 hm
    have hq : a.qty = c.assemSize := by
      simp only [held, List.mem_append] at ha
      rcases ha with (ha | ha) | ha
      · exact h.fresh.size a ha
      · exact h.core.size a ha
      · exact h.spent.size a ha
    exact (hd _).2.scale (by rw [hq]; exact hw.assemSize.le)

theorem offered {c : Cfg} {enc : Sim.NMat → Nat} {dec : Nat → Sim.NMat} (hw : WellFormed c)
    {s : State × Nat} (h : Reactor.Good c s.1) {rs : List Req} {os : List Offer}
    (ho : (reactor c enc dec).offers rs s = .ok os) :
    ∀ o ∈ os, o.limits = [] ∧ o.commod ∈ c.outCommods := by
  obtain ⟨s1, h1, g1, -, -, -, h2⟩ := offerPhase_ok hw h (quantities rs)
  simp only [reactor, h2, ok_bind, pure_eq_ok, Except.ok.injEq] at ho
  subst ho
  intro o ho
  obtain ⟨b, hb, rfl⟩ := List.mem_map.1 ho
  obtain ⟨k, hk, hb⟩ := List.mem_filterMap.1 hb
  unfold bidPort at hb
  split at hb
  · cases hb
  · simp only [Option.some.injEq] at hb
    subst hb
    exact ⟨rfl, mem_uniqOutCommods.1 hk⟩

theorem deployed {A : Agreement} {c : Cfg} {enc : Sim.NMat → Nat} {dec : Nat → Sim.NMat}
    (hc : Sensible (.reactor c enc dec)) (hA : Suits A (.reactor c enc dec)) :
    ∃ p, deploy (.reactor c enc dec) = .ok p ∧ Sim.Good A qty holdings p := by
  obtain ⟨s, h⟩ := enter_ok hc.1
  refine ⟨⟨.reactor c enc dec, (s, 0)⟩, by simp [deploy, h, ok_bind, pure_eq_ok], _,
    (contract hc).free ?_ ?_, ⟨enter_good hc.1 h, ?_⟩, trivial⟩
  · rintro s as ⟨I, -⟩ h a ha x hx hq
    obtain ⟨s1, -, g1, -, -, -, h2⟩ := offerPhase_ok hc.1 I fun _ => []
    simp only [reactor, h2, ok_bind, pure_eq_ok, Except.ok.injEq] at h
    subst h
    obtain ⟨p, hp, rfl⟩ := List.mem_map.1 ha
    rw [List.eq_of_mem_replicate hp] at hx
    obtain ⟨r, hr, rfl⟩ := List.mem_map.1 hx
    obtain ⟨k1, k2⟩ := mem_onePortfolio hr
    obtain ⟨x, x1, x2⟩ := onePortfolio_named g1 hr
    exact hA.1 _ k1 _ _ _ x1 x2 (by rw [k2]; exact hc.1.assemSize)
  · rintro s rs os ⟨I, -⟩ h o ho
    obtain ⟨k1, k2⟩ := offered hc.1 I h o ho
    exact ⟨k1, hA.2 _ k2⟩
  unfold enter at h
  dsimp only at h
  split at h
  · cases h
  · simp only [Except.ok.injEq] at h
    subst h
    simp [held]

end OfReactor

end Cyc.Sim
