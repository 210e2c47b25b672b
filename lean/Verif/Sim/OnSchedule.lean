import Verif.Sim.SupplyLemmas
import Verif.Sim.Props6

/-!
# Reactors with a source and a sink that are large enough
-/

namespace Cyc.Sim

variable {A : Agreement}

theorem get_of_map {ps : List (Running act)} {ks : List Kind} (h : ps.map Running.k = ks) {j : Nat}
    {k : Kind} (hk : ks[j]? = some k) : ∃ s : (act k).S, ps[j]? = some ⟨k, s⟩ := by
  rw [← h, List.getElem?_map] at hk
  cases e : ps[j]? with
  | none => rw [e] at hk; cases hk
  | some p =>
    rw [e] at hk
    obtain ⟨k', s⟩ := p
    obtain rfl : k' = k := by simpa using hk
    exact ⟨s, rfl⟩

theorem dealt_const {ds : List Deal} {p : Deal → Bool} {w : ℚ} (h : ∀ d ∈ ds, p d = true → d.amt = w) :
    dealt ds p = ds.countP p * w := by
  induction ds with
  | nil => simp
  | cons d ds ih =>
    rw [dealt_cons, ih fun x hx => h x (by simp [hx]), List.countP_cons]
    by_cases hp : p d
    · rw [if_pos hp, if_pos hp, h d (by simp) hp]
      push_cast
      ring
    · rw [if_neg hp, if_neg hp]
      simp

theorem countP_src (ds : List Deal) (j : Nat) :
    ds.countP (fun d => decide (d.src = j)) = (dealsOf ds j).length := by
  rw [List.countP_eq_length_filter]; rfl

theorem countP_commod (ds : List Deal) (j : Nat) (k : String) :
    ds.countP (fun d => decide (d.src = j ∧ d.commod = k)) =
      (((dealsOf ds j).map Deal.sale).map Sale.commod).count k := by
  unfold dealsOf
  rw [List.count, List.countP_map, List.countP_map, List.countP_filter]
  congr 1
  funext d
  rw [Bool.eq_iff_iff]
  simp [Deal.sale, and_comm]

namespace OfReactor
open Reactor

theorem orders_le {c : Cfg} {s s1 : State} (g : Reactor.Good c s1) : nOrders c s s1 ≤ c.nCore + c.nFresh := by
  unfold nOrders
  split
  · omega
  · have h1 := g.core.count
    have h2 := g.fresh.count
    have h : orderSize c s1 ≤ vacancy c s1 := by
      unfold orderSize
      split
      · exact le_refl _
      · exact min_le_left _ _
    unfold vacancy at h
    omega

/-- What a reactor asks for and sells in a time step is limited by its stores. -/
theorem turn_limits {c : Cfg} {enc : Sim.NMat → Nat} {dec : Nat → Sim.NMat}
    (hc : Sensible (.reactor c enc dec)) {s s' m : State × Nat} {n : Nat} {got gave : List (List Sim.NMat)}
    (L : Lived (.reactor c enc dec) s n got gave) {rs : List Req} {os : List Offer} {ts : List Sale}
    {l : List Sim.NMat} {as : List Ask} {ds : List Delivery}
    (P : Part (reactor c enc dec) rs s os ts l as ds m s') :
    (as.map Ask.amount).sum ≤ freshRoom (.reactor c enc dec) ∧ (∀ t ∈ ts, t.amt = c.assemSize) ∧
      ts.length + s'.1.spent.items.length ≤ c.nSpent := by
  obtain ⟨is, outs, h, -, hg, -, hid⟩ := L
  obtain ⟨o, s1, s2, s3, -, sp, rfl, rfl, -, -⟩ := turn hc h hg hid P
  refine ⟨?_, (sold_covered P.sales).1, ?_⟩
  · have h1 : ((asksOf c dec s.1 s1).map Ask.amount) =
        List.replicate (nOrders c s.1 s1) c.assemSize := by
      unfold asksOf
      simp [List.map_replicate]
    rw [h1, List.sum_replicate, nsmul_eq_mul]
    show _ ≤ ((c.nCore + c.nFresh : ℕ) : ℚ) * c.assemSize
    have h2 := orders_le (s := s.1) sp.good1
    exact mul_le_mul_of_nonneg_right (by exact_mod_cast h2) hc.1.assemSize.le
  · have h1 := sp.sold.perm.length_eq
    have h2 := congrArg List.length sp.sold.commods
    have h3 := sp.good1.spent.count
    have h4 : (demandedState c s.1 s1).spent = s1.spent := rfl
    rw [sp.spent2]
    simp only [List.length_append, List.length_map, h4] at h1 h2
    omega

/-- What a reactor asks for. -/
theorem asks_are {c : Cfg} {enc : Sim.NMat → Nat} {dec : Nat → Sim.NMat}
    (hc : Sensible (.reactor c enc dec)) {s : State × Nat} {n : Nat} {got gave : List (List Sim.NMat)}
    (L : Lived (.reactor c enc dec) s n got gave) {as : List Ask}
    (h : (reactor c enc dec).asks s = .ok as) :
    ∃ s1, tick c s.1 = .ok s1 ∧ Reactor.Good c s1 ∧ as = asksOf c dec s.1 s1 := by
  obtain ⟨s1, h1, g, -, -, -, h2⟩ := offerPhase_ok hc.1 (lived_good hc L) fun _ => []
  simp only [reactor, h2, ok_bind, pure_eq_ok, Except.ok.injEq] at h
  exact ⟨s1, h1, g, h.symm⟩

/-- It asks for what fits. -/
theorem asks_le {c : Cfg} {enc : Sim.NMat → Nat} {dec : Nat → Sim.NMat}
    (hc : Sensible (.reactor c enc dec)) {s : State × Nat} {n : Nat} {got gave : List (List Sim.NMat)}
    (L : Lived (.reactor c enc dec) s n got gave) {as : List Ask}
    (h : (reactor c enc dec).asks s = .ok as) :
    (as.map Ask.amount).sum ≤ freshRoom (.reactor c enc dec) := by
  obtain ⟨s1, -, g, rfl⟩ := asks_are hc L h
  have h1 : ((asksOf c dec s.1 s1).map Ask.amount) =
      List.replicate (nOrders c s.1 s1) c.assemSize := by
    unfold asksOf
    simp [List.map_replicate]
  rw [h1, List.sum_replicate, nsmul_eq_mul]
  show _ ≤ ((c.nCore + c.nFresh : ℕ) : ℚ) * c.assemSize
  have h2 := orders_le (s := s.1) g
  exact mul_le_mul_of_nonneg_right (by exact_mod_cast h2) hc.1.assemSize.le

/-- An order names every commodity of the reactor, with its recipe. -/
theorem order_alts {c : Cfg} {dec : Nat → Sim.NMat} {s s1 : State} {a : Ask}
    (ha : a ∈ asksOf c dec s s1) : a.amount = c.assemSize ∧ a.whole = true ∧
      ∀ (y : Nat) k, c.inCommods[y]? = some k →
        (k, (dec (reqAt c s1 y).comp).scale c.assemSize) ∈ a.alts := by
  obtain ⟨q, hq, rfl⟩ := List.mem_map.1 ha
  rw [List.eq_of_mem_replicate hq]
  refine ⟨rfl, rfl, fun y k hk => ?_⟩
  obtain ⟨hy, e⟩ := List.getElem?_eq_some_iff.1 hk
  refine List.mem_map.2 ⟨reqAt c s1 y, List.mem_map.2 ⟨y, List.mem_range.2 hy, rfl⟩, ?_⟩
  simp only [reqAt, Prod.mk.injEq, and_true]
  simp [hy, e]

end OfReactor

/-- All that a facility orders is dealt with. -/
def Filled (ex : Exchange) (ps : List (Running act)) (j : Nat) : Prop :=
  ∀ asks offers, askAll ps = .ok asks → offerAll (requestsOf asks) ps = .ok offers →
    ∀ as, asks[j]? = some as → ∀ p < as.length, ∃ d ∈ ex asks offers, d.dst = j ∧ d.port = p

/-- If only reactors buy a commodity, no more of it is asked for than fits into them. -/
theorem reactors_ask {ps : List (Running act)}
    (hL : ∀ p ∈ ps, Sensible p.k ∧ ∃ t got gave, Lived p.k p.s t got gave) {asks : List (List Ask)}
    (ha : List.Forall₂ (fun (p : Running act) a => (act p.k).asks p.s = .ok a) ps asks) {k : String}
    (hk : ∀ x ∈ ps.map Running.k, k ∈ buysOf x → x.isReactor = true) :
    ∀ (x : Nat) as b, asks[x]? = some as → ((ps.map Running.k).map freshRoom)[x]? = some b →
      (0 ≤ b ∧ ∀ a ∈ as, ∀ y ∈ a.alts, y.1 ≠ k) ∨ (as.map Ask.amount).sum ≤ b := by
  intro x as bd hx hbd
  have hlt : x < ps.length := ha.length_eq ▸ (List.getElem?_eq_some_iff.1 hx).1
  have hpx : ps[x]? = some ps[x] := List.getElem?_eq_getElem hlt
  rw [List.map_map, List.getElem?_map, hpx] at hbd
  generalize ps[x] = p' at hpx hbd
  obtain rfl := Option.some.inj hbd
  obtain ⟨as', g1, g2⟩ := forall₂_get ha hpx
  obtain rfl := Option.some.inj (hx.symm.trans g1)
  obtain ⟨hc', t', got', gave', L'⟩ := hL _ (List.mem_of_getElem? hpx)
  obtain ⟨k', s0⟩ := p'
  show (0 ≤ freshRoom k' ∧ _) ∨ _ ≤ freshRoom k'
  by_cases hk' : k'.isReactor = true
  · cases k' <;> cases hk'
    exact Or.inr (OfReactor.asks_le hc' L' g2)
  · refine Or.inl ⟨by cases k' <;> first | exact le_refl _ | exact absurd rfl hk', ?_⟩
    intro a ha z hz hze
    have := asked_commods hc' L' g2 a ha z hz
    rw [hze] at this
    exact hk' (hk k' (List.mem_map.2 ⟨_, List.mem_of_getElem? hpx, rfl⟩) this)

/-- A source that offers as much as it can fills the orders of reactors. -/
theorem filled_source {ex : Exchange} (hex : ex.Fair) (hea : ex.Eager) {ps : List (Running act)}
    {n : Nat} (h : ∀ p ∈ ps, Good A qty holdings p)
    (hL : ∀ p ∈ ps, Sensible p.k ∧ ∃ t got gave, Lived p.k p.s t got gave) {f : Source.Cfg} {i : Nat}
    {si : Source.State} (hi : ps[i]? = some ⟨.source f, si⟩)
    (hf : ∀ rs os, (∃ r ∈ rs, r.commod = f.outcommod) → (source f).offers rs si = .ok os →
      os = [⟨f.outcommod, f.throughput, f.lo, none, fun _ => true, []⟩])
    (hS : Supplies (ps.map Running.k) f n) {c : Reactor.Cfg} {enc : NMat → Nat} {dec : Nat → NMat}
    {j : Nat} {s : Reactor.State × Nat} (hj : ps[j]? = some ⟨.reactor c enc dec, s⟩)
    (h1 : f.outcommod ∈ c.inCommods) (h3 : f.lo ≤ c.assemSize) : Filled ex ps j := by
  intro asks offers b1 b2 as has p hp
  obtain ⟨asks', a1, a2, a3, a4⟩ := askAll_ok h
  obtain rfl := Except.ok.inj (b1.symm.trans a1)
  obtain ⟨offers', o1, o2, o3⟩ := offerAll_ok a3 h
  obtain rfl := Except.ok.inj (b2.symm.trans o1)
  obtain ⟨as', e1, e2⟩ := forall₂_get a2 hj
  obtain rfl := Option.some.inj (has.symm.trans e1)
  obtain ⟨hcj, t, got, gave, Lj⟩ := hL _ (List.mem_of_getElem? hj)
  obtain ⟨s1, -, -, hasks⟩ := OfReactor.asks_are hcj Lj e2
  have hap : as[p]? = some as[p] := List.getElem?_eq_getElem hp
  generalize as[p] = a at hap
  obtain ⟨m1, m2, m3⟩ := OfReactor.order_alts (hasks ▸ List.mem_of_getElem? hap)
  obtain ⟨y, hy⟩ := List.mem_iff_getElem?.1 h1
  have hk := m3 y _ hy
  obtain ⟨osi, go1, go2⟩ := forall₂_get o2 hi
  have hoi := hf _ osi ⟨⟨f.outcommod, _⟩, List.mem_flatMap.2 ⟨_, List.mem_flatten.2
    ⟨as, List.mem_of_getElem? has, List.mem_of_getElem? hap⟩, List.mem_map.2 ⟨_, hk, rfl⟩⟩, rfl⟩ go2
  subst hoi
  exact filled (hex _ _ a4 o3) (hea _ _ a4 o3) has hap m2 hk ⟨by rw [m1]; exact hcj.1.assemSize, by
      rw [m1, Mat.qty_scale, (hcj.2 _).1, mul_one]⟩ go1 rfl (by rw [m1]; exact h3) rfl rfl rfl
    (B := (ps.map Running.k).map freshRoom) (by simp [a2.length_eq]) (reactors_ask hL a2 hS.only)
    hS.enough

/-- An order for what reactors have to sell of the commodities `xs`: only reactors sell what is ordered, and
it is enough for all that they have. -/
structure Takes (ks : List Kind) (xs : List String) (a : Ask) : Prop where
  whole : a.whole = false
  all : ∀ x ∈ xs, ∃ m, (x, m) ∈ a.alts ∧ (ks.map spentRoom).sum ≤ qty m
  only : ∀ k ∈ ks, (∃ x ∈ a.alts, x.1 ∈ sellsOf k) → k.isReactor = true
  enough : (ks.map spentRoom).sum ≤ a.amount

/-- Someone has such an order and no other. -/
def Taken (ps : List (Running act)) (xs : List String) : Prop :=
  ∃ (b : Nat) (a : Ask), (∀ asks, askAll ps = .ok asks → asks[b]? = some [a]) ∧
    Takes (ps.map Running.k) xs a

/-- In a time step in which its orders are filled and there is an order for what it has to sell, a reactor
gets all that it orders and sells all that it has to sell. -/
theorem round_taken {ex : Exchange} (hex : ex.Fair) (hea : ex.Eager) {ps ps' : List (Running act)}
    {gs : List (Deal × NMat)} (h : ∀ p ∈ ps, Good A qty holdings p)
    (hL : ∀ p ∈ ps, Sensible p.k ∧ ∃ t got gave, Lived p.k p.s t got gave)
    (hr : round ex ps = .ok (gs, ps')) {c : Reactor.Cfg} {enc : NMat → Nat} {dec : Nat → NMat}
    (hD : Taken ps c.outCommods)
    {j : Nat} {s : Reactor.State × Nat} (hj : ps[j]? = some ⟨.reactor c enc dec, s⟩)
    (h1 : Filled ex ps j) :
    ∃ rs os ts l as ds m s', Part (reactor c enc dec) rs s os ts l as ds m s' ∧
      ps'[j]? = some ⟨.reactor c enc dec, s'⟩ ∧ l = givenBy gs j ∧
      ds.map Delivery.mat = givenTo gs j ∧ ds.length = as.length ∧ s'.1.spent.items = [] := by
  obtain ⟨b, w, hb, hD⟩ := hD
  obtain ⟨asks, offers, hs, a1, o1, -, -, a3, P⟩ := round_parts' hex h hr
  obtain ⟨asks', offers', gs', ps'', b1, b2, b3, ⟨b4, -⟩, -⟩ := round_ok hex h
  obtain rfl := Except.ok.inj (b1.symm.trans a1)
  obtain rfl := Except.ok.inj (b2.symm.trans o1)
  obtain ⟨rfl, rfl⟩ := Prod.mk.inj (Except.ok.inj (b3.symm.trans hr))
  clear b1 b2 b3
  obtain ⟨asks'', a1', a2, -, a4⟩ := askAll_ok h
  obtain rfl := Except.ok.inj (a1.symm.trans a1')
  obtain ⟨offers'', o1', o2, o3⟩ := offerAll_ok a3 h
  obtain rfl := Except.ok.inj (o1.symm.trans o1')
  have F := hex _ _ a4 o3
  have E := hea _ _ a4 o3
  set ds := ex asks' offers' with hds
  have get : ∀ {x : Nat} {p : Running act}, ps[x]? = some p → ∃ as os, asks'[x]? = some as ∧
      offers'[x]? = some os ∧ (act p.k).asks p.s = .ok as ∧
      (act p.k).offers (requestsOf asks') p.s = .ok os := by
    intro x p hx
    obtain ⟨as, e1, e2⟩ := forall₂_get a2 hx
    obtain ⟨os, e3, e4⟩ := forall₂_get o2 hx
    exact ⟨as, os, e1, e3, e2, e4⟩
  have len1 : asks'.length = ps.length := a2.length_eq.symm
  have len2 : offers'.length = ps.length := o2.length_eq.symm
  -- the reactor
  obtain ⟨os, l, as, m, s', Pj, e1, e2, -⟩ := P j _ hj
  change Part (reactor c enc dec) _ _ _ _ _ _ _ _ _ at Pj
  obtain ⟨hcj, t, got, gave, Lj⟩ := hL _ (List.mem_of_getElem? hj)
  change Sensible (.reactor c enc dec) at hcj
  change Lived (.reactor c enc dec) s t got gave at Lj
  obtain ⟨asj, osj, ga1, go1, ga2, go2⟩ := get hj
  obtain rfl := Except.ok.inj (Pj.asks.symm.trans ga2)
  obtain rfl := Except.ok.inj (Pj.offers.symm.trans go2)
  have hsize := hcj.1.assemSize
  obtain ⟨o, s1, s2, s3, sp, hasks, hoffers⟩ : ∃ o s1 s2 s3, Reactor.StepSpec c s.1
      ⟨quantities (requestsOf asks'), ((dealsOf ds j).map Deal.sale).map Sale.commod,
        assemblies enc s.2 ((gs'.filter fun g => g.1.dst = j).map delivery)⟩ o s'.1 s1 s2 s3 ∧
      as = OfReactor.asksOf c dec s.1 s1 ∧ os = OfReactor.offersOf c (requestsOf asks') s1 := by
    obtain ⟨is, outs, k1, -, k2, -, k3⟩ := Lj
    obtain ⟨o, s1, s2, s3, -, sp, k4, k5, -⟩ := OfReactor.turn hcj k1 k2 k3 Pj
    exact ⟨o, s1, s2, s3, sp, k4, k5⟩
  -- the bounds of all
  have limit : ∀ {x : Nat} {c' : Reactor.Cfg} {enc' : NMat → Nat} {dec' : Nat → NMat}
      {s0 : Reactor.State × Nat}, ps[x]? = some ⟨.reactor c' enc' dec', s0⟩ →
      (∀ as', asks'[x]? = some as' → (as'.map Ask.amount).sum ≤ freshRoom (.reactor c' enc' dec')) ∧
      (∀ d ∈ ds, d.src = x → d.amt = c'.assemSize) ∧
      ∃ q, ps''[x]? = some ⟨.reactor c' enc' dec', q⟩ ∧
        (dealsOf ds x).length + q.1.spent.items.length ≤ c'.nSpent := by
    intro x c' enc' dec' s0 hx
    obtain ⟨hc', t', got', gave', L'⟩ := hL _ (List.mem_of_getElem? hx)
    obtain ⟨os', l', as', m', s'', P', e1', -⟩ := P x _ hx
    obtain ⟨k1, k2, k3⟩ := OfReactor.turn_limits hc' L' P'
    obtain ⟨as'', -, k4, -, k5, -⟩ := get hx
    obtain rfl := Except.ok.inj (P'.asks.symm.trans k5)
    rw [List.length_map] at k3
    refine ⟨?_, ?_, ?_⟩
    · intro as'' h
      obtain rfl := Option.some.inj (k4.symm.trans h)
      exact k1
    · intro d hd e
      exact k2 d.sale (List.mem_map_of_mem (List.mem_filter.2 ⟨hd, by simpa using e⟩))
    · exact ⟨s'', e1', k3⟩
  refine ⟨_, os, _, l, as, _, m, s', Pj, e1, e2, by unfold givenTo; rw [List.map_map]; rfl, ?_, ?_⟩
  · have nodup := OfReactor.ports_nodup hsize (by
      intro a ha
      rw [hasks] at ha
      obtain ⟨p, -, rfl⟩ := List.mem_map.1 ha
      exact ⟨rfl, rfl⟩) Pj.deliveries
    have le := OfReactor.length_le_of_ports nodup (n := as.length) (by
      intro x hx
      obtain ⟨d, hd, rfl⟩ := List.mem_map.1 hx
      obtain ⟨a, h, -⟩ := Pj.deliveries.asked d hd
      exact (List.getElem?_eq_some_iff.1 h).1)
    rw [List.length_map] at le
    refine le_antisymm le ?_
    have sub : List.range as.length ⊆
        ((gs'.filter fun g => g.1.dst = j).map delivery).map Delivery.port := by
      intro p hp
      have hp := List.mem_range.1 hp
      obtain ⟨d, hd, k1, k2⟩ := h1 asks' offers' a1 o1 as ga1 p hp
      obtain ⟨g, hg, rfl⟩ := List.mem_map.1 (b4.symm.subset hd)
      exact List.mem_map.2 ⟨delivery g, List.mem_map.2 ⟨g, List.mem_filter.2 ⟨hg, by simpa using k1⟩, rfl⟩,
        k2⟩
    have := (List.nodup_range.subperm sub).length_le
    simpa using this
  · by_contra hne
    obtain ⟨a, ha⟩ := List.exists_mem_of_ne_nil _ hne
    obtain ⟨-, amt, q, hq, hcount⟩ := limit hj
    obtain rfl : s' = q := by
      have := Option.some.inj (e1.symm.trans hq)
      cases this; rfl
    have hpos : 0 < s'.1.spent.items.length := List.length_pos_of_mem ha
    rw [sp.spent2] at ha
    set k := Reactor.outCommodOf c s2 a with hk
    have ha2 : a ∈ Reactor.spentOf c s2 k := List.mem_filter.2 ⟨ha, by simp [hk]⟩
    have hout : k ∈ c.outCommods := by
      have := sp.good2.idx a (by simp [Reactor.held, ha])
      rw [← hcj.1.outCommods] at this
      rw [hk, Reactor.outCommodOf, List.getD_eq_getElem?_getD, List.getElem?_eq_getElem this]
      exact List.getElem_mem _
    have hkept := sp.sold.kept k
    change Reactor.spentOf c s2 k = (Reactor.spentOf c s1 k).drop _ at hkept
    rw [hkept] at ha2
    have hlen := List.length_pos_of_mem ha2
    rw [List.length_drop] at hlen
    -- the sink
    have gb1 := hb _ a1
    obtain ⟨tgt, ht1, ht2⟩ := hD.all k hout
    have hreq : quantities (requestsOf asks') k ≠ [] := by
      intro hnil
      have : (⟨k, tgt⟩ : Req) ∈ requestsOf asks' :=
        List.mem_flatMap.2 ⟨_, List.mem_flatten.2 ⟨_, List.mem_of_getElem? gb1, List.mem_singleton.2 rfl⟩,
          List.mem_map.2 ⟨_, ht1, rfl⟩⟩
      unfold quantities at hnil
      rw [List.map_eq_nil_iff, List.filter_eq_nil_iff] at hnil
      exact hnil _ this (by simp)
    have hsp : Reactor.spentOf c s1 k ≠ [] := by
      intro e
      rw [e] at hlen
      simp at hlen
    have hbid : Reactor.bidPort c (quantities (requestsOf asks')) s1 k =
        some ⟨k, Reactor.bidsForAll (Reactor.spentOf c s1 k) (quantities (requestsOf asks') k) 0,
          totalQty (Reactor.spentOf c s1 k)⟩ := by
      unfold Reactor.bidPort
      rw [if_neg (by push Not; exact ⟨hreq, hsp⟩)]
    set u : Offer := ⟨k, totalQty (Reactor.spentOf c s1 k), 0, some c.assemSize, fun _ => true, []⟩ with hu
    have hmem : u ∈ os := by
      rw [hoffers]
      exact List.mem_map.2 ⟨_, List.mem_filterMap.2 ⟨k, Reactor.mem_uniqOutCommods.2 hout, hbid⟩, rfl⟩
    have hsum : (((ps.map Running.k).map spentRoom).sum) ≤ w.amount := hD.enough
    have hroom : (c.nSpent : ℚ) * c.assemSize ≤ qty tgt := by
      refine le_trans ?_ ht2
      refine List.single_le_sum ?_ _ (List.mem_map.2 ⟨.reactor c enc dec, List.mem_map.2
        ⟨_, List.mem_of_getElem? hj, rfl⟩, rfl⟩)
      intro x hx
      obtain ⟨k', hk', rfl⟩ := List.mem_map.1 hx
      obtain ⟨p', hp', rfl⟩ := List.mem_map.1 hk'
      obtain ⟨hc', -⟩ := hL p' hp'
      cases e : p'.k <;> try exact le_refl _
      rw [e] at hc'
      exact mul_nonneg (Nat.cast_nonneg _) hc'.1.assemSize.le
    have key := taken F E go1 hmem rfl hsize hsize.le (fun _ => rfl) (by
        intro o' ho' e
        rw [hoffers] at ho'
        obtain ⟨bp, hbp, rfl⟩ := List.mem_map.1 ho'
        obtain ⟨k', -, hk'⟩ := List.mem_filterMap.1 hbp
        obtain rfl : k' = k := by
          unfold Reactor.bidPort at hk'
          split at hk'
          · cases hk'
          · obtain rfl := Option.some.inj hk'
            exact e
        obtain rfl := Option.some.inj (hk'.symm.trans hbid)
        exact ⟨rfl, rfl⟩) gb1 ht1 (by
        have : (1 : ℚ) ≤ c.nSpent := by exact_mod_cast (by omega : 1 ≤ c.nSpent)
        nlinarith) hD.whole (B := (ps.map Running.k).map spentRoom) (by simp [len2]) (by
        intro x bd hbd
        rw [List.map_map, List.getElem?_map, Option.map_eq_some_iff] at hbd
        obtain ⟨p, hp, rfl⟩ := hbd
        have fresh : ∀ d ∈ ds, d.dst = b → ∃ y ∈ w.alts, y.1 = d.commod := by
          intro d hd e
          obtain ⟨as', h3', a', h4', h5', -⟩ := F.asked d hd
          rw [e, gb1] at h3'
          obtain rfl := Option.some.inj h3'
          have := List.mem_of_getElem? h4'
          rw [List.mem_singleton] at this
          subst this
          exact ⟨_, h5', rfl⟩
        by_cases hr : p.k.isReactor = true
        · obtain ⟨pk, p0⟩ := p
          cases pk <;> try exact absurd (show false = true from hr) Bool.false_ne_true
          rename_i c' enc' dec'
          obtain ⟨-, amt', q', hq', hcount'⟩ := limit hp
          change _ ≤ (c'.nSpent : ℚ) * c'.assemSize
          have hs' : 0 < c'.assemSize := (hL _ (List.mem_of_getElem? hp)).1.1.assemSize
          have base : dealt ds (fun d => d.dst = b ∧ d.src = x) ≤ (dealsOf ds x).length * c'.assemSize := by
            refine le_trans (dealt_mono (fun d hd => (F.pos d hd).1.le) (q := fun d => d.src = x) ?_) ?_
            · intro d _ e
              simpa using (of_decide_eq_true e).2
            · rw [dealt_const (w := c'.assemSize) fun d hd e => amt' d hd (by simpa using e), countP_src]
          rw [dealt_append, dealt_single]
          by_cases hx : x = j
          · subst hx
            have := Option.some.inj (hp.symm.trans hj)
            cases this
            rw [if_pos (by simp)]
            have : ((dealsOf ds x).length : ℚ) + 1 ≤ c.nSpent := by exact_mod_cast (by omega)
            change _ + c.assemSize ≤ _
            nlinarith
          · rw [if_neg (by simp [Ne.symm hx])]
            have : ((dealsOf ds x).length : ℚ) ≤ c'.nSpent := by exact_mod_cast (by omega)
            nlinarith
        · rw [dealt_zero]
          · obtain ⟨pk, p0⟩ := p
            cases pk <;> first | exact le_refl _ | exact absurd rfl hr
          · intro d hd
            by_contra hn
            have hn := of_decide_eq_true (by simpa using hn : decide (d.dst = b ∧ d.src = x) = true)
            rcases List.mem_append.1 hd with hd | hd
            · obtain ⟨osx, h3', o', h4', h5', -⟩ := F.offered d hd
              obtain ⟨-, osx', -, k1, -, k2⟩ := get hp
              rw [hn.2, k1] at h3'
              obtain rfl := Option.some.inj h3'
              obtain ⟨hcx, tx, gotx, gavex, Lx⟩ := hL _ (List.mem_of_getElem? hp)
              obtain ⟨y, hy1, hy2⟩ := fresh d hd hn.1
              exact hr (hD.only _ (List.mem_map.2 ⟨_, List.mem_of_getElem? hp, rfl⟩)
                ⟨y, hy1, hy2 ▸ h5' ▸ offered_commods hcx Lx k2 o' h4'⟩)
            · rw [List.mem_singleton] at hd
              subst hd
              have hn2 : j = x := hn.2
              subst hn2
              have := Option.some.inj (hp.symm.trans hj)
              subst this
              exact hr rfl) hsum
    change totalQty (Reactor.spentOf c s1 k) < dealt ds (fun d => d.src = j ∧ d.commod = k) + _ at key
    rw [dealt_const (w := c.assemSize) fun d hd e => amt d hd (by simpa using (of_decide_eq_true e).1),
      countP_commod, Reactor.totalQty_spentOf sp.good1] at key
    change 0 < _ - List.count k (((dealsOf ds j).map Deal.sale).map Sale.commod) at hlen
    have : ((((dealsOf ds j).map Deal.sale).map Sale.commod).count k : ℚ) + 1 ≤
        (Reactor.spentOf c s1 k).length := by exact_mod_cast (by omega)
    nlinarith

/-- A sink that asks for as much as it can takes all that reactors have to sell. -/
theorem taken_sink {ps : List (Running act)} {n : Nat} {w : Sink.Cfg} {b : Nat} {sb : ℤ × Sink.State}
    (hv : Sensible (.sink w)) (hb : ps[b]? = some ⟨.sink w, sb⟩) (hw : ∀ as, (sink w).asks sb = .ok as →
      as = [⟨w.commods.map fun k => (k, Sink.target w w.capacity), w.capacity, false⟩])
    (hD : Drains (ps.map Running.k) w n) (h : ∀ p ∈ ps, Good A qty holdings p) {xs : List String}
    (h2 : ∀ x ∈ xs, x ∈ w.commods) : Taken ps xs := by
  refine ⟨b, ⟨w.commods.map fun k => (k, Sink.target w w.capacity), w.capacity, false⟩, fun asks ha => ?_,
    rfl, fun x hx => ⟨_, List.mem_map.2 ⟨x, h2 x hx, rfl⟩, ?_⟩, ?_, hD.enough⟩
  · obtain ⟨asks', a1, a2, -, -⟩ := askAll_ok h
    obtain rfl := Except.ok.inj (ha.symm.trans a1)
    obtain ⟨as, e1, e2⟩ := forall₂_get a2 hb
    obtain rfl := hw _ e2
    exact e1
  · rw [Sink.qty_target hv.1]
    exact hD.enough
  · rintro k hk ⟨y, hy, hs⟩
    obtain ⟨x, hx, rfl⟩ := List.mem_map.1 hy
    exact hD.only k hk ⟨x, hx, hs⟩

/-- The last of several time steps. -/
theorem simulate_snoc {ex : Nat → Exchange} {m : Nat} : ∀ {t : Nat} {ps ps' : List (Running act)}
    {l : List (List (Deal × NMat))}, simulate ex (m + 1) t ps = .ok (l, ps') → ∃ l₁ ps₁ gs,
      simulate ex m t ps = .ok (l₁, ps₁) ∧ round (ex (t + m)) ps₁ = .ok (gs, ps') ∧ l = l₁ ++ [gs] := by
  induction m with
  | zero =>
    intro t ps ps' l h
    simp only [simulate, bind_ok, pure_eq_ok, Except.ok.injEq, Prod.mk.injEq] at h
    obtain ⟨⟨gs, ps₁⟩, h1, ⟨l', ps₂⟩, ⟨rfl, rfl⟩, rfl, rfl⟩ := h
    exact ⟨[], ps, gs, rfl, h1, rfl⟩
  | succ m ih =>
    intro t ps ps' l h
    rw [simulate] at h
    simp only [bind_ok, pure_eq_ok, Except.ok.injEq, Prod.mk.injEq] at h
    obtain ⟨⟨gs, ps₁⟩, h1, ⟨l', ps₂⟩, h2, rfl, rfl⟩ := h
    obtain ⟨l₁, ps₃, gs', h3, h4, e⟩ := ih h2
    subst e
    refine ⟨gs :: l₁, ps₃, gs', ?_, ?_, rfl⟩
    · simp [simulate, h1, h3, ok_bind, pure_eq_ok]
    · rw [← Nat.add_assoc, Nat.add_right_comm]; exact h4

end Cyc.Sim
