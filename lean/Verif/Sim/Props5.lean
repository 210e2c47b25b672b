import Verif.Producer.Props
import Verif.Sim.Growth
import Verif.Sim.Props2

/-!
# A growth region and its facilities in one simulation: property C134
-/

namespace Cyc.Sim

variable {A : Agreement}

/-! ## What facilities announce -/

theorem capacity_made (C : Country) (t : Nat) (p k : String) :
    capacity C.power k (C.made t p) = capacity C.power k (C.input p) := by
  unfold Country.made
  cases C.input p <;> rfl

theorem sides_get {qs : List ℚ} {j : Nat} {ps : List String} {t u : Producer.Table}
    (h : Producer.addSides qs j ps t = .ok u) (k : String) :
    Map.get? u k = match Map.get? t k with
      | some i => some i
      | none => ((ps.zip (qs.drop j)).find? fun x => x.1 = k).map fun x => ⟨x.2, x.2⟩ := by
  induction ps generalizing j t with
  | nil =>
    simp only [Producer.addSides, Except.ok.injEq] at h
    subst h
    cases Map.get? t k <;> rfl
  | cons p ps ih =>
    simp only [Producer.addSides, bind_ok, at!_ok] at h
    obtain ⟨q, h1, h⟩ := h
    obtain ⟨hlt, h1⟩ := List.getElem?_eq_some_iff.1 h1
    rw [ih h, Producer.get?_add, List.drop_eq_getElem_cons hlt, h1, List.zip_cons_cons, List.find?_cons]
    by_cases e : p = k
    · subst e
      cases e' : Map.get? t p <;> simp
    · simp [e]

theorem announce_spec {limit : ℚ} {power : String} {a : Kind} {t : Option Producer.Table}
    (h : announce limit power a = .ok t) (k : String) :
    Region.produced (t.map Producer.capsOf) k = capacity power k a := by
  have key : ∀ u : Producer.Table, Region.produced ((some (Producer.copy limit u)).map Producer.capsOf) k =
      ((Map.get? u k).map Producer.Info.capacity).getD 0 := by
    intro u
    rw [← Producer.capacity_copy (limit := limit) 0 u k, ← Region.produced_eq]
    rfl
  cases a with
  | source c =>
    simp only [announce, Except.ok.injEq] at h
    subst h
    rw [key, Producer.loadSource, Producer.get?_add, capacity]
    by_cases e : c.outcommod = k <;> simp [e, Map.get?]
  | reactor c enc dec =>
    simp only [announce, bind_ok, pure_eq_ok, Except.ok.injEq] at h
    obtain ⟨u, h1, rfl⟩ := h
    rw [key, sides_get h1, Producer.get?_add, capacity]
    by_cases e : power = k
    · simp [e, Map.get?]
    · simp only [e, false_and, if_false, Map.get?_nil, List.drop_zero]
      cases (c.sideProducts.zip c.sideQty).find? fun x => decide (x.1 = k) <;> rfl
  | storage c want =>
    simp only [announce, Producer.loadStorage, bind_ok, pure_eq_ok, Except.ok.injEq, at!_ok] at h
    obtain ⟨u, ⟨x, h1, rfl⟩, rfl⟩ := h
    rw [key, Producer.get?_setCapacity, capacity, List.head?_eq_getElem?, h1]
    by_cases e : x = k
    · simp [e]
    · simp [e, Producer.get?_add]
  | _ =>
    simp only [announce, Except.ok.injEq] at h
    subst h
    rfl

theorem announce_ok {limit : ℚ} {power : String} {a : Kind} (h : Sensible a) :
    ∃ t, announce limit power a = .ok t := by
  cases a with
  | reactor c enc dec =>
    obtain ⟨u, hu⟩ := (Producer.addSides_ok c.sideQty 0 c.sideProducts
      (Producer.add [] power ⟨c.powerCap, c.powerCap⟩)).1 fun _ => by simpa using h.1.sideQty
    exact ⟨some (Producer.copy limit u), by
      simp only [announce, Producer.loadReactor, hu, ok_bind, pure_eq_ok]⟩
  | storage c want =>
    have : 0 < c.outCommods.length := by rw [h.1.outCommods]; exact Nat.one_pos
    have e : at! c.outCommods 0 = .ok c.outCommods[0] := at!_ok.2 (List.getElem?_eq_getElem this)
    simp only [announce, Producer.loadStorage, e, ok_bind, pure_eq_ok]
    exact ⟨_, rfl⟩
  | _ => exact ⟨_, rfl⟩

theorem load_ok {C : Country} {ns : List String} (h : ∀ p ∈ ns, Sensible (C.input p)) :
    ∃ T, C.load ns = .ok T := by
  induction ns with
  | nil => exact ⟨[], rfl⟩
  | cons p ns ih =>
    obtain ⟨t, ht⟩ := announce_ok (limit := C.limit) (power := C.power) (h p (by simp))
    obtain ⟨T, hT⟩ := ih fun p hp => h p (by simp [hp])
    simp only [Country.load, ht, hT, ok_bind, pure_eq_ok]
    exact ⟨_, rfl⟩

theorem load_get {C : Country} {ns : List String} {T : Region.Protos} (h : C.load ns = .ok T) (p : String) :
    (p ∈ ns → Region.Exists T p) ∧ ∀ c, Map.get? T p = some c →
      p ∈ ns ∧ ∀ k, Region.produced c k = capacity C.power k (C.input p) := by
  induction ns generalizing T with
  | nil =>
    simp only [Country.load, Except.ok.injEq] at h
    subst h
    simp
  | cons q ns ih =>
    simp only [Country.load, bind_ok, pure_eq_ok, Except.ok.injEq] at h
    obtain ⟨t, h1, T', h2, rfl⟩ := h
    obtain ⟨i1, i2⟩ := ih h2
    by_cases e : q = p
    · subst e
      refine ⟨fun _ => by simp [Region.Exists, Map.get?], fun c hc => ?_⟩
      simp only [Map.get?, if_true, Option.some.injEq] at hc
      subst hc
      exact ⟨by simp, announce_spec h1⟩
    · refine ⟨fun hp => ?_, fun c hc => ?_⟩
      · simp only [Region.Exists, Map.get?, if_neg e]
        exact i1 ((List.mem_cons.1 hp).resolve_left fun x => e x.symm)
      · simp only [Map.get?, if_neg e] at hc
        obtain ⟨j1, j2⟩ := i2 c hc
        exact ⟨by simp [j1], j2⟩

/-! ## The region and the facilities, step by step -/

/-- What the region meets in a step. -/
def inOf (e : Event) (o : Seen) : Region.In := ⟨[], e.builds, e.decision, o.left, []⟩

/-- What is seen of the region in a step. -/
def outOf (o : Seen) : Region.Out := ⟨o.living, o.supply, o.ordered⟩

theorem departing_sub {α : Type} (w : Nat → Bool) (i : Nat) (ps : List (Running act)) (xs : List α) :
    (departing w i ps xs).Sublist xs := by
  induction ps generalizing i xs with
  | nil => cases xs <;> simp [departing]
  | cons p ps ih =>
    cases xs with
    | nil => simp [departing]
    | cons x xs =>
      rw [departing]
      split
      · exact (ih (i + 1) xs).cons_cons x
      · exact (ih (i + 1) xs).cons x

theorem depart_pairs {α : Type} [DecidableEq α] {P : α → Running act → Prop} (w : Nat → Bool) (i : Nat)
    {xs : List α} {ps : List (Running act)} (h : List.Forall₂ P xs ps) (hn : xs.Nodup) :
    List.Forall₂ P (xs.filter fun x => decide (x ∉ departing w i ps xs)) (depart w i ps).1 ∧
    List.Forall₂ P (departing w i ps xs) (depart w i ps).2 := by
  induction h generalizing i with
  | nil => exact ⟨.nil, .nil⟩
  | @cons x p xs ps hx h ih =>
    obtain ⟨n1, n2⟩ := List.nodup_cons.1 hn
    obtain ⟨h1, h2⟩ := ih (i + 1) n2
    have hd : x ∉ departing w (i + 1) ps xs := fun hm => n1 ((departing_sub w (i + 1) ps xs).subset hm)
    rw [departing, depart]
    split
    · refine ⟨?_, .cons hx h2⟩
      rw [List.filter_cons_of_neg (by simp)]
      rw [List.filter_congr (q := fun y => decide (y ∉ departing w (i + 1) ps xs))]
      · exact h1
      · intro y hy
        have : y ≠ x := fun e => n1 (e ▸ hy)
        simp [this]
    · rw [List.filter_cons_of_pos (by simpa using hd)]
      exact ⟨.cons hx h1, h2⟩

theorem sellAll_k {rs : List Req} {ds : List Deal} {k : Nat} {ps : List (Running act)}
    {gs : List (Deal × NMat)} {hs : List (Halfway act)} (h : sellAll rs ds k ps = .ok (gs, hs)) :
    hs.map Halfway.k = ps.map Running.k := by
  induction ps generalizing k gs hs with
  | nil =>
    simp only [sellAll, Except.ok.injEq, Prod.mk.injEq] at h
    rw [← h.2]; rfl
  | cons p ps ih =>
    simp only [sellAll, bind_ok, pure_eq_ok, Except.ok.injEq, Prod.mk.injEq] at h
    obtain ⟨⟨l, m⟩, -, ⟨gs', hs'⟩, h2, -, rfl⟩ := h
    simp [ih h2]

theorem settleAll_k {gs : List (Deal × NMat)} {k : Nat} {hs : List (Halfway act)}
    {ps : List (Running act)} (h : settleAll gs k hs = .ok ps) :
    ps.map Running.k = hs.map Halfway.k := by
  induction hs generalizing k ps with
  | nil =>
    simp only [settleAll, Except.ok.injEq] at h
    rw [← h]; rfl
  | cons p hs ih =>
    simp only [settleAll, bind_ok, pure_eq_ok, Except.ok.injEq] at h
    obtain ⟨s, -, ps', h2, rfl⟩ := h
    simp [ih h2]

theorem round_k {ex : Exchange} {ps ps' : List (Running act)} {gs : List (Deal × NMat)}
    (h : round ex ps = .ok (gs, ps')) : ps'.map Running.k = ps.map Running.k := by
  simp only [round, bind_ok, pure_eq_ok, Except.ok.injEq, Prod.mk.injEq] at h
  obtain ⟨asks, -, offers, -, ⟨gs', hs⟩, h3, ps'', h4, -, rfl⟩ := h
  rw [settleAll_k h4, sellAll_k h3]

theorem deploy_k {k : Kind} {p : Running act} (h : deploy k = .ok p) : p.k = k := by
  cases k <;> simp only [deploy, bind_ok, pure_eq_ok, Except.ok.injEq] at h
  all_goals first
    | (subst h; rfl)
    | (obtain ⟨s, -, rfl⟩ := h; rfl)

theorem deployAll_kinds {ks : List Kind} {ps : List (Running act)} (h : deployAll ks = .ok ps) :
    ps.map Running.k = ks := by
  induction ks generalizing ps with
  | nil =>
    simp only [deployAll, Except.ok.injEq] at h
    rw [← h]; rfl
  | cons k ks ih =>
    simp only [deployAll, bind_ok, pure_eq_ok, Except.ok.injEq] at h
    obtain ⟨p, h1, ps', h2, rfl⟩ := h
    simp [ih h2, deploy_k h1]

/-- The stages of a step. -/
structure Grows (C : Country) (T : Region.Protos) (ex : Exchange) (t : Nat) (x : Land) (e : Event)
    (o : Seen) (x' : Land) (w : Region.World) (new : List (Running act)) : Prop where
  build : Region.doBuild T (x.world.queue ++ e.builds) { x.world with queue := [] } = .ok w
  deploy : deployAll ((x.world.queue ++ e.builds).map fun b => C.made t b.2) = .ok new
  tick : Region.tick w.region w.insts t e.decision (C.region.demand.map Prod.fst) = .ok o.ordered
  trade : round ex (x.plants ++ new) = .ok (o.deals, o.plants)
  living : o.living = w.living
  supply : o.supply = Region.supply w.region w.insts
  left : o.left = departing e.leaves 0 o.plants w.living
  gone : o.gone = (depart e.leaves 0 o.plants).2
  world : x'.world = Region.doDecom o.left { w with queue := o.ordered }
  plants : x'.plants = (depart e.leaves 0 o.plants).1

theorem growStep_stages {C : Country} {T : Region.Protos} {ex : Exchange} {t : Nat} {x x' : Land}
    {e : Event} {o : Seen} (h : growStep C T ex t x e = .ok (o, x')) :
    ∃ w new, Grows C T ex t x e o x' w new := by
  simp only [growStep, bind_ok, pure_eq_ok, Except.ok.injEq, Prod.mk.injEq] at h
  obtain ⟨w, h1, new, h2, l, h3, ⟨gs, ps⟩, h4, rfl, rfl⟩ := h
  exact ⟨w, new, h1, h2, h3, h4, rfl, rfl, rfl, rfl, rfl, rfl⟩

theorem grow_region_step {C : Country} {T : Region.Protos} {ex : Exchange} {t : Nat} {x x' : Land}
    {e : Event} {o : Seen} (h : growStep C T ex t x e = .ok (o, x')) :
    Region.step C.region T t x.world (inOf e o) = .ok (outOf o, x'.world) := by
  obtain ⟨w, new, G⟩ := growStep_stages h
  simp only [Region.step, inOf, Region.arrive, ok_bind, G.build, G.tick, pure_eq_ok, Except.ok.injEq,
    Prod.mk.injEq, Region.leave, outOf]
  exact ⟨by rw [G.living, G.supply], G.world.symm⟩

theorem grow_region {C : Country} {T : Region.Protos} {ex : Nat → Exchange} {es : List Event} :
    ∀ {t : Nat} {x x' : Land} {os : List Seen}, grow C T ex t x es = .ok (os, x') →
    Region.run C.region T t x.world (List.zipWith inOf es os) = .ok (os.map outOf, x'.world) := by
  induction es with
  | nil =>
    intro t x x' os h
    simp only [grow, Except.ok.injEq, Prod.mk.injEq] at h
    obtain ⟨rfl, rfl⟩ := h
    rfl
  | cons e es ih =>
    intro t x x' os h
    simp only [grow, bind_ok, pure_eq_ok, Except.ok.injEq, Prod.mk.injEq] at h
    obtain ⟨⟨o, x₁⟩, h1, ⟨os', x₂⟩, h2, rfl, rfl⟩ := h
    have h2 := ih h2
    push_cast at h2
    simp only [List.zipWith_cons_cons, Region.run, grow_region_step h1, ok_bind, h2, pure_eq_ok,
      List.map_cons]

theorem grow_length {C : Country} {T : Region.Protos} {ex : Nat → Exchange} {es : List Event} :
    ∀ {t : Nat} {x x' : Land} {os : List Seen}, grow C T ex t x es = .ok (os, x') →
    os.length = es.length := by
  induction es with
  | nil =>
    intro t x x' os h
    simp only [grow, Except.ok.injEq, Prod.mk.injEq] at h
    rw [← h.1]; rfl
  | cons e es ih =>
    intro t x x' os h
    simp only [grow, bind_ok, pure_eq_ok, Except.ok.injEq, Prod.mk.injEq] at h
    obtain ⟨⟨o, x₁⟩, h1, ⟨os', x₂⟩, h2, rfl, rfl⟩ := h
    simp [ih h2]

/-- A facility as the region sees it, and at work. -/
def Fits (C : Country) (x : Nat × Region.Fac) (p : Running act) : Prop :=
  (∃ t, ∃ n ∈ C.names, p.k = C.made t n) ∧
    ∀ k, Region.produced x.2.caps k = capacity C.power k p.k

theorem forall₂_new {C : Country} {T : Region.Protos} (hT : C.load C.names = .ok T) {t : Nat}
    {q : List (Nat × String)} {new : List (Nat × Region.Fac)}
    (h : List.Forall₂ (fun (x : Nat × String) (y : Nat × Region.Fac) =>
      y.1 = x.1 ∧ Map.get? T x.2 = some y.2.caps) q new) {ps : List (Running act)}
    (hk : ps.map Running.k = q.map fun b => C.made t b.2) : List.Forall₂ (Fits C) new ps := by
  induction h generalizing ps with
  | nil =>
    rw [List.map_nil, List.map_eq_nil_iff] at hk
    subst hk
    exact .nil
  | @cons b y q new hb _ ih =>
    cases ps with
    | nil => simp at hk
    | cons p ps =>
      simp only [List.map_cons, List.cons.injEq] at hk
      refine .cons ?_ (ih hk.2)
      obtain ⟨g1, g2⟩ := (load_get hT b.2).2 _ hb.2
      refine ⟨⟨t, b.2, g1, hk.1⟩, fun k => ?_⟩
      rw [g2 k, hk.1, capacity_made]

theorem fits_k {C : Country} {xs : List (Nat × Region.Fac)} {ps ps' : List (Running act)}
    (h : List.Forall₂ (Fits C) xs ps) (hk : ps'.map Running.k = ps.map Running.k) :
    List.Forall₂ (Fits C) xs ps' := by
  induction h generalizing ps' with
  | nil =>
    rw [List.map_nil, List.map_eq_nil_iff] at hk
    subst hk
    exact .nil
  | @cons x p xs ps hx _ ih =>
    cases ps' with
    | nil => simp at hk
    | cons p' ps' =>
      simp only [List.map_cons, List.cons.injEq] at hk
      refine .cons ?_ (ih hk.2)
      obtain ⟨h1, h2⟩ := hx
      unfold Fits
      rw [hk.1]
      exact ⟨h1, h2⟩

theorem fits_capacity {C : Country} {xs : List (Nat × Region.Fac)} {ps : List (Running act)}
    (h : List.Forall₂ (Fits C) xs ps) (k : String) : Region.capacityOf xs k = C.capacityOf ps k := by
  induction h with
  | nil => rfl
  | cons hx _ ih =>
    unfold Region.capacityOf Country.capacityOf at ih ⊢
    rw [List.map_cons, List.map_cons, List.sum_cons, List.sum_cons, ih, hx.2 k]

theorem growStep_fits {C : Country} {T : Region.Protos} (hT : C.load C.names = .ok T) {n : Nat}
    {ex : Exchange} {t : Nat} {x x' : Land} {e : Event} {o : Seen} (I : Region.Inv n x.world)
    (hf : List.Forall₂ (Fits C) x.world.living x.plants)
    (h : growStep C T ex t x e = .ok (o, x')) :
    Region.Inv n x'.world ∧ List.Forall₂ (Fits C) x'.world.living x'.plants ∧
      List.Forall₂ (Fits C) o.living o.plants ∧ List.Forall₂ (Fits C) o.left o.gone := by
  obtain ⟨I', -, -, hl⟩ := Region.step_inv I (grow_region_step h)
  obtain ⟨w, new, G⟩ := growStep_stages h
  obtain ⟨b1, -, -, -, -, ys, b6, b7⟩ := Region.doBuild_spec (I.queue []) G.build
  have h1 : List.Forall₂ (Fits C) o.living o.plants := by
    refine fits_k ?_ (round_k G.trade)
    rw [G.living, b6]
    exact List.rel_append hf (forall₂_new hT b7 (deployAll_kinds G.deploy))
  have nd : o.living.Nodup := by rw [G.living]; exact b1.nodup
  obtain ⟨d1, d2⟩ := depart_pairs e.leaves 0 h1 nd
  have el : o.left = departing e.leaves 0 o.plants o.living := by rw [G.left, G.living]
  refine ⟨I', ?_, h1, by rw [el, G.gone]; exact d2⟩
  rw [hl, G.plants]
  refine cast (congrArg (List.Forall₂ (Fits C) · _) ?_) d1
  unfold Region.survivors
  refine List.filter_congr fun y _ => ?_
  simp [inOf, el]

theorem grow_at {C : Country} {T : Region.Protos} {ex : Nat → Exchange} (j : Nat) :
    ∀ {es : List Event} {t : Nat} {x x' : Land} {os : List Seen}, grow C T ex t x es = .ok (os, x') →
    ∀ {e : Event} {o : Seen}, es[j]? = some e → os[j]? = some o →
    ∃ y y', grow C T ex t x (es.take j) = .ok (os.take j, y) ∧
      growStep C T (ex (t + j)) (t + j) y e = .ok (o, y') ∧
      grow C T ex (t + j + 1) y' (es.drop (j + 1)) = .ok (os.drop (j + 1), x') := by
  induction j with
  | zero =>
    intro es t x x' os h e o he ho
    cases es with
    | nil => simp at he
    | cons e' es =>
      simp only [grow, bind_ok, pure_eq_ok, Except.ok.injEq, Prod.mk.injEq] at h
      obtain ⟨⟨o', x₁⟩, h1, ⟨os', x₂⟩, h2, rfl, rfl⟩ := h
      simp only [List.getElem?_cons_zero, Option.some.injEq] at he ho
      subst he; subst ho
      exact ⟨x, x₁, rfl, h1, h2⟩
  | succ j ih =>
    intro es t x x' os h e o he ho
    cases es with
    | nil => simp at he
    | cons e' es =>
      simp only [grow, bind_ok, pure_eq_ok, Except.ok.injEq, Prod.mk.injEq] at h
      obtain ⟨⟨o', x₁⟩, h1, ⟨os', x₂⟩, h2, rfl, rfl⟩ := h
      obtain ⟨y, y', i1, i2, i3⟩ := ih h2 (by simpa using he) (by simpa using ho)
      have et : t + 1 + j = t + (j + 1) := by omega
      rw [et] at i2 i3
      refine ⟨y, y', ?_, i2, by simpa using i3⟩
      simp only [List.take_succ_cons, grow, h1, i1, ok_bind, pure_eq_ok]

theorem grow_fits {C : Country} {T : Region.Protos} (hT : C.load C.names = .ok T) {n : Nat}
    {ex : Nat → Exchange} {es : List Event} :
    ∀ {t : Nat} {x x' : Land} {os : List Seen}, Region.Inv n x.world →
    List.Forall₂ (Fits C) x.world.living x.plants → grow C T ex t x es = .ok (os, x') →
    Region.Inv n x'.world ∧ List.Forall₂ (Fits C) x'.world.living x'.plants := by
  induction es with
  | nil =>
    intro t x x' os I hf h
    simp only [grow, Except.ok.injEq, Prod.mk.injEq] at h
    obtain ⟨-, rfl⟩ := h
    exact ⟨I, hf⟩
  | cons e es ih =>
    intro t x x' os I hf h
    simp only [grow, bind_ok, pure_eq_ok, Except.ok.injEq, Prod.mk.injEq] at h
    obtain ⟨⟨o, x₁⟩, h1, ⟨os', x₂⟩, h2, rfl, rfl⟩ := h
    obtain ⟨i1, i2, -⟩ := growStep_fits hT I hf h1
    exact ih i1 i2 h2

/-- A step of a simulation with a growth region. -/
theorem grown_at {C : Country} {is : List Region.Inst} {n : Nat} (hs : Region.Start is [] n)
    {ex : Nat → Exchange} {es : List Event} {os : List Seen} {x : Land} (h : Grown C is n ex es os x)
    {t : Nat} {e : Event} {o : Seen} (he : es[t]? = some e) (ho : os[t]? = some o) :
    ∃ T y y', C.load C.names = .ok T ∧
      Region.History C.region T is [] [] n 0 (List.zipWith inOf (es.take t) (os.take t))
        ((os.take t).map outOf) y.world ∧
      List.Forall₂ (Fits C) y.world.living y.plants ∧ Region.Inv n y.world ∧
      growStep C T (ex t) t y e = .ok (o, y') ∧
      grow C T ex (t + 1) y' (es.drop (t + 1)) = .ok (os.drop (t + 1), x) := by
  obtain ⟨T, w, h1, h2, h3⟩ := h
  obtain ⟨y, y', g1, g2, g3⟩ := grow_at t h3 he ho
  rw [Nat.zero_add] at g2 g3
  obtain ⟨I, hl, -⟩ := Region.enter_inv hs h2
  obtain ⟨I', hf⟩ := grow_fits (x := ⟨w, []⟩) h1 I (by show List.Forall₂ _ w.living []; rw [hl]; exact .nil) g1
  exact ⟨T, y, y', h1, ⟨hs, w, h2, by simpa using grow_region g1⟩, hf, I', g2, g3⟩

theorem settled_ins {es : List Event} {os : List Seen} : ∀ i ∈ List.zipWith inOf es os, i.arrive = [] := by
  intro i hi
  obtain ⟨j, hj, e⟩ := List.getElem_of_mem hi
  rw [← e, List.getElem_zipWith]
  rfl

/-! ## C134 -/

/-- C134. The prototypes are loaded, and the simulation starts and never fails, whatever the building
manager decides and whatever facilities are decommissioned when.

Partial: as C125. -/
theorem C134_runs_partial {C : Country} {is : List Region.Inst} {n : Nat} (hs : Region.Start is [] n)
    (hv : C.Valid is) (hin : ∀ p ∈ C.names, Sensible (C.input p) ∧ Suits A (C.input p))
    {ex : Nat → Exchange} (hex : ∀ t, (ex t).Fair) {es : List Event} (he : ∀ e ∈ es, C.Orderly is e) :
    ∃ os x, Grown C is n ex es os x ∧ os.length = es.length := by
  obtain ⟨T, hT⟩ := load_ok fun p hp => (hin p hp).1
  have hE : ∀ p ∈ C.names, Region.Exists T p := fun p hp => (load_get hT p).1 hp
  obtain ⟨-, -, -, w, hw, -⟩ := Region.C108_runs (q := []) hs
    ⟨hv.functions, hv.starts, fun i hi hk p hp => hE p (hv.protos i hi hk p hp)⟩ (by simp) hv.commods 0 []
    trivial
  obtain ⟨-, -, e2, -, e1, -, r, hr⟩ := Region.enter_inv hs hw
  have hk : ∀ k ∈ C.region.demand.map Prod.fst, (Map.get? w.region.demands k).isSome = true := by
    intro k hk
    obtain ⟨⟨k', pcs⟩, h1, rfl⟩ := List.mem_map.1 hk
    obtain ⟨ps, -, h2, -⟩ := Region.addDemands_get hv.commods hr h1
    rw [h2]; rfl
  suffices key : ∀ (es : List Event), (∀ e ∈ es, C.Orderly is e) → ∀ (t : Nat) (x : Land),
      is.map Region.Inst.id ⊆ x.world.insts.map Region.Inst.id →
      (∀ b ∈ x.world.queue, b.1 ∈ is.map Region.Inst.id ∧ b.2 ∈ C.names) →
      (∀ k ∈ C.region.demand.map Prod.fst, (Map.get? x.world.region.demands k).isSome = true) →
      (∀ p ∈ x.plants, Good A qty holdings p) → ∃ os x', grow C T ex t x es = .ok (os, x') by
    obtain ⟨os, x, h⟩ := key es he 0 ⟨w, []⟩ (by rw [← e1]; exact fun _ h => h) (by simp [e2]) hk (by simp)
    exact ⟨os, x, ⟨T, w, hT, hw, h⟩, grow_length h⟩
  intro es
  induction es with
  | nil => intro _ t x _ _ _ _; exact ⟨[], x, rfl⟩
  | cons e es ih =>
    intro he t x hi hq hk hg
    have B := he e (by simp)
    have hb : ∀ b ∈ x.world.queue ++ e.builds, b.1 ∈ is.map Region.Inst.id ∧ b.2 ∈ C.names := fun b hb =>
      (List.mem_append.1 hb).elim (hq b) (B.builds b)
    obtain ⟨w₂, b1, b2, b3⟩ := Region.doBuild_ok (T := T) (is := is.map Region.Inst.id)
      (w := { x.world with queue := [] }) hi fun b hb' => ⟨(hb b hb').1, hE _ (hb b hb').2⟩
    obtain ⟨new, d1, d2, -⟩ := deployAll_ok (A := A) (ks := (x.world.queue ++ e.builds).map fun b =>
      C.made t b.2) measure_qty (fun k _ => keeps_qty k) (by
        intro k hk
        obtain ⟨b, hb', rfl⟩ := List.mem_map.1 hk
        obtain ⟨s1, s2⟩ := hin _ (hb b hb').2
        exact ⟨sensible_since t (sensible_until _ s1), suits_since t (suits_until _ s2)⟩)
    obtain ⟨l, g1, g2⟩ := Region.tick_ok (P := fun x => x.1 ∈ is.map Region.Inst.id ∧ x.2 ∈ C.names)
      (js := w₂.insts) (r := w₂.region) (t := t) (ks := C.region.demand.map Prod.fst)
      (by rw [b3]; exact hk) B.decision
    obtain ⟨asks, offers, gs, ps, -, -, r1, -, r3, -⟩ := round_ok (hex t) (ps := x.plants ++ new)
      fun p hp => (List.mem_append.1 hp).elim (hg p) (d2 p)
    obtain ⟨f1, -⟩ := depart_spec e.leaves 0 ps
    obtain ⟨m1, m2, m3⟩ := Region.doDecom_same (l := departing e.leaves 0 ps w₂.living)
      (w := { w₂ with queue := l })
    obtain ⟨os, x', h⟩ := ih (fun e h => he e (by simp [h])) (t + 1)
      ⟨Region.doDecom (departing e.leaves 0 ps w₂.living) { w₂ with queue := l },
        (depart e.leaves 0 ps).1⟩
      (by
        show _ ⊆ (Region.doDecom _ _).insts.map Region.Inst.id
        rw [m1]
        show _ ⊆ w₂.insts.map Region.Inst.id
        rw [b2]; exact hi)
      (by
        show ∀ b ∈ (Region.doDecom _ _).queue, _
        rw [m3]; exact g2)
      (by
        show ∀ k ∈ _, (Map.get? (Region.doDecom _ _).region.demands k).isSome = true
        rw [m2]
        show ∀ k ∈ _, (Map.get? w₂.region.demands k).isSome = true
        rw [b3]; exact hk)
      fun p hp => r3 p (f1.mem_iff.1 (List.mem_append_right _ hp))
    simp only [grow, growStep, b1, d1, g1, r1, ok_bind, pure_eq_ok, h]
    exact ⟨_, _, rfl⟩

/-- C134. The facilities that the region sees and those that are at work are the same, in the same
order, in every step: each is of a prototype, with the capacities that the region sees; and so are
those that leave. -/
theorem C134_one_to_one {C : Country} {is : List Region.Inst} {n : Nat} (hs : Region.Start is [] n)
    {ex : Nat → Exchange} {es : List Event} {os : List Seen} {x : Land} (h : Grown C is n ex es os x)
    {o : Seen} (ho : o ∈ os) :
    List.Forall₂ (fun (f : Nat × Region.Fac) (p : Running act) =>
        (∃ t, ∃ q ∈ C.names, p.k = C.made t q) ∧
          ∀ k, Region.produced f.2.caps k = capacity C.power k p.k) o.living o.plants ∧
      List.Forall₂ (fun (f : Nat × Region.Fac) (p : Running act) =>
        (∃ t, ∃ q ∈ C.names, p.k = C.made t q) ∧
          ∀ k, Region.produced f.2.caps k = capacity C.power k p.k) o.left o.gone := by
  obtain ⟨t, ht⟩ := List.getElem?_of_mem ho
  have hlen : os.length = es.length := by
    obtain ⟨T, w, -, -, h3⟩ := h
    exact grow_length h3
  have hlt : t < es.length := hlen ▸ (List.getElem?_eq_some_iff.1 ht).1
  obtain ⟨T, y, y', g1, -, g3, g4, g5, -⟩ := grown_at hs h (List.getElem?_eq_getElem hlt) ht
  obtain ⟨-, -, k1, k2⟩ := growStep_fits g1 g4 g3 g5
  exact ⟨k1, k2⟩

/-- C134. If all institutions are `ManagerInst`s, the supply that the region compares with the demand
is what the facilities at work can make. -/
theorem C134_supply {C : Country} {is : List Region.Inst} {n : Nat} (hs : Region.Start is [] n)
    (hm : ∀ i ∈ is, i.kind = .manager) {ex : Nat → Exchange} {es : List Event} {os : List Seen}
    {x : Land} (h : Grown C is n ex es os x) {o : Seen} (ho : o ∈ os) (k : String) :
    o.supply k = C.capacityOf o.plants k := by
  obtain ⟨t, ht⟩ := List.getElem?_of_mem ho
  have hlen : os.length = es.length := by
    obtain ⟨T, w, -, -, h3⟩ := h
    exact grow_length h3
  have hlt : t < es.length := hlen ▸ (List.getElem?_eq_some_iff.1 ht).1
  obtain ⟨T, y, y', g1, g2, g3, g4, g5, -⟩ := grown_at hs h (List.getElem?_eq_getElem hlt) ht
  obtain ⟨-, -, k1, -⟩ := growStep_fits g1 g4 g3 g5
  rw [← fits_capacity k1 k]
  refine Region.C106_supply_partial g2 ⟨hm, fun i hi => ?_⟩ (grow_region_step g5) k
  rcases List.mem_append.1 hi with hi | hi
  · exact settled_ins i hi
  · rw [List.mem_singleton.1 hi]; rfl

/-- C134. If the building manager decides for builds that cover what is missing, then in the next step
the facilities at work can make what is demanded in this one, up to what is decommissioned in
between. -/
theorem C134_met {C : Country} {is : List Region.Inst} {n : Nat} (hs : Region.Start is [] n)
    (hv : C.Valid is) (hm : ∀ i ∈ is, i.kind = .manager)
    (hc : ∀ p ∈ C.names, ∀ k, 0 ≤ capacity C.power k (C.input p))
    {ex : Nat → Exchange} {es : List Event} {os : List Seen} {x : Land} (h : Grown C is n ex es os x)
    {t : Nat} {e : Event} {o o' : Seen} (he : es[t]? = some e) (hb : C.Orderly is e)
    (ho : os[t]? = some o) (ho' : os[t + 1]? = some o') {k : String} {fs : List (ℚ × (ℚ → ℚ))}
    (hk : Region.Demanded C.region k fs)
    (hcov : ∀ u, 0 < u → u ≤ ((Region.expand (e.decision k u)).map fun b =>
      capacity C.power k (C.input b.2)).sum) :
    Region.curve fs.reverse t - C.capacityOf o.gone k ≤ C.capacityOf o'.plants k := by
  have hlen : os.length = es.length := by
    obtain ⟨T, w, -, -, h3⟩ := h
    exact grow_length h3
  have hlt : t + 1 < es.length := hlen ▸ (List.getElem?_eq_some_iff.1 ho').1
  rw [← C134_supply hs hm h (List.mem_of_getElem? ho') k]
  obtain ⟨T, y, y₁, g1, g2, g3, g4, g5, g6⟩ := grown_at hs h he ho
  obtain ⟨y₀, y₂, i1, i2, -⟩ := grow_at 0 g6 (e := es[t + 1]) (o := o')
    (by rw [List.getElem?_drop]; exact List.getElem?_eq_getElem hlt)
    (by rw [List.getElem?_drop]; exact ho')
  simp only [List.take_zero, grow, Except.ok.injEq, Prod.mk.injEq, true_and] at i1
  subst i1
  have hT : ∀ p, p ∈ C.names → Region.protoCap T k p = capacity C.power k (C.input p) := by
    intro p hp
    obtain ⟨c, hc⟩ := Option.isSome_iff_exists.1 ((load_get g1 p).1 hp)
    unfold Region.protoCap
    rw [hc]
    exact ((load_get g1 p).2 c hc).2 k
  have hn : Region.NonnegCaps T := by
    intro p k
    unfold Region.protoCap
    cases e : Map.get? T p with
    | none => exact le_refl _
    | some c =>
      obtain ⟨j1, j2⟩ := (load_get g1 p).2 c e
      exact (hc p j1 k).trans_eq (j2 k).symm
  have key := Region.C105_met_partial (i := inOf e o) (i' := inOf es[t + 1] o') (o := outOf o) (o' := outOf o')
    (t := t) g2 ⟨hm, fun i hi => by
      rcases List.mem_append.1 hi with hi | hi
      · exact settled_ins i hi
      · rcases List.mem_cons.1 hi with rfl | hi
        · rfl
        · rw [List.mem_singleton.1 hi]; rfl⟩ hv.commods hn (grow_region_step g5)
    (by simpa using grow_region_step i2) hk (by
      intro u hu
      refine (hcov u hu).trans_eq ?_
      unfold Region.capacityOfBuilds
      refine congrArg _ (List.map_congr_left fun b hb' => (hT _ ?_).symm)
      obtain ⟨d, hd, hb'⟩ := List.mem_flatMap.1 hb'
      obtain ⟨-, p, -, e2, -, e3⟩ := hb.decision k u d hd
      rw [List.eq_of_mem_replicate hb', e2]
      exact e3)
  obtain ⟨-, f1, f2, -⟩ := growStep_fits g1 g4 g3 g5
  obtain ⟨-, -, -, hl⟩ := Region.step_inv g4 (grow_region_step g5)
  rw [hl] at f1
  rw [fits_capacity f1, fits_capacity (show List.Forall₂ (Fits C) (outOf o).living o.plants from f2)] at key
  obtain ⟨w, new, G⟩ := growStep_stages g5
  have hp : C.capacityOf o.plants k = C.capacityOf o.gone k + C.capacityOf y₁.plants k := by
    unfold Country.capacityOf
    rw [← List.sum_append, ← List.map_append, G.gone, G.plants]
    exact ((depart_spec e.leaves 0 o.plants).1.map _).sum_eq.symm
  rw [hp] at key
  push_cast at key
  have : (outOf o').supply k = o'.supply k := rfl
  rw [this] at key
  linarith

/-- C134. The facilities live as in a simulation in which what is due is built: what the region ordered
in the step before, and what others scheduled. -/
theorem C134_simulation {C : Country} {is : List Region.Inst} {n : Nat} (hs : Region.Start is [] n)
    {ex : Nat → Exchange} {es : List Event} {os : List Seen} {x : Land} (h : Grown C is n ex es os x)
    {plan : Plan} (hp : ∀ t, plan.builds t = (due es os t).map fun b =>
      (C.input b.2).until (lastStep t (C.life b.2)))
    (hl : ∀ t e, es[t]? = some e → plan.leaves t = e.leaves) :
    live ex plan es.length 0 [] = .ok (os.map Seen.deals, os.flatMap Seen.gone, x.plants) := by
  obtain ⟨T, w, -, h2, h3⟩ := h
  obtain ⟨-, -, hq, -⟩ := Region.enter_inv hs h2
  suffices key : ∀ (es : List Event) (t : Nat) (y : Land) (os : List Seen),
      grow C T ex t y es = .ok (os, x) →
      (∀ j, plan.builds (t + j) = ((if j = 0 then y.world.queue else
        (os[j - 1]?.map Seen.ordered).getD []) ++ (es[j]?.map Event.builds).getD []).map fun b =>
        (C.input b.2).until (lastStep (t + j) (C.life b.2))) →
      (∀ j e, es[j]? = some e → plan.leaves (t + j) = e.leaves) →
      live ex plan es.length t y.plants = .ok (os.map Seen.deals, os.flatMap Seen.gone, x.plants) by
    refine key es 0 ⟨w, []⟩ os h3 (fun j => ?_) fun j e he => by rw [Nat.zero_add]; exact hl j e he
    rw [Nat.zero_add, hp, due, hq]
  clear h2 h3 hq hp hl
  intro es
  induction es with
  | nil =>
    intro t y os h _ _
    simp only [grow, Except.ok.injEq, Prod.mk.injEq] at h
    obtain ⟨rfl, rfl⟩ := h
    rfl
  | cons e es ih =>
    intro t y os h hb hl
    simp only [grow, bind_ok, pure_eq_ok, Except.ok.injEq, Prod.mk.injEq] at h
    obtain ⟨⟨o, x₁⟩, h1, ⟨os', x₂⟩, h2, rfl, rfl⟩ := h
    obtain ⟨w', new, G⟩ := growStep_stages h1
    have hb0 := hb 0
    simp only [if_true, Nat.add_zero, List.getElem?_cons_zero, Option.map_some, Option.getD_some] at hb0
    have hd : deployAll ((plan.builds t).map (Kind.since t)) = .ok new := by
      rw [hb0, List.map_map]; exact G.deploy
    have hl0 : plan.leaves t = e.leaves := hl 0 e (by simp)
    have := ih (t + 1) x₁ os' h2 (fun j => ?_) fun j e he => by
      rw [Nat.add_right_comm]; exact hl (j + 1) e (by simpa using he)
    · rw [G.plants] at this
      simp only [List.length_cons, live, hd, G.trade, ok_bind, this, pure_eq_ok, List.map_cons,
        List.flatMap_cons, G.gone, hl0]
    · have hj := hb (j + 1)
      have et : t + (j + 1) = t + 1 + j := by omega
      rw [et] at hj
      rw [hj]
      simp only [List.getElem?_cons_succ, Nat.add_sub_cancel, Nat.add_eq_zero_iff, one_ne_zero, and_false,
        if_false]
      have hq : x₁.world.queue = o.ordered := by
        rw [G.world]
        exact Region.doDecom_same.2.2
      cases j with
      | zero => simp [hq]
      | succ j => simp

theorem live_k {ex : Nat → Exchange} {plan : Plan} (n : Nat) :
    ∀ {t : Nat} {ps gone ps' : List (Running act)} {l : List (List (Deal × NMat))},
    live ex plan n t ps = .ok (l, gone, ps') →
    ((gone ++ ps').map Running.k).Perm (ps.map Running.k ++ plan.built t n) ∧
      ∀ p ∈ gone, mayLeave p.k p.s = true := by
  induction n with
  | zero =>
    intro t ps gone ps' l h
    simp only [live, Except.ok.injEq, Prod.mk.injEq] at h
    obtain ⟨-, rfl, rfl⟩ := h
    simp [Plan.built]
  | succ n ih =>
    intro t ps gone ps' l h
    simp only [live, bind_ok, pure_eq_ok, Except.ok.injEq, Prod.mk.injEq] at h
    obtain ⟨new, h1, ⟨gs, ps₁⟩, h2, ⟨l', gone', ps₂⟩, h3, -, rfl, rfl⟩ := h
    obtain ⟨i1, i2⟩ := ih h3
    obtain ⟨e1, e2⟩ := depart_spec (plan.leaves t) 0 ps₁
    have hsplit : plan.built t (n + 1) = (plan.builds t).map (Kind.since t) ++ plan.built (t + 1) n := by
      simp [Plan.built, List.range'_succ]
    refine ⟨?_, fun p hp => (List.mem_append.1 hp).elim (e2 p) (i2 p)⟩
    have f1 := e1.map Running.k
    rw [round_k h2, List.map_append, List.map_append, deployAll_kinds h1] at f1
    rw [hsplit, List.append_assoc, List.map_append]
    refine (i1.append_left _).trans ?_
    rw [← List.append_assoc, ← List.append_assoc]
    exact f1.append_right _

/-- C134. Everything that the region orders is built in the next step as a facility that works: at any
time the facilities that are present and those that have left are those that were due, and those that
have left agreed to it. -/
theorem C134_built {C : Country} {is : List Region.Inst} {n : Nat} (hs : Region.Start is [] n)
    {ex : Nat → Exchange} {es : List Event} {os : List Seen} {x : Land} (h : Grown C is n ex es os x) :
    ((os.flatMap Seen.gone ++ x.plants).map Running.k).Perm
      ((List.range es.length).flatMap fun t => (due es os t).map fun b => C.made t b.2) ∧
    ∀ o ∈ os, ∀ p ∈ o.gone, mayLeave p.k p.s = true := by
  have hl := C134_simulation hs h (plan := ⟨fun t => (due es os t).map fun b =>
    (C.input b.2).until (lastStep t (C.life b.2)), fun t => (es[t]?.map Event.leaves).getD fun _ => false⟩)
    (fun t => rfl) fun t e he => by simp [he]
  obtain ⟨h1, h2⟩ := live_k _ hl
  refine ⟨?_, fun o ho p hp => h2 p (List.mem_flatMap.2 ⟨o, ho, hp⟩)⟩
  rw [List.range_eq_range']
  simpa [Plan.built, Function.comp_def, Country.made] using h1

/-! ## Example -/

/-- Power is demanded from time 1 on, 10 more in every step; reactors of 10 are built for it. -/
def exCountry : Country where
  region := ⟨[("power", [⟨1, "lin", ""⟩])], fun _ _ => .ok fun x => 10 + 10 * x⟩
  names := ["mine", "conversion", "enrichment", "reactor"]
  input p := if p = "mine" then .source exMine else if p = "conversion" then .conversion exConversion
    else if p = "enrichment" then .enrichment exEnrichment else .reactor exReactor (fun _ => 1) exDec
  life p := if p = "reactor" then 4 else -1
  power := "power"
  limit := 1000

/-- The institution. -/
def exManager : Region.Inst := ⟨1, .manager, ["reactor"], [], []⟩

/-- As many reactors as are missing, and the facility with number `i` leaves. -/
def exEvent (bs : List String) (i : Nat) : Event where
  builds := bs.map fun p => (1, p)
  decision _ u := [⟨some 1, some "reactor", ⌈u / 10⌉⟩]
  leaves j := i = j

/-- The other facilities are built at time 0, and the mine leaves at time 3. -/
def exEvents : List Event :=
  [exEvent ["mine", "conversion", "enrichment"] 9, exEvent [] 9, exEvent [] 9, exEvent [] 0, exEvent [] 9]

theorem exCountry_start : Region.Start [exManager] [] 2 :=
  ⟨by decide, by decide, by simp, by simp⟩

theorem exCountry_valid : exCountry.Valid [exManager] :=
  ⟨by simp [exCountry], fun _ _ _ _ => ⟨_, rfl⟩,
    fun kp hk => by
      have hk : kp = ("power", [⟨1, "lin", ""⟩]) := List.mem_singleton.1 hk
      subst hk
      simp,
    fun i hi _ p hp => by
      obtain rfl := List.mem_singleton.1 hi
      obtain rfl := List.mem_singleton.1 hp
      decide⟩

theorem exCountry_sensible : ∀ p ∈ exCountry.names,
    Sensible (exCountry.input p) ∧ Suits exAgreement (exCountry.input p) := by
  have base : ∀ k ∈ exKinds, Sensible k ∧ Suits exAgreement k := fun k hk =>
    ⟨exKinds_sensible k hk, exKinds_suit k hk⟩
  intro p _
  simp only [exCountry]
  split
  · exact base _ (by simp [exKinds])
  · split
    · exact base _ (by simp [exKinds])
    · split
      · exact base _ (by simp [exKinds])
      · exact base _ (by simp [exKinds])

theorem exEvents_orderly : ∀ e ∈ exEvents, exCountry.Orderly [exManager] e := by
  have key : ∀ bs i, (∀ p ∈ bs, p ∈ exCountry.names) → exCountry.Orderly [exManager] (exEvent bs i) := by
    intro bs i hb
    refine ⟨fun b h => ?_, fun k u o ho => ?_⟩
    · obtain ⟨p, hp, rfl⟩ := List.mem_map.1 h
      exact ⟨by simp [exManager], hb p hp⟩
    · obtain rfl := List.mem_singleton.1 ho
      exact ⟨1, "reactor", rfl, rfl, by simp [exManager], by decide⟩
  intro e he
  simp only [exEvents, List.mem_cons, List.not_mem_nil, or_false] at he
  rcases he with rfl | rfl | rfl | rfl | rfl <;> exact key _ _ (by decide)

/-- The example runs, and the demand of time 3 is met at time 4. -/
example : ∃ os x, Grown exCountry [exManager] 2 (fun _ => greedy) exEvents os x ∧
    ∃ o o', os[3]? = some o ∧ os[4]? = some o' ∧
      30 - exCountry.capacityOf o.gone "power" ≤ exCountry.capacityOf o'.plants "power" := by
  obtain ⟨os, x, h, hl⟩ := C134_runs_partial exCountry_start exCountry_valid exCountry_sensible
    (fun _ => greedy_fair) exEvents_orderly
  have hl : os.length = 5 := hl
  refine ⟨os, x, h, _, _, List.getElem?_eq_getElem (by omega), List.getElem?_eq_getElem (by omega), ?_⟩
  have hd : Region.Demanded exCountry.region "power" [(1, fun x => 10 + 10 * x)] :=
    ⟨_, List.mem_singleton.2 rfl, .cons ⟨by norm_num, rfl⟩ .nil⟩
  have := C134_met exCountry_start exCountry_valid (by simp [exManager]) (by
      intro p _ k
      simp only [exCountry]
      split
      · simp only [capacity]; split <;> norm_num [exMine]
      · split
        · exact le_refl _
        · split
          · exact le_refl _
          · simp only [capacity]; split <;> norm_num [exReactor]) h (t := 3) (e := exEvent [] 0) rfl
    (exEvents_orderly _ (by simp [exEvents])) (List.getElem?_eq_getElem (by omega))
    (List.getElem?_eq_getElem (by omega)) hd (by
      intro u hu
      have h2 : u / 10 ≤ (Int.ceil (u / 10) : ℚ) := Int.le_ceil _
      have h4 : 0 < Int.ceil (u / 10) := Int.ceil_pos.2 (by linarith)
      have h5 : ((Int.ceil (u / 10)).toNat : ℚ) = (Int.ceil (u / 10) : ℚ) := by
        have : ((Int.ceil (u / 10)).toNat : ℤ) = Int.ceil (u / 10) := Int.toNat_of_nonneg h4.le
        exact_mod_cast this
      have h6 : capacity exCountry.power "power" (exCountry.input "reactor") = 10 := by decide +kernel
      simp only [exEvent, Region.expand, List.flatMap_cons, List.flatMap_nil, List.append_nil,
        List.map_replicate, List.sum_replicate, Option.getD_some, h6, nsmul_eq_mul, h5]
      linarith)
  have e : Region.curve [(1, fun x : ℚ => 10 + 10 * x)].reverse ((3 : Nat) : ℚ) = 30 := by
    norm_num [Region.curve]
  rwa [e] at this

/-- What happens in the example: identifiers of the facilities, supply of power, number of reactors
ordered, and amounts handed over. -/
def exGrowth : R (List (List Nat × ℚ × Nat × List ℚ)) := do
  let T ← exCountry.load exCountry.names
  let w ← Region.enter exCountry.region T [exManager] [] [] 2
  let (os, _) ← grow exCountry T (fun _ => greedy) 0 ⟨w, []⟩ exEvents
  pure (os.map fun o => (o.living.map fun x => x.2.id, o.supply "power", o.ordered.length,
    o.deals.map fun g => qty g.2))

example : exGrowth.toOption =
    some [([2, 3, 4], 0, 0, [150]), ([2, 3, 4], 0, 1, [150, 120]),
      ([2, 3, 4, 5], 10, 1, [140, 100, 12, 12]), ([2, 3, 4, 5, 6], 20, 1, [60, 140, 12]),
      ([3, 4, 5, 6, 7], 30, 1, [76, 12, 12])] := by
  decide +kernel

end Cyc.Sim
