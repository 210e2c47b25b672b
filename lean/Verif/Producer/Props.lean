import Verif.Producer.Spec
import Verif.Source.Props
import Verif.Reactor.Props2
import Verif.Reactor.Check
import Verif.Storage.Props
import Verif.Region.Props
import Verif.Region.Props4

/-!
# C117, C118: announced capacities
-/

namespace Cyc.Producer

variable {limit : ℚ}

/-! ## The table -/

theorem get?_add (t : Table) (k k' : String) (i : Info) :
    Map.get? (add t k i) k' =
      if k = k' ∧ Map.get? t k = none then some i else Map.get? t k' := by
  have app : ∀ (t : Table), Map.get? (t ++ [(k, i)]) k' =
      match Map.get? t k' with
      | some j => some j
      | none => if k = k' then some i else none := by
    intro t
    induction t with
    | nil => simp [Map.get?, eq_comm]
    | cons x t ih =>
      rw [List.cons_append]
      unfold Map.get?
      split
      · rfl
      · exact ih
  unfold add
  cases h : Map.get? t k with
  | some j => simp
  | none =>
    simp only [Option.isSome_none, Bool.false_eq_true, if_false, app, and_true]
    by_cases e : k = k'
    · subst e; simp [h]
    · simp only [if_neg e]; cases Map.get? t k' <;> rfl

theorem get?_setCapacity (t : Table) (k k' : String) (q : ℚ) :
    Map.get? (setCapacity limit t k q) k' =
      if k = k' then some ⟨q, (Map.getD t k (blank limit)).cost⟩ else Map.get? t k' := by
  unfold setCapacity; rw [Map.get?_set]

theorem get?_setCost (t : Table) (k k' : String) (q : ℚ) :
    Map.get? (setCost limit t k q) k' =
      if k = k' then some ⟨(Map.getD t k (blank limit)).capacity, q⟩ else Map.get? t k' := by
  unfold setCost; rw [Map.get?_set]

theorem copyStep (t : Table) (k k' : String) (i : Info) :
    Map.get? (setCost limit (setCapacity limit (add t k (blank limit)) k i.capacity) k i.cost) k' =
      if k = k' then some i else Map.get? t k' := by
  rw [get?_setCost, get?_setCapacity, get?_add]
  by_cases e : k = k'
  · subst e
    simp only [if_true, Map.getD, get?_setCapacity, Option.getD_some]
  · simp [e]

theorem copyFold (src l t : Table) (k : String) :
    Map.get? (l.foldl (fun t x =>
      setCost limit
        (setCapacity limit (add t x.1 (blank limit)) x.1 (Map.getD src x.1 (blank limit)).capacity)
        x.1 (Map.getD src x.1 (blank limit)).cost) t) k =
      if k ∈ Map.keys l then some (Map.getD src k (blank limit)) else Map.get? t k := by
  induction l generalizing t with
  | nil => simp [Map.keys]
  | cons x l ih =>
    rw [List.foldl_cons, ih, copyStep]
    by_cases h1 : k ∈ Map.keys l
    · rw [if_pos h1, if_pos (show k ∈ Map.keys (x :: l) from List.mem_cons_of_mem _ h1)]
    · rw [if_neg h1]
      by_cases h2 : x.1 = k
      · subst h2; simp [Map.keys]
      · have : k ∉ Map.keys (x :: l) := by
          simp only [Map.keys, List.map_cons, List.mem_cons, not_or]
          exact ⟨fun e => h2 e.symm, h1⟩
        rw [if_neg h2, if_neg this]

/-- C117: a facility announces what its prototype does. -/
theorem C117_copy (t : Table) (k : String) : Map.get? (copy limit t) k = Map.get? t k := by
  unfold copy
  rw [copyFold]
  split
  · next h =>
    obtain ⟨i, hi⟩ := Map.mem_keys.1 h
    simp [Map.getD, hi]
  · next h => rw [Map.get?_eq_none.2 h]; rfl

theorem get?_capsOf (t : Table) (k : String) :
    Map.get? (capsOf t) k = (Map.get? t k).map Info.capacity := by
  induction t with
  | nil => rfl
  | cons x t ih =>
    obtain ⟨a, b⟩ := x
    unfold capsOf at ih ⊢
    rw [List.map_cons]
    unfold Map.get?
    split
    · rfl
    · exact ih

theorem capacity_facility (i : Nat) (t : Table) (k : String) :
    (facility i t).capacity k = ((Map.get? t k).map Info.capacity).getD 0 := by
  simp [facility, Region.Fac.capacity, Map.getD, get?_capsOf]

theorem capacity_copy (i : Nat) (t : Table) (k : String) :
    (facility i (copy limit t)).capacity k = ((Map.get? t k).map Info.capacity).getD 0 := by
  rw [capacity_facility, C117_copy]

/-! ## Sources -/

theorem capacity_source (i : Nat) (c : Source.Cfg) (k : String) :
    (facility i (copy limit (loadSource c))).capacity k =
      if c.outcommod = k then c.throughput else 0 := by
  rw [capacity_copy, loadSource, get?_add]
  by_cases e : c.outcommod = k <;> simp [e, Map.get?]

/-- C117 for a source: it announces its throughput, for its commodity and no other; in a market that
respects its bids it never sends more in a step than it announces. -/
theorem C117_source {c : Source.Cfg} (V : Source.Valid c) {is : List Source.In}
    {os : List Source.Out} {s s' : Source.State} (h : Source.History c is os s)
    (ht : Source.Targets is) {i : Source.In} (H : Source.Honest c s i) {o : Source.Out}
    (hs : Source.step c s i = .ok (o, s')) (n : Nat) :
    (facility n (copy limit (loadSource c))).capacity c.outcommod = c.throughput ∧
    (∀ k, k ≠ c.outcommod → (facility n (copy limit (loadSource c))).capacity k = 0) ∧
    totalQty (Source.sentIn o) ≤
      (facility n (copy limit (loadSource c))).capacity c.outcommod := by
  refine ⟨by rw [capacity_source, if_pos rfl], fun k hk => ?_, ?_⟩
  · rw [capacity_source, if_neg (fun e => hk e.symm)]
  · rw [capacity_source, if_pos rfl]; exact Source.C56_throughput V h ht H hs

/-- A source announces its throughput, 5 kg, and sells 7/2 kg in a step of an honest market. -/
example : Source.Valid Source.exC ∧ Source.History Source.exC [] [] Source.exNew ∧
    Source.Honest Source.exC Source.exNew Source.exIn ∧
    (facility 1 (copy 10 (loadSource Source.exC))).capacity Source.exC.outcommod = 5 ∧
    (Source.step Source.exC Source.exNew Source.exIn).toOption.map
      (fun r => totalQty (Source.sentIn r.1)) = some (7/2) :=
  ⟨Source.exValid, Source.exBuilt, Source.exHonest.1, by decide +kernel, by decide +kernel⟩

/-! ## Reactors -/

theorem addSides_get {qs : List ℚ} {j : Nat} {ps : List String} {t u : Table}
    (h : addSides qs j ps t = .ok u) (k : String) :
    (k ∉ ps ∨ (Map.get? t k).isSome → Map.get? u k = Map.get? t k) ∧
    (ps.Nodup → Map.get? t k = none → ∀ m, ps[m]? = some k →
      ∃ q, qs[j + m]? = some q ∧ Map.get? u k = some ⟨q, q⟩) := by
  induction ps generalizing j t with
  | nil =>
    simp only [addSides, Except.ok.injEq] at h
    subst h
    simp
  | cons p ps ih =>
    simp only [addSides, bind_ok, at!_ok] at h
    obtain ⟨q, hq, h⟩ := h
    obtain ⟨i1, i2⟩ := ih h
    constructor
    · intro hk
      have e : Map.get? (add t p ⟨q, q⟩) k = Map.get? t k := by
        rw [get?_add]
        split
        · next e =>
          obtain ⟨rfl, e⟩ := e
          rcases hk with hk | hk
          · simp at hk
          · simp [e] at hk
        · rfl
      rw [← e]
      refine i1 ?_
      rw [e]
      exact hk.imp_left fun hk hk' => hk (List.mem_cons_of_mem _ hk')
    · intro hn ht m hm
      rw [List.nodup_cons] at hn
      cases m with
      | zero =>
        simp only [List.getElem?_cons_zero, Option.some.injEq] at hm
        subst hm
        refine ⟨q, hq, ?_⟩
        rw [i1 (Or.inl hn.1), get?_add, if_pos ⟨rfl, ht⟩]
      | succ m =>
        simp only [List.getElem?_cons_succ] at hm
        have hne : p ≠ k := fun e => hn.1 (e ▸ List.mem_of_getElem? hm)
        have := i2 hn.2 (by rw [get?_add, if_neg (fun e => hne e.1), ht]) m hm
        rwa [show j + 1 + m = j + (m + 1) by omega] at this

theorem addSides_nonneg {qs : List ℚ} (hq : ∀ q ∈ qs, 0 ≤ q) {j : Nat} {ps : List String}
    {t u : Table} (h : addSides qs j ps t = .ok u)
    (ht : ∀ k i, Map.get? t k = some i → 0 ≤ i.capacity) :
    ∀ k i, Map.get? u k = some i → 0 ≤ i.capacity := by
  induction ps generalizing j t with
  | nil =>
    simp only [addSides, Except.ok.injEq] at h
    subst h
    exact ht
  | cons p ps ih =>
    simp only [addSides, bind_ok, at!_ok] at h
    obtain ⟨q, hq', h⟩ := h
    refine ih h fun k i hi => ?_
    rw [get?_add] at hi
    split at hi
    · simp only [Option.some.injEq] at hi; subst hi; exact hq _ (List.mem_of_getElem? hq')
    · exact ht _ _ hi

theorem addSides_ok (qs : List ℚ) (j : Nat) (ps : List String) (t : Table) :
    (ps ≠ [] → j + ps.length ≤ qs.length) ↔ ∃ u, addSides qs j ps t = .ok u := by
  induction ps generalizing j t with
  | nil => simp [addSides]
  | cons p ps ih =>
    simp only [ne_eq, reduceCtorEq, not_false_eq_true, forall_const, List.length_cons, addSides,
      bind_ok, at!_ok]
    constructor
    · intro h
      obtain ⟨u, hu⟩ := (ih (j + 1) (add t p ⟨qs[j]'(by omega), qs[j]'(by omega)⟩)).1
        (fun _ => by omega)
      exact ⟨u, _, List.getElem?_eq_getElem (by omega), hu⟩
    · rintro ⟨u, q, hq, hu⟩
      have h1 := (List.getElem?_eq_some_iff.1 hq).1
      by_cases hp : ps = []
      · subst hp; simp; omega
      · have := (ih (j + 1) _).2 ⟨u, hu⟩ hp
        omega

theorem addSides_fault {qs : List ℚ} {j : Nat} {ps : List String} {t : Table} {f : Fault}
    (h : addSides qs j ps t = .error f) : f = .ub := by
  induction ps generalizing j t with
  | nil => simp [addSides] at h
  | cons p ps ih =>
    simp only [addSides] at h
    cases e : at! qs j with
    | error g =>
      rw [e, error_bind] at h
      unfold at! at e
      split at e
      · cases e
      · cases e; cases h; rfl
    | ok q =>
      rw [e, ok_bind] at h
      exact ih h

theorem power_capacity {name : String} {c : Reactor.Cfg} {t : Table}
    (h : loadReactor name c = .ok t) (n : Nat) :
    (facility n (copy limit t)).capacity name = c.powerCap := by
  have e : Map.get? (add [] name ⟨c.powerCap, c.powerCap⟩) name =
      some ⟨c.powerCap, c.powerCap⟩ := by
    rw [get?_add, if_pos ⟨rfl, rfl⟩]
  rw [capacity_copy, (addSides_get h name).1 (Or.inr (by rw [e]; rfl)), e]
  rfl

theorem side_capacity {name : String} {c : Reactor.Cfg} {t : Table}
    (h : loadReactor name c = .ok t) (hn : c.sideProducts.Nodup) (hp : name ∉ c.sideProducts)
    {m : Nat} {k : String} (hk : c.sideProducts[m]? = some k) (n : Nat) :
    ∃ q, c.sideQty[m]? = some q ∧ (facility n (copy limit t)).capacity k = q := by
  have hne : name ≠ k := fun e => hp (e ▸ List.mem_of_getElem? hk)
  obtain ⟨q, h1, h2⟩ := (addSides_get h k).2 hn
    (by rw [get?_add, if_neg (fun e => hne e.1)]; rfl) m hk
  rw [Nat.zero_add] at h1
  exact ⟨q, h1, by rw [capacity_copy, h2]; rfl⟩

theorem reactor_nonneg {name : String} {c : Reactor.Cfg} {t : Table}
    (h : loadReactor name c = .ok t) (hp : 0 ≤ c.powerCap) (hq : ∀ q ∈ c.sideQty, 0 ≤ q) (n : Nat)
    (k : String) : 0 ≤ (facility n (copy limit t)).capacity k := by
  have := addSides_nonneg hq h (fun k' i hi => by
    rw [get?_add] at hi
    split at hi
    · simp only [Option.some.injEq] at hi; subst hi; exact hp
    · simp [Map.get?] at hi) k
  rw [capacity_copy]
  cases e : Map.get? t k with
  | none => simp
  | some j => exact this j e

/-- C117 for the power of a reactor: it announces `power_cap` under the name of its power, and what
it records in a step is that or zero. -/
theorem C117_power {name : String} {c : Reactor.Cfg} {t : Table} (h : loadReactor name c = .ok t)
    (hw : Reactor.WellFormed c) {is : List Reactor.In} {os : List Reactor.Out} {s : Reactor.State}
    {i : Reactor.In} {o : Reactor.Out} (H : Reactor.History c (is ++ [i]) (os ++ [o]) s) (n : Nat) :
    (facility n (copy limit t)).capacity name = c.powerCap ∧
    ∀ q ∈ Reactor.powers o.recs, q = (facility n (copy limit t)).capacity name ∨ q = 0 := by
  refine ⟨power_capacity h n, fun q hq => ?_⟩
  rw [power_capacity h n]
  by_cases hl : Reactor.Late c o.time
  · have ho : (os ++ [o])[os.length]? = some o := by simp
    rw [(Reactor.C05_retired_no_power hw H ho hl).1] at hq
    cases hq
  · rw [Reactor.C05_power_of_step hw H hl, List.mem_singleton] at hq
    rw [hq]
    split
    · exact Or.inl rfl
    · exact Or.inr rfl

/-- C117 for the side products of a reactor, if no two of them have the same name and none that of
the power: it announces the configured quantity of each, and what it records of one in a step is
that or zero. -/
theorem C117_side_partial {name : String} {c : Reactor.Cfg} {t : Table}
    (h : loadReactor name c = .ok t) (hw : Reactor.WellFormed c) (hn : c.sideProducts.Nodup)
    (hp : name ∉ c.sideProducts) {is : List Reactor.In} {os : List Reactor.Out}
    {s : Reactor.State} {i : Reactor.In} {o : Reactor.Out}
    (H : Reactor.History c (is ++ [i]) (os ++ [o]) s) (n : Nat) :
    (∀ (m : Nat) (k : String) (q : ℚ), c.sideProducts[m]? = some k → c.sideQty[m]? = some q →
      (facility n (copy limit t)).capacity k = q) ∧
    ∀ x ∈ Reactor.sides o.recs, x.2 = (facility n (copy limit t)).capacity x.1 ∨ x.2 = 0 := by
  have e : ∀ (m : Nat) (k : String) (q : ℚ), c.sideProducts[m]? = some k → c.sideQty[m]? = some q →
      (facility n (copy limit t)).capacity k = q := by
    intro m k q hk hq
    obtain ⟨q', h1, h2⟩ := side_capacity (limit := limit) h hn hp hk n
    rw [hq] at h1
    cases h1
    exact h2
  refine ⟨e, fun x hx => ?_⟩
  by_cases hl : Reactor.Late c o.time
  · have ho : (os ++ [o])[os.length]? = some o := by simp
    rw [(Reactor.C05_retired_no_power hw H ho hl).2] at hx
    cases hx
  · rcases Reactor.C18_side_products hw H hl with ⟨-, -, -, hz⟩ | ⟨-, -, hz⟩
    · rw [hz] at hx
      obtain ⟨m, hm⟩ := List.mem_iff_getElem?.1 hx
      rw [List.getElem?_zip_eq_some] at hm
      exact Or.inl (e m x.1 x.2 hm.1 hm.2).symm
    · rw [hz, List.mem_map] at hx
      obtain ⟨p, -, rfl⟩ := hx
      exact Or.inr rfl

/-- C117: a reactor prototype loads if and only if it has a quantity for every side product; if one
is missing, loading it is undefined behaviour, before anything is deployed. -/
theorem C117_loads (name : String) (c : Reactor.Cfg) :
    (c.sideProducts.length ≤ c.sideQty.length ∧ ∃ t, loadReactor name c = .ok t) ∨
    (c.sideQty.length < c.sideProducts.length ∧ loadReactor name c = .error .ub) := by
  have H := addSides_ok c.sideQty 0 c.sideProducts (add [] name ⟨c.powerCap, c.powerCap⟩)
  by_cases hl : c.sideProducts.length ≤ c.sideQty.length
  · exact Or.inl ⟨hl, H.1 fun _ => by omega⟩
  · right
    refine ⟨by omega, ?_⟩
    cases e : loadReactor name c with
    | error f => rw [addSides_fault e]
    | ok t =>
      have := H.2 ⟨t, e⟩ (fun h0 => by rw [h0] at hl; simp at hl)
      omega

/-! ## Storage -/

theorem capacity_storage {c : Storage.Cfg} {t : Table} (h : loadStorage limit c = .ok t) (n : Nat)
    (k : String) : (facility n (copy limit t)).capacity k =
      if c.outCommods.head? = some k then c.throughput else 0 := by
  simp only [loadStorage, bind_ok, at!_ok, pure_eq_ok, Except.ok.injEq] at h
  obtain ⟨p, hp, rfl⟩ := h
  rw [capacity_copy, get?_setCapacity, get?_add]
  rw [List.head?_eq_getElem?, hp]
  by_cases e : p = k
  · simp [e]
  · simp [e, Map.get?]

theorem storage_step {ν : Type} [DecidableEq ν] {c : Storage.Cfg} (hε : 0 ≤ c.eps)
    (h0 : 0 ≤ c.throughput) {is : List (Storage.In ν)} {os : List (Storage.Out ν)}
    {s : Storage.State ν} (h : Storage.History c is os s) (hs : Storage.Substantial is) :
    totalQty (Storage.lastStock os) + totalQty (Storage.sold os) ≤ is.length * c.throughput := by
  induction is using List.reverseRecOn generalizing os s with
  | nil =>
    obtain ⟨p, s0, h1, h2⟩ := h
    simp only [Storage.run, Except.ok.injEq, Prod.mk.injEq] at h2
    obtain ⟨rfl, rfl⟩ := h2
    simp [Storage.lastStock, Storage.sold]
  | append_singleton is i ih =>
    obtain ⟨os1, o, s1, rel, rfl, h1, -, h2, h3, -⟩ := Storage.step_released hε h hs
    have := ih h1 fun j hj => hs j (by simp [hj])
    have hr := h3.limit h0
    unfold Storage.released at h2
    rw [h2]
    simp only [List.length_append, List.length_singleton, Nat.cast_add, Nat.cast_one]
    linarith

/-- C117 for a storage facility: it announces its throughput, for its output commodity and no other.
What it sells over its life does not exceed that times the number of steps. Missing: it can sell
more in a single step, see `C117_counterexample`. -/
theorem C117_storage_partial {ν : Type} [DecidableEq ν] {c : Storage.Cfg} (hε : 0 ≤ c.eps)
    (h0 : 0 ≤ c.throughput) {t : Table} (hl : loadStorage limit c = .ok t)
    {is : List (Storage.In ν)} {os : List (Storage.Out ν)} {s : Storage.State ν}
    (h : Storage.History c is os s) (hs : Storage.Substantial is) (n : Nat) :
    ∃ k, c.outCommods = [k] ∧ (facility n (copy limit t)).capacity k = c.throughput ∧
      (∀ k', k' ≠ k → (facility n (copy limit t)).capacity k' = 0) ∧
      totalQty (Storage.sold os) ≤ is.length * (facility n (copy limit t)).capacity k := by
  have hk : ∃ k, c.outCommods = [k] := by
    obtain ⟨p, s0, h1, -⟩ := h
    simp only [Storage.enter, bind_ok] at h1
    obtain ⟨_, -, _, -, _, -, h1⟩ := h1
    split at h1
    · cases h1
    · next hn => exact List.length_eq_one_iff.1 (by omega)
  obtain ⟨k, hk⟩ := hk
  have e := capacity_storage hl n k
  rw [hk, List.head?_cons, if_pos rfl] at e
  refine ⟨k, hk, e, fun k' hk' => ?_, ?_⟩
  · rw [capacity_storage hl, hk, List.head?_cons, if_neg]
    intro e; cases e; exact hk' rfl
  · rw [e]
    have := storage_step hε h0 h hs
    obtain ⟨J, -, e2, -⟩ := Storage.history_inv hε h hs
    have h1 := J.stockPos.total_nonneg
    rw [← e2] at h1
    linarith

/-- C117: a storage prototype without output commodity is undefined behaviour when it is loaded,
before the check that would reject it (`storage.cc:110-114`) is reached. -/
theorem C117_noCommodity (c : Storage.Cfg) (h : c.outCommods = []) :
    loadStorage limit c = .error .ub ∧ ∀ r, Storage.enter (ν := Nat) c ≠ .ok r := by
  refine ⟨by simp [loadStorage, h, at!], fun r hr => ?_⟩
  simp only [Storage.enter, bind_ok] at hr
  obtain ⟨_, -, _, -, _, -, hr⟩ := hr
  rw [h] at hr
  simp at hr

/-! ## Where the property fails -/

/-- A storage facility that handles 3 kg per step. -/
def exStore : Storage.Cfg := { Storage.exCfg with residence := 0 }

/-- It receives 6 kg, and sells them two steps later. -/
def exSales : List (Storage.In Nat) := [⟨[], [⟨[(1, 6)]⟩]⟩, ⟨[], []⟩, ⟨[6], []⟩]

/-- C117 fails for storage: one that announces 3 kg per step sells 6 kg in one step, in a market that
respects what it offers. -/
theorem C117_counterexample : ∃ t os s, loadStorage 10 exStore = .ok t ∧
    Storage.History exStore exSales os s ∧
    (∀ p s₀, Storage.enter exStore = .ok (p, s₀) → Storage.HonestRun exStore s₀ exSales) ∧
    (facility 1 (copy 10 t)).capacity "out" = 3 ∧
    ∃ o ∈ os, totalQty o.sold = 6 := by
  have e : (Storage.play exStore exSales).toOption.map
      (fun r => r.1.map fun o => totalQty o.sold) = some [0, 0, 6] := by decide +kernel
  have hh : ((Storage.enter (ν := Nat) exStore).toOption.map fun r => Storage.honestB exStore r.2 exSales) =
      some true := by decide +kernel
  cases hp : Storage.play exStore exSales with
  | error f => rw [hp] at e; simp [Except.toOption] at e
  | ok r =>
    rw [hp] at e
    simp only [Except.toOption, Option.map_some, Option.some.injEq] at e
    have hl : loadStorage 10 exStore = .ok [("out", ⟨3, 10⟩)] := by decide +kernel
    refine ⟨_, r.1, r.2, hl, Storage.history_of_play hp, fun p s₀ h0 => ?_, ?_, ?_⟩
    · rw [h0] at hh
      simp only [Except.toOption, Option.map_some, Option.some.injEq] at hh
      exact Storage.honestB_sound hh
    · decide +kernel
    · have : (6 : ℚ) ∈ r.1.map fun o => totalQty o.sold := by rw [e]; simp
      obtain ⟨o, ho, h6⟩ := List.mem_map.1 this
      exact ⟨o, ho, h6⟩

/-- A reactor with two side products of the same name, the second of which has the larger quantity. -/
def exTwice : Reactor.Cfg :=
  { Reactor.exCfg with sideProducts := ["heat", "heat"], sideQty := [7, 9] }

/-- C117 fails for side products of the same name, and for one with the name of the power: the first
capacity is announced and the others are dropped, but all are recorded (see
`Reactor.C18_side_products`). -/
theorem C117_side_counterexample :
    (∃ t, loadReactor "power" exTwice = .ok t ∧ (facility 1 (copy 10 t)).capacity "heat" = 7) ∧
    (∃ t, loadReactor "heat" Reactor.exCfg = .ok t ∧
      (facility 1 (copy 10 t)).capacity "heat" = 100) ∧
    ∃ os s, Reactor.History exTwice Reactor.exHist os s ∧
      ∃ o ∈ os, ("heat", (9 : ℚ)) ∈ Reactor.sides o.recs := by
  refine ⟨⟨[("power", ⟨100, 100⟩), ("heat", ⟨7, 7⟩)], by decide +kernel, by decide +kernel⟩,
    ⟨[("heat", ⟨100, 100⟩)], by decide +kernel, by decide +kernel⟩, ?_⟩
  obtain ⟨os, s, hp, h⟩ := Reactor.history_of (c := exTwice) (is := Reactor.exHist)
    (by decide +kernel) (by decide +kernel)
  have e : ((Reactor.play exTwice Reactor.exHist).toOption.map fun r =>
      r.1.any fun o => decide (("heat", (9 : ℚ)) ∈ Reactor.sides o.recs)) = some true := by
    decide +kernel
  rw [hp] at e
  simp only [Except.toOption, Option.map_some, Option.some.injEq, List.any_eq_true,
    decide_eq_true_eq] at e
  obtain ⟨o, ho, hq⟩ := e
  exact ⟨os, s, h, o, ho, hq⟩

/-! ## C118 -/

theorem makes_le {k : String} {a : Region.Fac} {q : ℚ} (h : Makes limit k a q) :
    q ≤ a.capacity k := by
  cases h with
  | source c is os s s' i o ha V hk h ht H hs =>
    rw [ha, ← hk]
    exact (C117_source V h ht H hs _).2.2
  | otherSource c ha V hk =>
    rw [ha, capacity_source, if_neg hk]
  | power t c is os s i o q hl ha hw h0 h hq =>
    rw [ha]
    obtain ⟨e, h1⟩ := C117_power (limit := limit) hl hw h a.id
    rcases h1 _ hq with h1 | h1
    · exact le_of_eq h1
    · rw [h1, e]; exact h0
  | side t name c is os s i o q hl ha hw hn hp hc h0 h hq =>
    rw [ha]
    rcases (C117_side_partial (limit := limit) hl hw hn hp h a.id).2 _ hq with h1 | h1
    · exact le_of_eq h1
    · simp only at h1
      rw [h1]
      exact reactor_nonneg hl hc h0 a.id k
  | idle t name c hl ha hp h0 =>
    rw [ha]
    exact reactor_nonneg hl hp h0 a.id k

/-- C118: in a region whose institutions are `ManagerInst`s that are there from the start, and whose
facilities are sources and reactors, what they make of a commodity in a step never exceeds the supply
that the region compares with its demand. -/
theorem C118_supply {c : Region.Cfg} {T : Region.Protos} {is : List Region.Inst}
    {l : List (Nat × Region.Fac)} {q : List (Nat × String)} {n : Nat} {t₀ t : ℤ}
    {ins : List Region.In} {os : List Region.Out} {w w' : Region.World} {i : Region.In}
    {o : Region.Out} (h : Region.History c T is l q n t₀ ins os w)
    (hd : Region.Settled is (ins ++ [i])) (hs : Region.step c T t w i = .ok (o, w')) (k : String)
    (made : Nat × Region.Fac → ℚ) (hm : ∀ x ∈ o.living, Makes limit k x.2 (made x)) :
    (o.living.map made).sum ≤ o.supply k := by
  rw [Region.C106_supply_partial h hd hs k, Region.capacityOf]
  exact List.sum_le_sum fun x hx => by rw [Region.produced_eq]; exact makes_le (hm x hx)

/-- A region with a mine and a power plant, which runs at full power: the region counts 100. -/
example : ∃ w o w', Region.History Region.exCfg Region.exProtos [Region.exInst]
      [(1, facility 3 (copy 10 (loadSource Source.exC))),
        (1, facility 4 (copy 10 [("power", ⟨100, 100⟩), ("heat", ⟨7, 7⟩)]))] [] 5 1 [] [] w ∧
    Region.step Region.exCfg Region.exProtos 1 w ⟨[], [], fun _ _ => [], [], []⟩ = .ok (o, w') ∧
    o.supply "power" = 100 ∧ o.living.length = 2 ∧
    ∀ x ∈ o.living, Makes 10 "power" x.2 (if x.2.id = 4 then 100 else 0) := by
  have hR : loadReactor "power" Reactor.exCfg =
      .ok [("power", ⟨100, 100⟩), ("heat", ⟨7, 7⟩)] := by decide +kernel
  have hf : ∀ (i : Nat) (t : Table), facility i t = facility (facility i t).id t := fun _ _ => rfl
  have hm : Makes 10 "power" (facility 4 (copy 10 [("power", ⟨100, 100⟩), ("heat", ⟨7, 7⟩)]))
      100 := by
    obtain ⟨os, s, hp, h⟩ := Reactor.history_of (c := Reactor.exCfg) (is := Reactor.exHist.take 3)
      (by decide +kernel) (by decide +kernel)
    have e : ((Reactor.play Reactor.exCfg (Reactor.exHist.take 3)).toOption.map fun r =>
        r.1.getLast?.map fun o => Reactor.powers o.recs) = some (some [100]) := by decide +kernel
    rw [hp] at e
    simp only [Except.toOption, Option.map_some, Option.some.injEq, Option.map_eq_some_iff] at e
    obtain ⟨o, ho, hq⟩ := e
    have hs : os = os.dropLast ++ [o] := by
      rw [List.getLast?_eq_some_iff] at ho
      obtain ⟨l, rfl⟩ := ho
      simp
    have hi : Reactor.exHist.take 3 = Reactor.exHist.take 2 ++ [Reactor.supply [2, 3]] := rfl
    rw [hs, hi] at h
    exact Makes.power _ _ _ _ _ _ _ _ hR (hf _ _) Reactor.exCfg_wf (by norm_num [Reactor.exCfg]) h
      (by rw [hq]; simp)
  have e : ((Region.enter Region.exCfg Region.exProtos [Region.exInst]
      [(1, facility 3 (copy 10 (loadSource Source.exC))),
        (1, facility 4 (copy 10 [("power", ⟨100, 100⟩), ("heat", ⟨7, 7⟩)]))] [] 5).toOption.bind
      fun w => ((Region.step Region.exCfg Region.exProtos 1 w
        ⟨[], [], fun _ _ => [], [], []⟩).toOption.map fun r => (r.1.living, r.1.supply "power"))) =
      some ([(1, facility 3 (copy 10 (loadSource Source.exC))),
        (1, facility 4 (copy 10 [("power", ⟨100, 100⟩), ("heat", ⟨7, 7⟩)]))], 100) := by
    decide +kernel
  rw [Option.bind_eq_some_iff] at e
  obtain ⟨w, hw, e⟩ := e
  rw [Option.map_eq_some_iff] at e
  obtain ⟨⟨o, w'⟩, hs, e⟩ := e
  simp only [Prod.mk.injEq] at e
  have ok : ∀ {α : Type} {x : R α} {a : α}, x.toOption = some a → x = .ok a := by
    intro α x a h
    cases x with
    | error f => simp [Except.toOption] at h
    | ok b => simpa [Except.toOption] using h
  refine ⟨w, o, w', ⟨⟨by decide, by decide, by decide +kernel, by decide +kernel⟩, w, ok hw, rfl⟩,
    ok hs, e.2, by rw [e.1]; rfl, fun x hx => ?_⟩
  rw [e.1] at hx
  simp only [List.mem_cons, List.not_mem_nil, or_false] at hx
  rcases hx with rfl | rfl
  · exact Makes.otherSource Source.exC (hf _ _) Source.exValid (by decide)
  · exact hm

end Cyc.Producer
