import Mathlib.Algebra.BigOperators.Group.Finset.Basic
import Verif.Conversion.Props
import Verif.Enrichment.Props3
import Verif.FuelFab.Props3
import Verif.Mixer.Props1
import Verif.Network.Model
import Verif.Reactor.Props1
import Verif.Separations.Props1
import Verif.Sink.Props
import Verif.Storage.Props

/-!
# Lemmas about networks
-/

namespace Cyc.Network

open Mat

/-! ## Sums -/

theorem massOf_flatten (l : List (List NMat)) (n : Nat) :
    massOf l.flatten n = (l.map (massOf · n)).sum := by
  induction l with
  | nil => rfl
  | cons x l ih => simp [ih]

theorem massOf_perm {l l' : List NMat} (h : l.Perm l') (n : Nat) : massOf l n = massOf l' n :=
  (h.map _).sum_eq

/-- The entries of `l` are, in sum, what appears at the times up to any after its end. -/
theorem sum_at (born : Nat) (l : List (List NMat)) (n : Nat) (T : Nat) (h : born + l.length ≤ T) :
    ∑ t ∈ Finset.range T, massOf (Agent.at_ born l t) n = massOf l.flatten n := by
  induction T generalizing l with
  | zero =>
    have : l = [] := List.length_eq_zero_iff.mp (by omega)
    subst this; rfl
  | succ T ih =>
    rw [Finset.sum_range_succ]
    rcases Nat.lt_or_ge T (born + l.length) with hlt | hge
    · have hT : T + 1 = born + l.length := by omega
      by_cases hl : l = []
      · subst hl
        have : ∀ t ∈ Finset.range T, massOf (Agent.at_ born [] t) n = 0 := by
          intro t _; unfold Agent.at_; split <;> simp
        rw [Finset.sum_eq_zero this]
        unfold Agent.at_; split <;> simp
      · obtain ⟨l', x, rfl⟩ : ∃ l' x, l = l' ++ [x] :=
          ⟨l.dropLast, l.getLast hl, (List.dropLast_append_getLast hl).symm⟩
        simp only [List.length_append, List.length_singleton] at hT h hlt
        have e1 : ∀ t ∈ Finset.range T, massOf (Agent.at_ born (l' ++ [x]) t) n =
            massOf (Agent.at_ born l' t) n := by
          intro t ht
          rw [Finset.mem_range] at ht
          unfold Agent.at_
          split
          · rw [List.getElem?_append_left (by omega)]
          · rfl
        rw [Finset.sum_congr rfl e1, ih l' (by omega)]
        have e2 : Agent.at_ born (l' ++ [x]) T = x := by
          unfold Agent.at_
          rw [if_pos (by omega), show T - born = l'.length by omega]
          simp
        rw [e2]; simp
    · rw [ih l hge]
      have : Agent.at_ born l T = [] := by
        unfold Agent.at_
        split
        · rw [List.getElem?_eq_none (by omega)]; rfl
        · rfl
      rw [this]; simp

theorem massOf_flatMap {α : Type} (f : α → List NMat) (l : List α) (n : Nat) :
    massOf (l.flatMap f) n = (l.map fun a => massOf (f a) n).sum := by
  induction l with
  | nil => rfl
  | cons x l ih => simp [ih]

theorem sum_swap {α : Type} (f : α → Nat → ℚ) (l : List α) (T : Nat) :
    ∑ t ∈ Finset.range T, (l.map (f · t)).sum =
      (l.map fun a => ∑ t ∈ Finset.range T, f a t).sum := by
  induction l with
  | nil => simp
  | cons a l ih => simp [Finset.sum_add_distrib, ih]

/-- A time by which all lives are over. -/
theorem exists_end (sys : List Agent) : ∃ T, ∀ a ∈ sys,
    a.born + a.life.takes.length ≤ T ∧ a.born + a.life.gives.length ≤ T := by
  induction sys with
  | nil => exact ⟨0, by simp⟩
  | cons a sys ih =>
    obtain ⟨T, h⟩ := ih
    refine ⟨T + (a.born + a.life.takes.length) + (a.born + a.life.gives.length), ?_⟩
    intro b hb
    rcases List.mem_cons.mp hb with rfl | hb
    · omega
    · have := h b hb
      omega

/-- What is taken is, in sum, what is given. -/
theorem taken_eq_given {sys : List Agent} (E : Exchange sys) (n : Nat) :
    (sys.map fun a => massOf a.life.takes.flatten n).sum =
      (sys.map fun a => massOf a.life.gives.flatten n).sum := by
  obtain ⟨T, hT⟩ := exists_end sys
  have e1 : (sys.map fun a => massOf a.life.takes.flatten n) =
      sys.map fun a => ∑ t ∈ Finset.range T, massOf (a.takesAt t) n :=
    List.map_congr_left fun a ha => (sum_at _ _ _ _ (hT a ha).1).symm
  have e2 : (sys.map fun a => massOf a.life.gives.flatten n) =
      sys.map fun a => ∑ t ∈ Finset.range T, massOf (a.givesAt t) n :=
    List.map_congr_left fun a ha => (sum_at _ _ _ _ (hT a ha).2).symm
  rw [e1, e2, ← sum_swap (fun (a : Agent) t => massOf (a.takesAt t) n),
    ← sum_swap (fun (a : Agent) t => massOf (a.givesAt t) n)]
  refine Finset.sum_congr rfl fun t _ => ?_
  rw [← massOf_flatMap, ← massOf_flatMap]
  exact massOf_perm (E.passes t) n

/-! ## One facility -/

theorem mem_takes_solid {sys : List Agent} (E : Exchange sys) {a : Agent} (ha : a ∈ sys)
    {l : List NMat} (hl : l ∈ a.life.takes) : ∀ m ∈ l, 0 < qty m ∧ Mat.Nonneg m := by
  obtain ⟨k, hk, rfl⟩ := List.getElem_of_mem hl
  intro m hm
  refine E.solid (a.born + k) a ha m ?_
  unfold Agent.takesAt Agent.at_
  rw [if_pos (by omega), show a.born + k - a.born = k by omega, List.getElem?_eq_getElem hk]
  exact hm

theorem sinkMats_eq (s : Sink.State) {is : List Sink.In}
    (h : s.inventory.items = is.flatMap fun i =>
      i.mats.map Sink.Res.mat ++ i.prods.map fun x => Sink.Res.prod x.1 x.2) :
    sinkMats s = (is.map Sink.In.mats).flatten := by
  unfold sinkMats
  rw [h]
  clear h
  induction is with
  | nil => rfl
  | cons i is ih =>
    rw [List.flatMap_cons, List.filterMap_append, ih, List.filterMap_append, List.map_cons,
      List.flatten_cons]
    congr 1
    simp [List.filterMap_map]

/-- The ledger of one facility, by nuclide. -/
theorem ledger {l : Life} (h : l.Lived)
    (hs : ∀ ms ∈ l.takes, ∀ m ∈ ms, 0 < qty m ∧ Mat.Nonneg m) (n : Nat) :
    massOf l.holds n + massOf l.gives.flatten n + massOf l.loaded n =
      massOf l.brings n + massOf l.takes.flatten n + massOf l.mined n + massOf l.unloaded n := by
  cases l with
  | conversion c is os s =>
    have := Conversion.C54_conserved h
      (fun i hi m hm => hs _ (List.mem_map_of_mem (f := Conversion.In.buys) hi) m hm) n
    simp only [Life.holds, Life.gives, Life.loaded, Life.brings, Life.takes, Life.mined,
      Life.unloaded, massOf_nil, massOf_append]
    simp only [Conversion.received, Conversion.sold, List.flatMap_def] at this
    linarith
  | enrichment c is os s =>
    have := Enrichment.C74_conserved h.1 h.2
      (fun i hi m hm => hs _ (List.mem_map_of_mem (f := Enrichment.In.buys) hi) m hm) n
    simp only [Life.holds, Life.gives, Life.loaded, Life.brings, Life.takes, Life.mined,
      Life.unloaded, massOf_nil]
    simp only [Enrichment.received, Enrichment.sold, List.flatMap_def] at this
    linarith
  | fuelFab c is os s =>
    have := FuelFab.C47_conserved h.1
      (fun i hi d hd => hs _ (List.mem_map_of_mem (f := fun i : FuelFab.In => i.buys.map Prod.snd) hi)
        d.2 (List.mem_map_of_mem (f := Prod.snd) hd)) h.2 n
    simp only [Life.holds, Life.gives, Life.loaded, Life.brings, Life.takes, Life.mined,
      Life.unloaded, massOf_nil]
    simp only [FuelFab.received, FuelFab.sold, List.flatMap_def] at this
    linarith
  | mixer c is os s =>
    have := Mixer.C84_conserved h.1 h.2
      (fun i hi d hd => hs _ (List.mem_map_of_mem (f := fun i : Mixer.In => i.buys.map Prod.snd) hi)
        d.2 (List.mem_map_of_mem (f := Prod.snd) hd)) n
    simp only [Life.holds, Life.gives, Life.loaded, Life.brings, Life.takes, Life.mined,
      Life.unloaded, massOf_nil]
    simp only [Mixer.received, Mixer.sold, List.flatMap_def] at this
    linarith
  | reactor c is os s fuel used =>
    simp only [Life.holds, Life.gives, Life.loaded, Life.brings, Life.takes, Life.mined,
      Life.unloaded, massOf_nil]
    ring
  | separations c is os s =>
    have := (Separations.C27_conserved h.1 h.2
      (fun i hi m hm => hs _ (List.mem_map_of_mem (f := Separations.In.buys) hi) m hm)).1 n
    simp only [Life.holds, Life.gives, Life.loaded, Life.brings, Life.takes, Life.mined,
      Life.unloaded, massOf_nil]
    simp only [Separations.received, Separations.sold, List.flatMap_def] at this
    linarith
  | sink c g t is os s =>
    have := sinkMats_eq s (Sink.C97_keeps h.1 h.2.2 h.2.1)
    simp only [Life.holds, Life.gives, Life.loaded, Life.brings, Life.takes, Life.mined,
      Life.unloaded, massOf_nil, List.flatten_nil, this]
    ring
  | source c is os s =>
    simp only [Life.holds, Life.gives, Life.loaded, Life.brings, Life.takes, Life.mined,
      Life.unloaded, massOf_nil, List.flatten_nil, Source.shipped, List.flatMap_def]
    ring
  | storage c is os s =>
    have := (Storage.C19_conserved h.1 h.2
      (fun i hi m hm => (hs _ (List.mem_map_of_mem (f := Storage.In.buys) hi) m hm).1)).1 n
    simp only [Life.holds, Life.gives, Life.loaded, Life.brings, Life.takes, Life.mined,
      Life.unloaded, massOf_nil]
    simp only [Storage.received, Storage.sold, List.flatMap_def] at this
    linarith

/-! ## From nuclides to kg -/

/-- The mass of all entries is the sum of the masses by label. -/
theorem sum_eq_of_masses : ∀ (k : Nat) (l l' : List (Nat × ℚ)), l.length + l'.length ≤ k →
    (∀ n, ((l.filter (·.1 = n)).map Prod.snd).sum = ((l'.filter (·.1 = n)).map Prod.snd).sum) →
    (l.map Prod.snd).sum = (l'.map Prod.snd).sum := by
  have split : ∀ (n : Nat) (l : List (Nat × ℚ)), (l.map Prod.snd).sum =
      ((l.filter (·.1 = n)).map Prod.snd).sum + ((l.filter (¬ ·.1 = n)).map Prod.snd).sum := by
    intro n l
    induction l with
    | nil => simp
    | cons e l ih =>
      by_cases h : e.1 = n
      · simp only [List.filter_cons, h, decide_true, if_true, List.map_cons, List.sum_cons,
          not_true, decide_false, Bool.false_eq_true, if_false, ih]
        ring
      · simp only [List.filter_cons, h, decide_true, if_true, List.map_cons, List.sum_cons,
          not_false_iff, decide_false, Bool.false_eq_true, if_false, ih]
        ring
  have shorter : ∀ (n : Nat) (l : List (Nat × ℚ)), (l.filter (¬ ·.1 = n)).length ≤ l.length :=
    fun n l => List.length_filter_le _ _
  have other : ∀ (n k : Nat) (l : List (Nat × ℚ)),
      ((((l.filter (¬ ·.1 = n))).filter (·.1 = k)).map Prod.snd).sum =
        if k = n then 0 else ((l.filter (·.1 = k)).map Prod.snd).sum := by
    intro n k l
    rw [List.filter_filter]
    split_ifs with h
    · subst h
      rw [List.filter_eq_nil_iff.mpr]
      · rfl
      · intro e _; simp
    · congr 2
      refine List.filter_congr fun e _ => ?_
      by_cases h' : e.1 = k
      · simp [h', h]
      · simp [h']
  intro k
  induction k with
  | zero =>
    intro l l' hk _
    have h1 : l = [] := List.length_eq_zero_iff.mp (by omega)
    have h2 : l' = [] := List.length_eq_zero_iff.mp (by omega)
    rw [h1, h2]
  | succ k ih =>
    intro l l' hk h
    have key : ∀ n : Nat, (l.filter (¬ ·.1 = n)).length + (l'.filter (¬ ·.1 = n)).length ≤ k →
        (l.map Prod.snd).sum = (l'.map Prod.snd).sum := by
      intro n hn
      rw [split n l, split n l', h n, ih _ _ hn]
      intro j
      rw [other, other, h j]
    cases l with
    | cons e l =>
      refine key e.1 ?_
      have h1 := shorter e.1 l
      have h2 := shorter e.1 l'
      simp only [List.length_cons] at hk
      rw [List.filter_cons_of_neg (by simp)]
      omega
    | nil =>
      cases l' with
      | nil => rfl
      | cons e l' =>
        refine key e.1 ?_
        have h2 := shorter e.1 l'
        simp only [List.length_cons, List.length_nil] at hk
        rw [List.filter_cons_of_neg (by simp)]
        simp only [List.filter_nil, List.length_nil]
        omega

/-- Materials with the same mass of every nuclide have the same quantity. -/
theorem totalQty_eq {l l' : List NMat} (h : ∀ n, massOf l n = massOf l' n) :
    totalQty l = totalQty l' := by
  rw [← qty_squash, ← qty_squash, qty_def, qty_def]
  refine sum_eq_of_masses _ _ _ le_rfl fun n => ?_
  have := h n
  rw [← mass_squash, ← mass_squash] at this
  exact this

end Cyc.Network
