import Verif.Storage.Lemmas4

/-!
# Storage: properties C19-C26 and C67-C69

`ν` is the type of labels carried by material (nuclides, or anything finer). All statements are
about a facility that was deployed and then lived through any list of steps (`History`), with
deliveries of positive quantity (`Substantial`).
-/

namespace Cyc.Storage

variable {ν : Type}

/-! ## An example facility -/

/-- Two steps of residence, 3 kg per step, deployed at time 5. -/
def exCfg : Cfg where
  inCommods := ["a", "b"]
  prefs := [1, 2]
  outCommods := ["out"]
  inRecipe := ""
  hasRecipe := fun _ => false
  residence := 2
  throughput := 3
  maxInv := 20
  discrete := false
  reorderPoint := -1
  reorderQty := 0
  cumulativeCap := -1
  enterTime := 5
  eps := 1/1000000
  lo := 0

/-- A delivery of 4 kg with labels 1 and 2, one of 1 kg, one of 2 kg; sales of 2 kg and 1/2 kg. -/
def exIn : List (In Nat) :=
  [⟨[], [⟨[(1, 3), (2, 1)]⟩]⟩, ⟨[], [⟨[(2, 1)]⟩, ⟨[(3, 2)]⟩]⟩, ⟨[], []⟩, ⟨[2], []⟩, ⟨[1/2], []⟩]

/-- The same with discrete handling. -/
def exDisc : Cfg := { exCfg with discrete := true, throughput := 4 }

/-- Deploy and run. -/
def play (c : Cfg) (is : List (In ν)) : R (List (Out ν) × State ν) := do
  let (_, s) ← enter c
  run c s is

theorem history_of_play {c : Cfg} {is : List (In ν)} {os : List (Out ν)} {s : State ν}
    (h : play c is = .ok (os, s)) : History c is os s := by
  simp only [play, bind_ok] at h
  obtain ⟨⟨p, s0⟩, h0, h1⟩ := h
  exact ⟨p, s0, h0, h1⟩

theorem exIn_substantial : Substantial exIn := by
  intro i hi m hm
  simp only [exIn, List.mem_cons, List.not_mem_nil, or_false] at hi
  rcases hi with rfl | rfl | rfl | rfl | rfl <;>
    simp only [List.mem_cons, List.not_mem_nil, or_false] at hm
  · subst hm; norm_num [Mat.qty_def]
  · rcases hm with rfl | rfl <;> norm_num [Mat.qty_def]

/-- The examples are histories: the hypotheses of the theorems below hold of them. -/
theorem exIn_happens : (∃ os s, History exCfg exIn os s) ∧ ∃ os s, History exDisc exIn os s := by
  constructor
  · cases h : play exCfg exIn with
    | error e =>
      have : (play exCfg exIn).toOption.isSome = true := by decide +kernel
      rw [h] at this; simp [Except.toOption] at this
    | ok r => exact ⟨r.1, r.2, history_of_play h⟩
  · cases h : play exDisc exIn with
    | error e =>
      have : (play exDisc exIn).toOption.isSome = true := by decide +kernel
      rw [h] at this; simp [Except.toOption] at this
    | ok r => exact ⟨r.1, r.2, history_of_play h⟩

/-! ## C19 -/

/-- C19: what was received is what is held plus what was sold, label by label and in total. -/
theorem C19_conserved [DecidableEq ν] {c : Cfg} (hε : 0 ≤ c.eps) {is : List (In ν)}
    {os : List (Out ν)} {s : State ν} (h : History c is os s) (hs : Substantial is) :
    (∀ n, Mat.massOf (received is) n = Mat.massOf (contents s) n + Mat.massOf (sold os) n) ∧
    totalQty (received is) = totalQty (contents s) + totalQty (sold os) := by
  obtain ⟨h1, h2, -⟩ := contents_total (history_inv hε h hs).1
  simp only [mats_arrivals] at h1 h2
  exact ⟨fun n => (h2 n).symm, h1.symm⟩

/-- In the example 7 kg are received, 2.5 kg sold, 4.5 kg held; of label 2, 2 kg were received. -/
example : ((play exCfg exIn).toOption.map fun r => (totalQty (sold r.1), totalQty (contents r.2),
      Mat.massOf (contents r.2) 2 + Mat.massOf (sold r.1) 2)) = some (5/2, 9/2, 2) := by
  decide +kernel

/-! ## C20 -/

/-- C20: let every label tell the time of arrival. Then what is offered or sold in a step arrived
more than `residence_time` steps before, and what is for sale at the end of a step at least
`residence_time` steps before. -/
theorem C20_residence [DecidableEq ν] {c : Cfg} (hε : 0 ≤ c.eps) {is : List (In ν)}
    {os : List (Out ν)} {s : State ν} (h : History c is os s) (hs : Substantial is)
    (arrived : ν → Nat)
    (ha : ∀ (k : Nat) (i : In ν), is[k]? = some i → ∀ m ∈ i.buys, ∀ e ∈ m.entries,
      arrived e.1 = c.enterTime + k) :
    ∀ o ∈ os, (∀ m ∈ o.offered ++ o.sold, ∀ e ∈ m.entries, arrived e.1 + c.residence < o.time) ∧
      ∀ m ∈ o.stock, ∀ e ∈ m.entries, arrived e.1 + c.residence ≤ o.time := by
  intro o ho
  obtain ⟨k, hk⟩ := List.mem_iff_getElem?.1 ho
  obtain ⟨i, s', e1, e2, -⟩ := history_at h hk
  have hs2 : Substantial (is.take k ++ [i]) := by
    intro j hj
    rcases List.mem_append.1 hj with hj | hj
    · exact hs j (List.mem_of_mem_take hj)
    · simp only [List.mem_singleton] at hj; subst hj; exact hs _ (List.mem_of_getElem? e1)
  have hk' := (List.getElem?_eq_some_iff.1 e1).1
  have hlen : (is.take k).length = k := by rw [List.length_take]; omega
  -- labels of arrivals tell their time
  have hat : ∀ p ∈ arrivals c.enterTime (is.take k ++ [i]), ∀ e ∈ p.2.entries,
      arrived e.1 = p.1 := by
    have hgen : ∀ (l : List (In ν)) (t : Nat), (∀ (k : Nat) (i : In ν), l[k]? = some i →
        ∀ m ∈ i.buys, ∀ e ∈ m.entries, arrived e.1 = t + k) →
        ∀ p ∈ arrivals t l, ∀ e ∈ p.2.entries, arrived e.1 = p.1 := by
      intro l
      induction l with
      | nil => intro t _ p hp; simp [arrivals] at hp
      | cons x l ih =>
        intro t hx p hp e he
        simp only [arrivals, List.mem_append, List.mem_map] at hp
        rcases hp with ⟨m, hm, rfl⟩ | hp
        · exact hx 0 x rfl m hm e he
        · refine ih (t + 1) ?_ p hp e he
          intro k i hi m hm e he
          have := hx (k + 1) i (by simpa using hi) m hm e he
          omega
    refine hgen _ _ ?_
    intro k2 i2 h2
    have : is.take k ++ [i] = is.take (k + 1) := by
      rw [List.take_add_one, e1]; rfl
    rw [this] at h2
    have hlt := (List.getElem?_eq_some_iff.1 h2).1
    rw [List.length_take] at hlt
    rw [List.getElem?_take_of_lt (by omega)] at h2
    exact ha k2 i2 h2
  obtain ⟨H, ht, hl, -⟩ := history_inv hε e2 hs2
  obtain ⟨os1, o1, s1, e, h1, hs1, ht1, H1, F⟩ := history_last hε e2 hs2
  obtain ⟨e, e'⟩ := List.append_inj' e rfl
  simp only [List.cons.injEq, and_true] at e'
  subst e e'
  have hot : o.time + 1 = s'.time := by rw [F.time, F.time']
  constructor
  · -- offered: in stock before the step; sold: taken from there
    intro m hm e he
    have hold : ∃ p ∈ aged c s1.time (arrivals c.enterTime (is.take k)), ∃ e' ∈ p.2.entries,
        e'.1 = e.1 := by
      rcases List.mem_append.1 hm with hm | hm
      · rw [F.offered] at hm
        exact H1.label m (by simp [hm]) e he
      · obtain ⟨m', hm', e', he', hee⟩ := F.soldFrom m hm e he
        rw [F.offered] at hm'
        obtain ⟨p, hp, e2, he2, h2⟩ := H1.label m' (by simp [hm']) e' he'
        exact ⟨p, hp, e2, he2, h2.trans hee⟩
    obtain ⟨p, hp, e', he', hee⟩ := hold
    simp only [aged, List.mem_filter, decide_eq_true_eq] at hp
    have := hat p (by rw [arrivals_append]; simp [hp.1]) e' he'
    rw [← hee, this, F.time]
    exact hp.2
  · intro m hm e he
    rw [F.stock] at hm
    obtain ⟨p, hp, e', he', hee⟩ := H.label m (by simp [hm]) e he
    simp only [aged, List.mem_filter, decide_eq_true_eq] at hp
    have := hat p hp.1 e' he'
    rw [← hee, this]
    omega

/-- C20, in amounts: what has become available by the end of a history does not exceed what was
received in all but the last `residence_time` steps. -/
theorem C20_residence_amount [DecidableEq ν] {c : Cfg} (hε : 0 ≤ c.eps) {is : List (In ν)}
    {os : List (Out ν)} {s : State ν} (h : History c is os s) (hs : Substantial is) :
    totalQty (lastStock os) + totalQty (sold os) ≤
      totalQty (received (is.take (is.length - c.residence))) := (ready_total hε h hs).1

/-- In the example the delivery of step 0 is first for sale at the end of step 2. -/
example : ((play exCfg exIn).toOption.map fun r => r.1.map fun o => totalQty o.stock) =
    some [0, 0, 3, 4, 9/2] := by decide +kernel

/-! ## C21 -/

/-- C21: in each step at most `throughput` is added to what is for sale. -/
theorem C21_throughput [DecidableEq ν] {c : Cfg} (hε : 0 ≤ c.eps) (h0 : 0 ≤ c.throughput)
    {is : List (In ν)} {os : List (Out ν)} {s : State ν} (h : History c is os s)
    (hs : Substantial is) :
    ∀ o ∈ os, ∃ new, o.stock = o.left ++ new ∧ totalQty new ≤ c.throughput := by
  intro o ho
  obtain ⟨k, hk⟩ := List.mem_iff_getElem?.1 ho
  obtain ⟨i, s', e1, e2, -⟩ := history_at h hk
  obtain ⟨os1, o1, s1, rel, e, -, r1, -, r3, -⟩ := step_released hε e2 (by
    intro j hj
    rcases List.mem_append.1 hj with hj | hj
    · exact hs j (List.mem_of_mem_take hj)
    · simp only [List.mem_singleton] at hj; subst hj; exact hs _ (List.mem_of_getElem? e1))
  obtain ⟨-, e⟩ := List.append_inj' e rfl
  simp only [List.cons.injEq, and_true] at e
  subst e
  exact ⟨rel, r1, r3.limit h0⟩

/-- The hypotheses hold of the example, where 3, 3 and 1 kg become available. -/
example : 0 ≤ exCfg.eps ∧ 0 ≤ exCfg.throughput ∧ (∃ os s, History exCfg exIn os s) ∧
    Substantial exIn ∧ (play exCfg exIn).toOption.map
      (fun r => r.1.map fun o => totalQty o.stock - totalQty o.left) = some [0, 0, 3, 3, 1] :=
  ⟨by norm_num [exCfg], by norm_num [exCfg], exIn_happens.1, exIn_substantial, by decide +kernel⟩

/-! ## C22 -/

/-- C22: if each step delivers at most the free space before the trades, the content never exceeds
`max_inv_size`. -/
theorem C22_inventory_limit [DecidableEq ν] {c : Cfg} (hε : 0 ≤ c.eps) (hm : 0 ≤ c.maxInv)
    {is : List (In ν)} {os : List (Out ν)} {s : State ν} (h : History c is os s)
    (hs : Substantial is)
    (hb : ∀ (k : Nat) (i : In ν), is[k]? = some i → totalQty i.buys ≤ max 0 (c.maxInv -
      (totalQty (received (is.take k)) - totalQty (sold (os.take k))))) :
    totalQty (contents s) ≤ c.maxInv := by
  induction is using List.reverseRecOn generalizing os s with
  | nil =>
    have := (C19_conserved hε h hs).2
    obtain ⟨p, s0, h0, h1⟩ := h
    simp only [run, Except.ok.injEq, Prod.mk.injEq] at h1
    obtain ⟨rfl, rfl⟩ := h1
    simp only [received, sold, List.flatMap_nil, totalQty_nil] at this
    linarith
  | append_singleton is i ih =>
    obtain ⟨os, o, s1, rfl, h1, hs1, -, H, F⟩ := history_last hε h hs
    have hlen := (history_inv hε h1 hs1).2.2.2
    have hi := ih h1 hs1 (by
      intro k j hj
      have hk := (List.getElem?_eq_some_iff.1 hj).1
      have := hb k j (by rw [List.getElem?_append_left hk]; exact hj)
      rwa [List.take_append_of_le_length hk.le, List.take_append_of_le_length (by omega)] at this)
    have hlast := hb is.length i (by simp)
    rw [List.take_left' rfl, List.take_left' hlen] at hlast
    have c1 := (C19_conserved hε h1 hs1).2
    have c2 := (C19_conserved hε h hs).2
    rw [received_append, sold_append, totalQty_append, totalQty_append] at c2
    have := F.soldNonneg
    rcases le_total 0 (c.maxInv - (totalQty (received is) - totalQty (sold os))) with hx | hx
    · rw [max_eq_right hx] at hlast; linarith
    · rw [max_eq_left hx] at hlast; linarith

/-- The limit on the deliveries holds of the example also if only 7 kg fit, the amount received
before the first sale. -/
example : (play { exCfg with maxInv := 7 } exIn).toOption.map (fun r =>
    decide (∀ k : Fin 5, totalQty ((exIn[k]'(by simp [exIn])).buys) ≤
      max 0 (7 - (totalQty (received (exIn.take k)) - totalQty (sold (r.1.take k)))))) =
    some true := by decide +kernel

/-! ## C23 -/

/-- C23: what has become available so far, sold or not, is the first that was received: of each
label exactly what the first `A` kg received contain, `A` being the amount. -/
theorem C23_arrival_order [DecidableEq ν] {c : Cfg} (hε : 0 ≤ c.eps) {is : List (In ν)}
    {os : List (Out ν)} {s : State ν} (h : History c is os s) (hs : Substantial is) (n : ν) :
    Mat.massOf (lastStock os) n + Mat.massOf (sold os) n =
      Mat.massOf (upto (totalQty (lastStock os) + totalQty (sold os)) (received is)) n := by
  obtain ⟨H, ht, hl, -⟩ := history_inv hε h hs
  have e := mats_aged (c := c) (is := is) ht
  have h1 := H.mass n
  obtain ⟨r1, -, -, r4⟩ := ready_total hε h hs
  rw [e] at h1
  rw [hl, h1]
  obtain ⟨r, hr⟩ := old_prefix c is
  rw [← hr]
  unfold released at r1 r4
  rw [hl] at r1 r4
  exact (massOf_upto_append (by rw [hr]; exact allPos_received hs) r4 r1 n).symm

/-- In the example 6 kg have become available after four steps: all 4 kg of the first delivery, all
of the 1 kg after it, and half of the third. -/
example : ((play exCfg (exIn.take 4)).toOption.map fun r =>
      (totalQty (lastStock r.1) + totalQty (sold r.1),
        [1, 2, 3].map fun n => Mat.massOf (lastStock r.1) n + Mat.massOf (sold r.1) n)) =
    some (6, [3, 2, 1]) := by decide +kernel

/-! ## C24 -/

/-- C24: with discrete handling what becomes available, step by step, are the received items
themselves, whole and in order; the rest of them is still held. -/
theorem C24_whole_batches [DecidableEq ν] {c : Cfg} (hε : 0 ≤ c.eps) (hd : c.discrete = true)
    {is : List (In ν)} {os : List (Out ν)} {s : State ν} (h : History c is os s)
    (hs : Substantial is) :
    ∃ new : List (List (Mat ν)), List.Forall₂ (fun o l => o.stock = o.left ++ l) os new ∧
      new.flatten ++ s.ready.items ++ s.processing.items = received is := by
  obtain ⟨R, D⟩ := discrete_inv hε hd h hs
  obtain ⟨new, f1, f2⟩ := D.rels
  refine ⟨new, f1, ?_⟩
  obtain ⟨H, ht, -, -⟩ := history_inv hε h hs
  have e := mats_aged (c := c) (is := is) ht
  rw [f2, D.ready, List.take_append_drop, H.proc, ← e, ← List.map_append,
    aged_append_recent H.sorted]
  exact mats_arrivals

/-- In the example, released whole: nothing, nothing, 4 kg, then 1 kg and 2 kg. -/
example : ((play exDisc exIn).toOption.map fun r => r.1.map fun o => o.stock.map qty) =
    some [[], [], [4], [2, 1, 2], [3/2, 1, 2]] := by decide +kernel

/-! ## C25 -/

/-- C25: if no step delivers more than `throughput`, everything received in all but the last
`residence_time` steps is available, and nothing else. -/
theorem C25_on_time [DecidableEq ν] {c : Cfg} (hε : 0 ≤ c.eps) {is : List (In ν)}
    {os : List (Out ν)} {s : State ν} (h : History c is os s) (hs : Substantial is)
    (hb : ∀ i ∈ is, totalQty i.buys ≤ c.throughput) (n : ν) :
    Mat.massOf (lastStock os) n + Mat.massOf (sold os) n =
      Mat.massOf (received (is.take (is.length - c.residence))) n := by
  -- nothing is ever left behind in `ready`
  have key : ∀ (is : List (In ν)) (os : List (Out ν)) (s : State ν), History c is os s →
      Substantial is → (∀ i ∈ is, totalQty i.buys ≤ c.throughput) → s.ready.items = [] := by
    intro is
    induction is using List.reverseRecOn with
    | nil =>
      intro os s h _ _
      obtain ⟨p, s0, h0, h1⟩ := h
      simp only [run, Except.ok.injEq, Prod.mk.injEq] at h1
      obtain ⟨rfl, rfl⟩ := h1
      exact (enter_inv h0).2.2.2
    | append_singleton is i ih =>
      intro os s h hs hb
      obtain ⟨os1, o, s1, rel, rfl, h1, h2, h3, h4, h5⟩ := step_released hε h hs
      have hr := ih os1 s1 h1 (fun j hj => hs j (by simp [hj])) (fun j hj => hb j (by simp [hj]))
      rw [hr, List.nil_append] at h4 h5
      have hjoin : totalQty (joining c is i) ≤ c.throughput ∨ joining c is i = [] := by
        by_cases hres : c.residence ≤ is.length
        · left
          have hj := congrArg totalQty (joining_eq c is i)
          rw [totalQty_append] at hj
          have hlt : is.length - c.residence < (is ++ [i]).length := by simp; omega
          have e1 : (is ++ [i]).take (is.length + 1 - c.residence) =
              is.take (is.length - c.residence) ++ [(is ++ [i])[is.length - c.residence]] := by
            rw [show is.length + 1 - c.residence = is.length - c.residence + 1 by omega,
              List.take_add_one, List.getElem?_eq_getElem hlt,
              List.take_append_of_le_length (by omega)]
            rfl
          rw [e1, received_append, totalQty_append] at hj
          have := hb _ (List.getElem_mem hlt)
          linarith
        · right
          have hj := joining_eq c is i
          rw [show is.length + 1 - c.residence = 0 by omega,
            show is.length - c.residence = 0 by omega] at hj
          simpa [received] using hj.symm
      have hpos : AllPos (joining c is i) := by
        intro m hm
        refine allPos_received (substantial_take hs (is.length + 1 - c.residence)) m ?_
        rw [joining_eq]; simp [hm]
      rcases hjoin with hx | hx
      · rw [h5, h4.all hx]; exact after_all hpos le_rfl
      · rw [h5, hx]; rfl
  have hr := key is os s h hs hb
  obtain ⟨H, ht, hl, -⟩ := history_inv hε h hs
  have e := mats_aged (c := c) (is := is) ht
  obtain ⟨r1, r2, r3, r4⟩ := ready_total hε h hs
  rw [hr, totalQty_nil] at r3
  have h1 := H.mass n
  rw [e, ← hl, upto_all (allPos_received (substantial_take hs _))
    (by unfold released at r3; linarith)] at h1
  exact h1

/-- The discrete facility of the example gets at most 4 kg per step, its throughput. Of the 3 kg of
label 1 it received, 9/8 are for sale at the end and 15/8 are sold. -/
example : (∀ i ∈ exIn, totalQty i.buys ≤ exDisc.throughput) ∧ (play exDisc exIn).toOption.map
    (fun r => (Mat.massOf (lastStock r.1) 1, Mat.massOf (sold r.1) 1)) = some (9/8, 15/8) := by
  decide +kernel

/-! ## C26 -/

/-- C26: with positive throughput a consistently configured facility is deployed and lives through
every honest history. With discrete handling any throughput will do.
Missing: continuous handling with a positive throughput below `lo`, the least quantity that a
buffer gives away (`C26_tiny_throughput_throws`). -/
theorem C26_never_fails_partial [DecidableEq ν] {c : Cfg} (hε : 0 ≤ c.eps) (hw : WellFormed c)
    (ht : c.discrete = true ∨ (0 < c.throughput ∧ c.lo ≤ c.throughput)) :
    ∃ p, ∃ s₀ : State ν, enter c = .ok (p, s₀) ∧ ∀ is, HonestRun c s₀ is →
      ∃ os s, run c s₀ is = .ok (os, s) ∧ os.map (fun o => o.sold.map qty) = is.map In.sells := by
  obtain ⟨p, s0, h0⟩ : ∃ p, ∃ s₀ : State ν, enter c = .ok (p, s₀) := by
    have h1 : ∃ p, choosePolicy c = .ok p := by
      unfold choosePolicy
      split
      · exact ⟨_, rfl⟩
      · split
        · exact ⟨_, rfl⟩
        · split
          · rename_i ha hb hc
            rw [if_neg]
            · exact ⟨_, rfl⟩
            · intro hx
              refine hw.reorder ⟨?_, not_lt.1 hb, hc, hx⟩
              by_contra hn
              exact ha ⟨not_le.1 hn, not_lt.1 hb⟩
          · exact ⟨_, rfl⟩
    have h2 : checkRecipe c = .ok () := by
      unfold checkRecipe
      rw [if_neg]
      rintro ⟨a, b⟩
      rcases hw.recipe with h | h
      · exact a h
      · rw [h] at b; cases b
    have h3 : ∃ l, initPrefs c = .ok l := by
      unfold initPrefs
      rcases hw.prefs with h | h
      · rw [if_pos h]; exact ⟨_, rfl⟩
      · split
        · exact ⟨_, rfl⟩
        · rw [if_neg (by simpa using h)]; exact ⟨_, rfl⟩
    obtain ⟨p, h1⟩ := h1
    obtain ⟨l, h3⟩ := h3
    simp only [enter, h1, h2, h3, ok_bind, hw.outCommods, ne_eq, not_true_eq_false, if_false]
    exact ⟨_, _, rfl⟩
  refine ⟨p, s0, h0, ?_⟩
  have key : ∀ (is : List (In ν)) (arr : List (Nat × Mat ν)) (out : List (Mat ν)) (s : State ν),
      Inv c arr out s → HonestRun c s is →
      ∃ os s', run c s is = .ok (os, s') ∧ os.map (fun o => o.sold.map qty) = is.map In.sells := by
    intro is
    induction is with
    | nil => intro _ _ s _ _; exact ⟨[], s, rfl, rfl⟩
    | cons i is ih =>
      intro arr out s H hh
      obtain ⟨o, s1, h1, h2⟩ := step_ok hε hw ht H hh.1
      obtain ⟨os, s2, h3, h4⟩ := ih _ _ _ (step_inv hε H hh.1.buys h1).1 (hh.2 o s1 h1)
      refine ⟨o :: os, s2, ?_, ?_⟩
      · simp only [run, h1, h3, ok_bind, pure_eq_ok]
      · simp [h2, h4]
  intro is hh
  exact key is [] [] s0 (enter_inv h0).1 hh

/-- A check of `HonestRun`. -/
def honestB (c : Cfg) : State Nat → List (In Nat) → Bool
  | _, [] => true
  | s, i :: is => i.buys.all (fun m => decide (0 < qty m)) &&
    i.sells.all (fun q => decide (0 < q ∧ c.lo ≤ q)) &&
    decide (i.sells.sum ≤ totalQty s.stocks.items) &&
    match step c s i with
    | .ok (_, s') => honestB c s' is
    | .error _ => true

theorem honestB_sound {c : Cfg} {is : List (In Nat)} :
    ∀ {s : State Nat}, honestB c s is = true → HonestRun c s is := by
  induction is with
  | nil => intro s _; trivial
  | cons i is ih =>
    intro s h
    simp only [honestB, Bool.and_eq_true, List.all_eq_true, decide_eq_true_eq] at h
    obtain ⟨⟨⟨h1, h2⟩, h3⟩, h4⟩ := h
    refine ⟨⟨h1, h2, h3⟩, fun o s' hs => ?_⟩
    rw [hs] at h4
    exact ih h4

/-- The example is consistently configured, and its market is honest. -/
example : WellFormed exCfg ∧ (0 < exCfg.throughput ∧ exCfg.lo ≤ exCfg.throughput) ∧
    ∀ p s₀, enter exCfg = .ok (p, s₀) → HonestRun exCfg s₀ exIn := by
  refine ⟨⟨by simp [exCfg], Or.inr rfl, rfl, Or.inl rfl, by norm_num [exCfg]⟩,
    by norm_num [exCfg], fun p s₀ h => ?_⟩
  have hh : ((enter (ν := Nat) exCfg).toOption.map fun r => honestB exCfg r.2 exIn) =
      some true := by decide +kernel
  rw [h] at hh
  exact honestB_sound (by simpa [Except.toOption] using hh)

/-- C26 needs the positive throughput: with throughput 0 and continuous handling a step throws as
soon as there is material to move. -/
theorem C26_zero_throughput_throws :
    (play { exCfg with throughput := 0, residence := 0 } [(⟨[], [⟨[(1, 3)]⟩]⟩ : In Nat)]).toOption.isNone
      = true := by decide +kernel

/-- C26 as stated is false: a positive throughput will not do if it is less than the least quantity
that a buffer gives away. -/
theorem C26_tiny_throughput_throws :
    0 < ({ exCfg with throughput := 1/2000, lo := 1/1000, residence := 0 } : Cfg).throughput ∧
    (play { exCfg with throughput := 1/2000, lo := 1/1000, residence := 0 }
      [(⟨[], [⟨[(1, 3)]⟩]⟩ : In Nat)]).toOption.isNone = true ∧
    (play { exCfg with throughput := 1/1000, lo := 1/1000, residence := 0 }
      [(⟨[], [⟨[(1, 3)]⟩]⟩ : In Nat)]).toOption.isNone = false :=
  ⟨by norm_num, by decide +kernel, by decide +kernel⟩

/-! ## C67 -/

/-- C67, continuous handling: material is released at the full rate while there is any that is old
enough. -/
theorem C67_full_rate [DecidableEq ν] {c : Cfg} (hε : 0 ≤ c.eps) (hd : c.discrete = false)
    (h0 : 0 ≤ c.throughput) {is : List (In ν)} {i : In ν} {os : List (Out ν)} {o : Out ν}
    {s' : State ν} (h : History c (is ++ [i]) (os ++ [o]) s') (hs : Substantial (is ++ [i])) :
    totalQty (lastStock (os ++ [o])) + totalQty (sold (os ++ [o])) =
      min (totalQty (lastStock os) + totalQty (sold os) + c.throughput)
        (totalQty (received ((is ++ [i]).take ((is ++ [i]).length - c.residence)))) := by
  have := released_step hε hd h0 h hs
  simpa [released] using this

/-- C67, continuous handling: what was received in the steps `is` becomes available eventually:
`residence_time` and then as many steps later as the throughput needs. -/
theorem C67_all_released [DecidableEq ν] {c : Cfg} (hε : 0 ≤ c.eps) (hd : c.discrete = false)
    (h0 : 0 ≤ c.throughput) {is js : List (In ν)} {os : List (Out ν)} {s : State ν}
    (h : History c (is ++ js) os s) (hs : Substantial (is ++ js)) :
    min (totalQty (received is)) (((js.length - c.residence : Nat) : ℚ) * c.throughput) ≤
      totalQty (lastStock os) + totalQty (sold os) := by
  induction js using List.reverseRecOn generalizing os s with
  | nil =>
    have := (ready_total hε h hs).2.2.2
    refine le_trans (min_le_right _ _) ?_
    simpa [released] using this
  | append_singleton js j ih =>
    rw [← List.append_assoc] at h hs
    obtain ⟨os1, o, s1, rfl, h1, -⟩ := history_snoc.1 h
    have hs1 : Substantial (is ++ js) := fun x hx => hs x (by simp at hx ⊢; tauto)
    have hi := ih h1 hs1
    have hrec := released_step hε hd h0 h hs
    have hnn := (ready_total hε h1 hs1).2.2.2
    unfold released at hrec hnn
    by_cases hres : js.length + 1 ≤ c.residence
    · have : (js ++ [j]).length - c.residence = 0 := by simp; omega
      rw [this]
      refine le_trans (min_le_right _ _) ?_
      have := (ready_total hε h hs).2.2.2
      simpa [released] using this
    · rw [hrec]
      have hcast : (((js ++ [j]).length - c.residence : Nat) : ℚ) ≤
          ((js.length - c.residence : Nat) : ℚ) + 1 := by
        have : (js ++ [j]).length - c.residence ≤ js.length - c.residence + 1 := by simp; omega
        exact_mod_cast this
      have hmul := mul_le_mul_of_nonneg_right hcast h0
      refine le_min ?_ ?_
      · rcases le_total (totalQty (received is))
          (((js.length - c.residence : Nat) : ℚ) * c.throughput) with hx | hx
        · rw [min_eq_left hx] at hi
          exact le_trans (min_le_left _ _) (by linarith)
        · rw [min_eq_right hx] at hi
          exact le_trans (min_le_right _ _) (by linarith)
      · refine le_trans (min_le_left _ _) ?_
        have e1 : (is ++ js ++ [j]).take ((is ++ js).length + 1 - c.residence) =
            is ++ (js ++ [j]).take (js.length + 1 - c.residence) := by
          rw [List.append_assoc, List.take_append, List.length_append,
            List.take_of_length_le (by omega)]
          congr 2
          omega
        rw [e1]
        refine received_mono ?_
        intro x hx
        refine hs x ?_
        rw [List.append_assoc]
        rcases List.mem_append.1 hx with hx | hx
        · simp [hx]
        · exact List.mem_append_right _ (List.mem_of_mem_take hx)

/-- C67, discrete handling: if no item is larger than the throughput, each item received in the
steps `is` becomes available, at the latest `residence_time` steps and one step per item later. -/
theorem C67_all_items_released [DecidableEq ν] {c : Cfg} (hε : 0 ≤ c.eps) (hd : c.discrete = true)
    {is js : List (In ν)} {os : List (Out ν)} {s : State ν}
    (h : History c (is ++ js) os s) (hs : Substantial (is ++ js))
    (hm : ∀ m ∈ received (is ++ js), qty m ≤ c.throughput)
    (hlong : c.residence + (received is).length ≤ js.length) :
    totalQty (received is) ≤ totalQty (lastStock os) + totalQty (sold os) := by
  obtain ⟨R, D, hR⟩ := discrete_progress hε hd h hs hm
  have hR : (received is).length ≤ R := by omega
  have ham := D.amount
  unfold released at ham
  rw [ham]
  have hpre : received is <+: (received ((is ++ js).take ((is ++ js).length - c.residence))).take R := by
    have e1 : (is ++ js).take ((is ++ js).length - c.residence) =
        is ++ js.take (js.length - c.residence) := by
      rw [List.take_append, List.length_append, List.take_of_length_le (by omega)]
      congr 2
      omega
    rw [e1]
    have e2 : received (is ++ js.take (js.length - c.residence)) =
        received is ++ received (js.take (js.length - c.residence)) := by simp [received]
    rw [e2, List.take_append, List.take_of_length_le hR]
    exact List.prefix_append _ _
  obtain ⟨r, hr⟩ := hpre
  have hpos : AllPos ((received ((is ++ js).take ((is ++ js).length - c.residence))).take R) :=
    fun m hm => allPos_received (substantial_take hs _) m (List.mem_of_mem_take hm)
  rw [← hr] at hpos ⊢
  rw [totalQty_append]
  have := (AllPos.append.1 hpos).2.total_nonneg
  linarith

/-- C67, the exception: with discrete handling an item larger than the throughput is never
released, and neither is anything received after it, however long the history. -/
theorem C67_large_item_blocks [DecidableEq ν] {c : Cfg} (hε : 0 ≤ c.eps) (hd : c.discrete = true)
    (h0 : 0 ≤ c.throughput) {is : List (In ν)} {os : List (Out ν)} {s : State ν}
    (h : History c is os s) (hs : Substantial is) {a b : List (Mat ν)} {m : Mat ν}
    (hr : received is = a ++ m :: b) (hm : c.throughput < qty m) :
    totalQty (lastStock os) + totalQty (sold os) ≤ totalQty a := by
  obtain ⟨R, D, hR⟩ := discrete_blocked hε hd h0 h hs hr hm
  have ham := D.amount
  unfold released at ham
  rw [ham]
  obtain ⟨r, hpre⟩ := old_prefix c is
  have hle := D.le
  have e : (old c is).take R = a.take R := by
    have : (old c is ++ r).take R = (a ++ m :: b).take R := by rw [hpre, hr]
    rw [List.take_append_of_le_length hle, List.take_append_of_le_length hR] at this
    exact this
  show totalQty ((old c is).take R) ≤ _
  rw [e]
  have hpa : AllPos a := by
    have := allPos_received hs
    rw [hr] at this
    exact (AllPos.append.1 this).1
  have hsplit : totalQty a = totalQty (a.take R) + totalQty (a.drop R) := by
    rw [← totalQty_append, List.take_append_drop]
  have : 0 ≤ totalQty (a.drop R) :=
    AllPos.total_nonneg fun x hx => hpa x (List.mem_of_mem_drop hx)
  linarith

/-- With a throughput of 3.5 kg the first delivery of 4 kg blocks the example for good. -/
example : ((play { exDisc with throughput := 7/2 }
      ((exIn.take 3) ++ List.replicate 20 ⟨[], []⟩)).toOption.map fun r =>
        (totalQty (lastStock r.1), totalQty (received (exIn.take 3)))) = some (0, 7) := by
  decide +kernel

/-! ## C68 -/

/-- C68: a facility is deployed exactly if it has one output commodity, a preference for each input
commodity or none at all, a known recipe or none, and, if it reorders fixed quantities, room for the
reorder quantity above the reorder point. -/
theorem C68_consistency_checked {c : Cfg} :
    (∃ r : Policy × State ν, enter c = .ok r) ↔
      c.outCommods.length = 1 ∧ (c.prefs = [] ∨ c.prefs.length = c.inCommods.length) ∧
      (c.inRecipe = "" ∨ c.hasRecipe c.inRecipe = true) ∧
      (0 ≤ c.reorderPoint → c.cumulativeCap ≤ 0 → 0 < c.reorderQty →
        c.reorderPoint + c.reorderQty ≤ c.maxInv) := by
  constructor
  · rintro ⟨r, h⟩
    simp only [enter, bind_ok] at h
    obtain ⟨p, h1, u, h2, pr, h3, h4⟩ := h
    refine ⟨?_, ?_, ?_, ?_⟩
    · by_contra hn; rw [if_pos hn] at h4; cases h4
    · unfold initPrefs at h3
      split at h3
      · rename_i h; exact Or.inl (List.length_eq_zero_iff.1 h)
      · split at h3
        · cases h3
        · rename_i h; right; simpa using h
    · unfold checkRecipe at h2
      split at h2
      · cases h2
      · rename_i h
        by_cases he : c.inRecipe = ""
        · exact Or.inl he
        · right
          by_contra hn
          exact h ⟨he, by simpa using hn⟩
    · intro ha hb hc
      unfold choosePolicy at h1
      rw [if_neg (fun h => absurd h.1 (not_lt.2 ha)), if_neg (not_lt.2 hb), if_pos hc] at h1
      split at h1
      · cases h1
      · rename_i h; exact not_lt.1 h
  · rintro ⟨h1, h2, h3, h4⟩
    have a1 : ∃ p, choosePolicy c = .ok p := by
      unfold choosePolicy
      split
      · exact ⟨_, rfl⟩
      · split
        · exact ⟨_, rfl⟩
        · split
          · rename_i ha hb hc
            rw [if_neg]
            · exact ⟨_, rfl⟩
            · refine not_lt.2 (h4 ?_ (not_lt.1 hb) hc)
              by_contra hn
              exact ha ⟨not_le.1 hn, not_lt.1 hb⟩
          · exact ⟨_, rfl⟩
    have a2 : checkRecipe c = .ok () := by
      unfold checkRecipe
      rw [if_neg]
      rintro ⟨a, b⟩
      rcases h3 with h | h
      · exact a h
      · rw [h] at b; cases b
    have a3 : ∃ l, initPrefs c = .ok l := by
      unfold initPrefs
      rcases h2 with h | h
      · rw [if_pos (by rw [h]; rfl)]; exact ⟨_, rfl⟩
      · split
        · exact ⟨_, rfl⟩
        · rw [if_neg (by simpa using h)]; exact ⟨_, rfl⟩
    obtain ⟨p, a1⟩ := a1
    obtain ⟨l, a3⟩ := a3
    simp only [enter, a1, a2, a3, ok_bind, h1, ne_eq, not_true_eq_false, if_false]
    exact ⟨_, rfl⟩

/-- C68, the policy: a cumulative cap takes precedence; without one a reorder point selects
reordering, of a fixed quantity if one is given; otherwise periods are used. -/
theorem C68_policy {c : Cfg} {p : Policy} {s : State ν} (h : enter c = .ok (p, s)) :
    (0 < c.cumulativeCap → p = .cumulative c.cumulativeCap) ∧
    (c.cumulativeCap ≤ 0 → c.reorderPoint < 0 → p = .periodic) ∧
    (c.cumulativeCap ≤ 0 → 0 ≤ c.reorderPoint → 0 < c.reorderQty →
      p = .rq c.reorderQty c.reorderPoint) ∧
    (c.cumulativeCap ≤ 0 → 0 ≤ c.reorderPoint → c.reorderQty ≤ 0 →
      p = .ss c.maxInv c.reorderPoint) := by
  simp only [enter, bind_ok] at h
  obtain ⟨p', h1, u, h2, pr, h3, h4⟩ := h
  have hp : p' = p := by
    split at h4
    · cases h4
    · simp only [pure_eq_ok, Except.ok.injEq, Prod.mk.injEq] at h4; exact h4.1
  subst hp
  unfold choosePolicy at h1
  refine ⟨?_, ?_, ?_, ?_⟩
  · intro ha
    rw [if_neg (fun h => absurd h.2 (not_le.2 ha)), if_pos ha, Except.ok.injEq] at h1
    exact h1.symm
  · intro ha hb
    rw [if_pos ⟨hb, ha⟩, Except.ok.injEq] at h1
    exact h1.symm
  · intro ha hb hc
    rw [if_neg (fun h => absurd h.1 (not_lt.2 hb)), if_neg (not_lt.2 ha), if_pos hc] at h1
    split at h1
    · cases h1
    · rw [Except.ok.injEq] at h1; exact h1.symm
  · intro ha hb hc
    rw [if_neg (fun h => absurd h.1 (not_lt.2 hb)), if_neg (not_lt.2 ha), if_neg (not_lt.2 hc),
      Except.ok.injEq] at h1
    exact h1.symm

/-! ## C69 -/

/-- C69: each step reports as supply of the output commodity what is for sale, and as demand the
space left, for the first input commodity with the highest preference. -/
theorem C69_reports [DecidableEq ν] {c : Cfg} (hε : 0 ≤ c.eps) {is : List (In ν)} {i : In ν}
    {os : List (Out ν)} {o : Out ν} {s : State ν} (h : History c (is ++ [i]) (os ++ [o]) s)
    (hs : Substantial (is ++ [i])) :
    o.report.supply = totalQty o.stock ∧ c.outCommods = [o.report.supplyOf] ∧
    o.report.demand = max 0 (c.maxInv -
      (totalQty (received (is ++ [i])) - totalQty (sold (os ++ [o])))) ∧
    ∃ j : Nat, c.inCommods[j]? = some o.report.demandOf ∧ (c.prefs = [] → j = 0) ∧
      ∀ (k : Nat) (q q' : ℚ), c.prefs[k]? = some q → c.prefs[j]? = some q' →
        q ≤ q' ∧ (k < j → q < q') := by
  obtain ⟨os1, o1, s1, e, h1, hs1, -, H, F⟩ := history_last hε h hs
  obtain ⟨e, e'⟩ := List.append_inj' e rfl
  simp only [List.cons.injEq, and_true] at e'
  subst e e'
  obtain ⟨r1, r2, r3, r4⟩ := F.report
  obtain ⟨H', -, -, -⟩ := history_inv hε h hs
  obtain ⟨t1, -, t3⟩ := contents_total H'
  rw [mats_arrivals] at t1
  have hone : c.outCommods.length = 1 := by
    obtain ⟨p, s0, h0, -⟩ := h
    exact (C68_consistency_checked.1 ⟨_, h0⟩).1
  refine ⟨r1, ?_, ?_, maxIndex s1.prefs, r4, ?_, ?_⟩
  · obtain ⟨x, hx⟩ := List.length_eq_one_iff.1 hone
    rw [hx] at r3 ⊢
    simpa using r3
  · rw [r2, capacity, t3]
    congr 2
    linarith
  · intro hp
    have hi := H.prefs
    unfold initPrefs at hi
    rw [if_pos (by rw [hp]; rfl), Except.ok.injEq] at hi
    rw [← hi]
    have : ∀ l : List String, maxIndex (l.map fun _ => (1 : ℚ)) = 0 := by
      intro l
      by_contra hn
      have hne : l.map (fun _ => (1 : ℚ)) ≠ [] := by
        intro he; rw [he] at hn; exact hn rfl
      have hlt := maxIndex_lt hne
      have h1 := maxIndex_spec (List.getElem?_eq_getElem hlt) 0 1 (by
        cases l with
        | nil => exact absurd rfl hne
        | cons x l => simp)
      have := h1.2 (by omega)
      simp at this
    exact this _
  · intro k q q' hk hj
    have hi := H.prefs
    unfold initPrefs at hi
    split at hi
    · rename_i hl
      rw [List.length_eq_zero_iff.1 hl] at hk; simp at hk
    · split at hi
      · cases hi
      · rw [Except.ok.injEq] at hi
        rw [← hi] at hj ⊢
        exact maxIndex_spec hj k q hk

/-- In the example demand is reported for `"b"`, which has the higher preference. -/
example : ((play exCfg exIn).toOption.map fun r => r.1.map fun o => (o.report.demandOf,
      o.report.demand, o.report.supply)) =
    some [("b", 16, 0), ("b", 13, 0), ("b", 13, 3), ("b", 15, 4), ("b", 31/2, 9/2)] := by
  decide +kernel

end Cyc.Storage
