import Verif.Storage.Lemmas3

/-! # How much is released, step by step -/

namespace Cyc.Storage

variable {ν : Type}

/-- What has become available so far: what is for sale and what was sold. -/
def released (os : List (Out ν)) : ℚ := totalQty (lastStock os) + totalQty (sold os)

theorem substantial_take {is : List (In ν)} (h : Substantial is) (k : Nat) :
    Substantial (is.take k) := fun i hi => h i (List.mem_of_mem_take hi)

theorem received_mono {is js : List (In ν)} (h : Substantial (is ++ js)) :
    totalQty (received is) ≤ totalQty (received (is ++ js)) := by
  have := received_take_total h is.length
  simpa using this

/-- What `ReadyMatl_` adds to `ready` in the step after `is`. -/
def joining (c : Cfg) (is : List (In ν)) (i : In ν) : List (Mat ν) :=
  mats (aged c (c.enterTime + is.length + 1)
    (recent c (c.enterTime + is.length) (arrivals c.enterTime is) ++
      batch (c.enterTime + is.length) i.buys))

theorem arrivals_sorted (t : Nat) (is : List (In ν)) :
    (arrivals t is).Pairwise (fun a b => a.1 ≤ b.1) ∧ ∀ p ∈ arrivals t is, p.1 < t + is.length := by
  induction is using List.reverseRecOn with
  | nil => simp [arrivals]
  | append_singleton is i ih =>
    rw [arrivals_append]
    refine ⟨sorted_append ih.1 ih.2, ?_⟩
    intro p hp
    rcases List.mem_append.1 hp with hp | hp
    · have := ih.2 p hp; simp; omega
    · simp only [batch, List.mem_map] at hp
      obtain ⟨m, -, rfl⟩ := hp
      simp

theorem joining_eq (c : Cfg) (is : List (In ν)) (i : In ν) :
    received ((is ++ [i]).take (is.length + 1 - c.residence)) =
      received (is.take (is.length - c.residence)) ++ joining c is i := by
  have h1 := mats_aged (c := c) (is := is ++ [i]) rfl
  have h2 := mats_aged (c := c) (is := is) rfl
  rw [arrivals_append] at h1
  simp only [List.length_append, List.length_singleton, ← Nat.add_assoc] at h1
  rw [aged_step (arrivals_sorted _ _).1] at h1
  rw [← h1, ← h2, mats, List.map_append]
  rfl

/-- A step, by what `ready` held and what was released from it. -/
theorem step_released [DecidableEq ν] {c : Cfg} (hε : 0 ≤ c.eps) {is : List (In ν)} {i : In ν}
    {os' : List (Out ν)} {s' : State ν} (h : History c (is ++ [i]) os' s')
    (hs : Substantial (is ++ [i])) :
    ∃ os o s rel, os' = os ++ [o] ∧ History c is os s ∧ o.stock = o.left ++ rel ∧
      released os' = released os + totalQty rel ∧
      Moved c c.throughput (s.ready.items ++ joining c is i) rel ∧
      s'.ready.items = after (totalQty rel) (s.ready.items ++ joining c is i) := by
  obtain ⟨os, o, s, rfl, h1, hs1, ht, H, F⟩ := history_last hε h hs
  obtain ⟨rel, ready, r1, r2, r3, r4⟩ := F.rel
  rw [ht] at r3
  refine ⟨os, o, s, rel, rfl, h1, r1, ?_, ?_, ?_⟩
  · have e1 := (history_inv hε h1 hs1).2.2.1
    have e2 : lastStock (os ++ [o]) = o.stock := by simp [lastStock]
    unfold released
    rw [e1, e2, r1, sold_append, totalQty_append, totalQty_append]
    have := F.left
    rw [F.offered] at this
    linarith
  · rw [joining, ← r3]; exact r2
  · rw [joining, ← r3]; exact r4

/-- What `ready` holds is what is old enough and not yet released. -/
theorem ready_total [DecidableEq ν] {c : Cfg} (hε : 0 ≤ c.eps) {is : List (In ν)}
    {os : List (Out ν)} {s : State ν} (h : History c is os s) (hs : Substantial is) :
    released os ≤ totalQty (received (is.take (is.length - c.residence))) ∧
    s.ready.items = after (released os) (received (is.take (is.length - c.residence))) ∧
    totalQty s.ready.items =
      totalQty (received (is.take (is.length - c.residence))) - released os ∧
    0 ≤ released os := by
  obtain ⟨H, ht, hl, -⟩ := history_inv hε h hs
  have e := mats_aged (c := c) (is := is) ht
  have h1 := H.le
  have h2 := H.ready
  rw [e, ← hl] at h1 h2
  have h0 : 0 ≤ released os := by
    unfold released; rw [hl]
    exact add_nonneg H.stockPos.total_nonneg H.outNonneg
  refine ⟨h1, h2, ?_, h0⟩
  rw [h2]
  exact totalQty_after (allPos_received (substantial_take hs _)) h0 h1

/-- In the continuous case material is released at the full rate while there is any. -/
theorem released_step [DecidableEq ν] {c : Cfg} (hε : 0 ≤ c.eps) (hd : c.discrete = false)
    (h0 : 0 ≤ c.throughput) {is : List (In ν)} {i : In ν} {os : List (Out ν)} {o : Out ν}
    {s' : State ν} (h : History c (is ++ [i]) (os ++ [o]) s') (hs : Substantial (is ++ [i])) :
    released (os ++ [o]) = min (released os + c.throughput)
      (totalQty (received ((is ++ [i]).take (is.length + 1 - c.residence)))) := by
  obtain ⟨os1, o1, s, rel, e, h1, -, h3, h4, -⟩ := step_released hε h hs
  obtain ⟨rfl, -⟩ := List.append_inj' e rfl
  have hs1 : Substantial is := fun j hj => hs j (by simp [hj])
  obtain ⟨r1, r2, r3, r4⟩ := ready_total hε h1 hs1
  obtain ⟨k1, k2, k3, k4⟩ := ready_total hε h hs
  have hq := h4.continuous hd
  have hj : totalQty (s.ready.items ++ joining c is i) =
      totalQty (received ((is ++ [i]).take (is.length + 1 - c.residence))) - released os := by
    rw [totalQty_append, r3, joining_eq, totalQty_append]; ring
  rw [hj] at hq
  rw [h3, hq]
  have hle : released os ≤
      totalQty (received ((is ++ [i]).take (is.length + 1 - c.residence))) := by
    have := h4.le
    rw [hj] at this
    have := h4.pos.total_nonneg
    linarith
  rw [max_eq_right (le_min h0 (by linarith))]
  rcases le_total c.throughput
    (totalQty (received ((is ++ [i]).take (is.length + 1 - c.residence))) - released os) with hx | hx
  · rw [min_eq_left hx, min_eq_left (by linarith)]
  · rw [min_eq_right hx, min_eq_right (by linarith)]; ring

/-- In the discrete case what has been released is an initial segment of the arrivals. -/
structure DInv (c : Cfg) (is : List (In ν)) (os : List (Out ν)) (s : State ν) (R : Nat) :
    Prop where
  le : R ≤ (received (is.take (is.length - c.residence))).length
  ready : s.ready.items = (received (is.take (is.length - c.residence))).drop R
  amount : released os = totalQty ((received (is.take (is.length - c.residence))).take R)
  rels : ∃ rels : List (List (Mat ν)), List.Forall₂ (fun o rel => o.stock = o.left ++ rel) os rels ∧
    rels.flatten = (received (is.take (is.length - c.residence))).take R

/-- Everything old enough to be released after the steps `is`. -/
abbrev old (c : Cfg) (is : List (In ν)) : List (Mat ν) :=
  received (is.take (is.length - c.residence))

theorem discrete_step [DecidableEq ν] {c : Cfg} (hε : 0 ≤ c.eps) (hd : c.discrete = true)
    {is : List (In ν)} {i : In ν} {os os' : List (Out ν)} {s s' : State ν} {R : Nat}
    (h1 : History c is os s) (D : DInv c is os s R) (h : History c (is ++ [i]) os' s')
    (hs : Substantial (is ++ [i])) :
    ∃ k, DInv c (is ++ [i]) os' s' (R + k) ∧
      (0 ≤ c.throughput → totalQty (((old c (is ++ [i])).drop R).take k) ≤ c.throughput) ∧
      (R + k < (old c (is ++ [i])).length →
        c.throughput < totalQty (((old c (is ++ [i])).drop R).take (k + 1))) := by
  obtain ⟨os1, o, s1, rel, rfl, h1', h2, h3, h4, h5⟩ := step_released hε h hs
  have hu : os1 = os ∧ s1 = s := by
    obtain ⟨p, a, e1, e2⟩ := h1
    obtain ⟨p', a', e1', e2'⟩ := h1'
    rw [e1] at e1'
    simp only [Except.ok.injEq, Prod.mk.injEq] at e1'
    obtain ⟨-, rfl⟩ := e1'
    rw [e2] at e2'
    simp only [Except.ok.injEq, Prod.mk.injEq] at e2'
    exact ⟨e2'.1.symm, e2'.2.symm⟩
  obtain ⟨rfl, rfl⟩ := hu
  obtain ⟨k, k1, k2, k3, k4⟩ := h4.discrete hd
  have hlen : old c (is ++ [i]) =
      received ((is ++ [i]).take (is.length + 1 - c.residence)) := by
    simp [old]
  have hj := joining_eq c is i
  rw [← hlen] at hj
  have hcat : s1.ready.items ++ joining c is i = (old c (is ++ [i])).drop R := by
    rw [hj, List.drop_append_of_le_length D.le, D.ready]
  have hlim := h4.limit
  rw [hcat] at k1 k2 k3 k4 h5
  rw [k3] at h5
  have hR : R ≤ (old c (is ++ [i])).length := by
    rw [hj]; simp only [List.length_append]; have := D.le; omega
  have htake : (old c (is ++ [i])).take (R + k) =
      (received (is.take (is.length - c.residence))).take R ++ rel := by
    rw [List.take_add, k2]
    congr 1
    rw [hj, List.take_append_of_le_length D.le]
  simp only [List.length_drop] at k1 k4
  refine ⟨k, ⟨?_, ?_, ?_, ?_⟩, ?_, ?_⟩
  · show R + k ≤ (old c (is ++ [i])).length; omega
  · show _ = (old c (is ++ [i])).drop (R + k)
    rw [h5, List.drop_drop]
  · show _ = totalQty ((old c (is ++ [i])).take (R + k))
    rw [h3, htake, totalQty_append, D.amount]
  · obtain ⟨rels, f1, f2⟩ := D.rels
    refine ⟨rels ++ [rel], ?_, ?_⟩
    · exact List.rel_append f1 (by simp [h2])
    · show _ = (old c (is ++ [i])).take (R + k)
      rw [htake, List.flatten_append, f2]; simp
  · rw [← k2]; exact hlim
  · intro hlt; exact k4 (by omega)

theorem dinv_nil [DecidableEq ν] {c : Cfg} {os : List (Out ν)} {s : State ν}
    (h : History c ([] : List (In ν)) os s) : DInv c [] os s 0 := by
  obtain ⟨p, s0, h0, h1⟩ := h
  simp only [run, Except.ok.injEq, Prod.mk.injEq] at h1
  obtain ⟨rfl, rfl⟩ := h1
  obtain ⟨-, -, -, e4⟩ := enter_inv h0
  exact ⟨by simp, by simp [e4, received], by simp [released, lastStock, sold],
    ⟨[], by simp, by simp⟩⟩

theorem discrete_inv [DecidableEq ν] {c : Cfg} (hε : 0 ≤ c.eps) (hd : c.discrete = true)
    {is : List (In ν)} {os : List (Out ν)} {s : State ν} (h : History c is os s)
    (hs : Substantial is) : ∃ R, DInv c is os s R := by
  induction is using List.reverseRecOn generalizing os s with
  | nil => exact ⟨0, dinv_nil h⟩
  | append_singleton is i ih =>
    obtain ⟨os1, o, s1, e, h1, -⟩ := history_snoc.1 h
    obtain ⟨R, D⟩ := ih h1 (fun j hj => hs j (by simp [hj]))
    obtain ⟨k, D', -⟩ := discrete_step hε hd h1 D h hs
    exact ⟨_, D'⟩

theorem old_prefix (c : Cfg) (is : List (In ν)) : old c is <+: received is := by
  refine ⟨received (is.drop (is.length - c.residence)), ?_⟩
  unfold old received
  rw [← List.flatMap_append, List.take_append_drop]

/-- An item larger than the throughput is never released with discrete handling, nor is anything
behind it. -/
theorem discrete_blocked [DecidableEq ν] {c : Cfg} (hε : 0 ≤ c.eps) (hd : c.discrete = true)
    (h0 : 0 ≤ c.throughput) {is : List (In ν)} {os : List (Out ν)} {s : State ν}
    (h : History c is os s) (hs : Substantial is) {a b : List (Mat ν)} {m : Mat ν}
    (hr : received is = a ++ m :: b) (hm : c.throughput < qty m) :
    ∃ R, DInv c is os s R ∧ R ≤ a.length := by
  induction is using List.reverseRecOn generalizing os s b with
  | nil => exact ⟨0, dinv_nil h, by simp⟩
  | append_singleton is i ih =>
    obtain ⟨os1, o, s1, e, h1, -⟩ := history_snoc.1 h
    have hs1 : Substantial is := fun j hj => hs j (by simp [hj])
    -- the released part of the previous history does not reach past `a`
    have hprev : ∃ R, DInv c is os1 s1 R ∧ R ≤ a.length := by
      rw [received_append] at hr
      by_cases hlen : a.length < (received is).length
      · have hpre : a ++ [m] <+: received is := by
          refine List.prefix_of_prefix_length_le (l₃ := received is ++ i.buys) ?_
            (List.prefix_append _ _) (by simp; omega)
          exact ⟨b, by rw [hr]; simp⟩
        obtain ⟨b', hb'⟩ := hpre
        exact ih h1 hs1 (b := b') (by rw [← hb']; simp)
      · obtain ⟨R, D⟩ := discrete_inv hε hd h1 hs1
        refine ⟨R, D, ?_⟩
        have := D.le
        have := (old_prefix c is).length_le
        unfold old at this
        omega
    obtain ⟨R, D, hR⟩ := hprev
    obtain ⟨k, D', hk, -⟩ := discrete_step hε hd h1 D h hs
    refine ⟨_, D', ?_⟩
    by_contra hlt
    have hk := hk h0
    have hle : R + k ≤ (old c (is ++ [i])).length := D'.le
    obtain ⟨r, hpre⟩ := old_prefix c (is ++ [i])
    -- `m` is among the items moved in this step
    have hmem : m ∈ ((old c (is ++ [i])).drop R).take k := by
      have hget : (old c (is ++ [i]))[a.length]? = some m := by
        have : (old c (is ++ [i]) ++ r)[a.length]? = some m := by
          rw [hpre, hr]; simp
        rwa [List.getElem?_append_left (by omega)] at this
      rw [List.mem_iff_getElem?]
      refine ⟨a.length - R, ?_⟩
      rw [List.getElem?_take_of_lt (by omega), List.getElem?_drop]
      rw [show R + (a.length - R) = a.length by omega]
      exact hget
    have hpos : AllPos (((old c (is ++ [i])).drop R).take k) := by
      intro x hx
      exact allPos_received (substantial_take hs _) x
        (List.mem_of_mem_drop (List.mem_of_mem_take hx))
    have : qty m ≤ totalQty (((old c (is ++ [i])).drop R).take k) := by
      obtain ⟨l₁, l₂, hl⟩ := List.append_of_mem hmem
      rw [hl] at hpos ⊢
      rw [totalQty_append, totalQty_cons]
      have h1 := (AllPos.append.1 hpos).1.total_nonneg
      have h2 := (AllPos.cons.1 (AllPos.append.1 hpos).2).2.total_nonneg
      linarith
    linarith

/-- With discrete handling and no item larger than the throughput, at least one item is released
per step while there is one. -/
theorem discrete_progress [DecidableEq ν] {c : Cfg} (hε : 0 ≤ c.eps) (hd : c.discrete = true)
    {is js : List (In ν)} {os' : List (Out ν)} {s' : State ν}
    (h : History c (is ++ js) os' s') (hs : Substantial (is ++ js))
    (hm : ∀ m ∈ received (is ++ js), qty m ≤ c.throughput) :
    ∃ R, DInv c (is ++ js) os' s' R ∧
      min (received is).length (js.length - c.residence) ≤ R := by
  induction js using List.reverseRecOn generalizing os' s' with
  | nil =>
    obtain ⟨R, D⟩ := discrete_inv hε hd h hs
    exact ⟨R, D, by simp⟩
  | append_singleton js j ih =>
    rw [← List.append_assoc] at h hs hm ⊢
    obtain ⟨os1, o, s1, e, h1, -⟩ := history_snoc.1 h
    have hs1 : Substantial (is ++ js) := fun x hx => hs x (by simp at hx ⊢; tauto)
    obtain ⟨R, D, hR⟩ := ih h1 hs1 (fun m hmem => hm m (by rw [received_append]; simp [hmem]))
    obtain ⟨k, D', -, hk⟩ := discrete_step hε hd h1 D h hs
    refine ⟨_, D', ?_⟩
    by_cases hres : js.length + 1 ≤ c.residence
    · simp only [List.length_append, List.length_singleton]
      omega
    have hlong : (received is).length ≤ (old c (is ++ js ++ [j])).length := by
      unfold old
      have : (is ++ js ++ [j]).take ((is ++ js ++ [j]).length - c.residence) =
          is ++ (js ++ [j]).take (js.length + 1 - c.residence) := by
        rw [List.append_assoc, List.take_append]
        simp only [List.length_append, List.length_singleton]
        rw [List.take_of_length_le (by omega)]
        congr 2
        omega
      rw [this]
      simp [received]
    by_cases hall : R + k < (old c (is ++ js ++ [j])).length
    · have hk := hk hall
      have : 1 ≤ k := by
        by_contra hk0
        have hk0 : k = 0 := by omega
        subst hk0
        have hx : R < (old c (is ++ js ++ [j])).length := by omega
        rw [List.drop_eq_getElem_cons hx] at hk
        simp only [Nat.zero_add, List.take_succ_cons, List.take_zero, totalQty_cons, totalQty_nil,
          add_zero] at hk
        have := hm _ ((old_prefix c _).mem (List.getElem_mem hx))
        linarith
      simp only [List.length_append, List.length_singleton]
      omega
    · omega

end Cyc.Storage
