import Verif.Conversion.Lemmas

/-!
# Conversion: properties C54, C55 and C87-C91
-/

namespace Cyc.Conversion

open Mat (massOf)

/-! ## C54 -/

theorem run_conserved {c : Cfg} {is : List In} {s s' : State} {os : List Out} (I : Inv c s)
    (hm : Substantial is) (h : run c s is = .ok (os, s')) (n : Nat) :
    massOf s.input.items n + massOf s.output.items n + massOf (received is) n =
      massOf s'.input.items n + massOf s'.output.items n + massOf (sold os) n := by
  induction is generalizing s os with
  | nil =>
    simp only [run, Except.ok.injEq, Prod.mk.injEq] at h
    obtain ⟨rfl, rfl⟩ := h
    rfl
  | cons i is ih =>
    simp only [run, bind_ok] at h
    obtain ⟨⟨o, s₁⟩, h1, ⟨os, s₂⟩, h2, h⟩ := h
    simp only [pure_eq_ok, Except.ok.injEq, Prod.mk.injEq] at h
    obtain ⟨rfl, rfl⟩ := h
    have hr := ih (step_inv I (hm i (by simp)) h1) (fun x hx => hm x (by simp [hx])) h2
    obtain ⟨a, b, S⟩ := step_stages h1
    obtain ⟨I1, ht⟩ := tick_inv I S.tick
    obtain ⟨I2, e1, -, -, e2, -⟩ := sell_inv I1 S.sell
    obtain ⟨-, e3, -, e4⟩ := accept_inv I2 (hm i (by simp)) S.accept
    have et : massOf a.input.items n + massOf a.output.items n =
        massOf s.input.items n + massOf s.output.items n := by
      rcases ht with ⟨-, rfl⟩ | ⟨-, t, M⟩
      · rfl
      · rw [M.input, M.output]; ring
    have e4n := e4 n
    have e2n := e2 n
    rw [e1] at e4n
    rw [e3, e4n, e2n] at hr
    unfold received sold at hr ⊢
    rw [List.flatMap_cons, List.flatMap_cons, Mat.massOf_append, Mat.massOf_append]
    linarith

/-- C54: at every point of every history, for every nuclide, what was received is what is held as
feed, what is held as product, and what was sold. -/
theorem C54_conserved {c : Cfg} {is : List In} {os : List Out} {s : State} (h : History c is os s)
    (hd : Substantial is) (n : Nat) :
    massOf (received is) n =
      massOf s.input.items n + massOf s.output.items n + massOf (sold os) n := by
  have := run_conserved (enter_inv c) hd h n
  simpa [enter] using this

/-- C54: each step moves the smaller of the throughput and the feed from the feed to the product,
with the composition of the feed. -/
theorem C54_throughput {c : Cfg} {is : List In} {os : List Out} {s s' : State}
    (h : History c is os s) (hd : Substantial is) (h0 : 0 ≤ c.throughput)
    (ht : tick c s = .ok s') :
    feed s' = feed s - min c.throughput (feed s) ∧
      product s' = product s + min c.throughput (feed s) ∧
      ∀ n,
        feed s * (massOf s.input.items n - massOf s'.input.items n) =
          min c.throughput (feed s) * massOf s.input.items n ∧
        feed s * (massOf s'.output.items n - massOf s.output.items n) =
          min c.throughput (feed s) * massOf s.input.items n := by
  have I := history_inv h hd
  rcases (tick_inv I ht).2 with ⟨hz, rfl⟩ | ⟨hf, t, M⟩
  · rw [hz, min_eq_right h0]; simp
  · rw [min_comm, ← M.amount]
    have hne : feed s ≠ 0 := ne_of_gt hf
    refine ⟨M.feed, M.product, fun n => ⟨?_, ?_⟩⟩
    · rw [M.input]; field_simp; ring
    · rw [M.output]; field_simp; ring

/-- C54: what is sold is what was asked for, and has the composition of the product. -/
theorem C54_sold {c : Cfg} {is : List In} {os : List Out} {s s₁ s' : State} {i : In} {o : Out}
    (h : History c is os s) (hd : Substantial is) (hs : step c s i = .ok (o, s'))
    (ht : tick c s = .ok s₁) :
    o.sold.map qty = i.sells ∧ ∀ m ∈ o.sold, SameComposition m s₁.output.items := by
  obtain ⟨a, b, S⟩ := step_stages hs
  have : a = s₁ := by have := S.tick.symm.trans ht; simpa using this
  subst this
  obtain ⟨-, -, e1, -, -, e2⟩ := sell_inv (tick_inv (history_inv h hd) S.tick).1 S.sell
  exact ⟨e1, e2⟩

/-- C54: what is delivered in a step becomes feed, after the conversion of that step, and none of it
is product yet; what is sold leaves the product alone. -/
theorem C54_received {c : Cfg} {is : List In} {os : List Out} {s s₁ s' : State} {i : In} {o : Out}
    (h : History c is os s) (hd : Substantial is) (hi : ∀ m ∈ i.buys, Solid m)
    (hs : step c s i = .ok (o, s')) (ht : tick c s = .ok s₁) (n : Nat) :
    massOf s'.input.items n = massOf s₁.input.items n + massOf i.buys n ∧
      massOf s'.output.items n = massOf s₁.output.items n - massOf o.sold n := by
  obtain ⟨a, b, S⟩ := step_stages hs
  have : a = s₁ := by have := S.tick.symm.trans ht; simpa using this
  subst this
  obtain ⟨I, e1, -, -, e2, -⟩ := sell_inv (tick_inv (history_inv h hd) S.tick).1 S.sell
  obtain ⟨-, e3, -, e4⟩ := accept_inv I hi S.accept
  exact ⟨by rw [e4, e1], by rw [e3, e2]⟩

/-! ## C55 -/

/-- C55: the request of each step, after the conversion. Without free space for feed there is none;
otherwise there is one request per input commodity, and the sum and each of them is limited to the
free space. -/
theorem C55_request {c : Cfg} {s s₁ s' : State} {i : In} {o : Out}
    (hs : step c s i = .ok (o, s')) (ht : tick c s = .ok s₁) :
    (c.capacity ≤ feed s₁ → o.asks = none) ∧
      (feed s₁ < c.capacity → ∃ p, o.asks = some p ∧ p.cap = c.capacity - feed s₁ ∧
        p.reqs.map Prod.fst = c.incommods ∧ ∀ r ∈ p.reqs, r.2 = c.capacity - feed s₁) := by
  obtain ⟨a, b, S⟩ := step_stages hs
  have : a = s₁ := by have := S.tick.symm.trans ht; simpa using this
  subst this
  rw [S.asks]
  unfold requests available
  change (_ → (if c.capacity - feed a ≤ 0 then _ else _) = _) ∧ _
  constructor
  · intro hc
    rw [if_pos (by linarith)]
  · intro hc
    change ∃ p, (if c.capacity - feed a ≤ 0 then _ else _) = _ ∧ _
    rw [if_neg (by push Not; linarith)]
    refine ⟨_, rfl, rfl, ?_, ?_⟩
    · show (c.incommods.map _).map _ = _
      rw [List.map_map]
      show c.incommods.map (fun k => k) = _
      simp
    · intro r hr
      obtain ⟨k, -, rfl⟩ := List.mem_map.1 hr
      rfl

/-- C55: the bids of each step, after the conversion. Without product there are none; otherwise the
sum is limited to the product, and the requests for the output commodity that ask for something are
answered, in order and once each, with the smaller of the product and what is asked for, of the
composition of the product. -/
theorem C55_bids {c : Cfg} {is : List In} {os : List Out} {s s₁ s' : State} {i : In} {o : Out}
    (h : History c is os s) (hd : Substantial is) (hs : step c s i = .ok (o, s'))
    (ht : tick c s = .ok s₁) :
    (product s₁ = 0 → o.bids = none) ∧
      (product s₁ ≠ 0 → ∃ p, o.bids = some p ∧ p.cap = product s₁ ∧
        p.bids.map (fun b => (b.id, qty b.offer)) =
          ((i.reqs.filter fun r => r.commod = c.outcommod).filter fun r => 0 < r.qty).map
            (fun r => (r.id, min (product s₁) r.qty)) ∧
        ∀ b ∈ p.bids, SameComposition b.offer s₁.output.items) := by
  obtain ⟨a, b, S⟩ := step_stages hs
  have : a = s₁ := by have := S.tick.symm.trans ht; simpa using this
  subst this
  have I := (tick_inv (history_inv h hd) S.tick).1
  rcases bids_eq I i.reqs with ⟨h0, hb⟩ | ⟨m, hm, h0, hb⟩
  · refine ⟨fun _ => ?_, fun hn => absurd h0 hn⟩
    have := S.bids.symm.trans hb
    simpa using this
  · refine ⟨fun hz => absurd hz (ne_of_gt h0), fun _ => ?_⟩
    have e := S.bids.symm.trans hb
    simp only [Except.ok.injEq] at e
    have hp : product a = qty m := by unfold product; rw [hm]; simp
    have hm0 : qty m ≠ 0 := by rw [← hp]; exact ne_of_gt h0
    have hun : ∀ q, qty (untracked q m) = q := by
      intro q; unfold untracked; rw [Mat.qty_scale]; field_simp
    refine ⟨_, e, rfl, ?_, ?_⟩
    · rw [List.map_map]
      have : (fun r : Req => decide (0 < min (product a) r.qty)) = fun r => decide (0 < r.qty) := by
        funext r
        simp [h0]
      rw [this]
      apply List.map_congr_left
      intro r _
      simp [hun]
    · intro b hb n
      obtain ⟨r, -, rfl⟩ := List.mem_map.1 hb
      rw [hm]
      simp only [hun, totalQty_cons, totalQty_nil, add_zero, Mat.massOf_cons, Mat.massOf_nil]
      unfold untracked
      rw [Mat.mass_scale]
      field_simp

/-! ## C87 and C88 -/

/-- What an honest step does. -/
theorem honest_step {c : Cfg} (he : 0 ≤ c.eps) {s s₁ : State} {i : In} (I : Inv c s)
    (hw : feed s ≤ c.capacity) (ht : tick c s = .ok s₁) (H : Honest c s₁ i) :
    ∃ o s', step c s i = .ok (o, s') ∧ feed s' ≤ c.capacity := by
  obtain ⟨I1, hmv⟩ := tick_inv I ht
  have hw1 : feed s₁ ≤ c.capacity := by
    rcases hmv with ⟨-, rfl⟩ | ⟨-, t, M⟩
    · exact hw
    · have := M.pos
      rw [M.feed]; linarith
  obtain ⟨b, hb⟩ := bids_ok I1 i.reqs
  obtain ⟨l, s₂, hs⟩ := sell_ok I1 H.sells H.total
  obtain ⟨I2, e1, -⟩ := sell_inv I1 hs
  have hroom : feed s₂ + totalQty i.buys ≤ c.capacity := by
    have hf : feed s₂ = feed s₁ := by unfold feed; rw [e1]
    rw [hf]
    by_cases hav : available c s₁ ≤ 0
    · rw [H.unasked (by unfold requests; rw [if_pos hav])]
      simpa using hw1
    · have := H.amounts _ (by unfold requests; rw [if_neg hav])
      simp only at this
      unfold available at this
      change _ ≤ c.capacity - feed s₁ at this
      linarith
  obtain ⟨s', ha⟩ := accept_ok I2 he H.solid hroom
  obtain ⟨-, -, e4, -⟩ := accept_inv I2 H.solid ha
  exact ⟨⟨requests c s₁, b, l⟩, s', by simp only [step, ht, ok_bind, hb, hs, ha, pure_eq_ok],
    by rw [e4]; exact hroom⟩

/-- C87: in an honest market the feed never exceeds its capacity. -/
theorem C87_capacity {c : Cfg} (he : 0 ≤ c.eps) (hc : 0 ≤ c.capacity) {is : List In}
    {os : List Out} {s : State} (H : HonestRun c (enter c) is) (h : History c is os s) :
    feed s ≤ c.capacity := by
  have aux : ∀ {is : List In} {os : List Out} {s s' : State}, Inv c s → feed s ≤ c.capacity →
      HonestRun c s is → run c s is = .ok (os, s') → feed s' ≤ c.capacity := by
    intro is
    induction is with
    | nil =>
      intro os s s' _ hw _ h
      simp only [run, Except.ok.injEq, Prod.mk.injEq] at h
      exact h.2 ▸ hw
    | cons i is ih =>
      intro os s s' I hw H h
      simp only [run, bind_ok] at h
      obtain ⟨⟨o, s₁⟩, h1, ⟨os, s₂⟩, h2, h⟩ := h
      simp only [pure_eq_ok, Except.ok.injEq, Prod.mk.injEq] at h
      obtain ⟨rfl, rfl⟩ := h
      obtain ⟨-, h4, h5⟩ := H
      obtain ⟨a, b, S⟩ := step_stages h1
      obtain ⟨o', s'', hs, hw'⟩ := honest_step he I hw S.tick (h4 a S.tick)
      rw [h1] at hs
      simp only [Except.ok.injEq, Prod.mk.injEq] at hs
      obtain ⟨rfl, rfl⟩ := hs
      exact ih (step_inv I (h4 a S.tick).solid h1) hw' (h5 _ _ h1) h2
  exact aux (enter_inv c) (by simpa [feed, enter] using hc) H h

/-- C88: a facility with a positive throughput, not below the smallest amount a buffer removes, goes
through every honest history without failing. Missing from the full statement: a throughput of
zero, see `C88_counterexample`. -/
theorem C88_runs_partial {c : Cfg} (he : 0 ≤ c.eps) (hc : 0 ≤ c.capacity) (h0 : 0 < c.throughput)
    (hlo : c.lo ≤ c.throughput) {is : List In} (H : HonestRun c (enter c) is) :
    ∃ os s, History c is os s := by
  have aux : ∀ {is : List In} {s : State}, Inv c s → feed s ≤ c.capacity →
      HonestRun c s is → ∃ os s', run c s is = .ok (os, s') := by
    intro is
    induction is with
    | nil => intro s _ _ _; exact ⟨[], s, rfl⟩
    | cons i is ih =>
      intro s I hw H
      obtain ⟨h3, h4, h5⟩ := H
      obtain ⟨s₁, ht⟩ := tick_ok I h0 hlo h3
      obtain ⟨o, s', hs, hw'⟩ := honest_step he I hw ht (h4 s₁ ht)
      obtain ⟨os, s'', hr⟩ := ih (step_inv I (h4 s₁ ht).solid hs) hw' (h5 _ _ hs)
      exact ⟨o :: os, s'', by simp only [run, hs, ok_bind, hr, pure_eq_ok]⟩
  exact aux (enter_inv c) (by simpa [feed, enter] using hc) H

/-! ## C89 -/

/-- C89: whatever has been delivered is converted in time: after `k` further steps without
deliveries the feed has shrunk by `k` times the throughput, down to zero. -/
theorem C89_drains {c : Cfg} {is js : List In} {os ps : List Out} {s s' : State}
    (h : History c is os s) (hd : Substantial is) (h0 : 0 ≤ c.throughput)
    (hj : ∀ j ∈ js, j.buys = []) (hr : run c s js = .ok (ps, s')) :
    feed s' = max 0 (feed s - js.length * c.throughput) := by
  have I := history_inv h hd
  clear h hd
  induction js generalizing s ps with
  | nil =>
    simp only [run, Except.ok.injEq, Prod.mk.injEq] at hr
    obtain ⟨rfl, rfl⟩ := hr
    have := I.input.nonneg
    simp only [List.length_nil, Nat.cast_zero, zero_mul, sub_zero]
    exact (max_eq_right this).symm
  | cons j js ih =>
    simp only [run, bind_ok] at hr
    obtain ⟨⟨o, s₁⟩, h1, ⟨os, s₂⟩, h2, hr⟩ := hr
    simp only [pure_eq_ok, Except.ok.injEq, Prod.mk.injEq] at hr
    obtain ⟨rfl, rfl⟩ := hr
    have hb := hj j (by simp)
    have hsol : ∀ m ∈ j.buys, Solid m := by rw [hb]; simp
    rw [ih (fun x hx => hj x (by simp [hx])) h2 (step_inv I hsol h1)]
    obtain ⟨a, b, S⟩ := step_stages h1
    obtain ⟨I1, ht⟩ := tick_inv I S.tick
    obtain ⟨I2, e1, -⟩ := sell_inv I1 S.sell
    obtain ⟨-, -, e3, -⟩ := accept_inv I2 hsol S.accept
    have e : feed s₁ = feed a := by
      show feed s₁ = _
      rw [e3, hb]; unfold feed; rw [e1]; simp
    have hlen : ((j :: js).length : ℚ) * c.throughput =
        c.throughput + (js.length : ℚ) * c.throughput := by
      push_cast [List.length_cons]; ring
    have hk : 0 ≤ (js.length : ℚ) * c.throughput := mul_nonneg (Nat.cast_nonneg _) h0
    show max 0 (feed s₁ - _) = _
    rw [e, hlen]
    rcases ht with ⟨hz, rfl⟩ | ⟨hf, t, M⟩
    · rw [hz, max_eq_left (by linarith), max_eq_left (by linarith)]
    · rw [M.feed, M.amount]
      rcases le_total (feed s) c.throughput with hle | hle
      · rw [min_eq_left hle, sub_self, max_eq_left (by linarith), max_eq_left (by linarith)]
      · rw [min_eq_right hle]; congr 1; ring

/-! ## C90 -/

/-- C90: what a snapshot and a restart keep: the feed. The product of the new facility is empty
whatever it was before; so a facility is restored when it has no product. Missing from the full
statement: the product is lost, see `C90_lost` and `C90_counterexample`. -/
theorem C90_restart_partial {c : Cfg} (he : 0 ≤ c.eps) (hc : 0 ≤ c.capacity) {is : List In}
    {os : List Out} {s : State} (H : HonestRun c (enter c) is) (hd : Substantial is)
    (h : History c is os s) :
    ∃ inv s', snapshot c s = .ok (inv, s) ∧ restart c inv = .ok s' ∧ s'.input = s.input ∧
      (s.output.items = [] → s' = s) := by
  have I := history_inv h hd
  have hw := C87_capacity he hc H h
  obtain ⟨⟨icap, iits⟩, ⟨ocap, oits⟩⟩ := s
  obtain ⟨i1, i2, i3, i4⟩ := I
  simp only at i1 i2 i3 i4
  subst i1 i2
  have hfit : ∀ q, q = totalQty iits → (⟨some c.capacity, []⟩ : Buf NMat).fits c.eps q = true := by
    rintro q rfl
    unfold Buf.fits Buf.space Buf.quantity
    simp only [Option.map_some, totalQty_nil, sub_zero, decide_eq_true_eq]
    unfold feed at hw
    simp only at hw
    have := le_max_right 0 c.capacity
    linarith
  have hpush : (⟨some c.capacity, []⟩ : Buf NMat).pushAllBulk c.eps iits =
      .ok ⟨some c.capacity, iits⟩ :=
    Buf.pushAllBulk_ok.2 ⟨hfit _ rfl, by simp only [foldl_merge_single i3]⟩
  refine ⟨iits, ⟨⟨some c.capacity, iits⟩, ⟨none, []⟩⟩, ?_, ?_, rfl, ?_⟩
  · unfold snapshot Buf.popN Buf.count
    simp only [le_refl, if_true, ok_bind, List.take_length, List.drop_length, hpush, pure_eq_ok]
  · unfold restart enter
    simp only [hpush, ok_bind, pure_eq_ok]
  · intro ho
    simp only at ho
    rw [ho]

/-- C90 fails: whatever the snapshot, a restarted facility has no product. -/
theorem C90_lost {c : Cfg} {inv : List NMat} {s : State} (h : restart c inv = .ok s) :
    product s = 0 := by
  simp only [restart, bind_ok, pure_eq_ok, Except.ok.injEq] at h
  obtain ⟨b, -, rfl⟩ := h
  rfl

/-! ## C91 -/

/-- C91: with a throughput of at least the capacity, the request of a step is limited to the
throughput. Missing from the full statement (the documentation of `input_capacity`): a smaller
throughput does not limit the request, see `C91_counterexample`. -/
theorem C91_request_partial {c : Cfg} {is : List In} {os : List Out} {s s' : State} {i : In}
    {o : Out} (h : History c is os s) (hd : Substantial is) (hs : step c s i = .ok (o, s'))
    (hc : c.capacity ≤ c.throughput) :
    ∀ p, o.asks = some p → p.cap ≤ c.throughput := by
  intro p hp
  obtain ⟨a, b, S⟩ := step_stages hs
  have I := (tick_inv (history_inv h hd) S.tick).1
  rw [S.asks] at hp
  unfold requests at hp
  split at hp
  · cases hp
  · simp only [Option.some.injEq] at hp
    rw [← hp]
    have := I.input.nonneg
    show c.capacity - totalQty a.input.items ≤ _
    linarith

/-! ## Concrete histories -/

theorem exists_of_isOk {α : Type} {x : R α} (h : x.toOption.isSome = true) : ∃ a, x = .ok a := by
  cases x with
  | error e => cases h
  | ok a => exact ⟨a, rfl⟩

/-- Executable form of `Solid`. -/
def solid? (m : NMat) : Bool := decide (0 < qty m) && m.entries.all fun e => decide (0 ≤ e.2)

theorem solid?_sound {m : NMat} (h : solid? m = true) : Solid m := by
  simp only [solid?, Bool.and_eq_true, decide_eq_true_eq, List.all_eq_true] at h
  exact ⟨h.1, fun e he => h.2 e he⟩

/-- Executable form of `Honest`. -/
def check (c : Cfg) (s : State) (i : In) : Bool :=
  i.buys.all solid? &&
  (match requests c s with
    | none => i.buys.isEmpty
    | some p => decide (totalQty i.buys ≤ p.cap)) &&
  i.sells.all (fun q => decide (0 < q ∧ c.lo ≤ q)) && decide (i.sells.sum ≤ product s)

theorem check_sound {c : Cfg} {s : State} {i : In} (h : check c s i = true) : Honest c s i := by
  simp only [check, Bool.and_eq_true, List.all_eq_true, decide_eq_true_eq] at h
  obtain ⟨⟨⟨h1, h2⟩, h3⟩, h4⟩ := h
  refine ⟨fun m hm => solid?_sound (h1 m hm), ?_, ?_, h3, h4⟩
  · intro hn
    rw [hn] at h2
    simpa using h2
  · intro p hp
    rw [hp] at h2
    simpa using h2

/-- Executable form of `HonestRun`. -/
def checkRun (c : Cfg) : State → List In → Bool
  | _, [] => true
  | s, i :: is => decide (0 < feed s → c.lo ≤ feed s) &&
    match tick c s with
    | .error _ => true
    | .ok s₁ => check c s₁ i &&
      match step c s i with
      | .error _ => true
      | .ok (_, s') => checkRun c s' is

theorem checkRun_sound {c : Cfg} {is : List In} {s : State} (h : checkRun c s is = true) :
    HonestRun c s is := by
  induction is generalizing s with
  | nil => trivial
  | cons i is ih =>
    simp only [checkRun, Bool.and_eq_true, decide_eq_true_eq] at h
    obtain ⟨h1, h2⟩ := h
    refine ⟨h1, ?_, ?_⟩
    · intro s₁ ht
      rw [ht] at h2
      simp only [Bool.and_eq_true] at h2
      exact check_sound h2.1
    · intro o s' hs
      obtain ⟨a, b, S⟩ := step_stages hs
      rw [S.tick] at h2
      simp only [Bool.and_eq_true] at h2
      have := h2.2
      rw [hs] at this
      exact ih this

/-- A facility with a feed store of 10 kg that converts 3 kg per step. -/
def exCfg : Cfg := ⟨["ore", "cake"], "uf6", 3, 10, 1/1000000, 1/1000000⟩

def u : NMat := ⟨[(922350000, 1), (922380000, 4)]⟩
def w : NMat := ⟨[(922350000, 1), (922380000, 1)]⟩

/-- 5 kg and 2 kg are delivered; requests for product and for something else; 1 kg and 2 kg are
sold; then nothing is delivered for two steps. -/
def exIs : List In :=
  [⟨[], [], [u, w]⟩, ⟨[⟨1, "uf6", 2⟩, ⟨2, "fuel", 9⟩, ⟨3, "uf6", 50⟩, ⟨4, "uf6", 0⟩], [1, 2], [w]⟩]

theorem exHistory : ∃ os s, History exCfg exIs os s := by
  obtain ⟨⟨os, s⟩, h⟩ := exists_of_isOk (x := run exCfg (enter exCfg) exIs) (by decide +kernel)
  exact ⟨os, s, h⟩

theorem exHonest : HonestRun exCfg (enter exCfg) exIs := checkRun_sound (by decide +kernel)

theorem exSubstantial : Substantial exIs := by
  intro i hi m hm
  have : ∀ i ∈ exIs, ∀ m ∈ i.buys, solid? m = true := by decide +kernel
  exact solid?_sound (this i hi m hm)

/-- The observations of the example: the second step bids on the two requests for its commodity that
ask for something. -/
theorem exBids : (run exCfg (enter exCfg) exIs).toOption.map (fun x => x.1.map fun o =>
    o.bids.map fun p => (p.bids.map fun b => (b.id, qty b.offer), p.cap)) =
    some [none, some ([(1, 2), (3, 3)], 3)] := by decide +kernel

example : (run exCfg (enter exCfg) (exIs ++ [⟨[], [], []⟩, ⟨[], [], []⟩])).toOption.map
    (fun x => (feed x.2, product x.2)) = some (0, 6) := by decide +kernel

/-- C88 fails for a throughput of zero, which the input allows: the first delivery makes the next
step fail. The history is honest. -/
theorem C88_counterexample : ∃ (c : Cfg) (is : List In), 0 ≤ c.eps ∧ 0 ≤ c.capacity ∧
    c.throughput = 0 ∧ HonestRun c (enter c) is ∧ ¬ ∃ os s, History c is os s := by
  refine ⟨{ exCfg with throughput := 0 }, [⟨[], [], [u]⟩, ⟨[], [], []⟩], by decide +kernel,
    by decide +kernel, rfl, checkRun_sound (by decide +kernel), ?_⟩
  rintro ⟨os, s, h⟩
  have : (run { exCfg with throughput := 0 } (enter { exCfg with throughput := 0 })
      [⟨[], [], [u]⟩, ⟨[], [], []⟩]).toOption = none := by decide +kernel
  unfold History at h
  rw [h] at this
  cases this

/-- C90 fails: an honest history after which the facility holds product that a restart loses. -/
theorem C90_counterexample : ∃ (c : Cfg) (is : List In) (os : List Out) (s s' : State)
    (inv : List NMat), HonestRun c (enter c) is ∧ History c is os s ∧
      snapshot c s = .ok (inv, s) ∧ restart c inv = .ok s' ∧ 0 < product s ∧
      feed s' + product s' < feed s + product s := by
  have H : HonestRun exCfg (enter exCfg) (exIs ++ [⟨[], [], []⟩]) :=
    checkRun_sound (by decide +kernel)
  obtain ⟨⟨os, s⟩, h⟩ := exists_of_isOk
    (x := run exCfg (enter exCfg) (exIs ++ [⟨[], [], []⟩])) (by decide +kernel)
  have hS : Substantial (exIs ++ [⟨[], [], []⟩]) := by
    intro i hi m hm
    have : ∀ i ∈ exIs ++ [⟨[], [], []⟩], ∀ m ∈ i.buys, solid? m = true := by decide +kernel
    exact solid?_sound (this i hi m hm)
  obtain ⟨inv, s', h1, h2, h3, -⟩ := C90_restart_partial (by decide +kernel) (by decide +kernel) H
    hS (os := os) (s := s) h
  have hp : (run exCfg (enter exCfg) (exIs ++ [⟨[], [], []⟩])).toOption.map
      (fun x => decide (0 < product x.2)) = some true := by decide +kernel
  rw [h] at hp
  have hp' : 0 < product s := by simpa [Except.toOption] using hp
  refine ⟨exCfg, _, os, s, s', inv, H, h, h1, h2, hp', ?_⟩
  rw [C90_lost h2]
  unfold feed
  rw [h3]; linarith

/-- C91 fails: the request of the first step of the example is for 10 kg, although the throughput is
3 kg. -/
theorem C91_counterexample : ∃ (c : Cfg) (o : Out) (s : State) (p : ReqPort),
    step c (enter c) ⟨[], [], []⟩ = .ok (o, s) ∧ o.asks = some p ∧ c.throughput < p.cap := by
  obtain ⟨⟨o, s⟩, h⟩ := exists_of_isOk (x := step exCfg (enter exCfg) ⟨[], [], []⟩)
    (by decide +kernel)
  have hp : (step exCfg (enter exCfg) ⟨[], [], []⟩).toOption.map (fun x => x.1.asks) =
      some (some ⟨[("ore", 10), ("cake", 10)], 10⟩) := by decide +kernel
  rw [h] at hp
  have hp' : o.asks = some ⟨[("ore", 10), ("cake", 10)], 10⟩ := by simpa [Except.toOption] using hp
  exact ⟨exCfg, o, s, _, h, hp', by decide +kernel⟩

end Cyc.Conversion
