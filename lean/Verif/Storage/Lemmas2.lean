import Verif.Storage.Lemmas

/-! # The invariant of a storage facility -/

namespace Cyc.Storage

variable {ν : Type}

/-- Arrivals that have been held for the residence time before step `now`. -/
def aged (c : Cfg) (now : Nat) (arr : List (Nat × Mat ν)) : List (Nat × Mat ν) :=
  arr.filter fun p => p.1 + c.residence < now

/-- Arrivals that have not. -/
def recent (c : Cfg) (now : Nat) (arr : List (Nat × Mat ν)) : List (Nat × Mat ν) :=
  arr.filter fun p => now ≤ p.1 + c.residence

/-- The materials of a list of arrivals. -/
abbrev mats (l : List (Nat × Mat ν)) : List (Mat ν) := l.map Prod.snd

theorem aged_append_recent {c : Cfg} {now : Nat} {arr : List (Nat × Mat ν)}
    (h : arr.Pairwise fun a b => a.1 ≤ b.1) : aged c now arr ++ recent c now arr = arr := by
  unfold aged recent
  induction arr with
  | nil => rfl
  | cons p l ih =>
    have hp := List.pairwise_cons.1 h
    by_cases hc : p.1 + c.residence < now
    · have hc' : ¬ now ≤ p.1 + c.residence := by omega
      simp only [List.filter_cons, hc, hc', decide_true, decide_false, if_true, List.cons_append]
      simp only [Bool.false_eq_true, if_false]
      rw [ih hp.2]
    · have hc' : now ≤ p.1 + c.residence := by omega
      have f1 : l.filter (fun q => decide (q.1 + c.residence < now)) = [] := by
        rw [List.filter_eq_nil_iff]; intro x hx; have := hp.1 x hx; simp; omega
      have f2 : l.filter (fun q => decide (now ≤ q.1 + c.residence)) = l := by
        rw [List.filter_eq_self]; intro x hx; have := hp.1 x hx; simp; omega
      simp [hc, hc', f1, f2]

/-- The arrivals of one step. -/
def batch (t : Nat) (ms : List (Mat ν)) : List (Nat × Mat ν) := ms.map fun m => (t, m)

/-- The invariant at the start of a step: `arr` is what arrived, `out` what was sold. -/
structure Inv [DecidableEq ν] (c : Cfg) (arr : List (Nat × Mat ν)) (out : List (Mat ν))
    (s : State ν) : Prop where
  isOpen : Open s
  inv : s.inventory.items = []
  sorted : arr.Pairwise fun a b => a.1 ≤ b.1
  past : ∀ p ∈ arr, p.1 < s.time
  pos : AllPos (mats arr)
  proc : s.processing.items = mats (recent c s.time arr)
  times : s.entryTimes = (recent c s.time arr).map Prod.fst
  stockPos : AllPos s.stocks.items
  outNonneg : 0 ≤ totalQty out
  le : totalQty s.stocks.items + totalQty out ≤ totalQty (mats (aged c s.time arr))
  ready : s.ready.items =
    after (totalQty s.stocks.items + totalQty out) (mats (aged c s.time arr))
  mass : ∀ n, Mat.massOf s.stocks.items n + Mat.massOf out n =
    Mat.massOf (upto (totalQty s.stocks.items + totalQty out) (mats (aged c s.time arr))) n
  label : ∀ m ∈ s.stocks.items ++ out, ∀ e ∈ m.entries,
    ∃ p ∈ aged c s.time arr, ∃ e' ∈ p.2.entries, e'.1 = e.1
  prefs : initPrefs c = .ok s.prefs

/-- What one step does, seen from outside. -/
structure StepFacts [DecidableEq ν] (c : Cfg) (arr : List (Nat × Mat ν)) (s : State ν) (i : In ν)
    (o : Out ν) (s' : State ν) : Prop where
  time : o.time = s.time
  time' : s'.time = s.time + 1
  offered : o.offered = s.stocks.items
  stock : o.stock = s'.stocks.items
  left : totalQty o.sold + totalQty o.left = totalQty o.offered
  soldNonneg : 0 ≤ totalQty o.sold
  leftPos : AllPos o.left
  soldFrom : ∀ m ∈ o.sold, ∀ e ∈ m.entries, ∃ m' ∈ o.offered, ∃ e' ∈ m'.entries, e'.1 = e.1
  rel : ∃ rel ready, o.stock = o.left ++ rel ∧ Moved c c.throughput ready rel ∧
    ready = s.ready.items ++
      mats (aged c (s.time + 1) (recent c s.time arr ++ batch s.time i.buys)) ∧
    s'.ready.items = after (totalQty rel) ready
  report : o.report.supply = totalQty o.stock ∧ o.report.demand = capacity c s' ∧
    c.outCommods[0]? = some o.report.supplyOf ∧
    c.inCommods[maxIndex s.prefs]? = some o.report.demandOf
  prefs : s'.prefs = s.prefs

theorem sorted_append {arr : List (Nat × Mat ν)} {t : Nat} {ms : List (Mat ν)}
    (h : arr.Pairwise fun a b => a.1 ≤ b.1) (hp : ∀ p ∈ arr, p.1 < t) :
    (arr ++ batch t ms).Pairwise fun a b => a.1 ≤ b.1 := by
  rw [List.pairwise_append]
  refine ⟨h, ?_, ?_⟩
  · rw [batch, List.pairwise_map]
    exact List.pairwise_of_forall (fun _ _ => le_rfl)
  · intro a ha b hb
    simp only [batch, List.mem_map] at hb
    obtain ⟨m, -, rfl⟩ := hb
    exact (hp a ha).le

theorem sells_nonneg {c : Cfg} (hε : 0 ≤ c.eps) {qs : List ℚ} {s s' : State ν}
    {ms : List (Mat ν)} (hp : AllPos s.stocks.items) (h : sellLoop c qs s = .ok (ms, s')) :
    0 ≤ totalQty ms := by
  induction qs generalizing s ms with
  | nil =>
    simp only [sellLoop, Except.ok.injEq, Prod.mk.injEq] at h
    obtain ⟨rfl, rfl⟩ := h; simp
  | cons q qs ih =>
    simp only [sellLoop, bind_ok] at h
    obtain ⟨⟨m, st⟩, h1, ⟨ms', s''⟩, h2, h3⟩ := h
    simp only [pure_eq_ok, Except.ok.injEq, Prod.mk.injEq] at h3
    obtain ⟨rfl, rfl⟩ := h3
    obtain ⟨p0, rfl, p2, p3, p4⟩ := popEps_inv hp hε h1
    have hp' := allPos_after (q := q) hp p0.le
    have := ih hp' h2
    simp only [Buf.quantity] at p2
    have h5 : totalQty (after q s.stocks.items) ≤ totalQty s.stocks.items := by
      by_cases hh : q ≤ totalQty s.stocks.items
      · rw [totalQty_after hp p0.le hh]; linarith
      · rw [after_all hp (not_le.1 hh).le]; simpa using hp.total_nonneg
    rw [totalQty_cons]; linarith

/-- The aged arrivals after one more step. -/
theorem aged_step {c : Cfg} {now : Nat} {arr : List (Nat × Mat ν)} {ms : List (Mat ν)}
    (h : arr.Pairwise fun a b => a.1 ≤ b.1) :
    aged c (now + 1) (arr ++ batch now ms) =
      aged c now arr ++ aged c (now + 1) (recent c now arr ++ batch now ms) := by
  conv_lhs => rw [← aged_append_recent (c := c) (now := now) h]
  simp only [aged, List.filter_append, List.append_assoc]
  congr 1
  rw [List.filter_eq_self]
  intro p hp
  simp only [List.mem_filter, decide_eq_true_eq] at hp ⊢
  omega

theorem recent_step {c : Cfg} {now : Nat} {arr : List (Nat × Mat ν)} {ms : List (Mat ν)} :
    recent c (now + 1) (recent c now arr ++ batch now ms) =
      recent c (now + 1) (arr ++ batch now ms) := by
  simp only [recent, List.filter_append, List.filter_filter]
  congr 1
  apply List.filter_congr
  intro p _
  rw [Bool.eq_iff_iff]
  simp only [Bool.and_eq_true, decide_eq_true_eq]
  omega

theorem step_inv [DecidableEq ν] {c : Cfg} (hε : 0 ≤ c.eps) {arr : List (Nat × Mat ν)}
    {out : List (Mat ν)} {s s' : State ν} {i : In ν} {o : Out ν} (H : Inv c arr out s)
    (hb : ∀ m ∈ i.buys, 0 < qty m) (h : step c s i = .ok (o, s')) :
    Inv c (arr ++ batch s.time i.buys) (out ++ o.sold) s' ∧ StepFacts c arr s i o s' := by
  simp only [step, bind_ok] at h
  obtain ⟨⟨sold, s1⟩, h1, s2, h2, ⟨rep, s3⟩, h3, h4⟩ := h
  simp only [pure_eq_ok, Except.ok.injEq, Prod.mk.injEq] at h4
  obtain ⟨rfl, rfl⟩ := h4
  have hsn := sells_nonneg hε H.stockPos h1
  obtain ⟨l, rfl, e2, e3, e4, e5⟩ := sellLoop_inv hε H.stockPos h1
  rw [addMat_fold (by exact H.isOpen.inventory)] at h2
  cases h2
  simp only [tock, bind_ok] at h3
  obtain ⟨t1, b1, t2, b2, t3, b3, d, b4, oc, b5, b6⟩ := h3
  simp only [pure_eq_ok, Except.ok.injEq, Prod.mk.injEq] at b6
  obtain ⟨rfl, rfl⟩ := b6
  rw [beginProcessing_eq (by exact H.isOpen.processing) (by rfl)] at b1
  cases b1
  simp only [H.inv, List.nil_append] at b2
  have hs := sorted_append (ms := i.buys) H.sorted H.past
  have hP : (recent c s.time arr ++ batch s.time i.buys).Pairwise fun a b => a.1 ≤ b.1 := by
    refine sorted_append (H.sorted.filter _) ?_
    intro p hp; exact H.past p (List.mem_filter.1 hp).1
  rw [tockReady_eq (P := recent c s.time arr ++ batch s.time i.buys) (by exact H.isOpen.ready) hP
    (by simp [H.proc, mats, batch, Function.comp_def])
    (by simp [H.times, batch, Function.comp_def])] at b2
  cases b2
  -- positivity of the ready buffer
  have hposall : AllPos (mats (arr ++ batch s.time i.buys)) := by
    intro m hm
    simp only [mats, List.map_append, List.mem_append] at hm
    rcases hm with hm | hm
    · exact H.pos m hm
    · simp only [batch, List.map_map, Function.comp_def, List.map_id'] at hm
      exact hb m hm
  have hposaged : AllPos (mats (aged c (s.time + 1) (arr ++ batch s.time i.buys))) := by
    intro m hm
    simp only [mats, aged, List.mem_map] at hm
    obtain ⟨p, hp, rfl⟩ := hm
    exact hposall _ (List.mem_map_of_mem (List.mem_filter.1 hp).1)
  have hagedEq := aged_step (c := c) (now := s.time) (ms := i.buys) H.sorted
  have hA0 : 0 ≤ totalQty s.stocks.items + totalQty out :=
    add_nonneg H.stockPos.total_nonneg H.outNonneg
  -- the ready buffer before processing
  have hready : s.ready.items ++
        mats (aged c (s.time + 1) (recent c s.time arr ++ batch s.time i.buys)) =
      after (totalQty s.stocks.items + totalQty out)
        (mats (aged c (s.time + 1) (arr ++ batch s.time i.buys))) := by
    rw [hagedEq] at hposaged ⊢
    simp only [mats, List.map_append] at hposaged ⊢
    rw [after_append hposaged hA0 H.le, H.ready]
  have hreadyPos : AllPos (s.ready.items ++
      mats (aged c (s.time + 1) (recent c s.time arr ++ batch s.time i.buys))) := by
    rw [hready]; exact allPos_after hposaged hA0
  have hle : totalQty s.stocks.items + totalQty out ≤
      totalQty (mats (aged c (s.time + 1) (arr ++ batch s.time i.buys))) := by
    have := H.le
    rw [hagedEq]
    simp only [mats, List.map_append, totalQty_append]
    have h2 : AllPos (mats (aged c (s.time + 1)
        (recent c s.time arr ++ batch s.time i.buys))) := (AllPos.append.1 hreadyPos).2
    have := h2.total_nonneg
    simp only [mats] at this
    linarith
  obtain ⟨rel, hm, rfl⟩ := processMat_inv hε (by exact H.isOpen.stocks)
    (by exact hreadyPos) b3
  have hm' : Moved c c.throughput (s.ready.items ++
      mats (aged c (s.time + 1) (recent c s.time arr ++ batch s.time i.buys))) rel := hm
  have hrelnn := hm.pos.total_nonneg
  have htot : totalQty (l ++ rel) + totalQty (out ++ sold) =
      (totalQty s.stocks.items + totalQty out) + totalQty rel := by
    simp only [totalQty_append]; linarith
  have hle2 := hm'.le
  rw [hready, totalQty_after hposaged hA0 hle] at hle2
  refine ⟨⟨⟨H.isOpen.inventory, H.isOpen.processing, H.isOpen.ready, H.isOpen.stocks⟩, ?_, ?_, ?_,
      ?_, ?_, ?_, ?_, ?_, ?_, ?_, ?_, ?_, H.prefs⟩,
    ⟨rfl, rfl, rfl, rfl, e3, hsn, e2, fun m hm => e5 m (by simp [hm]), ⟨rel, _, rfl, hm', rfl, rfl⟩, ?_, rfl⟩⟩
  · rfl
  · exact hs
  · intro p hp
    rcases List.mem_append.1 hp with hp | hp
    · exact Nat.lt_succ_of_lt (H.past p hp)
    · simp only [batch, List.mem_map] at hp
      obtain ⟨m, -, rfl⟩ := hp
      exact Nat.lt_succ_self _
  · exact hposall
  · exact congrArg mats recent_step
  · exact congrArg (List.map Prod.fst) recent_step
  · exact AllPos.append.2 ⟨e2, hm.pos⟩
  · rw [totalQty_append]; have := H.outNonneg; linarith
  · simp only
    rw [htot]; linarith
  · simp only
    rw [htot, ← after_after hposaged hA0 hrelnn, ← hready]
    rfl
  · intro n
    simp only
    rw [htot, massOf_upto_add hposaged hA0 hrelnn, ← hready]
    have h1 := hm'.mass n
    have h2 := H.mass n
    have h3 := e4 n
    have h4 : Mat.massOf (upto (totalQty s.stocks.items + totalQty out)
        (mats (aged c (s.time + 1) (arr ++ batch s.time i.buys)))) n =
        Mat.massOf (upto (totalQty s.stocks.items + totalQty out)
        (mats (aged c s.time arr))) n := by
      rw [hagedEq] at hposaged ⊢
      simp only [mats, List.map_append] at hposaged ⊢
      exact massOf_upto_append hposaged hA0 H.le n
    simp only [Mat.massOf_append]
    rw [h4]
    linarith
  · intro m hmem e he
    have hsub : ∀ p ∈ aged c s.time arr, p ∈ aged c (s.time + 1) (arr ++ batch s.time i.buys) := by
      intro p hp; rw [hagedEq]; exact List.mem_append_left _ hp
    have old : ∀ m ∈ s.stocks.items ++ out, ∀ e ∈ m.entries,
        ∃ p ∈ aged c (s.time + 1) (arr ++ batch s.time i.buys), ∃ e' ∈ p.2.entries,
          e'.1 = e.1 := by
      intro m hm e he
      obtain ⟨p, hp, h⟩ := H.label m hm e he
      exact ⟨p, hsub p hp, h⟩
    simp only [List.mem_append] at hmem
    rcases hmem with (hmem | hmem) | (hmem | hmem)
    · obtain ⟨m', hm', e', he', hh⟩ := e5 m (by simp [hmem]) e he
      obtain ⟨p, hp, e'', he'', hh'⟩ := old m' (by simp [hm']) e' he'
      exact ⟨p, hp, e'', he'', hh'.trans hh⟩
    · obtain ⟨m', hmm, e', he', hh⟩ := hm'.label m hmem e he
      rw [hready] at hmm
      obtain ⟨m'', hm'', e'', he'', hh'⟩ := mem_after hmm he'
      simp only [mats, List.mem_map] at hm''
      obtain ⟨p, hp, rfl⟩ := hm''
      exact ⟨p, hp, e'', he'', hh'.trans hh⟩
    · exact old m (by simp [hmem]) e he
    · obtain ⟨m', hm', e', he', hh⟩ := e5 m (by simp [hmem]) e he
      obtain ⟨p, hp, e'', he'', hh'⟩ := old m' (by simp [hm']) e' he'
      exact ⟨p, hp, e'', he'', hh'.trans hh⟩
  · exact ⟨rfl, rfl, at!_ok.1 b5, at!_ok.1 b4⟩

theorem step_ok [DecidableEq ν] {c : Cfg} (hε : 0 ≤ c.eps) (hw : WellFormed c)
    (ht : c.discrete = true ∨ (0 < c.throughput ∧ c.lo ≤ c.throughput))
    {arr : List (Nat × Mat ν)} {out : List (Mat ν)} {s : State ν} {i : In ν} (H : Inv c arr out s)
    (hh : Honest c s i) : ∃ o s', step c s i = .ok (o, s') ∧ o.sold.map qty = i.sells := by
  obtain ⟨ms, s1, h1, h1'⟩ := sellLoop_ok hε H.stockPos hh.sells hh.total
  obtain ⟨l, rfl, e2, e3, e4, e5⟩ := sellLoop_inv hε H.stockPos h1
  have hP : (recent c s.time arr ++ batch s.time i.buys).Pairwise fun a b => a.1 ≤ b.1 := by
    refine sorted_append (H.sorted.filter _) ?_
    intro p hp; exact H.past p (List.mem_filter.1 hp).1
  simp only [step, h1, ok_bind]
  rw [addMat_fold (by exact H.isOpen.inventory)]
  simp only [ok_bind, tock]
  rw [beginProcessing_eq (by exact H.isOpen.processing) (by rfl)]
  simp only [H.inv, List.nil_append, ok_bind]
  rw [tockReady_eq (P := recent c s.time arr ++ batch s.time i.buys) (by exact H.isOpen.ready) hP
    (by simp [H.proc, mats, batch, Function.comp_def])
    (by simp [H.times, batch, Function.comp_def])]
  simp only [ok_bind]
  have hready : AllPos (s.ready.items ++
      (List.map Prod.snd (List.filter (fun p => decide (p.1 + c.residence < s.time + 1))
        (recent c s.time arr ++ batch s.time i.buys)))) := by
    refine AllPos.append.2 ⟨?_, ?_⟩
    · rw [H.ready]
      refine allPos_after ?_ (add_nonneg H.stockPos.total_nonneg H.outNonneg)
      intro m hm
      simp only [mats, aged, List.mem_map] at hm
      obtain ⟨p, hp, rfl⟩ := hm
      exact H.pos _ (List.mem_map_of_mem (List.mem_filter.1 hp).1)
    · intro m hm
      simp only [List.mem_map, List.mem_filter, List.mem_append] at hm
      obtain ⟨p, ⟨hp | hp, -⟩, rfl⟩ := hm
      · exact H.pos _ (List.mem_map_of_mem (List.mem_filter.1 hp).1)
      · simp only [batch, List.mem_map] at hp
        obtain ⟨m, hm, rfl⟩ := hp
        exact hh.buys m hm
  obtain ⟨s3, h3⟩ := processMat_ok (c := c) (cap := c.throughput) (s := { s with
      inventory := ⟨s.inventory.cap, []⟩
      stocks := ⟨s.stocks.cap, l⟩
      processing := ⟨s.processing.cap, (List.filter (fun p =>
        decide (s.time + 1 ≤ p.1 + c.residence))
          (recent c s.time arr ++ batch s.time i.buys)).map Prod.snd⟩
      ready := ⟨s.ready.cap, s.ready.items ++ (List.map Prod.snd
        (List.filter (fun p => decide (p.1 + c.residence < s.time + 1))
        (recent c s.time arr ++ batch s.time i.buys)))⟩
      entryTimes := (List.filter (fun p =>
        decide (s.time + 1 ≤ p.1 + c.residence))
          (recent c s.time arr ++ batch s.time i.buys)).map Prod.fst }) hε
    H.isOpen.stocks hready ht
  obtain ⟨rel, -, hs3⟩ := processMat_inv hε (by exact H.isOpen.stocks) (by exact hready) h3
  have hpr : s3.prefs = s.prefs := by rw [hs3]
  rw [h3]
  simp only [ok_bind]
  have hlen : maxIndex s3.prefs < c.inCommods.length := by
    rw [hpr]
    have hp := H.prefs
    have hne := hw.inCommods
    unfold initPrefs at hp
    split at hp
    · rw [Except.ok.injEq] at hp
      rw [← hp]
      have := maxIndex_lt (l := c.inCommods.map fun _ => (1 : ℚ)) (by simpa using hne)
      simpa using this
    · split at hp
      · cases hp
      · rename_i h1 h2
        rw [Except.ok.injEq] at hp
        rw [← hp]
        have h2' : c.prefs.length = c.inCommods.length := by tauto
        rw [← h2']
        exact maxIndex_lt (fun h => h1 (by simp [h]))
  rw [at!_of_lt hlen, at!_of_lt (l := c.outCommods) (i := 0) (by rw [hw.outCommods]; exact Nat.one_pos)]
  exact ⟨_, _, rfl, h1'⟩

end Cyc.Storage
