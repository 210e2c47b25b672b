import Verif.Separations.Lemmas5

/-!
# Separations: properties C27-C32

All statements are about a facility that was deployed and then lived through any list of steps
(`History`), with deliveries of positive quantity (`Substantial`). `Valid` is the input a user can
sensibly give; what happens otherwise is the subject of C30 and C70.
-/

namespace Cyc.Separations

open Mat (massOf)

/-! ## An example facility -/

/-- Plutonium with efficiency 9/10 into a stream of 2 kg; uranium entirely, but uranium-235 by one
half, into a stream without limit; 6 kg per step. -/
def exCfg : Cfg where
  feedCommods := ["spent", "other"]
  feedPrefs := [1, 2]
  feedbufSize := 20
  throughput := 6
  leftoverCommod := "waste"
  leftoverCap := none
  streams := [("pu", ⟨2, [(940000000, 9/10)]⟩), ("u", ⟨-1, [(920000000, 1), (922350000, 1/2)]⟩)]
  enterTime := 3
  exitTime := some 7
  eps := 1/1000000
  lo := 0

/-- Spent fuel: 1 part uranium-235, 7 parts uranium-238, 2 parts plutonium-239, 2 parts of
caesium. -/
def spent : NMat := ⟨[(922350000, 1), (922380000, 7), (942390000, 2), (551370000, 2)]⟩

/-- A delivery of 12 kg; two steps of processing, with sales of both products and leftover. -/
def exIn : List In :=
  [⟨fun _ => [], [], [spent]⟩, ⟨fun _ => [1, 100], [("u", 1), ("waste", 1/2)], []⟩,
    ⟨fun _ => [], [("u", 2), ("pu", 1)], []⟩]

/-- Deploy and run. -/
def play (c : Cfg) (is : List In) : R (List Out × State) := do
  let s ← enter c
  run c s is

theorem history_of_play {c : Cfg} {is : List In} {os : List Out} {s : State}
    (h : play c is = .ok (os, s)) : History c is os s := by
  simp only [play, bind_ok] at h
  exact h

theorem play_ok {c : Cfg} {is : List In} (h : (play c is).toOption.isSome = true) :
    ∃ os s, History c is os s := by
  cases hp : play c is with
  | error e => rw [hp] at h; simp [Except.toOption] at h
  | ok r => exact ⟨r.1, r.2, history_of_play hp⟩

theorem exIn_substantial : Substantial exIn := by
  intro i hi m hm
  simp only [exIn, List.mem_cons, List.not_mem_nil, or_false] at hi
  rcases hi with rfl | rfl | rfl <;>
    simp only [List.mem_cons, List.not_mem_nil, or_false] at hm
  subst hm
  refine ⟨by norm_num [spent, Mat.qty_def], ?_⟩
  intro e he
  simp only [spent, List.mem_cons, List.not_mem_nil, or_false] at he
  rcases he with rfl | rfl | rfl | rfl <;> norm_num

theorem exCfg_valid : Valid exCfg := by
  constructor
  · decide
  · decide
  · intro s hs e he
    simp only [exCfg, List.mem_cons, List.not_mem_nil, or_false] at hs
    rcases hs with rfl | rfl <;> simp only [List.mem_cons, List.not_mem_nil, or_false] at he
    · subst he; norm_num
    · rcases he with rfl | rfl <;> norm_num
  · intro n
    have h0 : ∀ k, entry [] k = none := fun _ => rfl
    simp only [share, exCfg, List.map_cons, List.map_nil, List.sum_cons, List.sum_nil, fraction,
      entry_cons, h0]
    have hn : ∀ a, 920000000 = n → element n = a → a = 920000000 := by
      rintro a rfl rfl; decide
    have hn' : ∀ a, 922350000 = n → element n = a → a = 920000000 := by
      rintro a rfl rfl; decide
    have hp : ∀ a, 940000000 = n → element n = a → a = 940000000 := by
      rintro a rfl rfl; decide
    have hu : element n ≠ 922350000 := by unfold element; omega
    generalize element n = a at *
    have hn := hn a; have hn' := hn' a; have hp := hp a
    simp only [forall_const] at hn hn' hp
    split_ifs <;> first | (exfalso; omega) | norm_num
  · norm_num [exCfg]
  · norm_num [exCfg]
  · norm_num [exCfg]
  · norm_num [exCfg]

/-- The example is a history: the hypotheses of the theorems below hold of it. -/
theorem exIn_happens : ∃ os s, History exCfg exIn os s := play_ok (by decide +kernel)

/-! ## C27 -/

/-- C27: processing neither creates nor destroys any nuclide; and over a whole history, what was
received is what is held plus what was sold. No assumption on streams and efficiencies. -/
theorem C27_conserved {c : Cfg} (hε : 0 ≤ c.eps) {is : List In} {os : List Out} {s : State}
    (h : History c is os s) (hs : Substantial is) :
    (∀ n, massOf (received is) n = massOf (contents s) n + massOf (sold os) n) ∧
    ∀ r s', tick c s = .ok (r, s') → ∀ n, massOf (contents s') n = massOf (contents s) n := by
  obtain ⟨s0, h0, h1⟩ := h
  have hf : AllNonneg s0.feed.items := by rw [(enter_inv h0).1]; exact AllNonneg.nil
  obtain ⟨h2, h3⟩ := run_conserve hε hf hs h1
  refine ⟨fun n => ?_, fun r s' h => (tick_conserve hε h3 h).1⟩
  have := h2 n
  rw [enter_contents h0] at this
  simp only [Mat.massOf_nil, zero_add] at this
  linarith

/-- In the example 2 kg of plutonium and 7 kg of uranium-238 were received. -/
example : ((play exCfg exIn).toOption.map fun r => (massOf (contents r.2) 942390000,
      massOf (sold r.1) 942390000, massOf (contents r.2) 922380000,
      massOf (sold r.1) 922380000)) = some (26/27, 28/27, 21/5, 14/5) := by
  decide +kernel

/-! ## C28 -/

/-- C28: a facility with feed takes the oldest `q` kg of it, `q` the lesser of throughput and feed.
If every limited stream has room for its share, each stream gains from each nuclide its fraction
(a nuclide entry overrides an element entry), leftover gains the rest, and the feed loses what was
taken. -/
theorem C28_efficiencies {c : Cfg} (V : Valid c) {is : List In} {os : List Out} {s : State}
    (h : History c is os s) (hs : Substantial is) (hne : s.feed.items ≠ []) {r : Option TickRec}
    {s' : State} (ht : tick c s = .ok (r, s')) {q : ℚ} {p : List NMat}
    (hq : q = min c.throughput (totalQty s.feed.items)) (hp : p = upto q s.feed.items)
    (hroom : ∀ st ∈ c.streams, 0 ≤ st.2.cap →
      totalQty (held s st.1) + yield st.2.effs p ≤ st.2.cap) :
    (∀ st ∈ c.streams, ∀ n, massOf (held s' st.1) n =
      massOf (held s st.1) n + fraction st.2.effs n * massOf p n) ∧
    (∀ n, massOf s'.leftover.items n =
      massOf s.leftover.items n + (1 - share c.streams n) * massOf p n) ∧
    (∀ n, massOf s'.feed.items n = massOf s.feed.items n - massOf p n) ∧
    totalQty p = q := by
  have I := history_inv V h hs
  obtain ⟨t, f, -, E, -⟩ := tick_eff V I hne ht
  subst hq; subst hp
  have hf : f = 1 := by
    rcases E.limit with h | ⟨st, hst, sp, h1, h2, h3⟩
    · exact h
    · obtain ⟨g1, g2, -⟩ := space_eq I hst h1
      have hr := hroom st hst g1
      have : sp = st.2.cap - totalQty (held s st.1) := g2
      have h5 : yield st.2.effs (upto (min c.throughput s.feed.quantity) s.feed.items) ≤
          f * yield st.2.effs (upto (min c.throughput s.feed.quantity) s.feed.items) := by
        rw [h3, this]
        have : s.feed.quantity = totalQty s.feed.items := rfl
        rw [this]; linarith
      have h6 := E.f1
      by_contra hne'
      have : f < 1 := lt_of_le_of_ne h6 hne'
      nlinarith
  subst hf
  refine ⟨fun st hst n => ?_, fun n => ?_, fun n => ?_, ?_⟩
  · have := E.stream st hst n
    rw [one_mul] at this; exact this
  · have := E.leftMass n
    simp only [if_true, one_mul, sub_zero] at this; exact this
  · have := E.feedMass n
    simp only [if_true, zero_mul, add_zero] at this
    rw [this, massOf_after]; rfl
  · exact totalQty_upto I.feedPos (le_min (le_of_lt V.throughput) I.feedNN.total_nonneg)
      (min_le_right _ _)

/-- C28, when space is short: there is one factor `f ≤ 1` by which all streams are scaled down; it
is 1 unless some limited stream is filled to the brim. -/
theorem C28_scaled {c : Cfg} (V : Valid c) {is : List In} {os : List Out} {s : State}
    (h : History c is os s) (hs : Substantial is) (hne : s.feed.items ≠ []) {r : Option TickRec}
    {s' : State} (ht : tick c s = .ok (r, s')) {q : ℚ} {p : List NMat}
    (hq : q = min c.throughput (totalQty s.feed.items)) (hp : p = upto q s.feed.items) :
    ∃ f, 0 ≤ f ∧ f ≤ 1 ∧
      (∀ st ∈ c.streams, ∀ n, massOf (held s' st.1) n =
        massOf (held s st.1) n + f * fraction st.2.effs n * massOf p n) ∧
      (f ≠ 1 → ∃ st ∈ c.streams, 0 < yield st.2.effs p ∧ totalQty (held s' st.1) = st.2.cap) ∧
      totalQty s'.feed.items = totalQty s.feed.items - f * q ∧
      totalQty s'.leftover.items = totalQty s.leftover.items + f * (q - yieldAll c.streams p) := by
  have I := history_inv V h hs
  obtain ⟨t, f, -, E, -⟩ := tick_eff V I hne ht
  subst hq; subst hp
  refine ⟨f, E.f0, E.f1, E.stream, ?_, E.feedQty, E.leftQty⟩
  intro hf
  rcases E.limit with h | ⟨st, hst, sp, h1, h2, h3⟩
  · exact absurd h hf
  · obtain ⟨g1, g2, -⟩ := space_eq I hst h1
    refine ⟨st, hst, h2, ?_⟩
    have := E.streamQty st hst
    rw [h3, g2] at this
    rw [this]
    show totalQty (getBuf s.bufs st.1).items + (st.2.cap - totalQty (getBuf s.bufs st.1).items) = _
    ring

/-- In the example the second step takes 6 kg: 9/10 kg of plutonium, 1/4 kg uranium-235, 7/2 kg
uranium-238, and 27/20 kg leftover. -/
example : ((play exCfg (exIn.take 2)).toOption.map fun r =>
      (totalQty (held r.2 "pu"), totalQty (held r.2 "u"), totalQty r.2.leftover.items,
        totalQty r.2.feed.items)) = some (9/10, 15/4 - 1, 27/20 - 1/2, 6) ∧
    ((play exCfg (exIn.take 1)).toOption.map fun r => r.2.feed.items) = some [spent] := by
  decide +kernel

/-! ## C29 -/

/-- C29: a step processes at most `throughput` kg (as recorded, and as taken from the feed), and no
limited stream ever holds more than its size. -/
theorem C29_limits {c : Cfg} (V : Valid c) {is : List In} {os : List Out} {s : State}
    (h : History c is os s) (hs : Substantial is) :
    (∀ o ∈ os, ∀ r, o.tick = some r → r.separating ≤ c.throughput) ∧
    (∀ st ∈ c.streams, 0 ≤ st.2.cap → totalQty (held s st.1) ≤ st.2.cap) ∧
    ∀ r s', tick c s = .ok (r, s') →
      totalQty s.feed.items - c.throughput ≤ totalQty s'.feed.items ∧
      totalQty s'.feed.items ≤ totalQty s.feed.items ∧
      ∀ st ∈ c.streams, 0 ≤ st.2.cap → totalQty (held s' st.1) ≤ st.2.cap := by
  have I := history_inv V h hs
  refine ⟨?_, fun st hst h0 => I.room st hst h0, fun r s' ht => ⟨?_, ?_, ?_⟩⟩
  · obtain ⟨s0, h0, h1⟩ := h
    have I0 := (enter_Inv V h0).1
    clear h0 I
    induction is generalizing s0 os with
    | nil =>
      simp only [run, Except.ok.injEq, Prod.mk.injEq] at h1
      obtain ⟨rfl, rfl⟩ := h1; simp
    | cons i is ih =>
      simp only [run, bind_ok] at h1
      obtain ⟨⟨o, s1⟩, h1, ⟨os', s2⟩, h2, h3⟩ := h1
      simp only [pure_eq_ok, Except.ok.injEq, Prod.mk.injEq] at h3
      obtain ⟨rfl, rfl⟩ := h3
      have I1 := step_inv V I0 (hs i (by simp)) h1
      intro o' ho r hr
      rcases List.mem_cons.1 ho with rfl | ho
      · simp only [step, bind_ok] at h1
        obtain ⟨⟨tr, s3⟩, g1, ⟨d, rq⟩, g2, -, -, ⟨sd, s4⟩, g3, s5, g4, g5⟩ := h1
        simp only [pure_eq_ok, Except.ok.injEq, Prod.mk.injEq] at g5
        obtain ⟨rfl, rfl⟩ := g5
        simp only at hr
        subst hr
        by_cases hne : s0.feed.items = []
        · rw [tick_empty hne] at g1; simp at g1
        · obtain ⟨t, f, ht, E, -⟩ := tick_eff V I0 hne g1
          simp only [Option.some.injEq] at ht
          subst ht
          rw [E.separating]; exact min_le_left _ _
      · exact ih (fun j hj => hs j (by simp [hj])) s1 h2 I1 o' ho r hr
  · by_cases hne : s.feed.items = []
    · rw [tick_empty hne] at ht
      simp only [Except.ok.injEq, Prod.mk.injEq] at ht
      rw [← ht.2]; have := V.throughput; linarith
    · obtain ⟨t, f, -, E, -⟩ := tick_eff V I hne ht
      have := E.feedQty
      have h1 : 0 ≤ min c.throughput s.feed.quantity :=
        le_min (le_of_lt V.throughput) I.feedNN.total_nonneg
      have h2 := E.f1
      have h3 : min c.throughput s.feed.quantity ≤ c.throughput := min_le_left _ _
      have h4 : s'.feed.quantity = totalQty s'.feed.items := rfl
      have h5 : s.feed.quantity = totalQty s.feed.items := rfl
      rw [h4] at this
      rw [this, ← h5]
      nlinarith
  · exact tick_feed_le V I ht
  · intro st hst h0; exact (tick_inv V I ht).room st hst h0

/-- A tight example: the plutonium stream has room for 1/2 kg only. -/
example : ((play { exCfg with streams := [("pu", ⟨1/2, [(940000000, 9/10)]⟩)] }
      (exIn.take 1 ++ [⟨fun _ => [], [], []⟩])).toOption.map fun r =>
      (totalQty (held r.2 "pu"), totalQty r.2.feed.items)) = some (1/2, 12 - 6 * (5/9)) := by
  decide +kernel

/-! ## C30 -/

/-- What the check at deployment does: it rejects exactly the tables in which the efficiencies
listed under one key (a nuclide or an element) add up to more than one. -/
theorem C30_exact {c : Cfg} (hn : ∀ s ∈ c.streams, (s.2.effs.map Prod.fst).Nodup) :
    (enter c = .error .value ↔ ∃ k, 1 < (c.streams.map fun s => (entry s.2.effs k).getD 0).sum) ∧
    ((∃ s, enter c = .ok s) ↔ ∀ k, (c.streams.map fun s => (entry s.2.effs k).getD 0).sum ≤ 1) := by
  obtain ⟨h1, h2⟩ := enter_check hn
  unfold listed at h1 h2
  refine ⟨⟨fun h => ?_, h1⟩, ⟨fun h => ?_, h2⟩⟩
  · by_contra hk
    push Not at hk
    obtain ⟨s, hs⟩ := h2 hk
    rw [hs] at h; cases h
  · by_contra hk
    push Not at hk
    obtain ⟨s, hs⟩ := h
    rw [h1 hk] at hs; cases hs

/-- C30, in part: if no stream lists both a nuclide and, possibly in another stream, its element
then an accepted table asks for at most all of that nuclide. Missing: nuclides for which one
stream lists the nuclide and another the element; see `C30_counterexample`. -/
theorem C30_rejected_partial {c : Cfg} (hn : ∀ s ∈ c.streams, (s.2.effs.map Prod.fst).Nodup)
    {n : Nat} (hk : (∀ s ∈ c.streams, entry s.2.effs n = none) ∨
      ∀ s ∈ c.streams, entry s.2.effs (element n) = none) (h : 1 < share c.streams n) :
    enter c = .error .value := by
  rw [(C30_exact hn).1]
  rcases hk with hk | hk
  · refine ⟨element n, ?_⟩
    convert h using 2
    unfold share
    congr 1
    apply List.map_congr_left
    intro s hs
    simp [fraction, hk s hs]
  · refine ⟨n, ?_⟩
    convert h using 2
    unfold share
    congr 1
    apply List.map_congr_left
    intro s hs
    cases h : entry s.2.effs n <;> simp [fraction, hk s hs, h]

/-- One stream takes all uranium, another all uranium-235. -/
def exDouble : Cfg := { exCfg with
  streams := [("a", ⟨-1, [(920000000, 1)]⟩), ("b", ⟨-1, [(922350000, 1)]⟩)] }

/-- C30 is false of the code as it stands: there is a table that asks for twice all of a nuclide and
is accepted; the facility then fails in the step after its first delivery. -/
theorem C30_counterexample : share exDouble.streams 922350000 = 2 ∧
    (∃ s, enter exDouble = .ok s) ∧
    (∃ os s, History exDouble [⟨fun _ => [], [], [spent]⟩] os s ∧ tick exDouble s = .error .value) := by
  refine ⟨by decide +kernel, ?_, ?_⟩
  · cases h : enter exDouble with
    | ok s => exact ⟨s, rfl⟩
    | error e =>
      have : (enter exDouble).toOption.isSome = true := by decide +kernel
      rw [h] at this; simp [Except.toOption] at this
  · cases h : play exDouble [⟨fun _ => [], [], [spent]⟩] with
    | error e =>
      have : (play exDouble [⟨fun _ => [], [], [spent]⟩]).toOption.isSome = true := by decide +kernel
      rw [h] at this; simp [Except.toOption] at this
    | ok r =>
      refine ⟨r.1, r.2, history_of_play h, ?_⟩
      have : ((play exDouble [⟨fun _ => [], [], [spent]⟩]).toOption.map fun r =>
        match tick exDouble r.2 with
        | .error .value => true
        | _ => false) = some true := by decide +kernel
      rw [h] at this
      simp only [Except.toOption, Option.map_some, Option.some.injEq] at this
      revert this
      cases tick exDouble r.2 with
      | ok x => simp
      | error e => cases e <;> simp

/-- One stream asks for all and a half of the uranium, another for minus a half. -/
def exMinus : Cfg := { exCfg with
  streams := [("a", ⟨-1, [(920000000, 3/2)]⟩), ("b", ⟨-1, [(920000000, -1/2)]⟩)] }

/-- C30: only the sum over the streams is checked, so a negative efficiency hides one above one; the
facility then fails in the step after its first delivery. -/
theorem C30_negative_counterexample : (∃ s, enter exMinus = .ok s) ∧
    (∃ os s, History exMinus [⟨fun _ => [], [], [spent]⟩] os s ∧ tick exMinus s = .error .value) := by
  constructor
  · cases h : enter exMinus with
    | ok s => exact ⟨s, rfl⟩
    | error e =>
      have : (enter exMinus).toOption.isSome = true := by decide +kernel
      rw [h] at this; simp [Except.toOption] at this
  · cases h : play exMinus [⟨fun _ => [], [], [spent]⟩] with
    | error e =>
      have : (play exMinus [⟨fun _ => [], [], [spent]⟩]).toOption.isSome = true := by decide +kernel
      rw [h] at this; simp [Except.toOption] at this
    | ok r =>
      refine ⟨r.1, r.2, history_of_play h, ?_⟩
      have : ((play exMinus [⟨fun _ => [], [], [spent]⟩]).toOption.map fun r =>
        match tick exMinus r.2 with
        | .error .value => true
        | _ => false) = some true := by decide +kernel
      rw [h] at this
      simp only [Except.toOption, Option.map_some, Option.some.injEq] at this
      revert this
      cases tick exMinus r.2 with
      | ok x => simp
      | error e => cases e <;> simp

/-- The example table of this file is accepted; with another stream for plutonium it is rejected. -/
example : (∃ s, enter exCfg = .ok s) ∧
    enter { exCfg with streams := exCfg.streams ++ [("pu2", ⟨1, [(940000000, 1/5)]⟩)] } =
      .error .value := by
  refine ⟨(enter_check ?_).2 ?_, (enter_check ?_).1 ⟨940000000, by decide +kernel⟩⟩
  · intro s hs
    simp only [exCfg, List.mem_cons, List.not_mem_nil, or_false] at hs
    rcases hs with rfl | rfl <;> decide
  · intro k
    exact (listed_le_share exCfg_valid.effs k).trans (exCfg_valid.share k)
  · intro s hs
    simp only [exCfg, List.cons_append, List.nil_append, List.mem_cons, List.not_mem_nil,
      or_false] at hs
    rcases hs with rfl | rfl | rfl <;> decide

/-! ## C31 -/

/-- C31: with as many preferences as feed commodities (or none, which means 1 for all), the request
of a step is for exactly the free feed space, under every feed commodity with its preference; there
is none exactly when the space is negligible or the feed in hand covers the remaining lifetime at
full throughput. The demand report is the free space, under the most preferred commodity.
Missing: lists of preferences of another length, which are not rejected (`C31_short_prefs`). -/
theorem C31_request_partial {c : Cfg} (V : Valid c) {is : List In} {os : List Out} {s : State}
    (h : History c is os s) (hs : Substantial is) (hc : c.feedCommods ≠ [])
    (hl : c.feedPrefs = [] ∨ c.feedPrefs.length = c.feedCommods.length) {space : ℚ}
    (hsp : space = max 0 (c.feedbufSize - totalQty s.feed.items)) {prefs : List ℚ}
    (hp : prefs = if c.feedPrefs = [] then c.feedCommods.map fun _ => 1 else c.feedPrefs) :
    ∃ (k : String) (j : Nat) (rq : Option Request), requests c s = .ok ((k, space), rq) ∧
      c.feedCommods[j]? = some k ∧
      (∀ (i : Nat) (q p : ℚ), prefs[i]? = some q → prefs[j]? = some p →
        q ≤ p ∧ (i < j → q < p)) ∧
      (rq = none ↔ space < c.eps ∨ ∃ te, c.exitTime = some te ∧
        ((te : ℚ) - s.time) * c.throughput ≤ totalQty s.feed.items) ∧
      ∀ r, rq = some r → r.amount = space ∧ r.commods = c.feedCommods.zip prefs := by
  have I := history_inv V h hs
  have hpf : s.prefs = prefs := by
    rw [I.prefs, hp]
    by_cases h0 : c.feedPrefs = []
    · simp [h0]
    · rw [if_neg h0, if_neg (by simpa using h0)]
  have hlen : s.prefs.length = c.feedCommods.length := prefs_length I
    ⟨hc, by rcases hl with h | h
            · left; rw [h]; rfl
            · right; exact h⟩
  have hne : s.prefs ≠ [] := by
    intro hn; rw [hn] at hlen; exact hc (List.eq_nil_of_length_eq_zero hlen.symm)
  have hlt := maxIndex_lt hne
  have hfs : feedSpace s = space := by rw [feedSpace_eq I, hsp]; rfl
  have hmax : ∀ (i : Nat) (q p : ℚ), prefs[i]? = some q → prefs[maxIndex s.prefs]? = some p →
      q ≤ p ∧ (i < maxIndex s.prefs → q < p) := by
    intro i q p h1 h2
    rw [← hpf] at h1 h2
    exact maxIndex_spec h2 i q h1
  have hen : enough c s = true ↔ ∃ te, c.exitTime = some te ∧
      ((te : ℚ) - s.time) * c.throughput ≤ totalQty s.feed.items := by
    unfold enough
    cases c.exitTime with
    | none => simp
    | some te => simp [Buf.quantity]
  have hreq : requests c s = if enough c s = true then
      .ok ((c.feedCommods[maxIndex s.prefs]'(by omega), space), none)
      else if space < c.eps then .ok ((c.feedCommods[maxIndex s.prefs]'(by omega), space), none)
      else .ok ((c.feedCommods[maxIndex s.prefs]'(by omega), space),
        some ⟨space, c.feedCommods.zip s.prefs⟩) := by
    unfold requests
    rw [at!_of_lt (show maxIndex s.prefs < c.feedCommods.length by omega), ok_bind]
    simp only [mkRequests_ok (show c.feedCommods.length ≤ s.prefs.length by omega), ok_bind, hfs,
      pure_eq_ok]
  refine ⟨c.feedCommods[maxIndex s.prefs]'(by omega), maxIndex s.prefs, ?_⟩
  have hk : c.feedCommods[maxIndex s.prefs]? = some (c.feedCommods[maxIndex s.prefs]'(by omega)) :=
    List.getElem?_eq_getElem _
  by_cases he : enough c s = true
  · refine ⟨none, by rw [hreq, if_pos he], hk, hmax, ?_, by simp⟩
    simp [hen.1 he]
  · by_cases hsm : space < c.eps
    · refine ⟨none, by rw [hreq, if_neg he, if_pos hsm], hk, hmax, ?_, by simp⟩
      simp [hsm]
    · refine ⟨_, by rw [hreq, if_neg he, if_neg hsm], hk, hmax, ?_, ?_⟩
      · rw [← hen]; simp [he, hsm]
      · rintro r hr
        simp only [Option.some.injEq] at hr
        subst hr
        exact ⟨rfl, by rw [hpf]⟩

/-- In the example the first request is for 20 kg, the second for 14 kg of free space; at time 5,
with two steps left, 12 kg would be enough and 6 kg are not. -/
example : ((play exCfg exIn).toOption.map fun r => r.1.map fun o => (o.demand, o.request)) =
    some [(("other", 20), some ⟨20, [("spent", 1), ("other", 2)]⟩),
      (("other", 14), some ⟨14, [("spent", 1), ("other", 2)]⟩),
      (("other", 20), some ⟨20, [("spent", 1), ("other", 2)]⟩)] := by
  decide +kernel

/-- C31 needs the lengths: they are not checked at deployment, and a short preference list makes
the first request read past its end. -/
theorem C31_short_prefs : ∃ c : Cfg, Valid c ∧ c.feedCommods ≠ [] ∧ ∃ s, enter c = .ok s ∧
    tick c s = .ok (none, s) ∧ requests c s = .error .ub := by
  refine ⟨{ exCfg with feedPrefs := [1] }, ?_, by decide, ?_⟩
  · obtain ⟨h1, h2, h3, h4, h5, h6, h7, h8⟩ := exCfg_valid
    exact ⟨h1, h2, h3, h4, h5, h6, h7, h8⟩
  · cases h : enter { exCfg with feedPrefs := [1] } with
    | error e =>
      have : (enter { exCfg with feedPrefs := [1] }).toOption.isSome = true := by decide +kernel
      rw [h] at this; simp [Except.toOption] at this
    | ok s =>
      refine ⟨s, rfl, tick_empty (by rw [(enter_inv h).1]), ?_⟩
      have : ((enter { exCfg with feedPrefs := [1] }).toOption.map fun s =>
        match requests { exCfg with feedPrefs := [1] } s with
        | .error .ub => true
        | _ => false) = some true := by decide +kernel
      rw [h] at this
      simp only [Except.toOption, Option.map_some, Option.some.injEq] at this
      revert this
      cases requests { exCfg with feedPrefs := [1] } s with
      | ok x => simp
      | error e => cases e <;> simp

/-! ## C32 -/

/-- C32: trades that the inventories cover are all carried out; each hands over exactly the traded
quantity; per commodity, what is handed over is the oldest material of its inventory and what
remains is the rest.
Missing: trades of less than `lo`, the least quantity that a buffer gives away (they throw, unless they
take all that there is: `C32_tiny_throws`). -/
theorem C32_sales_partial {c : Cfg} (V : Valid c) {is : List In} {os : List Out} {s : State}
    (h : History c is os s) (hs : Substantial is) {r : Option TickRec} {s₁ : State}
    (ht : tick c s = .ok (r, s₁)) {trades : List (String × ℚ)}
    (h0 : ∀ t ∈ trades, 0 < t.2 ∧ c.lo ≤ t.2)
    (hq : ∀ k, tradedIn k trades ≤ totalQty (stock c s₁ k)) :
    ∃ ms s', sellLoop c trades s₁ = .ok (ms, s') ∧ ms.map qty = trades.map Prod.snd ∧
      ∀ k n, massOf (((trades.zip ms).filter fun x => x.1.1 = k).map Prod.snd) n =
          massOf (upto (tradedIn k trades) (stock c s₁ k)) n ∧
        massOf (stock c s' k) n =
          massOf (stock c s₁ k) n - massOf (upto (tradedIn k trades) (stock c s₁ k)) n ∧
        totalQty (stock c s' k) = totalQty (stock c s₁ k) - tradedIn k trades := by
  have I := tick_inv V (history_inv V h hs) ht
  obtain ⟨ms, s', h1, h2, h3, h4, h5, I', -⟩ := sellLoop_ok V I h0 hq
  refine ⟨ms, s', h1, h2, fun k n => ⟨h3 k n, ?_, h5 k⟩⟩
  have hm := massOf_solid (I'.stockNN k) n
  rw [← hm, h4 k]
  have hnn : 0 ≤ tradedIn k trades := by
    apply List.sum_nonneg
    intro x hx
    obtain ⟨y, hy, rfl⟩ := List.mem_map.1 hx
    exact le_of_lt (h0 y (List.mem_filter.1 hy).1).1
  rw [massOf_after, massOf_solid (I.stockNN k), massOf_upto_solid (I.stockNN k) hnn]

/-- In the example the third step sells 2 kg out of the uranium stream and 1 kg plutonium. -/
example : ((play exCfg exIn).toOption.map fun r => r.1.map fun o => o.sold.map fun m =>
      (qty m, m.mass 942390000, m.mass 922380000)) =
    some [[], [(1, 0, 14/15), (1/2, 1/27, 0)], [(2, 0, 28/15), (1, 1, 0)]] := by
  decide +kernel

/-- C32 fails for small trades, in every state: a trade of less than `lo`, the least quantity that a
buffer gives away, throws although the inventory holds more, and with it the whole step. -/
theorem C32_tiny_throws (c : Cfg) (s : State) {t : String × ℚ} (ts : List (String × ℚ))
    (hlo : t.2 < c.lo) (hq : t.2 < totalQty (stock c s t.1)) (hε : 0 ≤ c.eps) :
    sellLoop c (t :: ts) s = .error .value := by
  have pop : ∀ b : Buf NMat, t.2 < b.quantity →
      b.popEps c.lo c.eps (min b.quantity t.2) = .error .value := by
    intro b hb
    rw [min_eq_right hb.le]
    unfold Buf.popEps Buf.popQty
    rw [if_neg (by linarith), if_neg (by linarith), if_pos (Or.inr (Or.inr hlo))]
  have one : sellOne c s t = .error .value := by
    unfold sellOne
    unfold stock at hq
    split
    · rename_i hk
      rw [if_pos hk] at hq
      rw [pop s.leftover hq]; rfl
    · rename_i hk
      rw [if_neg hk] at hq
      split
      · rename_i b hb
        unfold getBuf Map.getD at hq
        rw [hb] at hq
        rw [pop b hq]; rfl
      · rfl
  unfold sellLoop
  rw [one]; rfl

/-- In the example, with `lo` a thousandth: after one step the uranium stream holds more than three, and a
trade of a two-thousandth throws, while one of a thousandth is carried out. -/
example : ((play { exCfg with lo := 1/1000 } [⟨fun _ => [], [], [spent]⟩, ⟨fun _ => [], [], []⟩]).toOption.map
      fun r => (decide (3 < totalQty (stock exCfg r.2 "u")),
        (sellLoop { exCfg with lo := 1/1000 } [("u", 1/2000)] r.2).toOption.isNone,
        (sellLoop { exCfg with lo := 1/1000 } [("u", 1/1000)] r.2).toOption.isNone)) =
    some (true, true, false) := by
  decide +kernel

end Cyc.Separations
