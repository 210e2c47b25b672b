import Verif.Mixer.Lemmas2

/-!
# Mixer: properties C49-C51, C53 and C84
-/

namespace Cyc.Mixer

open Mat (massOf)

/-- A concrete facility: one part of the first stream to three parts of the second. -/
def exCfg : Cfg where
  streams := [⟨1, 100, [("du", 1), ("natu", 2)]⟩, ⟨3, 200, [("pu", 1)]⟩]
  outCommod := "mox"
  outSize := 50
  throughput := 20
  eps := 1 / 1000000
  lo := 1 / 1000000

/-- `kg` of one nuclide. -/
def only (n : Nat) (kg : ℚ) : NMat := ⟨[(n, kg)]⟩

/-- Two deliveries, a step without trades, a sale. -/
def exIn : List In :=
  [⟨fun i j => 10 * i + j, [], [(1, only 922380000 10), (10, only 942390000 60)]⟩,
   ⟨fun i j => 10 * i + j, [], []⟩,
   ⟨fun i j => 10 * i + j, [5], []⟩]

theorem exValid : Valid exCfg :=
  ⟨by decide, by decide +kernel, by decide +kernel, by decide +kernel, by decide +kernel⟩

theorem solid_only (n : Nat) {q : ℚ} (hq : 0 < q) : Solid (only n q) :=
  ⟨by simpa [only, Mat.qty_def] using hq,
    by intro e he; simp only [only, List.mem_singleton] at he; subst he; exact le_of_lt hq⟩

theorem exSubstantial : Substantial exIn := by
  intro i hi d hd
  simp only [exIn, List.mem_cons, List.not_mem_nil, or_false] at hi
  rcases hi with rfl | rfl | rfl
  · simp only [List.mem_cons, List.not_mem_nil, or_false] at hd
    rcases hd with rfl | rfl
    · exact solid_only _ (by norm_num)
    · exact solid_only _ (by norm_num)
  · exact absurd hd List.not_mem_nil
  · exact absurd hd List.not_mem_nil

theorem exists_of_isOk {α : Type} {x : R α} (h : x.toOption.isSome = true) : ∃ a, x = .ok a := by
  cases x with
  | error e => simp [Except.toOption] at h
  | ok a => exact ⟨a, rfl⟩

theorem exHistory : ∃ os s, History exCfg exIn os s := by
  obtain ⟨⟨os, s⟩, h⟩ := exists_of_isOk (x := run exCfg (enter exCfg) exIn) (by decide +kernel)
  exact ⟨os, s, h⟩

/-! ## C49 -/

/-- C49: once deployed, there is a ratio for each stream, none is negative, they add up to one and
are in the proportion configured; if all are configured to be zero they are equal. -/
theorem C49_ratios {c : Cfg} (hne : c.streams ≠ []) (hr : ∀ x ∈ c.streams, 0 ≤ x.ratio) :
    (enter c).ratios.length = c.streams.length ∧ (∀ r ∈ (enter c).ratios, 0 ≤ r) ∧
      (enter c).ratios.sum = 1 ∧
      (∀ (i j : Nat) (x y : Stream) (a b : ℚ), c.streams[i]? = some x → c.streams[j]? = some y →
        (enter c).ratios[i]? = some a → (enter c).ratios[j]? = some b →
          a * y.ratio = b * x.ratio) ∧
      ((∀ x ∈ c.streams, x.ratio = 0) → ∀ a ∈ (enter c).ratios, ∀ b ∈ (enter c).ratios, a = b) := by
  have hr' : ∀ r ∈ c.streams.map Stream.ratio, 0 ≤ r := by
    intro r h; obtain ⟨x, hx, rfl⟩ := List.mem_map.1 h; exact hr x hx
  show (normalise _).length = _ ∧ (∀ r ∈ normalise _, 0 ≤ r) ∧ (normalise _).sum = 1 ∧ _
  refine ⟨by rw [normalise_length, List.length_map], normalise_nonneg hr',
    normalise_sum (by simpa using hne), ?_, ?_⟩
  · intro i j x y a b hi hj ha hb
    change (normalise (c.streams.map Stream.ratio))[i]? = some a at ha
    change (normalise (c.streams.map Stream.ratio))[j]? = some b at hb
    by_cases h0 : (c.streams.map Stream.ratio).sum = 0
    · have hz := sum_eq_zero hr' h0
      rw [hz x.ratio (List.mem_map.2 ⟨x, List.mem_of_getElem? hi, rfl⟩),
        hz y.ratio (List.mem_map.2 ⟨y, List.mem_of_getElem? hj, rfl⟩)]; ring
    · unfold normalise at ha hb
      rw [if_pos h0] at ha hb
      simp only [List.getElem?_map, hi, hj, Option.map_some, Option.some.injEq] at ha hb
      rw [← ha, ← hb]; ring
  · intro hz a ha b hb
    have h0 : (c.streams.map Stream.ratio).sum = 0 := by
      apply List.sum_eq_zero
      intro r h; obtain ⟨x, hx, rfl⟩ := List.mem_map.1 h; exact hz x hx
    change a ∈ normalise (c.streams.map Stream.ratio) at ha
    change b ∈ normalise (c.streams.map Stream.ratio) at hb
    unfold normalise at ha hb
    rw [if_neg (not_not.2 h0)] at ha hb
    obtain ⟨_, _, rfl⟩ := List.mem_map.1 ha
    obtain ⟨_, _, rfl⟩ := List.mem_map.1 hb
    rfl

example : (enter exCfg).ratios = [1 / 4, 3 / 4] := by decide +kernel
example : (enter { exCfg with streams := exCfg.streams.map fun x => { x with ratio := 0 } }).ratios =
    [1 / 2, 1 / 2] := by decide +kernel

/-! ## C50 and C51 -/

/-- C50: in each step the facility mixes some amount `t`: every stream loses its ratio of `t`,
oldest material first, and the output grows by `t`. If `t` is positive that is one new batch of
output that has, nuclide by nuclide, what the streams lost; if it is zero nothing changes. -/
theorem C50_mix {c : Cfg} (V : Valid c) {is : List In} {os : List Out} {s s' : State}
    (h : History c is os s) (hd : Substantial is) (ht : tick c s = .ok s') :
    ∃ t, 0 ≤ t ∧
      (∀ (k : Nat) (r : ℚ), s.ratios[k]? = some r →
        totalQty (held s' k) = totalQty (held s k) - r * t ∧
        ∀ n, massOf (held s' k) n = massOf (held s k) n - massOf (upto (r * t) (held s k)) n) ∧
      totalQty s'.output.items = totalQty s.output.items + t ∧
      (t = 0 → s'.output.items = s.output.items) ∧
      (0 < t → ∃ m, s'.output.items = s.output.items ++ [m] ∧ ∀ n, m.mass n =
        (s.ratios.zipIdx.map fun x => massOf (upto (x.1 * t) (held s x.2)) n).sum) ∧
      s'.ratios = s.ratios := by
  have I := history_inv V hd h
  obtain ⟨t, G, T, I'⟩ := tick_inv V I ht
  obtain ⟨t0, t1, t2, t3⟩ := G.1
  refine ⟨t, t0, ?_, ?_, ?_, ?_, T.ratios⟩
  · intro k r hk
    have hr := I.nonneg V r (List.mem_of_getElem? hk)
    have hs : ∀ m ∈ held s k, Solid m := I.good.get _
    rw [T.streams k r hk]
    split
    · rename_i h0
      subst h0
      rw [mul_zero]
      refine ⟨by ring, fun n => ?_⟩
      rw [massOf_upto_zero (allNonneg_of_solid hs)]; ring
    · exact ⟨totalQty_after (allPos_of_solid hs) (mul_nonneg hr t0) (t3 k r hk),
        fun n => massOf_after n⟩
  · rcases T.output with ⟨h0, e⟩ | ⟨-, m, e1, -, e3⟩
    · rw [e, h0, add_zero]
    · rw [e3]; simp [e1]
  · intro h0
    rcases T.output with ⟨-, e⟩ | ⟨hp, -⟩
    · rw [e]
    · linarith
  · intro hp
    rcases T.output with ⟨h0, -⟩ | ⟨-, m, -, e2, e3⟩
    · linarith
    · exact ⟨m, by rw [e3], fun n => e2 n⟩

/-- After the first step of the example a quarter of 20 kg comes from the first stream and three
quarters from the second. -/
example : ((do
    let r ← run exCfg (enter exCfg) (exIn.take 1)
    let s ← tick exCfg r.2
    pure (totalQty (held s 0), totalQty (held s 1), s.output.items)) : R _).toOption =
    some (5, 45, [⟨[(922380000, 5), (942390000, 15)]⟩]) := by decide +kernel

/-- C51: the amount by which the output grows in a step is the greatest that is within the
throughput and the free space of the output and of which no stream has to give more than it
holds. -/
theorem C51_limits {c : Cfg} (V : Valid c) {is : List In} {os : List Out} {s s' : State}
    (h : History c is os s) (hd : Substantial is) (ht : tick c s = .ok s') :
    IsGreatest {t | 0 ≤ t ∧ t ≤ c.throughput ∧ t ≤ c.outSize - totalQty s.output.items ∧
        ∀ (k : Nat) (r : ℚ), s.ratios[k]? = some r → r * t ≤ totalQty (held s k)}
      (totalQty s'.output.items - totalQty s.output.items) := by
  have I := history_inv V hd h
  obtain ⟨t, G, T, I'⟩ := tick_inv V I ht
  have : totalQty s'.output.items - totalQty s.output.items = t := by
    rcases T.output with ⟨h0, e⟩ | ⟨-, m, e1, -, e3⟩
    · rw [e, h0]; ring
    · rw [e3]; simp [e1]
  rw [this]
  exact G

example : ∃ is os s s', History exCfg is os s ∧ Substantial is ∧ tick exCfg s = .ok s' ∧
    totalQty s'.output.items - totalQty s.output.items = 20 := by
  obtain ⟨⟨os, s⟩, h⟩ := exists_of_isOk (x := run exCfg (enter exCfg) (exIn.take 1))
    (by decide +kernel)
  have key : ((run exCfg (enter exCfg) (exIn.take 1)).bind fun r => (tick exCfg r.2).map fun s' =>
      decide (totalQty s'.output.items - totalQty r.2.output.items = 20)).toOption = some true := by
    decide +kernel
  rw [h] at key
  simp only [Except.bind] at key
  cases ht : tick exCfg s with
  | error e => rw [ht] at key; simp [Except.map, Except.toOption] at key
  | ok s' =>
    rw [ht] at key
    refine ⟨_, os, s, s', h, fun i hi => exSubstantial i (List.mem_of_mem_take hi), ht, ?_⟩
    simpa [Except.map, Except.toOption] using key

/-! ## C53 -/

theorem space_room {c : Cfg} {s : State} (I : Inv c s) {k : Nat} {x : Stream}
    (hk : c.streams[k]? = some x) : (getBuf s.bufs (name k)).space = room x (held s k) := by
  unfold Buf.space room
  rw [I.caps k x hk]
  split <;> rfl

theorem hasRoom_iff {eps : ℚ} {b : Buf NMat} : hasRoom eps b = true ↔ Exceeds eps b.space := by
  unfold hasRoom Exceeds
  cases b.space <;> simp

/-- C53, requests: in each step there is for every stream one portfolio if the stream has room, and
none otherwise; it asks for exactly the free space of the stream, in every commodity of the stream
with its preference. The free space is also reported as the demand. -/
theorem C53_requests {c : Cfg} (V : Valid c) {is : List In} {os : List Out} {s s' : State} {i : In}
    {o : Out} (h : History c is os s) (hd : Substantial is) (hs : step c s i = .ok (o, s')) :
    ∃ s₁, tick c s = .ok s₁ ∧ o.asks.length = c.streams.length ∧
      (∀ (k : Nat) (x : Stream), c.streams[k]? = some x → ∃ p, o.asks[k]? = some p ∧
        (p ≠ none ↔ Exceeds c.eps (room x (held s₁ k))) ∧
        ∀ q, p = some q → q.amount = room x (held s₁ k) ∧
          q.reqs.map (fun r => (r.commod, r.pref)) = x.commods) ∧
      o.demand = c.streams.zipIdx.flatMap fun x => x.1.commods.map fun y =>
        (y.1, room x.1 (held s₁ x.2)) := by
  have I := history_inv V hd h
  obtain ⟨s₁, s₂, S⟩ := step_stages hs
  obtain ⟨t, -, -, I1⟩ := tick_inv V I S.tick
  have hr := (requestLoop_spec c i.addr 0 c.streams s₁).1
  refine ⟨s₁, S.tick, ?_, ?_, ?_⟩
  · rw [S.asks]; unfold requests; rw [hr]; simp
  · intro k x hk
    refine ⟨ask c i.addr s₁.bufs (x, k), ?_, ?_, ?_⟩
    · rw [S.asks]; unfold requests; rw [hr]
      simp [hk]
    · have e := space_room I1 hk
      unfold ask
      rw [← e, ← hasRoom_iff]
      by_cases hh : hasRoom c.eps (getBuf s₁.bufs (name k)) = true
      · simp [hh]
      · simp [hh]
    · intro q hq
      unfold ask at hq
      simp only at hq
      split at hq
      · simp only [Option.some.injEq] at hq
        subst hq
        refine ⟨space_room I1 hk, ?_⟩
        simp only [mkReqs, List.map_map]
        have : ((fun r : Req => (r.commod, r.pref)) ∘ fun y : (String × ℚ) × Nat =>
            (⟨i.addr k y.2, y.1.1, y.1.2⟩ : Req)) = Prod.fst := by
          funext y; rfl
        rw [this, List.zipIdx_map_fst]
      · cases hq
  · rw [S.demand]
    unfold demand
    rw [List.flatMap_def, List.flatMap_def]
    congr 1
    apply List.map_congr_left
    intro x hx
    have hk : c.streams[x.2]? = some x.1 := List.mem_zipIdx_iff_getElem?.1 hx
    rw [space_room I1 hk]

/-- C53, deliveries: if no two requests of the step have the same address and each delivery answers
one of them, every stream gains exactly the deliveries that answer its requests, in order. -/
theorem C53_routed {c : Cfg} (V : Valid c) {is : List In} {os : List Out} {s s' : State} {i : In}
    {o : Out} (h : History c is os s) (hd : Substantial (is ++ [i])) (hs : step c s i = .ok (o, s'))
    (hn : Distinct o.asks) (ha : ∀ d ∈ i.buys, ∃ k, d.1 ∈ idsAt o.asks k) :
    ∃ s₁, tick c s = .ok s₁ ∧ ∀ k, held s' k = held s₁ k ++ answers o.asks k i.buys := by
  have I := history_inv V (fun x hx => hd x (by simp [hx])) h
  obtain ⟨s₁, s₂, S⟩ := step_stages hs
  obtain ⟨t, -, -, I1⟩ := tick_inv V I S.tick
  obtain ⟨I2, e2, -, -⟩ := requests_inv (addr := i.addr) I1
  obtain ⟨I3, b3, r3, -⟩ := sellLoop_inv V.eps I2 S.sells
  obtain ⟨-, -, e4, -⟩ := accept_inv I3 (hd i (by simp)) S.accept
  refine ⟨s₁, S.tick, ?_⟩
  intro k
  have h6 := (requestLoop_spec c i.addr 0 c.streams s₁).2.2.2.2.2
  simp only [zero_add] at h6
  rw [S.asks] at hn ha ⊢
  rw [e4, r3, noted_eq (inv := (requests c i.addr s₁).2.reqInv) (h6 hn) ha]
  congr 1
  rw [← e2]
  unfold held
  rw [b3]

/-- C53, deliveries that answer no request ever made are refused. -/
theorem C53_refused {c : Cfg} (V : Valid c) {is : List In} {os : List Out} {s : State} {i : In}
    (h : History c is os s) (hd : Substantial (is ++ [i])) {d : Nat × NMat} (hb : d ∈ i.buys)
    (hun : ∀ s₁, tick c s = .ok s₁ → d.1 ∉ Map.keys (requests c i.addr s₁).2.reqInv) :
    ∀ o s', step c s i ≠ .ok (o, s') := by
  intro o s' hs
  have I := history_inv V (fun x hx => hd x (by simp [hx])) h
  obtain ⟨s₁, s₂, S⟩ := step_stages hs
  obtain ⟨t, -, -, I1⟩ := tick_inv V I S.tick
  obtain ⟨I2, -⟩ := requests_inv (addr := i.addr) I1
  obtain ⟨I3, b3, r3, -⟩ := sellLoop_inv V.eps I2 S.sells
  have hnone : Map.getD s₂.reqInv d.1 "" = "" := by
    rw [r3, Map.getD, Map.get?_eq_none.2 (hun s₁ S.tick)]; rfl
  have key : ∀ (ds : List (Nat × NMat)) (s s' : State), Inv c s → (∀ d ∈ ds, Solid d.2) → d ∈ ds →
      Map.getD s.reqInv d.1 "" = "" → ds.foldlM (acceptOne c) s ≠ .ok s' := by
    intro ds
    induction ds with
    | nil => intro s s' _ _ hm; simp at hm
    | cons x ds ih =>
      intro s s' I hds hm hno hf
      simp only [List.foldlM_cons, bind_ok] at hf
      obtain ⟨sa, f1, f2⟩ := hf
      rcases List.mem_cons.1 hm with rfl | hm
      · unfold acceptOne at f1
        rw [hno] at f1
        cases hg : Map.get? s.bufs "" with
        | none => rw [hg] at f1; cases f1
        | some b =>
          obtain ⟨j, -, e⟩ := I.good.keys _ (Map.mem_keys.2 ⟨b, hg⟩)
          exact name_ne_empty j e.symm
      · have hx : [x].foldlM (acceptOne c) s = .ok sa := by
          simp only [List.foldlM_cons, List.foldlM_nil, f1, ok_bind, pure_eq_ok]
        obtain ⟨Ia, -, ra, -⟩ := fold_inv I (by simpa using hds x (by simp)) hx
        exact ih sa s' Ia (fun y hy => hds y (by simp [hy])) hm (by rw [ra]; exact hno) f2
  have hacc := S.accept
  cases hbs : i.buys with
  | nil => rw [hbs] at hb; simp at hb
  | cons x xs =>
    rw [hbs] at hacc
    simp only [accept, bind_ok] at hacc
    obtain ⟨sa, f1, -⟩ := hacc
    have hds : ∀ d ∈ x :: xs, Solid d.2 := by
      have := hd i (by simp)
      rw [hbs] at this; exact this
    exact key (x :: xs) s₂ sa I3 hds (by rw [← hbs]; exact hb) hnone f1

/-- The first step of the example: three requests; the deliveries go to the first and the second
stream. -/
example : ((do
    let r ← step exCfg (enter exCfg) ⟨fun i j => 10 * i + j, [],
      [(1, only 922380000 10), (10, only 942390000 60)]⟩
    pure (r.1.asks, held r.2 0, held r.2 1)) : R _).toOption =
    some ([some ⟨some 100, [⟨0, "du", 1⟩, ⟨1, "natu", 2⟩]⟩, some ⟨some 200, [⟨10, "pu", 1⟩]⟩],
      [only 922380000 10], [only 942390000 60]) := by decide +kernel

/-- An unknown address is refused. -/
example : (step exCfg (enter exCfg) ⟨fun i j => 10 * i + j, [],
    [(7, only 922380000 10)]⟩).toOption = none := by decide +kernel

/-! ## C84 -/

/-- C84: material is conserved. Over any history of deliveries and sales, what was received is what
the facility holds and what it sold, nuclide by nuclide. -/
theorem C84_conserved {c : Cfg} (V : Valid c) {is : List In} {os : List Out} {s : State}
    (h : History c is os s) (hd : Substantial is) (n : Nat) :
    massOf (received is) n = massOf (contents s) n + massOf (sold os) n := by
  have := (run_inv V (enter_inv V) hd h).2 n
  rw [contents_enter] at this
  linarith

example : ((run exCfg (enter exCfg) exIn).map fun r =>
    (massOf (received exIn) 922380000, massOf (contents r.2) 922380000,
      massOf (sold r.1) 922380000)).toOption = some (10, 35 / 4, 5 / 4) := by decide +kernel

end Cyc.Mixer
