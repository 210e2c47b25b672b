import Verif.Mixer.Props1

/-!
# Mixer: properties C52, C85 and C86
-/

namespace Cyc.Mixer

open Mat (massOf)

/-! ## C86 and C85 -/

/-- No stream with a limit holds more than it. -/
def WithinSizes (c : Cfg) (s : State) : Prop :=
  ∀ (k : Nat) (x : Stream), c.streams[k]? = some x → 0 ≤ x.size → totalQty (held s k) ≤ x.size

/-- C86, output: at no time does the output exceed its size, whatever is delivered and sold. -/
theorem C86_output {c : Cfg} (V : Valid c) {is : List In} {os : List Out} {s : State}
    (h : History c is os s) (hd : Substantial is) : totalQty s.output.items ≤ c.outSize :=
  (history_inv V hd h).outQty

theorem held_beyond {c : Cfg} {s : State} (I : Inv c s) {k : Nat} (hk : c.streams.length ≤ k) :
    getBuf s.bufs (name k) = ⟨none, []⟩ := by
  have : Map.get? s.bufs (name k) = none := by
    rw [Map.get?_eq_none]
    intro hm
    obtain ⟨j, hj, e⟩ := I.good.keys _ hm
    rw [name_eq] at e; omega
  simp [getBuf, Map.getD, this]

theorem tick_sizes {c : Cfg} (V : Valid c) {s s' : State} (I : Inv c s) (W : WithinSizes c s)
    (h : tick c s = .ok s') : WithinSizes c s' := by
  obtain ⟨t, G, T, -⟩ := tick_inv V I h
  obtain ⟨t0, -, -, t3⟩ := G.1
  intro k x hk hx
  have hw := W k x hk hx
  have hkl : k < s.ratios.length := by
    rw [I.length]; by_contra hh
    rw [List.getElem?_eq_none (by omega)] at hk; cases hk
  have hr := List.getElem?_eq_getElem hkl
  rw [T.streams k _ hr]
  split
  · exact hw
  · have r0 := I.nonneg V _ (List.mem_of_getElem? hr)
    have hs : ∀ m ∈ held s k, Solid m := I.good.get _
    rw [totalQty_after (allPos_of_solid hs) (mul_nonneg r0 t0) (t3 k _ hr)]
    have := mul_nonneg r0 t0
    linarith

theorem answered_room {c : Cfg} {s : State} {i : In} (I : Inv c s) (W : WithinSizes c s)
    (H : Honest c s i) (k : Nat) (x : ℚ) (hx : (getBuf s.bufs (name k)).cap = some x) :
    totalQty (held s k) + totalQty (answers (requests c i.addr s).1 k i.buys) ≤ x := by
  by_cases hk : k < c.streams.length
  · have hks := List.getElem?_eq_getElem hk
    have hcap := I.caps k _ hks
    rw [hx] at hcap
    split at hcap
    · rename_i h0
      simp only [Option.some.injEq] at hcap
      have hw := W k _ hks h0
      have hr := (requestLoop_spec c i.addr 0 c.streams s).1
      have hask : (requests c i.addr s).1[k]?.getD none = ask c i.addr s.bufs (c.streams[k], k) := by
        unfold requests; rw [hr]; simp [hk]
      have hwi := H.amounts k
      rw [hask] at hwi
      cases hp : ask c i.addr s.bufs (c.streams[k], k) with
      | none =>
        have : answers (requests c i.addr s).1 k i.buys = [] := by
          unfold answers idsAt
          rw [hask, hp]
          simp [ids]
        rw [this, totalQty_nil, add_zero, hcap]; exact hw
      | some p =>
        rw [hp] at hwi
        have hp' := hp
        unfold ask at hp'
        simp only at hp'
        split at hp'
        · simp only [Option.some.injEq] at hp'
          have hsp : p.amount = some (c.streams[k].size - totalQty (held s k)) := by
            rw [← hp']
            show (getBuf s.bufs (name k)).space = _
            rw [space_room I hks]
            unfold room
            rw [if_pos h0, max_eq_right (by linarith)]
          have := hwi p _ rfl hsp
          linarith
        · cases hp'
    · cases hcap
  · rw [held_beyond I (by omega)] at hx; cases hx

/-- What an honest step does. -/
theorem honest_step {c : Cfg} (V : Valid c) {s s₁ : State} {i : In} (I : Inv c s)
    (W : WithinSizes c s) (ht : tick c s = .ok s₁) (H : Honest c s₁ i) :
    ∃ o s', step c s i = .ok (o, s') ∧ o.sold.map qty = i.sells ∧ WithinSizes c s' := by
  obtain ⟨t, -, -, I1⟩ := tick_inv V I ht
  have W1 := tick_sizes V I W ht
  obtain ⟨I2, e2, -, k2⟩ := requests_inv (addr := i.addr) I1
  obtain ⟨h1, h2, h3, h4, h5, h6⟩ := requestLoop_spec c i.addr 0 c.streams s₁
  simp only [zero_add] at h6
  change (requests c i.addr s₁).2.output = s₁.output at h3
  obtain ⟨l, s₂, hsell, hl⟩ := sellLoop_ok V.eps I2 H.sells (by rw [h3]; exact H.total)
  obtain ⟨I3, b3, r3, -⟩ := sellLoop_inv V.eps I2 hsell
  have hnoted : ∀ k, noted s₂.reqInv k i.buys = answers (requests c i.addr s₁).1 k i.buys := by
    intro k
    rw [r3]
    exact noted_eq (inv := (requests c i.addr s₁).2.reqInv) (h6 H.distinct) H.answered k
  have hheld : ∀ k, held s₂ k = held s₁ k := by
    intro k; rw [← e2]; unfold held; rw [b3]
  have hroom : ∀ k x, (getBuf s₂.bufs (name k)).cap = some x →
      totalQty (held s₂ k) + totalQty (noted s₂.reqInv k i.buys) ≤ x := by
    intro k x hx
    rw [hnoted, hheld]
    apply answered_room I1 W1 H
    rw [b3] at hx
    change (getBuf (requestLoop c i.addr 0 c.streams s₁).2.bufs (name k)).cap = some x at hx
    rw [h2, getBuf_touchLoop] at hx
    exact hx
  obtain ⟨s', hacc⟩ := accept_ok V.eps (s := s₂) (fun d hd => le_of_lt (H.solid d hd).1) (by
    intro d hd
    obtain ⟨k, hk⟩ := H.answered d hd
    refine ⟨k, ?_, ?_⟩
    · rw [r3]; exact h6 H.distinct k d.1 hk
    · rw [b3]
      apply k2
      by_contra hh
      have : (requests c i.addr s₁).1[k]? = none := by
        rw [List.getElem?_eq_none]
        unfold requests; rw [h1]; simpa using hh
      unfold idsAt at hk
      rw [this] at hk
      simp [ids] at hk) hroom
  obtain ⟨I4, -, e4, -⟩ := accept_inv I3 H.solid hacc
  refine ⟨⟨s₁.output.items, demand c s₁, (requests c i.addr s₁).1, l⟩, s', ?_, hl, ?_⟩
  · simp only [step, ht, ok_bind, hsell, hacc, pure_eq_ok]
  · intro k x hk hx
    rw [e4]
    rw [totalQty_append]
    exact hroom k x.size (by rw [I3.caps k x hk, if_pos hx])

theorem enter_sizes (c : Cfg) : WithinSizes c (enter c) := by
  intro k x _ hx
  unfold held
  rw [enter_items]; simpa using hx

theorem honest_run {c : Cfg} (V : Valid c) {is : List In} {s s' : State} {os : List Out}
    (I : Inv c s) (W : WithinSizes c s) (H : HonestRun c s is) (h : run c s is = .ok (os, s')) :
    WithinSizes c s' := by
  induction is generalizing s os with
  | nil =>
    simp only [run, Except.ok.injEq, Prod.mk.injEq] at h
    obtain ⟨rfl, rfl⟩ := h
    exact W
  | cons i is ih =>
    obtain ⟨-, H2, H3⟩ := H
    simp only [run, bind_ok] at h
    obtain ⟨⟨o, sa⟩, h1, ⟨os', sb⟩, h2, h3⟩ := h
    simp only [pure_eq_ok, Except.ok.injEq, Prod.mk.injEq] at h3
    obtain ⟨rfl, rfl⟩ := h3
    obtain ⟨s₁, s₂, S⟩ := step_stages h1
    have Hs := H2 s₁ S.tick
    obtain ⟨o', s'', e1, -, W'⟩ := honest_step V I W S.tick Hs
    rw [h1] at e1
    simp only [Except.ok.injEq, Prod.mk.injEq] at e1
    obtain ⟨rfl, rfl⟩ := e1
    exact ih (step_inv V I Hs.solid h1).1 W' (H3 _ _ h1) h2

/-- C86, streams: if suppliers deliver no more than is asked for, no stream ever holds more than its
buffer size. -/
theorem C86_streams {c : Cfg} (V : Valid c) {is : List In} {os : List Out} {s : State}
    (h : History c is os s) (H : HonestRun c (enter c) is) (k : Nat) (x : Stream)
    (hk : c.streams[k]? = some x) (hx : 0 ≤ x.size) : totalQty (held s k) ≤ x.size :=
  honest_run V (enter_inv V) (enter_sizes c) H h k x hk hx

/-- C85, in part: with positive ratios, or all of them zero, no step of a history of possible trades
fails: every call returns. Missing: other ratios that are zero; see `C85_zero`. -/
theorem C85_runs_partial {c : Cfg} (V : Valid c)
    (hr : (∀ x ∈ c.streams, 0 < x.ratio) ∨ ∀ x ∈ c.streams, x.ratio = 0) {is : List In}
    (H : HonestRun c (enter c) is) : ∃ os s, History c is os s := by
  have hpos : ∀ r ∈ (enter c).ratios, 0 < r := by
    have hlen : 0 < c.streams.length := List.length_pos_iff.2 V.streams
    intro r hr'
    change r ∈ normalise (c.streams.map Stream.ratio) at hr'
    unfold normalise at hr'
    rcases hr with hr | hr
    · have hp : ∀ r ∈ c.streams.map Stream.ratio, 0 < r := by
        intro r h; obtain ⟨x, hx, rfl⟩ := List.mem_map.1 h; exact hr x hx
      have hs : 0 < (c.streams.map Stream.ratio).sum :=
        List.sum_pos _ hp (by simpa using V.streams)
      rw [if_pos (ne_of_gt hs)] at hr'
      obtain ⟨y, hy, rfl⟩ := List.mem_map.1 hr'
      have := hp y hy
      positivity
    · have h0 : (c.streams.map Stream.ratio).sum = 0 := by
        apply List.sum_eq_zero
        intro r h; obtain ⟨x, hx, rfl⟩ := List.mem_map.1 h; exact hr x hx
      rw [if_neg (not_not.2 h0)] at hr'
      obtain ⟨y, hy, rfl⟩ := List.mem_map.1 hr'
      rw [List.length_map]
      have : (0 : ℚ) < c.streams.length := by exact_mod_cast hlen
      positivity
  have key : ∀ (is : List In) (s : State), Inv c s → WithinSizes c s →
      s.ratios = (enter c).ratios → HonestRun c s is → ∃ r, run c s is = .ok r := by
    intro is
    induction is with
    | nil => intro s _ _ _ _; exact ⟨_, rfl⟩
    | cons i is ih =>
      intro s I W hrat H
      obtain ⟨H1, H2, H3⟩ := H
      obtain ⟨s₁, ht⟩ := tick_ok V I (by rw [hrat]; exact hpos) H1
      have Hs := H2 s₁ ht
      obtain ⟨o, s', hs, -, W'⟩ := honest_step V I W ht Hs
      have I' := (step_inv V I Hs.solid hs).1
      obtain ⟨⟨os, s''⟩, hrun⟩ := ih s' I' W' (by rw [I'.ratios]; rfl) (H3 o s' hs)
      exact ⟨(o :: os, s''), by simp only [run, hs, ok_bind, hrun, pure_eq_ok]⟩
  obtain ⟨⟨os, s⟩, h⟩ := key is (enter c) (enter_inv V) (enter_sizes c) rfl H
  exact ⟨os, s, h⟩

/-- C85 is false when some ratio is zero and another is not: once something can be mixed, every
step fails. -/
theorem C85_zero {c : Cfg} (V : Valid c) {is : List In} {os : List Out} {s : State}
    (h : History c is os s) (hd : Substantial is) (h0 : 0 ∈ s.ratios) {t : ℚ} (ht : 0 < t)
    (hm : Mixable c s t) : ∀ s', tick c s ≠ .ok s' := by
  intro s' hs
  have I := history_inv V hd h
  obtain ⟨t', G, T, -⟩ := tick_inv V I hs
  have : 0 < t' := lt_of_lt_of_le ht (G.2 hm)
  obtain ⟨k, hk⟩ := List.mem_iff_getElem?.1 h0
  exact absurd (T.pos k 0 this hk) (lt_irrefl _)

/-- A facility with a ratio of zero: it accepts both deliveries and then cannot make another
step. -/
theorem C85_counterexample :
    (run { exCfg with streams := [⟨1, 100, [("du", 1)]⟩, ⟨0, 200, [("pu", 1)]⟩] }
      (enter { exCfg with streams := [⟨1, 100, [("du", 1)]⟩, ⟨0, 200, [("pu", 1)]⟩] })
      [⟨fun i j => 10 * i + j, [], [(0, only 922380000 10), (10, only 942390000 60)]⟩]).toOption.isSome
        = true ∧
    (run { exCfg with streams := [⟨1, 100, [("du", 1)]⟩, ⟨0, 200, [("pu", 1)]⟩] }
      (enter { exCfg with streams := [⟨1, 100, [("du", 1)]⟩, ⟨0, 200, [("pu", 1)]⟩] })
      [⟨fun i j => 10 * i + j, [], [(0, only 922380000 10), (10, only 942390000 60)]⟩,
       ⟨fun i j => 10 * i + j, [], []⟩]).toOption = none := by
  constructor <;> decide +kernel

/-! ## C52 -/

theorem cycle_ok {c : Cfg} (hε : 0 ≤ c.eps) {b : Buf NMat}
    (h : ∀ x, b.cap = some x → b.quantity ≤ x) : cycle c b = .ok (b.items, b) := by
  have h1 : b.popN b.count = .ok (b.items, { b with items := [] }) := by
    rw [Buf.popN_ok]
    exact ⟨le_refl _, by simp [Buf.count]⟩
  have h2 : ({ b with items := [] } : Buf NMat).fits c.eps (totalQty b.items) = true := by
    unfold Buf.fits Buf.space
    cases hc : b.cap with
    | none => rfl
    | some x =>
      simp only [Option.map_some, decide_eq_true_eq, Buf.quantity, totalQty_nil, sub_zero]
      have h3 := h x hc
      have := le_max_right (0 : ℚ) x
      unfold Buf.quantity at h3
      linarith
  simp only [cycle, h1, ok_bind, Buf.pushAll, h2, if_true, List.nil_append, pure_eq_ok]

/-- The mass of a nuclide in a set of inventories. -/
def invMass (inv : List (String × List NMat)) (n : Nat) : ℚ :=
  (inv.map fun x => massOf x.2 n).sum

theorem snapshotLoop_ok {c : Cfg} (hε : 0 ≤ c.eps) {bufs : List (String × Buf NMat)}
    {inv : List (String × List NMat)} (hn : (Map.keys bufs).Nodup) (hi : (Map.keys inv).Nodup)
    (hdis : ∀ k ∈ Map.keys bufs, k ∉ Map.keys inv)
    (h : ∀ y ∈ bufs, ∀ x, y.2.cap = some x → y.2.quantity ≤ x) :
    ∃ inv', snapshotLoop c bufs inv = .ok inv' ∧ (Map.keys inv').Nodup ∧
      (∀ k, Map.get? inv' k = ((Map.get? bufs k).map Buf.items).or (Map.get? inv k)) ∧
      ∀ n, invMass inv' n = invMass inv n + stockMass bufs n := by
  induction bufs generalizing inv with
  | nil => exact ⟨inv, rfl, hi, by simp, by simp [stockMass]⟩
  | cons y bufs ih =>
    simp only [Map.keys, List.map_cons, List.nodup_cons] at hn
    have hy : y.1 ∉ Map.keys inv := hdis y.1 (by simp [Map.keys])
    obtain ⟨inv', h1, h2, h3, h4⟩ := ih (inv := Map.set inv y.1 y.2.items) hn.2
      (Map.nodup_set hi _ _) (by
        intro k hk hmem
        rcases Map.mem_keys_set.1 hmem with rfl | hmem
        · exact hn.1 hk
        · exact hdis k (by simp only [Map.keys, List.map_cons, List.mem_cons]; exact Or.inr hk) hmem)
      (fun z hz => h z (by simp [hz]))
    refine ⟨inv', ?_, h2, ?_, ?_⟩
    · simp only [snapshotLoop, cycle_ok hε (h y (by simp)), ok_bind, h1]
    · intro k
      rw [h3, Map.get?_set]
      by_cases hk : y.1 = k
      · have : Map.get? bufs k = none := by
          rw [Map.get?_eq_none, ← hk]; exact hn.1
        simp [Map.get?, hk, this]
      · have : Map.get? (y :: bufs) k = Map.get? bufs k := by
          obtain ⟨a, b⟩ := y
          simp only [Map.get?]
          exact if_neg hk
        rw [this, if_neg hk]
    · intro n
      rw [h4]
      have e := Map.sum_set inv y.1 y.2.items [] (fun l => massOf l n) rfl
      have e2 : Map.getD inv y.1 [] = [] := by
        rw [Map.getD, Map.get?_eq_none.2 hy]; rfl
      rw [e2] at e
      unfold invMass
      rw [e]
      simp only [stockMass, List.map_cons, List.sum_cons, Mat.massOf_nil]
      ring

theorem restoreLoop_ok {c : Cfg} {inv : List (String × List NMat)}
    {bufs : List (String × Buf NMat)} (hn : (Map.keys inv).Nodup)
    (hfit : ∀ x ∈ inv, (getBuf bufs x.1).fits c.eps (totalQty x.2) = true) :
    ∃ bufs', restoreLoop c inv bufs = .ok bufs' ∧
      (∀ k, getBuf bufs' k =
        ⟨(getBuf bufs k).cap, (getBuf bufs k).items ++ Map.getD inv k []⟩) ∧
      ∀ n, stockMass bufs' n = stockMass bufs n + invMass inv n := by
  induction inv generalizing bufs with
  | nil => exact ⟨bufs, rfl, by simp [Map.getD], by simp [invMass]⟩
  | cons x inv ih =>
    simp only [Map.keys, List.map_cons, List.nodup_cons] at hn
    have hx := hfit x (by simp)
    obtain ⟨bufs', h1, h2, h3⟩ := ih (bufs := Map.set bufs x.1
        ⟨(getBuf bufs x.1).cap, (getBuf bufs x.1).items ++ x.2⟩) hn.2 (by
      intro y hy
      rw [getBuf_set, if_neg]
      · exact hfit y (by simp [hy])
      · intro e
        exact hn.1 (List.mem_map.2 ⟨y, hy, e.symm⟩))
    refine ⟨bufs', ?_, ?_, ?_⟩
    · simp only [restoreLoop, Buf.pushAll, hx, if_true, ok_bind, h1]
    · intro k
      rw [h2, getBuf_set]
      obtain ⟨a, l⟩ := x
      by_cases hk : a = k
      · subst hk
        have : Map.getD inv a [] = [] := by
          rw [Map.getD, Map.get?_eq_none.2 hn.1]; rfl
        simp [Map.getD, Map.get?]
        rw [Map.get?_eq_none.2 hn.1]; simp
      · simp [hk, Map.getD, Map.get?]
    · intro n
      rw [h3, stockMass_set]
      simp only [invMass, List.map_cons, List.sum_cons, Mat.massOf_append]
      ring

/-- C52 is false of the code as it stands: whatever inventories a new facility is given, its output
is empty. -/
theorem C52_lost {c : Cfg} {inv : List (String × List NMat)} {s' : State}
    (h : restart c inv = .ok s') : s'.output.items = [] := by
  unfold restart restore at h
  simp only [bind_ok] at h
  obtain ⟨⟨l, b⟩, h1, bufs, -, h3⟩ := h
  simp only [pure_eq_ok, Except.ok.injEq] at h3
  subst h3
  simp only [cycle, bind_ok] at h1
  obtain ⟨⟨l', b'⟩, h4, b'', h5, h6⟩ := h1
  simp only [pure_eq_ok, Except.ok.injEq, Prod.mk.injEq] at h6
  obtain ⟨rfl, rfl⟩ := h6
  obtain ⟨-, e⟩ := Buf.popN_ok.1 h4
  obtain ⟨-, e2⟩ := Buf.pushAll_ok.1 h5
  simp only [enter, Prod.mk.injEq] at e
  obtain ⟨rfl, rfl⟩ := e
  show b''.items = []
  rw [e2]; simp

/-- C52, in part: if no stream is beyond its limit, the snapshot and the restart succeed, every
stream holds what it held, and all that is missing is the content of the output. Missing: the
output must be what it was; see `C52_lost`. -/
theorem C52_restart_partial {c : Cfg} (V : Valid c) {is : List In} {os : List Out} {s : State}
    (h : History c is os s) (hd : Substantial is) (W : WithinSizes c s) :
    ∃ inv s', snapshot c s = .ok inv ∧ restart c inv = .ok s' ∧ s'.ratios = s.ratios ∧
      (∀ k, held s' k = held s k) ∧
      (∀ n, massOf (contents s') n = massOf (contents s) n - massOf s.output.items n) ∧
      (s.output.items = [] → s'.output = s.output) := by
  have I := history_inv V hd h
  have hcap : ∀ y ∈ s.bufs, ∀ x, y.2.cap = some x → y.2.quantity ≤ x := by
    intro y hy x hx
    obtain ⟨k, hk, e⟩ := I.good.keys y.1 (List.mem_map.2 ⟨y, hy, rfl⟩)
    have hg := getBuf_of_get? (Map.get?_of_mem I.good.nodup (show (y.1, y.2) ∈ s.bufs from hy))
    have hks := List.getElem?_eq_getElem hk
    have hc := I.caps k _ hks
    rw [← e, hg, hx] at hc
    split at hc
    · rename_i h0
      simp only [Option.some.injEq] at hc
      have := W k _ hks h0
      unfold held at this
      rw [← e, hg] at this
      rw [hc]; exact this
    · cases hc
  have hout := cycle_ok V.eps (b := s.output) (by
    intro x hx
    rw [I.outCap] at hx
    simp only [Option.some.injEq] at hx
    rw [← hx]; exact I.outQty)
  obtain ⟨inv, a1, a2, a3, a4⟩ := snapshotLoop_ok V.eps
    (inv := [("output-inv-name", s.output.items)]) I.good.nodup (by simp [Map.keys]) (by
      intro k hk hm
      simp only [Map.keys, List.map_cons, List.map_nil, List.mem_singleton] at hm
      obtain ⟨j, -, e⟩ := I.good.keys k hk
      rw [e] at hm
      exact name_ne_out j hm) hcap
  have hsnap : snapshot c s = .ok inv := by
    simp only [snapshot, hout, ok_bind, a1]
  have I0 := enter_inv V
  have hcyc : cycle c (enter c).output = .ok ([], (enter c).output) :=
    cycle_ok V.eps (b := (enter c).output) (by
      intro x hx
      simp only [enter, Option.some.injEq] at hx
      simp only [enter, Buf.quantity, totalQty_nil]
      rw [← hx]; exact V.outSize)
  have hsout : Map.get? s.bufs "output-inv-name" = none := by
    rw [Map.get?_eq_none]
    intro hk
    obtain ⟨j, -, e⟩ := I.good.keys _ hk
    exact name_ne_out j e.symm
  have hget : ∀ k, Map.get? (Map.set inv "output-inv-name" []) (name k) =
      (Map.get? s.bufs (name k)).map Buf.items := by
    intro k
    rw [Map.get?_set_ne (Ne.symm (name_ne_out k)), a3]
    simp [Map.get?, Ne.symm (name_ne_out k)]
  have hnd : (Map.keys (Map.set inv "output-inv-name" ([] : List NMat))).Nodup :=
    Map.nodup_set a2 _ _
  obtain ⟨bufs', b1, b2, b3⟩ := restoreLoop_ok (c := c)
    (inv := Map.set inv "output-inv-name" []) (bufs := (enter c).bufs) hnd (by
      intro x hx
      have hx2 := Map.get?_of_mem hnd (show (x.1, x.2) ∈ _ from hx)
      unfold Buf.fits Buf.space
      cases hc : (getBuf (enter c).bufs x.1).cap with
      | none => rfl
      | some y =>
        simp only [Option.map_some, decide_eq_true_eq, Buf.quantity, enter_items, totalQty_nil,
          sub_zero]
        have hmax := le_max_right (0 : ℚ) y
        have hε := V.eps
        have hxk : x.1 ∈ Map.keys (enter c).bufs := by
          by_contra hn
          unfold getBuf Map.getD at hc
          rw [Map.get?_eq_none.2 hn] at hc; cases hc
        obtain ⟨k, hk, e⟩ := I0.good.keys _ hxk
        rw [e, hget] at hx2
        have hks := List.getElem?_eq_getElem hk
        have hc0 := I0.caps k _ hks
        rw [← e, hc] at hc0
        split at hc0
        · rename_i h0
          simp only [Option.some.injEq] at hc0
          have hW := W k _ hks h0
          cases hb : Map.get? s.bufs (name k) with
          | none => rw [hb] at hx2; cases hx2
          | some b =>
            rw [hb] at hx2
            simp only [Option.map_some, Option.some.injEq] at hx2
            unfold held at hW
            rw [getBuf_of_get? hb, hx2] at hW
            linarith
        · cases hc0)
  refine ⟨inv, { enter c with bufs := bufs' }, hsnap, ?_, ?_, ?_, ?_, ?_⟩
  · simp only [restart, restore, hcyc, ok_bind, b1, pure_eq_ok]
  · rw [I.ratios]; rfl
  · intro k
    show (getBuf bufs' (name k)).items = _
    rw [b2, enter_items, List.nil_append, Map.getD, hget]
    unfold held getBuf Map.getD
    cases Map.get? s.bufs (name k) <;> rfl
  · intro n
    have e1 := b3 n
    have e2 := Map.sum_set inv "output-inv-name" [] [] (fun l => massOf l n) rfl
    have e3 := a4 n
    have e4 : Map.getD inv "output-inv-name" [] = s.output.items := by
      rw [Map.getD, a3, hsout]; simp [Map.get?]
    have e5 := contents_enter c n
    rw [e4] at e2
    have e6 : invMass (Map.set inv "output-inv-name" []) n =
        invMass inv n - massOf s.output.items n := by
      unfold invMass; rw [e2]; simp
    simp only [contents, Mat.massOf_append, massOf_flatMap] at e5 ⊢
    rw [e1, e6, e3]
    simp only [invMass, List.map_cons, List.map_nil, List.sum_cons, List.sum_nil]
    linarith
  · intro he
    have := I.outCap
    cases ho : s.output with
    | mk cap items =>
      rw [ho] at he this
      simp only at he this
      subst he this
      rfl

/-- The example facility after a step of mixing holds 70 kg, 20 kg of it mixed; after a restart it
holds 50 kg, and the mixed material is gone. -/
theorem C52_counterexample :
    ((do
      let r ← run exCfg (enter exCfg) (exIn.take 2)
      let inv ← snapshot exCfg r.2
      let s' ← restart exCfg inv
      pure (totalQty (contents r.2), totalQty r.2.output.items, totalQty (contents s'),
        totalQty s'.output.items)) : R _).toOption = some (70, 20, 50, 0) := by decide +kernel

/-! ## The example history is honest -/

/-- A check that the trades of a step are honest. -/
def check (c : Cfg) (s : State) (i : In) : Bool :=
  let asks := (requests c i.addr s).1
  i.buys.all (fun d => decide (0 < qty d.2) && d.2.entries.all fun e => decide (0 ≤ e.2)) &&
  decide ((asks.flatMap ids).Nodup) &&
  i.buys.all (fun d => (List.range asks.length).any fun k => decide (d.1 ∈ idsAt asks k)) &&
  (List.range asks.length).all (fun k => match asks[k]?.getD none with
    | some ⟨some a, _⟩ => decide (totalQty (answers asks k i.buys) ≤ a)
    | _ => true) &&
  i.sells.all (fun q => decide (0 < q) && decide (c.lo ≤ q)) &&
  decide (i.sells.sum ≤ totalQty s.output.items)

theorem check_sound {c : Cfg} {s : State} {i : In} (h : check c s i = true) : Honest c s i := by
  unfold check at h
  simp only [Bool.and_eq_true, List.all_eq_true, decide_eq_true_eq, List.any_eq_true] at h
  obtain ⟨⟨⟨⟨⟨h1, h2⟩, h3⟩, h4⟩, h5⟩, h6⟩ := h
  refine ⟨fun d hd => ⟨(h1 d hd).1, fun e he => (h1 d hd).2 e he⟩, h2, ?_, ?_, h5, h6⟩
  · intro d hd
    obtain ⟨k, -, hk⟩ := h3 d hd
    exact ⟨k, hk⟩
  · intro k x a hx ha
    by_cases hk : k < (requests c i.addr s).1.length
    · have := h4 k (List.mem_range.2 hk)
      rw [hx] at this
      obtain ⟨am, rs⟩ := x
      simp only at ha
      subst ha
      simpa using this
    · rw [List.getElem?_eq_none (by omega)] at hx
      cases hx

/-- A check that a history is honest. -/
def checkRun (c : Cfg) : State → List In → Bool
  | _, [] => true
  | s, i :: is =>
    (decide (target c s (c.outSize - totalQty s.output.items) ≤ 0) || s.ratios.all fun r =>
      decide (c.lo ≤ r * target c s (c.outSize - totalQty s.output.items))) &&
    (match tick c s with
      | .ok s₁ => check c s₁ i
      | .error _ => true) &&
    (match step c s i with
      | .ok r => checkRun c r.2 is
      | .error _ => true)

theorem checkRun_sound {c : Cfg} (V : Valid c) {is : List In} {s : State} (I : Inv c s)
    (h : checkRun c s is = true) : HonestRun c s is := by
  induction is generalizing s with
  | nil => trivial
  | cons i is ih =>
    simp only [checkRun, Bool.and_eq_true, Bool.or_eq_true, List.all_eq_true,
      decide_eq_true_eq] at h
    obtain ⟨⟨h1, h2⟩, h3⟩ := h
    have hH : ∀ s₁, tick c s = .ok s₁ → Honest c s₁ i := by
      intro s₁ e
      rw [e] at h2
      exact check_sound h2
    refine ⟨?_, hH, ?_⟩
    · intro t ht hp
      have := ht.unique (target_greatest V I)
      rw [← this] at h1
      rcases h1 with h1 | h1
      · linarith
      · exact h1
    · intro o s' e
      rw [e] at h3
      obtain ⟨s₁, s₂, S⟩ := step_stages e
      exact ih (step_inv V I (hH s₁ S.tick).solid e).1 h3

/-- The example history is honest, so C85 and C86 apply to it. -/
theorem exHonest : HonestRun exCfg (enter exCfg) exIn :=
  checkRun_sound exValid (enter_inv exValid) (by decide +kernel)

example : ∃ os s, History exCfg exIn os s :=
  C85_runs_partial exValid (Or.inl (by decide +kernel)) exHonest

/-- A state to which `C85_zero` applies. -/
example : ∃ c is os s t, Valid c ∧ Substantial is ∧ History c is os s ∧ 0 ∈ s.ratios ∧ 0 < t ∧
    Mixable c s t := by
  let c : Cfg := { exCfg with streams := [⟨1, 100, [("du", 1)]⟩, ⟨0, 200, [("pu", 1)]⟩] }
  let i : In := ⟨fun i j => 10 * i + j, [], [(0, only 922380000 10), (10, only 942390000 60)]⟩
  have V : Valid c :=
    ⟨by decide, by decide +kernel, by decide +kernel, by decide +kernel, by decide +kernel⟩
  have hsub : Substantial [i] := by
    intro j hj d hd
    rw [List.mem_singleton] at hj
    subst hj
    simp only [i, List.mem_cons, List.not_mem_nil, or_false] at hd
    rcases hd with rfl | rfl
    · exact solid_only _ (by norm_num)
    · exact solid_only _ (by norm_num)
  obtain ⟨⟨os, s⟩, h⟩ := exists_of_isOk (x := run c (enter c) [i]) (by decide +kernel)
  have hist : History c [i] os s := h
  have I := history_inv V hsub hist
  have key : ((run c (enter c) [i]).map fun r =>
      decide (0 ∈ r.2.ratios ∧ 0 < target c r.2 (c.outSize - totalQty r.2.output.items))).toOption =
      some true := by decide +kernel
  rw [h] at key
  simp only [Except.map, Except.toOption, Option.some.injEq, decide_eq_true_eq] at key
  exact ⟨c, [i], os, s, _, V, hsub, hist, key.1, key.2, (target_greatest V I).1⟩

end Cyc.Mixer
