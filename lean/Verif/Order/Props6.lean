import Verif.Order.Props
import Verif.FuelFab.Props3

/-!
# The order of the trades: C119 for `FuelFab`
-/

namespace Cyc

namespace FuelFab

theorem sellOne_prefs {c : Cfg} {wl wf wt : ℚ} {t : Trade} {s s' : State} {m : NMat}
    (h : sellOne c wl wf wt t s = .ok (m, s')) :
    s'.fillPrefs = s.fillPrefs ∧ s'.fissPrefs = s.fissPrefs := by
  simp only [sellOne, bind_ok] at h
  obtain ⟨w, -, h⟩ := h
  split at h
  · simp only [bind_ok] at h
    obtain ⟨_, -, h⟩ := h
    simp only [pure_eq_ok, Except.ok.injEq, Prod.mk.injEq] at h
    obtain ⟨-, rfl⟩ := h
    exact ⟨rfl, rfl⟩
  · split at h
    · simp only [bind_ok] at h
      obtain ⟨_, -, h⟩ := h
      simp only [pure_eq_ok, Except.ok.injEq, Prod.mk.injEq] at h
      obtain ⟨-, rfl⟩ := h
      exact ⟨rfl, rfl⟩
    · split at h
      · simp only [bind_ok] at h
        obtain ⟨_, -, _, -, _, -, _, -, _, -, _, -, h⟩ := h
        simp only [pure_eq_ok, Except.ok.injEq, Prod.mk.injEq] at h
        obtain ⟨-, rfl⟩ := h
        exact ⟨rfl, rfl⟩
      · simp only [bind_ok] at h
        obtain ⟨_, -, _, -, _, -, _, -, _, -, h⟩ := h
        simp only [pure_eq_ok, Except.ok.injEq, Prod.mk.injEq] at h
        obtain ⟨-, rfl⟩ := h
        exact ⟨rfl, rfl⟩

theorem sellLoop_prefs {c : Cfg} {wl wf wt : ℚ} {ts : List Trade} {tot : ℚ}
    {s s' : State} {l : List NMat} (h : sellLoop c wl wf wt tot ts s = .ok (l, s')) :
    s'.fillPrefs = s.fillPrefs ∧ s'.fissPrefs = s.fissPrefs := by
  induction ts generalizing tot s l with
  | nil =>
    simp only [sellLoop, Except.ok.injEq, Prod.mk.injEq] at h
    obtain ⟨-, rfl⟩ := h
    exact ⟨rfl, rfl⟩
  | cons t ts ih =>
    simp only [sellLoop] at h
    split at h
    · cases h
    · simp only [bind_ok] at h
      obtain ⟨⟨m, s1⟩, h1, ⟨l', s2⟩, h2, h3⟩ := h
      simp only [pure_eq_ok, Except.ok.injEq, Prod.mk.injEq] at h3
      obtain ⟨-, rfl⟩ := h3
      obtain ⟨a1, a2⟩ := sellOne_prefs h1
      obtain ⟨b1, b2⟩ := ih h2
      exact ⟨b1.trans a1, b2.trans a2⟩

theorem taken_perm {conv : NMat → R ℚ} {a b : List Trade} (h : a.Perm b) :
    taken conv a = taken conv b := sum_perm (h.map _)

theorem Within.perm {conv : NMat → R ℚ} {a b : List Trade} {cap : ℚ} (h : a.Perm b)
    (hw : Within conv a cap) : Within conv b cap := by
  obtain ⟨vs, h1, h2⟩ := hw
  rw [← taken_eq h1, taken_perm h] at h2
  have hall : ∀ t ∈ b, ∃ v, conv (cut t) = .ok v := by
    intro t ht
    have : ∀ {a : List Trade} {vs}, List.Forall₂ (fun t v => conv (cut t) = .ok v) a vs → t ∈ a →
        ∃ v, conv (cut t) = .ok v := by
      intro a vs h
      induction h with
      | nil => intro h; cases h
      | cons h _ ih =>
        intro hm
        rcases List.mem_cons.1 hm with rfl | hm
        · exact ⟨_, h⟩
        · exact ih hm
    exact this h1 (h.mem_iff.2 ht)
  have key : ∀ b : List Trade, (∀ t ∈ b, ∃ v, conv (cut t) = .ok v) →
      ∃ vs, List.Forall₂ (fun t v => conv (cut t) = .ok v) b vs := by
    intro b
    induction b with
    | nil => exact fun _ => ⟨[], .nil⟩
    | cons t b ih =>
      intro hb
      obtain ⟨v, hv⟩ := hb t (by simp)
      obtain ⟨vs, hvs⟩ := ih fun t ht => hb t (by simp [ht])
      exact ⟨v :: vs, .cons hv hvs⟩
  obtain ⟨ws, hws⟩ := key b hall
  exact ⟨ws, hws, by rw [← taken_eq hws]; exact h2⟩

theorem HonestSales.perm {c : Cfg} {reqs : List NMat} {p : Option Port} {a b : List Trade}
    (h : a.Perm b) (H : HonestSales c reqs p a) : HonestSales c reqs p b :=
  ⟨fun t ht => H.bid t (h.mem_iff.2 ht), fun q hq => (H.fiss q hq).perm h,
    fun q hq => (H.fill q hq).perm h, fun q hq => (H.topup q hq).perm h,
    fun q hq => by rw [← sum_perm (h.map Trade.amt)]; exact H.cap q hq⟩

theorem Regular.perm {c : Cfg} {s : State} {p : Option Port} {a b : List Trade}
    (h : a.Perm b) (G : Regular c s p a) : Regular c s p b :=
  ⟨G.fissStock, G.fillStock, G.topupStock, fun q hq t ht => G.fiss q hq t (h.mem_iff.2 ht),
    fun q hq t ht => G.fill q hq t (h.mem_iff.2 ht),
    fun q hq t ht => G.topup q hq t (h.mem_iff.2 ht),
    fun q hq t ht => G.beyond q hq t (h.mem_iff.2 ht)⟩

/-- C119, for the sales of `C46_delivers_partial`: a step with regular sales within the constraints of
the bids and deliveries within the requests, and the same step with the sales in any other order, both
succeed. They leave the same state, requests and bids are the same, and in both each buyer receives
the traded amount of what the bid offered. What is missing: sales that take no fissile material
(`C119_fuelfab_counterexample`). -/
theorem C119_fuelfab_partial {c : Cfg} (V : Valid c) {s s₁ : State} (h : Reachable c s) {i : In}
    (hsol : ∀ m ∈ i.reqs c.outCommod, Solid m) {a : Asks} {p : Option Port}
    (hr : requests c i.addr s = .ok (a, s₁)) (hp : bids c i.reqs s₁ = .ok p) (hd : Distinct a)
    (H : HonestSales c (i.reqs c.outCommod) p i.sells) (G : Regular c s p i.sells)
    (B : HonestBuys a i.buys) {ts : List Trade} (hts : i.sells.Perm ts) :
    ∃ o o' s', step c s i = .ok (o, s') ∧ step c s { i with sells := ts } = .ok (o', s') ∧
      o'.asks = o.asks ∧ o'.port = o.port ∧ List.Forall₂ (Delivered c) i.sells o.sold ∧
      List.Forall₂ (Delivered c) ts o'.sold := by
  obtain ⟨l, s2, h1, h2, h3⟩ := sales_ok V h hr hsol hp H G
  obtain ⟨l', s2', h1', h2', h3'⟩ := sales_ok V h hr hsol hp (H.perm hts) (G.perm hts)
  have I := reachable_inv V h
  have I1 := I.same (requests_same I hr)
  have hs : s2' = s2 := by
    by_cases hne : i.sells = []
    · have hne' : ts = [] := by rw [hne] at hts; exact hts.symm.eq_nil
      rw [hne] at h1
      rw [hne'] at h1'
      rw [h1] at h1'
      simp only [Except.ok.injEq, Prod.mk.injEq] at h1'
      exact h1'.2.symm
    have hne' : ts ≠ [] := by rintro rfl; exact hne hts.eq_nil
    obtain ⟨port, hport, K⟩ := h3 hne
    obtain ⟨port', hport', K'⟩ := h3' hne'
    have : port' = port := by rw [hport] at hport'; exact (Option.some.inj hport').symm
    subst this
    rw [← taken_perm hts, ← taken_perm hts, ← taken_perm hts] at K'
    obtain ⟨wl, wf, wt, g⟩ := sell_inv h1
    obtain ⟨wl', wf', wt', g'⟩ := sell_inv h1'
    obtain ⟨J, e, -⟩ := sellLoop_inv V I1 g
    obtain ⟨J', e', -⟩ := sellLoop_inv V I1 g'
    obtain ⟨q1, q2⟩ := sellLoop_prefs g
    obtain ⟨q1', q2'⟩ := sellLoop_prefs g'
    have buf : ∀ {b b' : Buf NMat}, b.cap = b'.cap → b.items = b'.items → b = b' := by
      intro b b' h1 h2
      cases b; cases b'
      simp only at h1 h2
      rw [h1, h2]
    have k1 := buf (J'.fillCap.trans J.fillCap.symm) (K'.fill.trans K.fill.symm)
    cases s2; cases s2'
    simp only [State.mk.injEq]
    refine ⟨k1, buf (J'.fissCap.trans J.fissCap.symm) (K'.fiss.trans K.fiss.symm),
      buf (J'.topupCap.trans J.topupCap.symm) (K'.topup.trans K.topup.symm), q1'.trans q1.symm,
      q2'.trans q2.symm, e'.trans e.symm⟩
  subst hs
  obtain ⟨s3, h4⟩ := C81_accepts V h hr hd h1 B
  exact ⟨⟨a, p, l⟩, ⟨a, p, l'⟩, s3, by simp only [step, hr, hp, h1, h4, ok_bind, pure_eq_ok],
    by simp only [step, hr, hp, h1', h4, ok_bind, pure_eq_ok], rfl, rfl, h2, h2'⟩

/-- The example trades of C46 in both orders. -/
example : (step exCfg exState ⟨id, forFuel [fuel1, fuel2], exTrades, []⟩).toOption.map Prod.snd =
      (step exCfg exState ⟨id, forFuel [fuel1, fuel2], exTrades.reverse, []⟩).toOption.map Prod.snd ∧
    (step exCfg exState ⟨id, forFuel [fuel1, fuel2], exTrades, []⟩).toOption.isSome = true := by
  decide +kernel

/-- Little fissile material. -/
def puLittle : NMat := ⟨[(922380000, 10), (942390000, 6), (942400000, 4)]⟩

/-- The state after deliveries of filler and of little fissile material. -/
def little : State :=
  ⟨⟨some 500, [du]⟩, ⟨some 300, [puLittle]⟩, ⟨some 50, []⟩, [1, 1], [2, 3], []⟩

theorem little_reachable : Reachable exCfg little := by
  refine reachable_of (is := [⟨id, fun _ => [], [], [(0, puLittle), (2, du)]⟩]) ?_
    (play_state (by decide +kernel))
  intro i hi d hd
  rw [List.mem_singleton] at hi
  subst hi
  simp only [List.mem_cons, List.not_mem_nil, or_false] at hd
  rcases hd with rfl | rfl
  · exact ⟨by norm_num [puLittle, Mat.qty_def], nonneg_of_all (by decide +kernel)⟩
  · exact du_solid

/-- A trade for all the fissile material and one for filler. -/
def twoTrades : List Trade :=
  [⟨pu, offerAt (portOf exCfg [pu, du] little) 0, 20⟩,
    ⟨du, offerAt (portOf exCfg [pu, du] little) 1, 10⟩]

/-- C119 as stated is false: two trades within the constraints of the bids, one for all the fissile
material and one for filler, are carried out in this order; in the other order the facility tries to
remove nothing of its fissile material for the trade of filler, which throws. -/
theorem C119_fuelfab_counterexample :
    Reachable exCfg little ∧
    bids exCfg (forFuel [pu, du]) little = .ok (some (portOf exCfg [pu, du] little)) ∧
    HonestSales exCfg [pu, du] (some (portOf exCfg [pu, du] little)) twoTrades ∧
    (∃ l s', sell exCfg twoTrades little = .ok (l, s') ∧ l.map qty = [20, 10]) ∧
    sell exCfg twoTrades.reverse little = .error .value := by
  have w : ∀ {conv : NMat → R ℚ} {cap : ℚ},
      (conv (cut (twoTrades[0]'(by decide)))).toOption.isSome = true →
      (conv (cut (twoTrades[1]'(by decide)))).toOption.isSome = true →
      val (conv (cut (twoTrades[0]'(by decide)))) + val (conv (cut (twoTrades[1]'(by decide)))) ≤ cap →
      Within conv twoTrades cap := by
    intro conv cap h1 h2 h3
    refine ⟨[_, _], .cons (val_ok h1) (.cons (val_ok h2) .nil), ?_⟩
    rw [List.sum_cons, List.sum_cons, List.sum_nil, add_zero]
    exact h3
  refine ⟨little_reachable, ok_of_toOption (by decide +kernel), ⟨?_, ?_, ?_, ?_, ?_⟩, ?_, ?_⟩
  · intro t ht
    simp only [twoTrades, List.mem_cons, List.not_mem_nil, or_false] at ht
    rcases ht with rfl | rfl
    · exact ⟨_, rfl, 0, mem_lookup (by decide +kernel), rfl, by norm_num, by decide +kernel⟩
    · exact ⟨_, rfl, 1, mem_lookup (by decide +kernel), rfl, by norm_num, by decide +kernel⟩
  · intro port h
    simp only [Option.some.injEq] at h
    subst h
    exact w (by decide +kernel) (by decide +kernel) (by decide +kernel)
  · intro port h
    simp only [Option.some.injEq] at h
    subst h
    exact w (by decide +kernel) (by decide +kernel) (by decide +kernel)
  · intro port h
    simp only [Option.some.injEq] at h
    subst h
    exact w (by decide +kernel) (by decide +kernel) (by decide +kernel)
  · intro port h
    simp only [Option.some.injEq] at h
    subst h
    decide +kernel
  · have h : (sell exCfg twoTrades little).toOption.map (fun r => r.1.map qty) = some [20, 10] := by
      decide +kernel
    revert h
    cases sell exCfg twoTrades little with
    | error e => intro h; cases h
    | ok r =>
      intro h
      simp only [Except.toOption, Option.map_some, Option.some.injEq] at h
      exact ⟨r.1, r.2, rfl, h⟩
  · have h : (match sell exCfg twoTrades.reverse little with
      | .error .value => true
      | _ => false) = true := by decide +kernel
    revert h
    cases sell exCfg twoTrades.reverse little with
    | ok r => intro h; cases h
    | error e => cases e <;> intro h <;> first | rfl | cases h

end FuelFab

end Cyc
