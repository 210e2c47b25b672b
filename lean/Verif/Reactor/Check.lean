import Verif.Reactor.Lemmas10

/-!
# Concrete histories for the examples beside the theorems

A decision procedure for `HonestRun` on concrete histories, and a small reactor.
-/

namespace Cyc.Reactor

/-- A sufficient check of `Honest`: delivery `j` answers portfolio `j`. -/
def honestB (c : Cfg) (s : State) (o : Offer) (i : In) : Bool :=
  decide (i.buys.length ≤ o.requests.length) &&
  (i.buys.zip o.requests).all (fun p => p.2.any fun r => r.commod == p.1.1 && r.qty == p.1.2.qty) &&
  decide (i.buys.map fun d => d.2.id).Nodup &&
  i.buys.all (fun d => (held s).all fun a => a.id != d.2.id) &&
  i.sells.all (fun k => o.bids.any fun b =>
    b.commod == k && decide (i.sells.count k * c.assemSize ≤ b.cap))

theorem forall₂_of_zip {α β : Type} {R : α → β → Prop} :
    ∀ {l : List α} {m : List β}, l.length ≤ m.length → (∀ p ∈ l.zip m, R p.1 p.2) →
      List.Forall₂ R l (m.take l.length)
  | [], _, _, _ => by simp
  | a :: l, [], h, _ => by simp at h
  | a :: l, b :: m, h, hr => by
    simp only [List.length_cons, List.take_succ_cons]
    refine List.Forall₂.cons (hr (a, b) (by simp)) (forall₂_of_zip (by simpa using h) ?_)
    intro p hp
    exact hr p (by simp [hp])

theorem honest_of_honestB {c : Cfg} {s : State} {o : Offer} {i : In} (h : honestB c s o i = true) :
    Honest c s o i := by
  unfold honestB at h
  simp only [Bool.and_eq_true, decide_eq_true_eq, List.all_eq_true, List.any_eq_true, beq_iff_eq,
    bne_iff_ne] at h
  obtain ⟨⟨⟨⟨h1, h2⟩, h3⟩, h4⟩, h5⟩ := h
  refine ⟨⟨o.requests.take i.buys.length, (List.take_sublist _ _).subperm,
    forall₂_of_zip h1 fun p hp => ?_⟩, h3, h4, ?_⟩
  · obtain ⟨r, hr, e1, e2⟩ := h2 p hp
    exact ⟨r, hr, e1, e2⟩
  · intro k hk
    obtain ⟨b, hb, e1, e2⟩ := h5 k hk
    exact ⟨b, hb, e1, e2⟩

/-- A sufficient check of `HonestRun`. -/
def honestRunB (c : Cfg) : State → List In → Bool
  | _, [] => true
  | s, i :: is =>
    match offerPhase c i.reqs s, step c s i with
    | .ok (o, _), .ok (_, s') => honestB c s o i && honestRunB c s' is
    | _, _ => false

theorem honestRun_of {c : Cfg} (is : List In) :
    ∀ {s : State}, honestRunB c s is = true → HonestRun c s is := by
  induction is with
  | nil => intro s _; trivial
  | cons i is ih =>
    intro s h
    unfold honestRunB at h
    split at h
    · rename_i o s1 o' s' h1 h2
      simp only [Bool.and_eq_true] at h
      refine ⟨fun o'' s'' e => ?_, fun o'' s'' e => ?_⟩
      · rw [h1] at e
        simp only [Except.ok.injEq, Prod.mk.injEq] at e
        rw [← e.1]; exact honest_of_honestB h.1
      · rw [h2] at e
        simp only [Except.ok.injEq, Prod.mk.injEq] at e
        rw [← e.2]; exact ih h.2
    · exact absurd h (by simp)

/-- Deploy and run. -/
def play (c : Cfg) (is : List In) : R (List Out × State) := do
  let s ← enter c
  run c s is

/-- Deploy and check that the market is honest. -/
def fair (c : Cfg) (is : List In) : Bool :=
  match enter c with
  | .ok s => honestRunB c s is
  | .error _ => false

theorem fair_spec {c : Cfg} {is : List In} (h : fair c is = true) :
    ∃ s, enter c = .ok s ∧ HonestRun c s is := by
  unfold fair at h
  split at h
  · rename_i s hs; exact ⟨s, hs, honestRun_of is h⟩
  · exact absurd h (by simp)

/-- The history `is` as played. -/
theorem history_of {c : Cfg} {is : List In} (h : fair c is = true)
    (hp : (play c is).toOption.isSome = true) : ∃ os s, play c is = .ok (os, s) ∧
      History c is os s := by
  obtain ⟨s0, h0, hh⟩ := fair_spec h
  cases hq : play c is with
  | error e => rw [hq] at hp; simp [Except.toOption] at hp
  | ok r =>
    refine ⟨r.1, r.2, rfl, s0, h0, hh, ?_⟩
    unfold play at hq
    rw [h0] at hq
    exact hq

/-- A reactor with two fuels: three core positions, batches of one, one fresh and two spent
positions, cycles of two steps and one step of refuelling. Recipe `"m"` replaces `"u"` at step 4,
and the preference of the second fuel rises to 3 at step 2. -/
def exCfg : Cfg where
  inCommods := ["uox", "mox"]
  inRecipes := ["u", "p"]
  prefs := [2, 1]
  outCommods := ["spent_uox", "spent_mox"]
  outRecipes := ["su", "sp"]
  recipeChangeTimes := [4]
  recipeChangeCommods := ["uox"]
  recipeChangeIn := ["m"]
  recipeChangeOut := ["sm"]
  prefChangeTimes := [2]
  prefChangeCommods := ["mox"]
  prefChangeValues := [3]
  assemSize := 1/2
  nBatch := 1
  nCore := 3
  nFresh := 1
  nSpent := 2
  cycleTime := 2
  refuelTime := 1
  cycleStep := 0
  powerCap := 100
  sideProducts := ["heat"]
  sideQty := [7]
  decomTransmuteAll := false
  enterTime := 0
  exitTime := some 12
  recipe := fun n => if n = "u" then some 1 else if n = "p" then some 2 else if n = "su" then some 3
    else if n = "sp" then some 4 else if n = "m" then some 5 else if n = "sm" then some 6 else none
  eps := 1/1000000

theorem exCfg_wf : WellFormed exCfg where
  inRecipes := rfl
  outCommods := rfl
  outRecipes := rfl
  prefs := Or.inr rfl
  someFuel := by simp [exCfg]
  recipeChangeCommods := rfl
  recipeChangeIn := rfl
  recipeChangeOut := rfl
  prefChangeCommods := rfl
  prefChangeValues := rfl
  known := by
    intro r hr
    simp [exCfg] at hr
    rcases hr with (rfl | rfl) | (rfl | rfl) | rfl | rfl <;> decide
  sideQty := by simp [exCfg]
  assemSize := by norm_num [exCfg]
  nBatch := by simp [exCfg]
  cycleTime := by simp [exCfg]
  eps := by norm_num [exCfg]

/-- A quiet step. -/
def idle : In := ⟨fun _ => [], [], []⟩

/-- A step with deliveries of `"uox"`. -/
def supply (ids : List Nat) : In := ⟨fun _ => [], [], ids.map fun x => ("uox", ⟨x, 1/2, 1⟩)⟩

/-- A step in which spent fuel is asked for and `n` assemblies of it are bought. -/
def buyer (n : Nat) (ids : List Nat) : In :=
  ⟨fun k => if k = "spent_uox" then [1/2, 1] else [], List.replicate n "spent_uox",
    ids.map fun x => ("uox", ⟨x, 1/2, 1⟩)⟩

/-- A history with late deliveries, a stall for lack of room, sales, and retirement. -/
def exHist : List In :=
  [supply [0, 1], idle, supply [2, 3], idle, idle, supply [4], idle, idle, supply [5], idle, idle,
    buyer 1 [], idle, idle, buyer 2 [], idle, buyer 2 [], buyer 1 []]

/-- The example history happens. -/
theorem exHist_happens : ∃ os s, play exCfg exHist = .ok (os, s) ∧ History exCfg exHist os s :=
  history_of (by decide +kernel) (by decide +kernel)

end Cyc.Reactor
