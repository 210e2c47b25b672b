import Verif.Sim.OnSchedule
import Verif.Sim.Filling
import Verif.Reactor.Props6

/-!
# Reactors run on schedule in closed simulations: property C136
-/

namespace Cyc.Sim

variable {A : Agreement}

/-- A reactor in a step of which nothing is late. -/
structure OnTime (c : Reactor.Cfg) (t : Nat) (gs : List (Deal × NMat)) (j : Nat) (o : Reactor.Out) :
    Prop where
  supplied : (givenTo gs j).length = Reactor.supplyAt c t
  shipped : (givenBy gs j).length = Reactor.batchAt c t
  power : Reactor.powers o.recs =
    [if t % (c.cycleTime + c.refuelTime) < c.cycleTime then c.powerCap else 0]
  starts : Reactor.Starts o ↔ t % (c.cycleTime + c.refuelTime) = 0
  room : ¬ Reactor.Fails o

theorem numbered_append (enc : NMat → Nat) (a b : List (List NMat)) : ∀ k,
    numbered enc k (a ++ b) = numbered enc k a ++ numbered enc (k + a.flatten.length) b := by
  induction a with
  | nil => intro k; rfl
  | cons m a ih =>
    intro k
    simp only [List.cons_append, numbered, ih, List.flatten_cons, List.length_append, Nat.add_assoc]

theorem assemblies_numbered (enc : NMat → Nat) (ds : List Delivery) : ∀ k,
    (assemblies enc k ds).map Prod.snd =
      ((ds.map Delivery.mat).zipIdx k).map (fun x => ⟨x.2, qty x.1, enc x.1⟩) := by
  induction ds with
  | nil => intro k; rfl
  | cons d ds ih => intro k; simp [assemblies, List.zipIdx_cons, ih]

theorem on_schedule' {ks : List Kind} (hks : ∀ k ∈ ks, Sensible k ∧ Suits A k)
    {ps : List (Running act)} (h : deployAll ks = .ok ps) {ex : Nat → Exchange}
    (hex : ∀ t, (ex t).Fair) (hea : ∀ t, (ex t).Eager) {n : Nat} {j : Nat} {c : Reactor.Cfg}
    {enc : NMat → Nat} {dec : Nat → NMat} (hj : ks[j]? = some (.reactor c enc dec))
    (h1 : ∀ m < n, ∀ l ps', simulate ex m 0 ps = .ok (l, ps') → Filled (ex m) ps' j)
    (h2 : ∀ m < n, ∀ l ps', simulate ex m 0 ps = .ok (l, ps') → Taken ps' c.outCommods)
    (hx : c.exitTime = none)
    (hz : c.cycleStep = 0) (hsp : min c.nBatch c.nCore ≤ c.nSpent) :
    ∀ {m : Nat}, m ≤ n → ∀ {l : List (List (Deal × NMat))} {ps' : List (Running act)},
    simulate ex m 0 ps = .ok (l, ps') → ∃ (is : List Reactor.In) (os : List Reactor.Out)
      (s : Reactor.State × Nat), ps'[j]? = some ⟨.reactor c enc dec, s⟩ ∧
      Reactor.History c is os s.1 ∧ is.length = m ∧ os.length = m ∧ l.length = m ∧
      is.map (fun i => i.buys.map Prod.snd) = numbered enc 0 (l.map fun gs => givenTo gs j) ∧
      os.map (fun o => material dec (o.shipped.map Prod.snd)) = (l.map fun gs => givenBy gs j) ∧
      s.2 = (l.map fun gs => givenTo gs j).flatten.length ∧ Reactor.Steady c m s.1 ∧
      ∀ (t : Nat) gs o, l[t]? = some gs → os[t]? = some o → OnTime c t gs j o := by
  obtain ⟨g0, kinds⟩ := deployAll_k h hks
  intro m
  induction m with
  | zero =>
    intro _ l ps' hs
    simp only [simulate, Except.ok.injEq, Prod.mk.injEq] at hs
    obtain ⟨rfl, rfl⟩ := hs
    obtain ⟨s, hs⟩ := get_of_map kinds hj
    obtain ⟨k, e1, e2⟩ := deployAll_get h j _ hs
    obtain rfl := Option.some.inj (e1.symm.trans hj)
    simp only [deploy, bind_ok, pure_eq_ok, Except.ok.injEq] at e2
    obtain ⟨s0, e3, e4⟩ := e2
    cases e4
    exact ⟨[], [], _, hs, ⟨s0, e3, trivial, rfl⟩, rfl, rfl, rfl, rfl, rfl, rfl, Reactor.steady_start hz e3,
      fun t gs o hg => by simp at hg⟩
  | succ m ih =>
    intro hm l ps' hs
    obtain ⟨l₁, ps₁, gs, e1, e2, rfl⟩ := simulate_snoc hs
    rw [Nat.zero_add] at e2
    obtain ⟨is, os, s, k1, k2, k3, k4, k5, k6, k7, k8, k9, k10⟩ := ih (by omega) e1
    obtain ⟨l', ps'', r1, -, r2, r3, -⟩ := simulate_ok (A := A) hex m 0 g0
    obtain ⟨rfl, rfl⟩ := Prod.mk.inj (Except.ok.inj (r1.symm.trans e1))
    have kinds' := r3.trans kinds
    have lived : ∀ p ∈ ps'', Sensible p.k ∧ ∃ t got gave, Lived p.k p.s t got gave := by
      intro p hp
      obtain ⟨x, hx⟩ := List.mem_iff_getElem?.1 hp
      obtain ⟨e, L⟩ := C132_lives_partial hks h hex e1 hx
      exact ⟨(hks _ (List.mem_of_getElem? e)).1, _, _, _, L⟩
    obtain ⟨rs, os', ts, l2, as, ds, mm, s', P, q1, q2, q3, q4, q5⟩ :=
      round_taken (hex m) (hea m) r2 lived e2 (h2 m (by omega) _ _ e1) k1 (h1 m (by omega) _ _ e1)
    have hcj := (hks _ (List.mem_of_getElem? hj)).1
    obtain ⟨o, s1, s2, s3, H, sp, u1, u2, u3, u4⟩ := OfReactor.turn hcj k2 k6 k8 P
    have inv : Reactor.Inv c s.1 := by
      obtain ⟨s0, a1, a2, a3⟩ := k2
      exact Reactor.run_inv hcj.1 (Reactor.enter_inv hcj.1 a1) a2 a3
    have hbuys : (assemblies enc s.2 ds).length = ds.length := by
      have := congrArg List.length (assemblies_numbered enc ds s.2)
      simpa using this
    obtain ⟨v1, v2, v3, v4, v5, v6⟩ := Reactor.steady_step hcj.1 hx hsp inv k9 sp (by
      change (assemblies enc s.2 ds).length = _
      rw [hbuys, q4, u1]
      simp [OfReactor.asksOf]) q5
    refine ⟨_, _, s', q1, H, by simp [k3], by simp [k4], by simp [k5], ?_, ?_, ?_, v1, ?_⟩
    · rw [List.map_append, List.map_append, numbered_append, k6, ← k8]
      simp [numbered, assemblies_numbered, q3]
    · rw [List.map_append, List.map_append, k7, List.map_singleton, List.map_singleton, ← q2, u3]
      simp [material]
    · rw [u4, k8, List.map_append, List.flatten_append, List.length_append, ← List.length_map (f := Delivery.mat), q3]
      simp
    · intro t gs' o' hg ho
      rcases Nat.lt_trichotomy t m with ht | rfl | ht
      · rw [List.getElem?_append_left (by omega)] at hg ho
        exact k10 t gs' o' hg ho
      · rw [List.getElem?_append_right (by omega), k5, Nat.sub_self] at hg
        rw [List.getElem?_append_right (by omega), k4, Nat.sub_self] at ho
        cases hg
        cases ho
        refine ⟨?_, ?_, v4, v3, v2⟩
        · rw [← q3, List.length_map, ← hbuys]
          exact v5
        · rw [← q2, u3, List.length_map]
          exact v6
      · rw [List.getElem?_eq_none (by simp; omega)] at hg
        cases hg

theorem on_schedule {ks : List Kind} (hks : ∀ k ∈ ks, Sensible k ∧ Suits A k)
    {ps : List (Running act)} (h : deployAll ks = .ok ps) {ex : Nat → Exchange}
    (hex : ∀ t, (ex t).Fair) (hea : ∀ t, (ex t).Eager) {n : Nat} {b : Nat} {w : Sink.Cfg}
    (hb : ks[b]? = some (.sink w)) (hD : Drains ks w n) {j : Nat} {c : Reactor.Cfg} {enc : NMat → Nat}
    {dec : Nat → NMat} (hj : ks[j]? = some (.reactor c enc dec))
    (h1 : ∀ m < n, ∀ l ps', simulate ex m 0 ps = .ok (l, ps') → Filled (ex m) ps' j)
    (h2 : ∀ x ∈ c.outCommods, x ∈ w.commods) (hx : c.exitTime = none)
    (hz : c.cycleStep = 0) (hsp : min c.nBatch c.nCore ≤ c.nSpent) :
    ∀ {m : Nat}, m ≤ n → ∀ {l : List (List (Deal × NMat))} {ps' : List (Running act)},
    simulate ex m 0 ps = .ok (l, ps') → ∃ (is : List Reactor.In) (os : List Reactor.Out)
      (s : Reactor.State × Nat), ps'[j]? = some ⟨.reactor c enc dec, s⟩ ∧
      Reactor.History c is os s.1 ∧ is.length = m ∧ os.length = m ∧ l.length = m ∧
      is.map (fun i => i.buys.map Prod.snd) = numbered enc 0 (l.map fun gs => givenTo gs j) ∧
      os.map (fun o => material dec (o.shipped.map Prod.snd)) = (l.map fun gs => givenBy gs j) ∧
      s.2 = (l.map fun gs => givenTo gs j).flatten.length ∧ Reactor.Steady c m s.1 ∧
      ∀ (t : Nat) gs o, l[t]? = some gs → os[t]? = some o → OnTime c t gs j o := by
  refine on_schedule' hks h hex hea hj h1 (fun m hm l ps' hs => ?_) hx hz hsp
  obtain ⟨g0, kinds⟩ := deployAll_k h hks
  obtain ⟨l', ps'', r1, -, r2, r3, -⟩ := simulate_ok (A := A) hex m 0 g0
  obtain ⟨rfl, rfl⟩ := Prod.mk.inj (Except.ok.inj (r1.symm.trans hs))
  obtain ⟨hcw, sb, hsb, Lb⟩ := lived_at hks h hex hs hb
  exact taken_sink hcw hsb (fun as ha => OfSink.asks_full hcw Lb (by omega) hD.lasts hD.asks ha)
    ((r3.trans kinds) ▸ hD) r2 h2

/-- A source that lasts fills the orders of reactors. -/
theorem source_fills {ks : List Kind} (hks : ∀ k ∈ ks, Sensible k ∧ Suits A k)
    {ps : List (Running act)} (h : deployAll ks = .ok ps) {ex : Nat → Exchange}
    (hex : ∀ t, (ex t).Fair) (hea : ∀ t, (ex t).Eager) {n : Nat} {i : Nat} {f : Source.Cfg}
    (hi : ks[i]? = some (.source f)) (hS : Supplies ks f n) {j : Nat} {c : Reactor.Cfg}
    {enc : NMat → Nat} {dec : Nat → NMat} (hj : ks[j]? = some (.reactor c enc dec))
    (h1 : f.outcommod ∈ c.inCommods) (h3 : f.lo ≤ c.assemSize) :
    ∀ m < n, ∀ l ps', simulate ex m 0 ps = .ok (l, ps') → Filled (ex m) ps' j := by
  intro m hm l' ps'' e1
  obtain ⟨g0, kinds⟩ := deployAll_k h hks
  obtain ⟨l₂, ps₂, r1, -, r2, r3, -⟩ := simulate_ok (A := A) hex m 0 g0
  obtain ⟨rfl, rfl⟩ := Prod.mk.inj (Except.ok.inj (r1.symm.trans e1))
  have kinds' := r3.trans kinds
  have lived : ∀ p ∈ ps₂, Sensible p.k ∧ ∃ t got gave, Lived p.k p.s t got gave := by
    intro p hp
    obtain ⟨x, hx⟩ := List.mem_iff_getElem?.1 hp
    obtain ⟨e, L⟩ := C132_lives_partial hks h hex e1 hx
    exact ⟨(hks _ (List.mem_of_getElem? e)).1, _, _, _, L⟩
  obtain ⟨hcf, si, hsi, Li⟩ := lived_at hks h hex e1 hi
  obtain ⟨s, hs⟩ := get_of_map kinds' hj
  have bal := C132_balance_partial hks h hex e1 hsi
  have full : f.size ≤ Source.stock si + totalQty (l₂.map fun gs => givenBy gs i).flatten := by
    have hgot : (l₂.flatMap fun gs => givenTo gs i) = [] := by
      obtain ⟨-, -, -, -, -, -, -, e, -⟩ := Li
      rw [List.flatMap_def, e, List.flatten_replicate_nil]
    rw [hgot, List.flatMap_def] at bal
    have : totalQty ([] : List NMat) = 0 := rfl
    rw [this, add_zero] at bal
    exact bal.ge
  exact filled_source (hex m) (hea m) r2 lived hsi
    (fun rs os hr ho => OfSource.offers_full hcf Li (by omega) hS.lasts hS.offers full hr ho)
    (kinds' ▸ hS) hs h1 h3

/-- C136. In a simulation with a source that can supply its reactors, a sink that can take their spent
fuel and an exchange that leaves no exclusive order or bid alone, every reactor runs on schedule: it is
given its first core and its stock of fresh fuel in the first step and then a batch at the end of every
cycle, gives a batch of spent fuel in the same step, starts a cycle in every step that its cycle time and
its refuelling time provide for, records full power in all steps of a cycle, and the discharge never
fails. Over the whole time it records as much power as is possible at all.

Partial: as C125. -/
theorem C136_on_schedule_partial {ks : List Kind} (hks : ∀ k ∈ ks, Sensible k ∧ Suits A k)
    {ps : List (Running act)} (h : deployAll ks = .ok ps) {ex : Nat → Exchange}
    (hex : ∀ t, (ex t).Fair) (hea : ∀ t, (ex t).Eager) {n : Nat} {i : Nat} {f : Source.Cfg}
    (hi : ks[i]? = some (.source f)) (hS : Supplies ks f n) {b : Nat} {w : Sink.Cfg}
    (hb : ks[b]? = some (.sink w)) (hD : Drains ks w n) {j : Nat} {c : Reactor.Cfg} {enc : NMat → Nat}
    {dec : Nat → NMat} (hj : ks[j]? = some (.reactor c enc dec)) (h1 : f.outcommod ∈ c.inCommods)
    (h2 : ∀ x ∈ c.outCommods, x ∈ w.commods) (h3 : f.lo ≤ c.assemSize) (hx : c.exitTime = none)
    (hz : c.cycleStep = 0) (hsp : min c.nBatch c.nCore ≤ c.nSpent)
    {l : List (List (Deal × NMat))} {ps' : List (Running act)}
    (hs : simulate ex n 0 ps = .ok (l, ps')) : ∃ (is : List Reactor.In) (os : List Reactor.Out)
      (s : Reactor.State × Nat), ps'[j]? = some ⟨.reactor c enc dec, s⟩ ∧
      Reactor.History c is os s.1 ∧ l.length = n ∧ os.length = n ∧
      is.map (fun i => i.buys.map Prod.snd) = numbered enc 0 (l.map fun gs => givenTo gs j) ∧
      os.map (fun o => material dec (o.shipped.map Prod.snd)) = (l.map fun gs => givenBy gs j) ∧
      (∀ (t : Nat) gs o, l[t]? = some gs → os[t]? = some o → OnTime c t gs j o) ∧
      Reactor.energy os = c.powerCap * Reactor.ideal c n := by
  obtain ⟨is, os, s, k1, k2, -, k4, k5, k6, k7, -, -, k10⟩ :=
    on_schedule hks h hex hea hb hD hj (source_fills hks h hex hea hi hS hj h1 h3) h2 hx hz hsp
      (le_refl n) hs
  refine ⟨is, os, s, k1, k2, k5, k4, k6, k7, k10, ?_⟩
  rw [Reactor.energy_eq (c := c), k4]
  intro t o ho
  have ht : t < l.length := by
    have := (List.getElem?_eq_some_iff.1 ho).1
    omega
  exact (k10 t l[t] o (List.getElem?_eq_getElem ht) ho).power

/-! ## An example -/

/-- Fuel for two reactors, 96 kg per step. -/
def exFuel : Source.Cfg :=
  { exMine with
    outcommod := "fuel"
    recipe := some ⟨[(922350000, 1), (922380000, 19)]⟩
    size := 1000
    throughput := 96 }

/-- Three assemblies in the core, two of them exchanged every two steps. -/
def exSecond : Reactor.Cfg :=
  { exReactor with
    nBatch := 2
    nCore := 3
    nFresh := 2
    cycleTime := 1 }

/-- Takes spent fuel. -/
def exPool : Sink.Cfg :=
  { exSink with
    commods := ["spent"]
    capacity := 48 }

/-- A source, two reactors and a sink. -/
def exFleet : List Kind :=
  [.source exFuel, .reactor exReactor (fun _ => 1) exDec, .reactor exSecond (fun _ => 1) exDec,
    .sink exPool]

/-- Nothing is agreed upon. -/
def exOpen : Agreement := ⟨fun _ _ => True, fun _ _ => True⟩

theorem exFleet_sensible : ∀ k ∈ exFleet, Sensible k ∧ Suits exOpen k := by
  have dec : ∀ n, qty (exDec n) = 1 ∧ (exDec n).Nonneg := by
    intro n
    unfold exDec
    split
    · exact ⟨by decide +kernel, by norm_num [Mat.Nonneg]⟩
    · exact ⟨by decide +kernel, by norm_num [Mat.Nonneg]⟩
  intro k hk
  simp only [exFleet, List.mem_cons, List.not_mem_nil, or_false] at hk
  rcases hk with rfl | rfl | rfl | rfl
  · refine ⟨⟨by norm_num [exFuel, exMine], by norm_num [exFuel, exMine], by norm_num [exFuel, exMine], ?_,
      fun _ => rfl, fun _ => rfl⟩, fun _ => True, OfSource.blendable_true, fun _ _ => trivial,
      fun _ _ _ _ => trivial, fun _ _ _ => trivial⟩
    intro r hr
    cases hr
    exact ⟨by decide +kernel, by norm_num [Mat.Nonneg]⟩
  · refine ⟨⟨⟨rfl, rfl, rfl, Or.inl rfl, by decide, rfl, rfl, rfl, rfl, rfl, ?_, le_rfl,
      by norm_num [exReactor], by decide, by decide, by norm_num [exReactor]⟩, dec⟩,
      fun _ _ _ _ _ _ _ _ => trivial, fun _ _ _ _ => trivial⟩
    intro r hr
    simp only [exReactor, List.mem_singleton, List.not_mem_nil, or_false] at hr ⊢
    rcases hr with rfl | rfl <;> decide
  · refine ⟨⟨⟨rfl, rfl, rfl, Or.inl rfl, by decide, rfl, rfl, rfl, rfl, rfl, ?_, le_rfl,
      by norm_num [exSecond, exReactor], by decide, by decide, by norm_num [exSecond, exReactor]⟩, dec⟩,
      fun _ _ _ _ _ _ _ _ => trivial, fun _ _ _ _ => trivial⟩
    intro r hr
    simp only [exSecond, exReactor, List.mem_singleton, List.not_mem_nil, or_false] at hr ⊢
    rcases hr with rfl | rfl <;> decide
  · refine ⟨⟨⟨by norm_num [exPool, exSink], by norm_num [exPool, exSink], by norm_num [exPool, exSink],
      by norm_num [exPool, exSink], ?_⟩, ?_, Or.inl rfl, rfl, rfl⟩, fun _ _ _ _ => trivial⟩ <;>
    · intro r hr; cases hr

theorem exFleet_supplied : Supplies exFleet exFuel 10 := by
  refine ⟨?_, by decide +kernel, by decide +kernel, by decide +kernel⟩
  intro k hk
  simp only [exFleet, List.mem_cons, List.not_mem_nil, or_false] at hk
  rcases hk with rfl | rfl | rfl | rfl <;> decide

theorem exFleet_drained : Drains exFleet exPool 10 := by
  refine ⟨?_, by decide +kernel, by decide +kernel, by decide +kernel⟩
  intro k hk
  simp only [exFleet, List.mem_cons, List.not_mem_nil, or_false] at hk
  rcases hk with rfl | rfl | rfl | rfl <;> decide

/-- Both reactors of the example meet the hypotheses. -/
example : ∃ ps l ps', deployAll exFleet = .ok ps ∧
    simulate (fun _ => filling) 10 0 ps = .ok (l, ps') ∧ ∀ j c, (j, c) ∈ [(1, exReactor), (2, exSecond)] →
    ∀ (t : Nat) gs, l[t]? = some gs → (givenTo gs j).length = Reactor.supplyAt c t ∧
      (givenBy gs j).length = Reactor.batchAt c t := by
  obtain ⟨ps, h1, h2⟩ := C125_runs_partial exFleet_sensible
  obtain ⟨l, ps', h3, -⟩ := h2 (fun _ => filling) (fun _ => filling_fair) 10
  refine ⟨ps, l, ps', h1, h3, fun j c hjc => ?_⟩
  have key : ∀ {is : List Reactor.In} {os : List Reactor.Out}, l.length = 10 ∧ os.length = 10 →
      (∀ (t : Nat) gs o, l[t]? = some gs → os[t]? = some o → OnTime c t gs j o) →
      ∀ (t : Nat) gs, l[t]? = some gs → (givenTo gs j).length = Reactor.supplyAt c t ∧
      (givenBy gs j).length = Reactor.batchAt c t := by
    intro is os hl ho t gs hg
    have := (List.getElem?_eq_some_iff.1 hg).1
    have := ho t gs os[t] hg (List.getElem?_eq_getElem (by omega))
    exact ⟨this.supplied, this.shipped⟩
  simp only [List.mem_cons, Prod.mk.injEq, List.not_mem_nil, or_false] at hjc
  rcases hjc with ⟨rfl, rfl⟩ | ⟨rfl, rfl⟩
  · obtain ⟨is, os, s, -, -, e1, e2, -, -, e3, -⟩ := C136_on_schedule_partial exFleet_sensible h1
      (fun _ => filling_fair) (fun _ => filling_eager) (i := 0) rfl exFleet_supplied (b := 3) rfl
      exFleet_drained (j := 1) rfl (by decide) (by decide) (by decide +kernel) rfl rfl (by decide) h3
    exact key (is := is) ⟨e1, e2⟩ e3
  · obtain ⟨is, os, s, -, -, e1, e2, -, -, e3, -⟩ := C136_on_schedule_partial exFleet_sensible h1
      (fun _ => filling_fair) (fun _ => filling_eager) (i := 0) rfl exFleet_supplied (b := 3) rfl
      exFleet_drained (j := 2) rfl (by decide) (by decide) (by decide +kernel) rfl rfl (by decide) h3
    exact key (is := is) ⟨e1, e2⟩ e3

/-- What the reactors of the example are given and give in seven steps. -/
example : ((deployAll exFleet >>= simulate (fun _ => filling) 7 0).toOption.map fun r => r.1.map fun gs =>
      ((givenTo gs 1).length, (givenBy gs 1).length, (givenTo gs 2).length, (givenBy gs 2).length)) =
    some [(3, 0, 5, 0), (0, 0, 2, 2), (1, 1, 0, 0), (0, 0, 2, 2), (0, 0, 0, 0), (1, 1, 2, 2), (0, 0, 0, 0)] := by
  decide +kernel

end Cyc.Sim
