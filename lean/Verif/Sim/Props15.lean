import Verif.Sim.Chain
import Verif.Sim.Props12

/-!
# A mine and conversions that keep enrichment in feed: property C146
-/

namespace Cyc.Sim

variable {A : Agreement}

/-- From the time step `m₀` on, and before the step `n`, the facility at the position `a` offers `r` or more
of the commodity `x`, if somebody asks for it. -/
def Pouring (ex : Nat → Exchange) (ps : List (Running act)) (n m₀ : Nat) (r : ℚ) (x : String) (a : Nat) :
    Prop :=
  ∀ m, m₀ ≤ m → m < n → ∀ l ps', simulate ex m 0 ps = .ok (l, ps') → ∀ asks offers,
    askAll ps' = .ok asks → offerAll (requestsOf asks) ps' = .ok offers →
    (∃ q ∈ requestsOf asks, q.commod = x) →
    ∃ v b, r ≤ v ∧ b ≤ 0 ∧ offers[a]? = some [⟨x, v, b, none, fun _ => true, []⟩]

/-- A source pours from the first step on. -/
theorem source_pours {ks : List Kind} (hks : ∀ k ∈ ks, Sensible k ∧ Suits A k)
    {ps : List (Running act)} (h : deployAll ks = .ok ps) {ex : Nat → Exchange}
    (hex : ∀ t, (ex t).Fair) {n a : Nat} {f : Source.Cfg} (ha : ks[a]? = some (.source f)) {r : ℚ}
    (h1 : r ≤ f.throughput) (h2 : n * f.throughput ≤ f.size) (h3 : f.eps ≤ f.throughput) (h4 : f.lo ≤ 0) :
    Pouring ex ps n 0 r f.outcommod a := by
  intro m _ hm l ps₁ e1 asks offers a1 o1 hr
  obtain ⟨g0, kinds⟩ := deployAll_k h hks
  obtain ⟨l', ps'', r1, -, r2, r3, -⟩ := simulate_ok (A := A) hex m 0 g0
  obtain ⟨rfl, rfl⟩ := Prod.mk.inj (Except.ok.inj (r1.symm.trans e1))
  obtain ⟨asks', a1', a2, a3, a4⟩ := askAll_ok r2
  obtain rfl := Except.ok.inj (a1.symm.trans a1')
  obtain ⟨offers', o1', o2, o3⟩ := offerAll_ok a3 r2
  obtain rfl := Except.ok.inj (o1.symm.trans o1')
  obtain ⟨hcf, si, hsi, Li⟩ := lived_at hks h hex e1 ha
  have bal := C132_balance_partial hks h hex e1 hsi
  have full : f.size ≤ Source.stock si + totalQty (l'.map fun gs => givenBy gs a).flatten := by
    have hgot : (l'.flatMap fun gs => givenTo gs a) = [] := by
      obtain ⟨-, -, -, -, -, -, -, e, -⟩ := Li
      rw [List.flatMap_def, e, List.flatten_replicate_nil]
    rw [hgot, List.flatMap_def] at bal
    have : totalQty ([] : List NMat) = 0 := rfl
    rw [this, add_zero] at bal
    exact bal.ge
  obtain ⟨os, d1, d2⟩ := forall₂_get o2 hsi
  rw [OfSource.offers_full hcf Li hm h2 h3 full hr d2] at d1
  exact ⟨_, _, h1, h4, d1⟩

/-- What the only buyer gets from somebody who pours. -/
theorem poured {ks : List Kind} (hks : ∀ k ∈ ks, Sensible k ∧ Suits A k)
    {ps : List (Running act)} (h : deployAll ks = .ok ps) {ex : Nat → Exchange}
    (hex : ∀ t, (ex t).Fair) (hth : ∀ t, (ex t).Thorough) {n m₀ a : Nat} {r : ℚ} {x : String}
    (hp : Pouring ex ps n m₀ r x a) {i : Nat}
    (only : ∀ (j : Nat) k, ks[j]? = some k → x ∈ buysOf k → j = i) {m : Nat} (h0 : m₀ ≤ m) (hm : m < n)
    {l : List (List (Deal × NMat))} {ps₁ ps' : List (Running act)} {gs : List (Deal × NMat)}
    (e1 : simulate ex m 0 ps = .ok (l, ps₁)) (e2 : round (ex m) ps₁ = .ok (gs, ps'))
    {p : Running act} (k1 : ps₁[i]? = some p) {alts : List (String × NMat)} {u : ℚ} {t : NMat}
    (k2 : (act p.k).asks p.s = .ok [⟨alts, u, false⟩]) (k3 : (x, t) ∈ alts) (k4 : u ≤ qty t) :
    r ≤ totalQty (givenTo gs i) ∨ u ≤ totalQty (givenTo gs i) := by
  obtain ⟨g0, kinds⟩ := deployAll_k h hks
  obtain ⟨l', ps'', r1, -, r2, r3, -⟩ := simulate_ok (A := A) hex m 0 g0
  obtain ⟨rfl, rfl⟩ := Prod.mk.inj (Except.ok.inj (r1.symm.trans e1))
  have kinds' := r3.trans kinds
  obtain ⟨asks, offers, gs', ps₂, a1, o1, b3, ⟨b4, b5⟩, -⟩ := round_ok (hex m) r2
  obtain ⟨rfl, rfl⟩ := Prod.mk.inj (Except.ok.inj (b3.symm.trans e2))
  obtain ⟨asks', a1', a2, a3, a4⟩ := askAll_ok r2
  obtain rfl := Except.ok.inj (a1.symm.trans a1')
  obtain ⟨offers', o1', o2, o3⟩ := offerAll_ok a3 r2
  obtain rfl := Except.ok.inj (o1.symm.trans o1')
  have F := hex m _ _ a4 o3
  have T := hth m _ _ a4 o3
  have hto : totalQty (givenTo gs' i) = dealt (ex m asks offers) fun d => d.dst = i := by
    rw [← dealt_perm b4, dealt_given fun g hg => (b5 g hg).1.2]
    rfl
  obtain ⟨as, c1, c2⟩ := forall₂_get a2 k1
  obtain rfl := Except.ok.inj (k2.symm.trans c2)
  obtain ⟨v, b, v1, v2, d1⟩ := hp m h0 hm _ _ e1 _ _ a1 o1
    ⟨⟨x, t⟩, List.mem_flatMap.2 ⟨_, List.mem_flatten.2 ⟨_, List.mem_of_getElem? c1,
      List.mem_singleton.2 rfl⟩, List.mem_map.2 ⟨_, k3, rfl⟩⟩, rfl⟩
  rw [hto]
  rcases pours F T d1 v2 c1 k3 k4 with hq | hq
  · left
    refine (v1.trans hq).trans (dealt_mono (fun d hd => (F.pos d hd).1.le) ?_)
    intro d hd hsrc
    have hsrc := of_decide_eq_true hsrc
    obtain ⟨os', i1, o', i2, i3, -⟩ := F.offered d hd
    rw [hsrc, d1] at i1
    obtain rfl := Option.some.inj i1
    rw [List.mem_singleton.1 i2] at i3
    change x = d.commod at i3
    obtain ⟨as', j1, a', j2, j3, -⟩ := F.asked d hd
    obtain ⟨p', p1, p2⟩ := forall₂_get a2.flip j1
    have := asks_commods p2 _ (List.mem_of_getElem? j2) _ j3
    refine decide_eq_true (only d.dst p'.k ?_ ?_)
    · rw [← kinds', List.getElem?_map, p1]; rfl
    · rw [i3]; exact this
  · exact Or.inr hq

namespace OfConversion
open Conversion

/-- The parts of a time step. -/
theorem parts {c : Cfg} (hc : Sensible (.conversion c)) {s : State} {n : Nat}
    {got gave : List (List Sim.NMat)} (L : Lived (.conversion c) s n got gave) :
    Inv c s ∧ ∃ s₁, tick c s = .ok s₁ ∧ Inv c s₁ ∧ 0 ≤ feed s₁ ∧
      min (feed s) c.throughput ≤ product s₁ := by
  obtain ⟨is, os, h1, h2, -⟩ := L
  have g1 : ∀ s i is, HonestRun c s (i :: is) ↔
      ((0 < feed s → c.lo ≤ feed s) ∧ ∀ s₁, tick c s = .ok s₁ → Honest c s₁ i) ∧
        ∀ o s', step c s i = .ok (o, s') → HonestRun c s' is := fun _ _ _ => and_assoc.symm
  have S : Substantial is := honest_all (step := step c) (run := run c) (fun _ => rfl)
    (fun _ _ _ => rfl) g1 (Q := fun i => ∀ m ∈ i.buys, Conversion.Solid m) (by
      intro s i o s' h hs
      simp only [step, bind_ok] at hs
      obtain ⟨s₁, e, -⟩ := hs
      exact (h.2 s₁ e).solid) h1 h2
  have I : Inv c s := history_inv h1 S
  obtain ⟨s₁, e⟩ := tick_ok I hc.2.1 (by linarith [hc.2.2.2, hc.2.1]) fun hp => by linarith [hc.2.2.2]
  obtain ⟨I1, k⟩ := tick_inv I e
  refine ⟨I, s₁, e, I1, I1.input.nonneg, ?_⟩
  rcases k with ⟨k, -⟩ | ⟨-, t, M⟩
  · rw [k]
    exact (min_le_left _ _).trans I1.output.nonneg
  · rw [M.product, M.amount]
    have : 0 ≤ product s := I.output.nonneg
    linarith

end OfConversion

/-- A conversion that gets its feed from somebody who pours does so one step later. -/
theorem conversion_pours {ks : List Kind} (hks : ∀ k ∈ ks, Sensible k ∧ Suits A k)
    {ps : List (Running act)} (h : deployAll ks = .ok ps) {ex : Nat → Exchange}
    (hex : ∀ t, (ex t).Fair) (hth : ∀ t, (ex t).Thorough) {n m₀ a : Nat} {r : ℚ} (hr : 0 < r) {x : String}
    (hp : Pouring ex ps n m₀ r x a) {i : Nat}
    (only : ∀ (j : Nat) k, ks[j]? = some k → x ∈ buysOf k → j = i) {c : Conversion.Cfg}
    (hi : ks[i]? = some (.conversion c)) (h1 : x ∈ c.incommods) (h2 : r ≤ c.throughput)
    (h3 : r ≤ c.capacity) : Pouring ex ps n (m₀ + 1) r c.outcommod i := by
  intro m' h0 hm l ps' hs asks offers a1 o1 _
  obtain ⟨m, rfl⟩ : ∃ m, m' = m + 1 := ⟨m' - 1, by omega⟩
  obtain ⟨l₁, ps₁, gs, e1, e2, rfl⟩ := simulate_snoc hs
  rw [Nat.zero_add] at e2
  -- the input before the step
  obtain ⟨g0, kinds⟩ := deployAll_k h hks
  obtain ⟨hc, s, k1, L⟩ := lived_at hks h hex e1 hi
  obtain ⟨I, s₁, t1, I1, n1, -⟩ := OfConversion.parts hc L
  obtain ⟨l', ps'', r1, -, r2, r3, -⟩ := simulate_ok (A := A) hex m 0 g0
  obtain ⟨rfl, rfl⟩ := Prod.mk.inj (Except.ok.inj (r1.symm.trans e1))
  obtain ⟨asks', offers', hs', a1', o1', -, -, a3, P⟩ := round_parts' (hex m) r2 e2
  obtain ⟨os, l2, as, mm, s', Pi, q1, -, -⟩ := P i _ k1
  have hgot : Conversion.feed s' = Conversion.feed s₁ + totalQty (givenTo gs i) := by
    obtain ⟨-, -, hsell, -, hd, hset⟩ := Pi
    simp only [act, conversion, bind_ok] at hsell
    obtain ⟨s₁', t1', b, -, hsell⟩ := hsell
    obtain rfl := Except.ok.inj (t1.symm.trans t1')
    obtain ⟨I2, i2, -⟩ := Conversion.sell_inv I1 hsell
    obtain ⟨-, -, f3, -⟩ := Conversion.accept_inv I2 (by
      intro y hy
      obtain ⟨d, hd', rfl⟩ := List.mem_map.1 hy
      exact hd.solid d hd') hset
    rw [f3, List.map_map]
    show totalQty mm.input.items + _ = totalQty s₁.input.items + _
    rw [i2]
    rfl
  have hfeed : r ≤ Conversion.feed s' := by
    have hq : s₁.input.quantity = Conversion.feed s₁ := rfl
    have n2 : 0 ≤ totalQty (givenTo gs i) := by
      apply List.sum_nonneg
      intro y hy
      obtain ⟨z, hz, rfl⟩ := List.mem_map.1 hy
      obtain ⟨g, hg, rfl⟩ := List.mem_map.1 hz
      exact (Pi.deliveries.solid (delivery g) (List.mem_map.2 ⟨g, hg, rfl⟩)).1.le
    by_cases hav : Conversion.available c s₁ ≤ 0
    · unfold Conversion.available at hav
      linarith
    · have hask : (act (.conversion c)).asks s =
          .ok [⟨c.incommods.map fun k => (k, blank (Conversion.available c s₁)),
            Conversion.available c s₁, false⟩] := by
        simp only [act, conversion, t1, ok_bind, pure_eq_ok]
        unfold Conversion.requests
        rw [if_neg hav]
        simp [List.map_map, Function.comp_def]
      rcases poured hks h hex hth hp only (by omega) (by omega) e1 e2 k1 hask
        (List.mem_map.2 ⟨x, h1, rfl⟩) (by rw [qty_blank]) with k | k
      · linarith
      · unfold Conversion.available at k
        linarith
  -- the offer
  obtain ⟨-, s'', k1', L'⟩ := lived_at hks h hex hs hi
  obtain rfl : s' = s'' := by
    have := q1.symm.trans k1'
    simpa using this
  obtain ⟨I', s₂, t2, I2, -, n3⟩ := OfConversion.parts hc L'
  have hr2 : r ≤ Conversion.product s₂ := le_trans (le_min hfeed h2) n3
  obtain ⟨l'', ps''', w1, -, w2, w3, -⟩ := simulate_ok (A := A) hex (m + 1) 0 g0
  obtain ⟨rfl, rfl⟩ := Prod.mk.inj (Except.ok.inj (w1.symm.trans hs))
  obtain ⟨asks₂, x1, x2, x3, x4⟩ := askAll_ok w2
  obtain rfl := Except.ok.inj (a1.symm.trans x1)
  obtain ⟨offers₂, y1, y2, y3⟩ := offerAll_ok x3 w2
  obtain rfl := Except.ok.inj (o1.symm.trans y1)
  obtain ⟨os', d1, d2⟩ := forall₂_get y2 k1'
  simp only [act, conversion, t2, ok_bind, bind_ok, pure_eq_ok, Except.ok.injEq] at d2
  obtain ⟨b, hb, rfl⟩ := d2
  rcases Conversion.bids_eq I2 (conversionReqs (requestsOf asks)) with ⟨k, -⟩ | ⟨y, -, -, k⟩
  · linarith
  · obtain rfl := Except.ok.inj (k.symm.trans hb)
    exact ⟨_, _, hr2, hc.2.2.2, d1⟩

/-- The end of the chain pours, one step later for each conversion. -/
theorem chain_pours {ks : List Kind} (hks : ∀ k ∈ ks, Sensible k ∧ Suits A k)
    {ps : List (Running act)} (h : deployAll ks = .ok ps) {ex : Nat → Exchange}
    (hex : ∀ t, (ex t).Fair) (hth : ∀ t, (ex t).Thorough) {n : Nat} {r : ℚ} (hr : 0 < r) {i : Nat}
    {y : String} {js : List Nat} : ∀ {x : String} {a m₀ : Nat}, Pouring ex ps n m₀ r x a →
    Flows ks r i y x js → (∃ b, Pouring ex ps n (m₀ + js.length) r y b) ∧
      ∀ (j : Nat) k, ks[j]? = some k → y ∈ buysOf k → j = i := by
  induction js with
  | nil =>
    intro x a m₀ hp hf
    obtain ⟨rfl, hf⟩ := hf
    exact ⟨⟨a, hp⟩, hf⟩
  | cons j js ih =>
    intro x a m₀ hp hf
    obtain ⟨f1, c, f2, f3, f4, f5, f6⟩ := hf
    obtain ⟨⟨b, hb⟩, k⟩ := ih (conversion_pours hks h hex hth hr hp f1 f2 f3 f4 f5) f6
    refine ⟨⟨b, ?_⟩, k⟩
    rw [List.length_cons, show m₀ + (js.length + 1) = m₀ + 1 + js.length by omega]
    exact hb

/-- The feed never gets low. -/
theorem chain_kept {ks : List Kind} (hks : ∀ k ∈ ks, Sensible k ∧ Suits A k)
    {ps : List (Running act)} (h : deployAll ks = .ok ps) {ex : Nat → Exchange}
    (hex : ∀ t, (ex t).Fair) (hth : ∀ t, (ex t).Thorough) {n i a : Nat} {e : Enrichment.Cfg}
    (hi : ks[i]? = some (.enrichment e)) {lo hi' φ σ : ℚ} (hE : Enriches A ks e lo hi' φ σ)
    {f : Source.Cfg} (ha : ks[a]? = some (.source f)) {js : List Nat} {r : ℚ}
    (hM : Feeds ks i e f js φ r n) (hφ : 0 ≤ φ) :
    ∀ {m : Nat}, m ≤ n → ∀ {l : List (List (Deal × NMat))} {ps' : List (Running act)},
    simulate ex m 0 ps = .ok (l, ps') → ∃ s : Enrichment.State, ps'[i]? = some ⟨.enrichment e, s⟩ ∧
      OfEnrichment.Fit e lo hi' s ∧ φ * (ks.map freshRoom).sum + e.eps ≤ s.inventory.quantity ∧
      (m ≤ js.length → e.initialFeed - m * (φ * (ks.map freshRoom).sum) ≤ s.inventory.quantity) ∧
      min (e.initialFeed - js.length * (φ * (ks.map freshRoom).sum))
        (e.maxFeed - φ * (ks.map freshRoom).sum - e.eps) ≤ s.inventory.quantity := by
  have hR := freshRoom_nonneg fun k hk => (hks k hk).1
  have V : Enrichment.Valid e := (hks _ (List.mem_of_getElem? hi)).1.1
  obtain ⟨⟨b, hb⟩, only⟩ := chain_pours hks h hex hth hM.pos
    (source_pours hks h hex ha hM.gives hM.lasts hM.offers hM.amounts) hM.flows
  rw [Nat.zero_add] at hb
  have h3 := mul_nonneg hφ hR
  have h4 := V.eps
  have h5 := hM.first
  have h5' := hM.rate
  have h6 := hM.room
  set R := φ * (ks.map freshRoom).sum with hRdef
  have h7 : 0 ≤ (js.length : ℚ) * R := mul_nonneg (Nat.cast_nonneg _) h3
  have low : R + e.eps ≤ min (e.initialFeed - js.length * R) (e.maxFeed - R - e.eps) :=
    le_min (by linarith) (by linarith)
  intro m
  induction m with
  | zero =>
    intro _ l ps' hs
    simp only [simulate, Except.ok.injEq, Prod.mk.injEq] at hs
    obtain ⟨rfl, rfl⟩ := hs
    obtain ⟨s, k1, k2, k3⟩ := feed_first hks h hi hE (by linarith)
    exact ⟨s, k1, k2, by rw [k3]; linarith, fun _ => by rw [k3]; simp,
      (min_le_left _ _).trans (by rw [k3]; linarith)⟩
  | succ m ih =>
    intro hm l ps' hs
    obtain ⟨l₁, ps₁, gs, e1, e2, rfl⟩ := simulate_snoc hs
    rw [Nat.zero_add] at e2
    obtain ⟨s, k1, F, k2, k3, k3'⟩ := ih (by omega) e1
    obtain ⟨s', k4, F', k5, k6⟩ := feed_step hks h hex hi hE hφ e1 e2 k1 F k2
    suffices key : (m + 1 ≤ js.length → e.initialFeed - (m + 1 : ℕ) * R ≤ s'.inventory.quantity) ∧
        min (e.initialFeed - js.length * R) (e.maxFeed - R - e.eps) ≤ s'.inventory.quantity from
      ⟨s', k4, F', low.trans key.2, key⟩
    rcases Nat.lt_or_ge m js.length with hlt | hge
    · have h8 : e.initialFeed - (m + 1 : ℕ) * R ≤ s'.inventory.quantity := by
        have := k3 hlt.le
        push_cast
        linarith
      refine ⟨fun _ => h8, (min_le_left _ _).trans (le_trans ?_ h8)⟩
      have : ((m + 1 : ℕ) : ℚ) * R ≤ js.length * R :=
        mul_le_mul_of_nonneg_right (by exact_mod_cast hlt) h3
      linarith
    · refine ⟨fun h => absurd h (by omega), ?_⟩
      have hle := min_le_right (e.initialFeed - (js.length : ℚ) * R) (e.maxFeed - R - e.eps)
      rcases OfEnrichment.asked V (rfl : (enrichment e).asks s = .ok _) with ⟨h0, -⟩ | ⟨q, h0, -, hq⟩
      · unfold Enrichment.requests at h0
        split at h0
        · cases h0
        · rename_i hn
          have h1 := le_trans (le_max_right _ _) (not_lt.1 hn)
          change e.maxFeed - s.inventory.quantity ≤ e.eps at h1
          linarith
      · have hq' : e.maxFeed - s.inventory.quantity ≤ q := by
          unfold Enrichment.requests at h0
          split at h0
          · rw [← Option.some.inj h0]
            exact le_max_right _ _
          · cases h0
        rcases poured hks h hex hth hb only hge (by omega) e1 e2 k1 (congrArg Except.ok hq)
          (List.mem_singleton.2 rfl) (by
            rw [Mat.qty_scale]
            have := V.recipePos
            field_simp
            exact le_refl _) with k | k <;> linarith

/-- C146. In a simulation with a mine, conversions, an enrichment facility, reactors and a sink for their
spent fuel, every reactor runs on schedule, in the same sense as with a source of fuel (C136): if the mine
and each conversion can pass on what the enrichment facility uses in a time step, the enrichment facility
can supply its reactors, the sink can take their spent fuel, and the exchange leaves no trade alone that the
constraints allow. The chain of conversions may be of any length. The enrichment facility needs a stock
of feed for one time step, and for one more step for each conversion, however long the simulation.

Partial: as C125. -/
theorem C146_front_end_partial {ks : List Kind} (hks : ∀ k ∈ ks, Sensible k ∧ Suits A k)
    {ps : List (Running act)} (h : deployAll ks = .ok ps) {ex : Nat → Exchange}
    (hex : ∀ t, (ex t).Fair) (hke : ∀ t, (ex t).Keen) (hth : ∀ t, (ex t).Thorough) {n i a : Nat}
    {e : Enrichment.Cfg} (hi : ks[i]? = some (.enrichment e)) {lo hi' φ σ : ℚ}
    (hE : Enriches A ks e lo hi' φ σ) {f : Source.Cfg} (ha : ks[a]? = some (.source f)) {js : List Nat}
    {r : ℚ} (hM : Feeds ks i e f js φ r n) {b : Nat}
    {w : Sink.Cfg} (hb : ks[b]? = some (.sink w)) (hD : Drains ks w n) {j : Nat} {c : Reactor.Cfg}
    {enc : NMat → Nat} {dec : Nat → NMat} (hj : ks[j]? = some (.reactor c enc dec))
    (h1 : e.productCommod ∈ c.inCommods) (h3 : max e.lo e.eps ≤ c.assemSize)
    (hf : ∀ name r, Reactor.Names c e.productCommod name → c.recipe name = some r →
      Enrichment.Feasible e (dec r))
    (h2 : ∀ x ∈ c.outCommods, x ∈ w.commods) (hx : c.exitTime = none) (hz : c.cycleStep = 0)
    (hsp : min c.nBatch c.nCore ≤ c.nSpent) {l : List (List (Deal × NMat))} {ps' : List (Running act)}
    (hs : simulate ex n 0 ps = .ok (l, ps')) : ∃ (is : List Reactor.In) (os : List Reactor.Out)
      (s : Reactor.State × Nat), ps'[j]? = some ⟨.reactor c enc dec, s⟩ ∧
      Reactor.History c is os s.1 ∧ l.length = n ∧ os.length = n ∧
      is.map (fun i => i.buys.map Prod.snd) = numbered enc 0 (l.map fun gs => givenTo gs j) ∧
      os.map (fun o => material dec (o.shipped.map Prod.snd)) = (l.map fun gs => givenBy gs j) ∧
      (∀ (t : Nat) gs o, l[t]? = some gs → os[t]? = some o → OnTime c t gs j o) ∧
      Reactor.energy os = c.powerCap * Reactor.ideal c n := by
  obtain ⟨is, os, s, k1, k2, -, k4, k5, k6, k7, -, -, k10⟩ :=
    on_schedule hks h hex (fun t => (hke t).eager) hb hD hj
      (enrichment_fills hks h hex hke hi hE hj h1 h3 hf fun hφ m hm l ps' hs =>
        let ⟨s, q1, q2, q3, _⟩ := chain_kept hks h hex hth hi hE ha hM hφ hm.le hs
        ⟨s, q1, q2, q3⟩) h2 hx hz hsp (le_refl n) hs
  refine ⟨is, os, s, k1, k2, k5, k4, k6, k7, k10, ?_⟩
  rw [Reactor.energy_eq (c := c), k4]
  intro t o ho
  have ht : t < l.length := by
    have := (List.getElem?_eq_some_iff.1 ho).1
    omega
  exact (k10 t l[t] o (List.getElem?_eq_getElem ht) ho).power

/-! ## An example -/

/-- A mine that gives 1300 kg of ore per step. -/
def exOreMine : Source.Cfg :=
  { exQuarry with
    outcommod := "ore" }

/-- From ore to cake, 1260 kg per step. -/
def exMill : Conversion.Cfg :=
  { exConversion with
    outcommod := "cake"
    throughput := 1260
    capacity := 1300 }

/-- From cake to feed, 1250 kg per step and no room for more. -/
def exFluoride : Conversion.Cfg :=
  { exConversion with
    incommods := ["cake"]
    throughput := 1250
    capacity := 1250 }

/-- Enrichment for two reactors, with feed for three time steps. -/
def exSlowStart : Enrichment.Cfg :=
  { exPlant with
    initialFeed := 3750
    maxFeed := 3750 }

/-- A mine, two conversions, enrichment, two reactors, a sink for their spent fuel and one for tails. -/
def exChain : List Kind :=
  [.conversion exFluoride, .source exOreMine, .enrichment exSlowStart, .conversion exMill,
    .reactor exReactor (fun _ => 1) exDec, .reactor exSecond (fun _ => 1) exDec, .sink exPool, .sink exSink]

/-- As `exAgreement`, and cake has 1 % of uranium-235. -/
def exCakeAgreement : Agreement where
  target := exAgreement.target
  mat k m := (k = "ore" ∨ k = "cake" ∨ k = "feed" → Assayed (1/100) (1/100) m) ∧
    (k = "fuel" → Enrichment.Pure [m])

theorem exChain_sensible : ∀ k ∈ exChain, Sensible k ∧ Suits exCakeAgreement k := by
  have base := exFrontEnd_sensible
  simp only [exFrontEnd, List.mem_cons, List.not_mem_nil, or_false, forall_eq_or_imp, forall_eq] at base
  obtain ⟨b1, b2, b3, b4, b5, b6⟩ := base
  have conv := exKinds_sensible (.conversion exConversion) (by simp [exKinds])
  have any : ∀ k, k ≠ "fuel" → ∀ m, exCakeAgreement.target k m := fun k hk m e => absurd e hk
  have free : ∀ k, k ≠ "ore" → k ≠ "cake" → k ≠ "feed" → k ≠ "fuel" → Free exCakeAgreement k :=
    fun k h1 h2 h3 h4 m _ => ⟨fun e => (e.elim h1 fun e => e.elim h2 h3).elim, fun e => absurd e h4⟩
  have spent : Free exCakeAgreement "spent" := free _ (by decide) (by decide) (by decide) (by decide)
  intro k hk
  simp only [exChain, List.mem_cons, List.not_mem_nil, or_false] at hk
  rcases hk with rfl | rfl | rfl | rfl | rfl | rfl | rfl | rfl
  · refine ⟨⟨by norm_num [exFluoride], by norm_num [exFluoride], conv.2.2.1, conv.2.2.2⟩,
      fun k hk q _ => any _ ?_ _, Assayed (1/100) (1/100), OfEnrichment.assayed_blendable _ _,
      fun k hk m _ hm => ?_, fun m _ hm => ⟨fun _ => hm, fun e => absurd e (by decide)⟩⟩
    · simp only [exFluoride, List.mem_singleton] at hk; subst hk; decide
    · simp only [exFluoride, List.mem_singleton] at hk; subst hk; exact hm.1 (Or.inr (Or.inl rfl))
  · refine ⟨b1.1, Assayed (1/100) (1/100), OfEnrichment.assayed_blendable _ _, fun r hr => ?_, ?_, ?_⟩
    · cases hr
      exact exAssayed
    · intro h; cases h
    · intro m _ hm
      exact ⟨fun _ => hm, fun e => absurd e (by decide)⟩
  · refine ⟨⟨⟨b2.1.1.recipe, b2.1.1.recipePos, b2.1.1.eps, by norm_num [exSlowStart],
      b2.1.1.tails, b2.1.1.tailsLe, b2.1.1.swu, b2.1.1.atom235, b2.1.1.atom238⟩,
      by norm_num [exSlowStart], b2.1.2.2⟩, b2.2.1,
      free _ (by decide) (by decide) (by decide) (by decide), ?_, 1/100,
      1/100, by norm_num [exSlowStart, exPlant, exEnrichment], exAssayed,
      fun m _ hm => hm.1 (Or.inr (Or.inr rfl)), fun m _ hm _ => hm rfl⟩
    intro m q _ _ _ _
    exact ⟨fun e => absurd e (by decide), fun _ => Enrichment.pure_scale (Enrichment.offer_pure m)⟩
  · refine ⟨⟨by norm_num [exMill], by norm_num [exMill], conv.2.2.1, conv.2.2.2⟩,
      fun k hk q _ => any _ ?_ _, Assayed (1/100) (1/100), OfEnrichment.assayed_blendable _ _,
      fun k hk m _ hm => ?_, fun m _ hm => ⟨fun _ => hm, fun e => absurd e (by decide)⟩⟩
    · simp only [exMill, exConversion, List.mem_singleton] at hk; subst hk; decide
    · simp only [exMill, exConversion, List.mem_singleton] at hk; subst hk; exact hm.1 (Or.inl rfl)
  · refine ⟨b3.1, b3.2.1, fun k hk => ?_⟩
    simp only [exReactor, List.mem_singleton] at hk; subst hk
    exact spent
  · refine ⟨b4.1, b4.2.1, fun k hk => ?_⟩
    simp only [exSecond, exReactor, List.mem_singleton] at hk; subst hk
    exact spent
  · exact b5
  · exact b6

theorem exChain_drained : Drains exChain exPool 10 := by
  refine ⟨?_, by decide +kernel, by decide +kernel, by decide +kernel⟩
  intro k hk
  simp only [exChain, List.mem_cons, List.not_mem_nil, or_false] at hk
  rcases hk with rfl | rfl | rfl | rfl | rfl | rfl | rfl | rfl <;> decide

theorem exChain_enriched : Enriches exCakeAgreement exChain exSlowStart (1/100) (1/100) 13 (1/2) := by
  have E := exOwnFuel_enriched
  refine ⟨?_, E.tails, E.recipe, fun m _ hm => hm.1 (Or.inr (Or.inr rfl)),
    fun m h1 h2 h3 => E.rich m h1 h2 ⟨h3.has238, h3.above, h3.below⟩,
    fun m h1 h2 h3 => E.uses m h1 h2 ⟨h3.has238, h3.above, h3.below⟩, by decide +kernel⟩
  intro k hk
  simp only [exChain, List.mem_cons, List.not_mem_nil, or_false] at hk
  rcases hk with rfl | rfl | rfl | rfl | rfl | rfl | rfl | rfl <;> decide

theorem exChain_fed : Feeds exChain 2 exSlowStart exOreMine [3, 0] 13 1250 10 := by
  have only : ∀ x a, (x, a) ∈ [("ore", 3), ("cake", 0), ("feed", 2)] → ∀ (j : Nat) k,
      exChain[j]? = some k → x ∈ buysOf k → j = a := by
    intro x a hx j k hj hk
    simp only [List.mem_cons, Prod.mk.injEq, List.not_mem_nil, or_false] at hx
    rcases hx with ⟨rfl, rfl⟩ | ⟨rfl, rfl⟩ | ⟨rfl, rfl⟩
    all_goals
      match j with
      | 0 | 1 | 2 | 3 | 4 | 5 | 6 | 7 => cases hj; first | rfl | exact absurd hk (by decide)
      | j + 8 => cases hj
  exact ⟨⟨only _ _ (by decide), _, rfl, by decide, by decide +kernel, by decide +kernel,
    only _ _ (by decide), _, rfl, by decide, by decide +kernel, by decide +kernel, rfl,
    only _ _ (by decide)⟩, by decide +kernel, by decide +kernel, by decide +kernel, by decide +kernel,
    by decide +kernel, by decide +kernel, by decide +kernel, by decide +kernel⟩

/-- Both reactors of the example meet the hypotheses. The feed at the beginning would last for three
steps. -/
example : ∃ ps l ps', deployAll exChain = .ok ps ∧ ¬ Lasts exChain exSlowStart 13 4 ∧
    simulate (fun _ => sating) 10 0 ps = .ok (l, ps') ∧ ∀ j c, (j, c) ∈ [(4, exReactor), (5, exSecond)] →
    ∀ (t : Nat) gs, l[t]? = some gs → (givenTo gs j).length = Reactor.supplyAt c t ∧
      (givenBy gs j).length = Reactor.batchAt c t := by
  obtain ⟨ps, h1, h2⟩ := C125_runs_partial exChain_sensible
  obtain ⟨l, ps', h3, -⟩ := h2 (fun _ => sating) (fun _ => sating_fair) 10
  refine ⟨ps, l, ps', h1, by unfold Lasts; decide +kernel, h3, fun j c hjc => ?_⟩
  have key : ∀ {is : List Reactor.In} {os : List Reactor.Out}, l.length = 10 ∧ os.length = 10 →
      (∀ (t : Nat) gs o, l[t]? = some gs → os[t]? = some o → OnTime c t gs j o) →
      ∀ (t : Nat) gs, l[t]? = some gs → (givenTo gs j).length = Reactor.supplyAt c t ∧
      (givenBy gs j).length = Reactor.batchAt c t := by
    intro is os hl ho t gs hg
    have := (List.getElem?_eq_some_iff.1 hg).1
    have := ho t gs os[t] hg (List.getElem?_eq_getElem (by omega))
    exact ⟨this.supplied, this.shipped⟩
  have fresh : Enrichment.Feasible exSlowStart (exDec 1) :=
    ⟨by decide +kernel, by decide +kernel, by decide +kernel⟩
  have feasible : ∀ name ∈ ["fresh"] ++ [], ∀ r, exReactor.recipe name = some r →
      Enrichment.Feasible exSlowStart (exDec r) := by
    intro name hn r hr
    simp only [List.append_nil, List.mem_singleton] at hn
    subst hn
    cases hr
    exact fresh
  simp only [List.mem_cons, Prod.mk.injEq, List.not_mem_nil, or_false] at hjc
  rcases hjc with ⟨rfl, rfl⟩ | ⟨rfl, rfl⟩
  · obtain ⟨is, os, s, -, -, e1, e2, -, -, e3, -⟩ := C146_front_end_partial exChain_sensible h1
      (fun _ => sating_fair) (fun _ => sating_keen) (fun _ => sating_thorough) (i := 2) (a := 1) rfl
      exChain_enriched rfl exChain_fed (b := 6) rfl
      exChain_drained (j := 4) rfl (by decide) (by decide +kernel)
      (fun name r hn => feasible name (Reactor.Names.given hn) r) (by decide) rfl rfl
      (by decide) h3
    exact key (is := is) ⟨e1, e2⟩ e3
  · obtain ⟨is, os, s, -, -, e1, e2, -, -, e3, -⟩ := C146_front_end_partial exChain_sensible h1
      (fun _ => sating_fair) (fun _ => sating_keen) (fun _ => sating_thorough) (i := 2) (a := 1) rfl
      exChain_enriched rfl exChain_fed (b := 6) rfl
      exChain_drained (j := 5) rfl (by decide) (by decide +kernel)
      (fun name r hn => feasible name (Reactor.Names.given hn) r) (by decide) rfl rfl
      (by decide) h3
    exact key (is := is) ⟨e1, e2⟩ e3

end Cyc.Sim
