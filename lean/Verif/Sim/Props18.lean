import Verif.Sim.Props17
import Verif.Reactor.Props4
import Mathlib.Tactic.IntervalCases

/-!
# The life of a reactor with a last step: property C148
-/

namespace Cyc.Sim

variable {A : Agreement}

/-- The account of a reactor with the last step `e` and no storage for fresh fuel, in which nothing is late
and which is emptied after that. -/
def Story (c : Reactor.Cfg) (enc : NMat → Nat) (dec : Nat → NMat) (e : Nat) (b : Book) : Prop :=
  ∃ (is : List Reactor.In) (os : List Reactor.Out) (s : Reactor.State × Nat),
    b.p = ⟨.reactor c enc dec, s⟩ ∧ Reactor.History c is os s.1 ∧ os.length = b.got.length ∧
    is.map (fun i => i.buys.map Prod.snd) = numbered enc 0 b.got ∧
    os.map (fun o => material dec (o.shipped.map Prod.snd)) = b.gave ∧
    s.2 = b.got.flatten.length ∧ s.1.time = b.since + b.got.length ∧
    (b.since + b.got.length ≤ e + 1 → Reactor.Steady c b.got.length s.1) ∧
    (e + 1 ≤ b.since + b.got.length → s.1.spent.items = [] ∧ s.1.fresh.items = [] ∧
      s.1.core.items.length ≤ c.nCore - (b.since + b.got.length - (e + 1))) ∧
    ∀ (t : Nat) got gave o, b.got[t]? = some got → b.gave[t]? = some gave → os[t]? = some o →
      (b.since + t ≤ e → Punctual c t got gave o) ∧
      (e < b.since + t → got = [] ∧ Reactor.powers o.recs = [])

theorem OfReactor.state_time {c : Reactor.Cfg} (hw : Reactor.WellFormed c) {is : List Reactor.In}
    {os : List Reactor.Out} {s : Reactor.State} (h : Reactor.History c is os s) :
    s.time = c.enterTime + os.length := by
  have hlen := Reactor.history_length h
  rcases List.eq_nil_or_concat os with rfl | ⟨os, o, rfl⟩
  · obtain rfl : is = [] := List.eq_nil_of_length_eq_zero hlen.symm
    obtain ⟨s0, h0, -, hr⟩ := h
    simp only [Reactor.run, Except.ok.injEq, Prod.mk.injEq, true_and] at hr
    rw [← hr]
    exact (Reactor.enter_eq h0).1
  · rcases List.eq_nil_or_concat is with rfl | ⟨is, i, rfl⟩
    · simp at hlen
    · rw [List.concat_eq_append] at h ⊢
      rw [List.concat_eq_append] at h
      obtain ⟨sa, -, at'⟩ := Reactor.last_step hw h
      obtain ⟨s1, s2, s3, sp⟩ := at'.spec hw
      have := at'.timeA
      rw [sp.final]
      show sa.time + 1 = _
      rw [this, List.length_append]
      rfl

/-- A step of a reactor after its last one, with a sink for its fuel. -/
theorem emptied_step {plan : Plan} (hb : ∀ t, ∀ k ∈ plan.builds t, Sensible k ∧ Suits A k)
    {ex : Exchange} (hex : ex.Fair) (hea : ex.Eager) {t : Nat} {bs : List Book}
    (h : ∀ b ∈ bs, Audited A plan t b) {gs : List (Deal × NMat)} {ps : List (Running act)}
    (hr : round ex (bs.map Book.p) = .ok (gs, ps)) {j : Nat} {b : Book} (hj : bs[j]? = some b)
    {c : Reactor.Cfg} {enc : NMat → Nat} {dec : Nat → NMat} {e : Nat} (P : Story c enc dec e b)
    (hx : c.exitTime = some e) (hf : c.nFresh = 0) (hlate : e < b.since + b.got.length)
    (hS : Emptied (bs.map fun b => b.p.k) c (t + 1)) (hsp : c.nBatch ≤ c.nSpent) {p : Running act}
    (hp : ps[j]? = some p) :
    Story c enc dec e ⟨p, b.since, b.got ++ [givenTo gs j], b.gave ++ [givenBy gs j]⟩ := by
  obtain ⟨is, os, s, k1, k2, k3, k4, k5, k6, k7, -, k8, k9⟩ := P
  obtain ⟨e1, e2, e3⟩ := k8 hlate
  obtain ⟨w, w1, w2, w3⟩ := hS
  have hg : ∀ p ∈ bs.map Book.p, Good A qty holdings p := by
    intro p hp
    obtain ⟨b, h1, rfl⟩ := List.mem_map.1 hp
    exact (h b h1).good
  have lived : ∀ p ∈ bs.map Book.p, Sensible p.k ∧ ∃ t got gave, Lived p.k p.s t got gave := by
    intro p hp
    obtain ⟨b, h1, rfl⟩ := List.mem_map.1 hp
    exact ⟨(h b h1).sensible hb, _, _, _, (h b h1).lived⟩
  have ek : (bs.map Book.p).map Running.k = bs.map fun b => b.p.k := by rw [List.map_map]; rfl
  have hjp : (bs.map Book.p)[j]? = some ⟨.reactor c enc dec, s⟩ := by rw [List.getElem?_map, hj, ← k1]; rfl
  have hret : Reactor.retired c s.1 = true := by
    unfold Reactor.retired
    rw [hx, k7]
    simpa using hlate
  have D := h b (List.mem_of_getElem? hj)
  have hcj : Sensible (.reactor c enc dec) := by
    have := D.sensible hb
    rwa [k1] at this
  have Lj : Lived (.reactor c enc dec) s b.got.length b.got b.gave := by
    have := D.lived
    rwa [k1] at this
  -- it orders nothing
  have F : Filled ex (bs.map Book.p) j := by
    intro asks offers b1 b2 as has q hq
    obtain ⟨asks', a1, a2, a3, a4⟩ := askAll_ok hg
    obtain rfl := Except.ok.inj (b1.symm.trans a1)
    obtain ⟨as', g1, g2⟩ := forall₂_get a2 hjp
    obtain rfl := Option.some.inj (has.symm.trans g1)
    obtain ⟨s1, -, -, rfl⟩ := OfReactor.asks_are hcj Lj g2
    simp [OfReactor.asksOf, Reactor.nOrders, hret] at hq
  -- the sink
  obtain ⟨bw, hbw, ew⟩ := List.mem_map.1 w1
  obtain ⟨y, hy⟩ := List.getElem?_of_mem hbw
  have Dw := h bw hbw
  have hcw := Dw.sensible hb
  have yw : bw.got.length < t + 1 := by
    have := Dw.age
    omega
  obtain ⟨⟨kw, sw⟩, tw, gotw, gavew⟩ := bw
  obtain rfl : kw = .sink w := ew
  have hyw : (bs.map Book.p)[y]? = some ⟨.sink w, sw⟩ := by rw [List.getElem?_map, hy]; rfl
  obtain ⟨rs, os', ts, l2, as, ds, mm, s', P, q1, q2, q3, q4, q5⟩ :=
    round_taken hex hea hg lived hr (taken_sink hcw hyw
      (fun as ha => OfSink.asks_full hcw Dw.lived yw w2.lasts w2.asks ha) (ek ▸ w2) hg w3) hjp F
  obtain rfl := Option.some.inj (hp.symm.trans q1)
  obtain ⟨o, s1, s2, s3, H, sp, u1, u2, u3, u4⟩ := OfReactor.turn hcj k2 k4 k6 P
  have inv : Reactor.Inv c s.1 := by
    obtain ⟨s0, a1, a2, a3⟩ := k2
    exact Reactor.run_inv hcj.1 (Reactor.enter_inv hcj.1 a1) a2 a3
  have ret := Reactor.ret_facts hcj.1 inv hret sp
  obtain ⟨pr, -⟩ := Reactor.retired_progress hcj.1 hsp inv hret sp e1
  have hds : ds = [] := by
    have h1 : (assemblies enc s.2 ds).length = ds.length := by
      have := congrArg List.length (assemblies_numbered enc ds s.2)
      simpa using this
    have h2 : assemblies enc s.2 ds = [] := ret.noBuys
    rw [h2] at h1
    exact List.length_eq_zero_iff.1 h1.symm
  have hgiven : givenTo gs j = [] := by rw [← q3, hds]; rfl
  have fresh' : s'.1.fresh.items = [] := by
    have inv' : Reactor.Inv c s'.1 := by
      obtain ⟨s0, a1, a2, a3⟩ := H
      exact Reactor.run_inv hcj.1 (Reactor.enter_inv hcj.1 a1) a2 a3
    have := inv'.good.fresh.count
    exact List.eq_nil_of_length_eq_zero (by omega)
  rw [e2] at pr
  have paid := D.paid
  have ht := ret.time
  refine ⟨_, _, s', rfl, H, by simp [k3], ?_, ?_, ?_, ?_, ?_, ?_, ?_⟩
  · rw [List.map_append, numbered_append, k4, ← k6]
    simp [numbered, assemblies_numbered, q3]
  · rw [List.map_append, k5, List.map_singleton, ← q2, u3]
    simp [material]
  · rw [u4, k6, List.flatten_append, List.length_append, ← List.length_map (f := Delivery.mat), q3]
    simp
  · simp only [List.length_append, List.length_singleton]
    omega
  · simp only [List.length_append, List.length_singleton]
    omega
  · intro _
    refine ⟨q5, fresh', ?_⟩
    simp only [List.length_append, List.length_singleton, fresh', List.length_nil] at pr ⊢
    omega
  · intro t' got gave o' hg hg' ho
    dsimp only at hg hg' ⊢
    rcases Nat.lt_trichotomy t' b.got.length with ht | rfl | ht
    · rw [List.getElem?_append_left (by omega)] at hg hg' ho
      exact k9 t' _ _ o' hg hg' ho
    · rw [List.getElem?_append_right (by omega), Nat.sub_self] at hg
      rw [List.getElem?_append_right (by omega), k3, Nat.sub_self] at ho
      cases hg
      cases ho
      exact ⟨fun h => by omega, fun _ => ⟨hgiven, ret.powers⟩⟩
    · rw [List.getElem?_eq_none (by simp; omega)] at hg
      cases hg

theorem story {plan : Plan} (hb : ∀ t, ∀ k ∈ plan.builds t, Sensible k ∧ Suits A k)
    {ex : Nat → Exchange} (hex : ∀ t, (ex t).Fair) (hea : ∀ t, (ex t).Eager) {n : Nat}
    {c : Reactor.Cfg} {enc : NMat → Nat} {dec : Nat → NMat} {e : Nat} (hx : c.exitTime = some e)
    (hf : c.nFresh = 0) (hz : c.cycleStep = 0) (hsp : c.nBatch ≤ c.nSpent) : ∀ {G B : List Book},
    chronicle ex plan n 0 [] = .ok (G, B) → ∀ b ∈ G ++ B, b.p.k = .reactor c enc dec → b.since ≤ e →
    (∀ t, b.since ≤ t → t < n → ∀ bs, trading ex plan t = .ok bs →
      (t ≤ e → Served (bs.map fun b => b.p.k) c (t + 1)) ∧ Emptied (bs.map fun b => b.p.k) c (t + 1)) →
    Story c enc dec e b := by
  induction n with
  | zero =>
    intro G B h
    simp only [chronicle, Except.ok.injEq, Prod.mk.injEq] at h
    obtain ⟨rfl, rfl⟩ := h
    simp
  | succ n ih =>
    intro G B h b hbm hk hse hS
    obtain ⟨G₀, B₀, new, gs, ps, c1, d1, r1, rfl, rfl⟩ := chronicle_snoc h
    rw [Nat.zero_add] at d1 r1 hbm
    have old : ∀ b ∈ G₀ ++ B₀, b.p.k = .reactor c enc dec → b.since ≤ e →
        (∀ t, b.since ≤ t → t < n + 1 → ∀ bs, trading ex plan t = .ok bs →
          (t ≤ e → Served (bs.map fun b => b.p.k) c (t + 1)) ∧
          Emptied (bs.map fun b => b.p.k) c (t + 1)) → Story c enc dec e b :=
      fun b h1 h2 h3 h4 => ih c1 b h1 h2 h3 fun t a1 a2 => h4 t a1 (by omega)
    obtain ⟨s1, s2⟩ := closed_spec (plan.leaves n) 0 (entered gs 0 (B₀ ++ new.map (opened n)) ps)
    rw [List.append_assoc] at hbm
    rcases List.mem_append.1 hbm with hbm | hbm
    · exact old b (List.mem_append_left _ hbm) hk hse hS
    obtain ⟨j, hj⟩ := List.getElem?_of_mem (s1.mem_iff.1 hbm)
    obtain ⟨b₀, p, h1, h2, rfl⟩ := entered_get hj
    rw [Nat.zero_add]
    obtain ⟨-, aud, -⟩ := chronicle_audited hb hex c1
    have hall : ∀ b ∈ B₀ ++ new.map (opened n), Audited A plan n b := fun b hb' =>
      (List.mem_append.1 hb').elim (aud b) (opened_audited hb d1 b)
    have hp : (B₀ ++ new.map (opened n)).map Book.p = B₀.map Book.p ++ new := by
      rw [List.map_append, List.map_map]
      congr 1
      exact List.map_id new
    rw [← hp] at r1
    obtain ⟨kinds, -, -⟩ := entered_audited hb (hex n) hall r1
    have ek : b₀.p.k = .reactor c enc dec := by
      have := congrArg (fun l => l[j]?) kinds
      rw [List.getElem?_map, List.getElem?_map, h1, h2] at this
      exact (Option.some.inj this).symm.trans hk
    have age := (hall b₀ (List.mem_of_getElem? h1)).age
    have hb₀ : Story c enc dec e b₀ := by
      rcases List.mem_append.1 (List.mem_of_getElem? h1) with hm | hm
      · exact old b₀ (List.mem_append_right _ hm) ek hse hS
      · obtain ⟨q, hq, rfl⟩ := List.mem_map.1 hm
        obtain ⟨is, os, s, i1, i2, i3, i4, i5, i6, i7, i8⟩ := opened_inTime hb d1 hq ek hz
        have htime : s.1.time = n := by
          obtain ⟨k, -, hk'⟩ := (hall _ (List.mem_of_getElem? h1)).built
          have hk' : q.k = k.since n := hk'
          have ek : q.k = .reactor c enc dec := ek
          rw [ek] at hk'
          have hc : c.enterTime = n := by
            cases k <;> try cases hk'
            rfl
          have hw : Sensible q.k := (hall _ (List.mem_of_getElem? h1)).sensible hb
          rw [ek] at hw
          rw [OfReactor.state_time hw.1 i2, hc, i3]
          rfl
        refine ⟨is, os, s, i1, i2, i3, i4, i5, i6, htime, fun _ => i7, fun h => ?_,
          fun t got gave o hg => by simp [opened] at hg⟩
        change n ≤ e at hse
        change e + 1 ≤ n + 0 at h
        omega
    have hT : trading ex plan n = .ok (B₀ ++ new.map (opened n)) := by
      simp only [trading, c1, d1, ok_bind, pure_eq_ok]
    obtain ⟨v1, v2⟩ := hS n (by dsimp only; omega) (by omega) _ hT
    by_cases hl : e < b₀.since + b₀.got.length
    · exact emptied_step hb (hex n) (hea n) hall r1 h1 hb₀ hx hf hl v2 hsp h2
    · obtain ⟨is, os, s, i1, i2, i3, i4, i5, i6, i7, i8, -, i9⟩ := hb₀
      have paid := (hall b₀ (List.mem_of_getElem? h1)).paid
      have hI : InTime c enc dec b₀ := ⟨is, os, s, i1, i2, i3, i4, i5, i6, i8 (by omega),
        fun t got gave o a1 a2 a3 => (i9 t got gave o a1 a2 a3).1 (by
          have := (List.getElem?_eq_some_iff.1 a1).1
          omega)⟩
      have hret : ∀ s', b₀.p = ⟨.reactor c enc dec, s'⟩ → Reactor.retired c s'.1 = false := by
        intro s' hs'
        rw [i1] at hs'
        cases hs'
        unfold Reactor.retired
        rw [hx, i7]
        simpa using hl
      obtain ⟨is', os', s', m1, m2, m3, m4, m5, m6, m7, m8⟩ := inTime_step hb (hex n) (hea n) hall r1 h1 hI
        (v1 (by omega)) (Or.inr hf) hret (le_trans (min_le_left _ _) hsp) h2
      have hw : Sensible (.reactor c enc dec) := by
        have := (hall _ (List.mem_of_getElem? h1)).sensible hb
        rwa [ek] at this
      have htime : s'.1.time = b₀.since + (b₀.got ++ [givenTo gs j]).length := by
        have e1 := OfReactor.state_time hw.1 i2
        rw [OfReactor.state_time hw.1 m2, m3]
        simp only [List.length_append]
        omega
      have len : (b₀.got ++ [givenTo gs j]).length = b₀.got.length + 1 := by simp
      refine ⟨is', os', s', m1, m2, m3, m4, m5, m6, htime, fun _ => m7, fun _ => ⟨m7.spent, ?_, ?_⟩,
        fun t got gave o a1 a2 a3 => ⟨fun _ => m8 t got gave o a1 a2 a3, fun hlt => ?_⟩⟩
      · have := m7.fresh
        dsimp only at this
        rw [if_neg (by omega), hf] at this
        exact List.eq_nil_of_length_eq_zero this
      · have := m7.core
        dsimp only at this ⊢
        rw [if_neg (by omega)] at this
        rw [len]
        omega
      · have := (List.getElem?_eq_some_iff.1 a1).1
        dsimp only at this hlt
        omega

theorem energy_take {os : List Reactor.Out} {m : Nat}
    (h : ∀ (t : Nat) o, m ≤ t → os[t]? = some o → Reactor.powers o.recs = []) :
    Reactor.energy os = Reactor.energy (os.take m) := by
  conv_lhs => rw [← List.take_append_drop m os]
  rw [Reactor.energy_append]
  have : Reactor.energy (os.drop m) = 0 := by
    unfold Reactor.energy
    have : (os.drop m).flatMap (fun o => Reactor.powers o.recs) = [] := by
      rw [List.flatMap_eq_nil_iff]
      intro o ho
      obtain ⟨t, ht⟩ := List.getElem?_of_mem ho
      rw [List.getElem?_drop] at ht
      exact h (m + t) o (by omega) ht
    rw [this]
    rfl
  rw [this, add_zero]

/-- C148. The life of a reactor with the last step `e` and no storage for fresh fuel, whenever it is built
and whatever else is built or leaves, if in every step up to `e` there are a source that can supply all the
reactors then present and a sink that can take their spent fuel, a sink also in the steps after that, and
the exchange leaves no exclusive order or bid alone. Up to its last step, which included, it runs on
schedule and does not leave. After that it is given nothing and generates nothing, so that its energy is
that of an uninterrupted run until `e`; and what it has is at most a core, less one assembly for each step
since. As many steps after `e` as its core has assemblies there is nothing left of the fuel, and it may
leave. When it leaves or has no fuel left, it has given all that it was given.

Partial: as C125. -/
theorem C148_life_of_a_reactor_partial {plan : Plan}
    (hb : ∀ t, ∀ k ∈ plan.builds t, Sensible k ∧ Suits A k)
    {ex : Nat → Exchange} (hex : ∀ t, (ex t).Fair) (hea : ∀ t, (ex t).Eager) {n : Nat}
    {G B : List Book} (h : chronicle ex plan n 0 [] = .ok (G, B)) {b : Book} (hbm : b ∈ G ++ B)
    {c : Reactor.Cfg} {enc : NMat → Nat} {dec : Nat → NMat} (hk : b.p.k = .reactor c enc dec) {e : Nat}
    (hx : c.exitTime = some e) (hse : b.since ≤ e)
    (hS : ∀ t, b.since ≤ t → t < n → ∀ bs, trading ex plan t = .ok bs →
      (t ≤ e → Served (bs.map fun b => b.p.k) c (t + 1)) ∧ Emptied (bs.map fun b => b.p.k) c (t + 1))
    (hf : c.nFresh = 0) (hz : c.cycleStep = 0) (hsp : c.nBatch ≤ c.nSpent) (hc : 0 < c.nCore) :
    (b ∈ G → e + 1 < b.since + b.got.length ∧ holdings b.p.k b.p.s = []) ∧
    (e + 1 ≤ b.since + b.got.length →
      (holdings b.p.k b.p.s).length ≤ c.nCore - (b.since + b.got.length - (e + 1))) ∧
    (e + 1 + c.nCore ≤ b.since + b.got.length → mayLeave b.p.k b.p.s = true) ∧
    (holdings b.p.k b.p.s = [] → totalQty b.gave.flatten = totalQty b.got.flatten) ∧
    ∃ (is : List Reactor.In) (os : List Reactor.Out) (s : Reactor.State × Nat),
      b.p = ⟨.reactor c enc dec, s⟩ ∧ Reactor.History c is os s.1 ∧ os.length = b.got.length ∧
      b.gave.length = b.got.length ∧
      is.map (fun i => i.buys.map Prod.snd) = numbered enc 0 b.got ∧
      os.map (fun o => material dec (o.shipped.map Prod.snd)) = b.gave ∧
      (∀ (t : Nat) got gave o, b.got[t]? = some got → b.gave[t]? = some gave → os[t]? = some o →
        (b.since + t ≤ e → Punctual c t got gave o) ∧
        (e < b.since + t → got = [] ∧ Reactor.powers o.recs = [])) ∧
      Reactor.energy os = c.powerCap * Reactor.ideal c (min b.got.length (e + 1 - b.since)) := by
  obtain ⟨is, os, s, k1, k2, k3, k4, k5, k6, k7, k8, k9, k10⟩ :=
    story hb hex hea hx hf hz hsp h b hbm hk hse hS
  obtain ⟨-, aud, aud'⟩ := chronicle_audited hb hex h
  obtain ⟨t, -, D⟩ := aud' b hbm
  have paid := D.paid
  have bal := D.balance
  have hh : holdings b.p.k b.p.s = material dec (Reactor.held s.1) := by rw [k1]; rfl
  refine ⟨fun hg => ?_, fun hl => ?_, fun hl => ?_, fun hl => ?_, is, os, s, k1, k2, k3, paid, k4, k5, k10, ?_⟩
  · obtain ⟨g1, g2⟩ := gone_left h b hg
    rw [k1] at g2
    have g2 : Reactor.checkDecommission s.1 = true := g2
    simp only [Reactor.checkDecommission, Bool.and_eq_true, beq_iff_eq, Buf.count] at g2
    have late : e + 1 < b.since + b.got.length := by
      by_contra hn
      have hcore := (k8 (by omega)).core
      rw [if_neg (by rw [List.length_eq_zero_iff]; exact g1)] at hcore
      omega
    obtain ⟨f1, f2, -⟩ := k9 (by omega)
    refine ⟨late, ?_⟩
    rw [hh]
    simp [Reactor.held, f1, f2, List.length_eq_zero_iff.1 g2.1, material]
  · obtain ⟨f1, f2, f3⟩ := k9 hl
    rw [hh]
    simpa [Reactor.held, f1, f2, material] using f3
  · obtain ⟨f1, f2, f3⟩ := k9 (by omega)
    have f4 : s.1.core.items = [] := List.eq_nil_of_length_eq_zero (by omega)
    rw [k1]
    show Reactor.checkDecommission s.1 = true
    simp [Reactor.checkDecommission, Buf.count, f1, f4]
  · rw [hl, k1] at bal
    have : totalQty ([] : List NMat) = 0 := rfl
    rw [this] at bal
    have : startsWith (.reactor c enc dec) = 0 := rfl
    rw [this] at bal
    linarith
  · have ht : ∀ (t : Nat) o, min b.got.length (e + 1 - b.since) ≤ t → os[t]? = some o →
        Reactor.powers o.recs = [] := by
      intro t o ht ho
      have hlt := (List.getElem?_eq_some_iff.1 ho).1
      exact ((k10 t _ _ o (List.getElem?_eq_getElem (by omega)) (List.getElem?_eq_getElem (by omega)) ho).2
        (by omega)).2
    rw [energy_take ht, Reactor.energy_eq (c := c), List.length_take, k3, min_assoc, min_comm _ b.got.length,
      ← min_assoc, min_self]
    intro t o ho
    rw [List.getElem?_take] at ho
    split at ho
    · rename_i hlt
      have := (List.getElem?_eq_some_iff.1 ho).1
      exact ((k10 t _ _ o (List.getElem?_eq_getElem (by omega)) (List.getElem?_eq_getElem (by omega)) ho).1
        (by omega)).power
    · cases ho

/-- C148. If a source and a sink are built at the start and never leave, and the source could supply and
the sink could take the spent fuel of all the reactors of the plan at the same time, then every reactor
of the plan with a last step and no storage for fresh fuel runs on schedule from the step in which it is
built to its last, generates nothing after that, and gives all its fuel away if there are as many steps
after its last as assemblies in its core.

Partial: as C125. -/
theorem C148_shut_down_partial {plan : Plan}
    (hb : ∀ t, ∀ k ∈ plan.builds t, Sensible k ∧ Suits A k)
    {ex : Nat → Exchange} (hex : ∀ t, (ex t).Fair) (hea : ∀ t, (ex t).Eager) {n : Nat}
    {i : Nat} {f : Source.Cfg} (hi : (plan.builds 0)[i]? = some (.source f))
    (hS : Supplies (plan.built 0 n) f n) {y : Nat} {w : Sink.Cfg}
    (hy : (plan.builds 0)[y]? = some (.sink w)) (hD : Drains (plan.built 0 n) w n)
    (hl : ∀ t x, x ≤ i ∨ x ≤ y → plan.leaves t x = false) {T : Nat} {c : Reactor.Cfg}
    {enc : NMat → Nat} {dec : Nat → NMat} (hk : .reactor c enc dec ∈ plan.builds T)
    (h1 : f.outcommod ∈ c.inCommods) (h2 : ∀ x ∈ c.outCommods, x ∈ w.commods)
    (h3 : f.lo ≤ c.assemSize) {e : Nat} (hx : c.exitTime = some e) (hT : T ≤ e) (hn : e + 1 + c.nCore ≤ n)
    (hf : c.nFresh = 0) (hz : c.cycleStep = 0) (hsp : c.nBatch ≤ c.nSpent) (hc : 0 < c.nCore)
    {G B : List Book} (h : chronicle ex plan n 0 [] = .ok (G, B)) :
    ∃ b ∈ G ++ B, b.since = T ∧ e + 1 < T + b.got.length ∧ b.gave.length = b.got.length ∧
      holdings b.p.k b.p.s = [] ∧ totalQty b.gave.flatten = totalQty b.got.flatten ∧
      ∃ (is : List Reactor.In) (os : List Reactor.Out) (s : Reactor.State × Nat),
        b.p = ⟨.reactor { c with enterTime := T } enc dec, s⟩ ∧
        Reactor.History { c with enterTime := T } is os s.1 ∧ os.length = b.got.length ∧
        is.map (fun i => i.buys.map Prod.snd) = numbered enc 0 b.got ∧
        os.map (fun o => material dec (o.shipped.map Prod.snd)) = b.gave ∧
        (∀ (t : Nat) got gave o, b.got[t]? = some got → b.gave[t]? = some gave → os[t]? = some o →
          (T + t ≤ e → Punctual c t got gave o) ∧
          (e < T + t → got = [] ∧ Reactor.powers o.recs = [])) ∧
        Reactor.energy os = c.powerCap * Reactor.ideal c (e + 1 - T) := by
  have mem : (T, Kind.reactor { c with enterTime := T } enc dec) ∈ (G ++ B).map fun b => (b.since, b.p.k) :=
    (accounts_of hb hex h).mem_iff.2 (List.mem_flatMap.2 ⟨T, List.mem_range.2 (by omega),
      List.mem_map.2 ⟨_, hk, rfl⟩⟩)
  obtain ⟨b, hbm, e'⟩ := List.mem_map.1 mem
  obtain ⟨e1, e2⟩ := Prod.mk.inj e'
  have key : ∀ t, b.since ≤ t → t < n → ∀ bs, trading ex plan t = .ok bs →
      (t ≤ e → Served (bs.map fun b => b.p.k) { c with enterTime := T } (t + 1)) ∧
      Emptied (bs.map fun b => b.p.k) { c with enterTime := T } (t + 1) := by
    intro t _ ht bs hbs
    have := served_always hb hex hi hS hy hD hl (c := { c with enterTime := T }) h1 h2 h3 ht hbs
    exact ⟨fun _ => this, this.spent⟩
  obtain ⟨r1, r2, r3, r4, is, os, s, q1, q2, q3, q4, q5, q6, q7, q8⟩ := C148_life_of_a_reactor_partial hb hex
    hea h hbm (c := { c with enterTime := T }) e2 hx (by omega) key hf hz hsp hc
  have late : e + 1 < b.since + b.got.length ∧ holdings b.p.k b.p.s = [] := by
    rcases List.mem_append.1 hbm with hg | hg
    · exact r1 hg
    · obtain ⟨-, aud, -⟩ := chronicle_audited hb hex h
      have age := (aud b hg).age
      have := r2 (by omega)
      refine ⟨by omega, List.eq_nil_of_length_eq_zero ?_⟩
      dsimp only at this
      omega
  refine ⟨b, hbm, e1, by omega, q4, late.2, r4 late.2, is, os, s, q1, q2, q3, q5, q6, ?_, ?_⟩
  · intro t got gave o a1 a2 a3
    obtain ⟨p1, p2⟩ := q7 t got gave o a1 a2 a3
    rw [e1] at p1 p2
    refine ⟨fun ht => ?_, p2⟩
    obtain ⟨p1, p2, p3, p4, p5⟩ := p1 ht
    exact ⟨p1, p2, p3, p4, p5⟩
  · rw [q8, min_eq_right (by omega), e1]
    rfl

/-! ## An example -/

/-- Three assemblies in the core, two of them exchanged every two steps, and the last step is step 6. -/
def exLast : Reactor.Cfg :=
  { exSecond with
    nFresh := 0
    nSpent := 2
    exitTime := some 6 }

/-- The reactor with a last step is built in the fourth step. -/
def exShut : Plan where
  builds t := if t = 0 then [.source exFuel, .sink exPool, .reactor exReactor (fun _ => 1) exDec]
    else if t = 3 then [.reactor exLast (fun _ => 1) exDec] else []
  leaves _ i := i = 3

theorem exShut_sensible : ∀ t, ∀ k ∈ exShut.builds t, Sensible k ∧ Suits exOpen k := by
  have dec : ∀ n, qty (exDec n) = 1 ∧ (exDec n).Nonneg := by
    intro n
    unfold exDec
    split
    · exact ⟨by decide +kernel, by norm_num [Mat.Nonneg]⟩
    · exact ⟨by decide +kernel, by norm_num [Mat.Nonneg]⟩
  intro t k hk
  simp only [exShut] at hk
  split at hk
  · simp only [List.mem_cons, List.not_mem_nil, or_false] at hk
    rcases hk with rfl | rfl | rfl <;> exact exFleet_sensible _ (by simp [exFleet])
  · split at hk
    · simp only [List.mem_cons, List.not_mem_nil, or_false] at hk
      subst hk
      refine ⟨⟨⟨rfl, rfl, rfl, Or.inl rfl, by decide, rfl, rfl, rfl, rfl, rfl, ?_, le_rfl,
        by norm_num [exLast, exSecond, exReactor], by decide, by decide,
        by norm_num [exLast, exSecond, exReactor]⟩, dec⟩,
        fun _ _ _ _ _ _ _ _ => trivial, fun _ _ _ _ => trivial⟩
      intro r hr
      simp only [exLast, exSecond, exReactor, List.mem_singleton, List.not_mem_nil, or_false] at hr ⊢
      rcases hr with rfl | rfl <;> decide
    · cases hk

/-- It runs on schedule for four steps, and then gives all its fuel away. -/
example : ∃ G B, chronicle (fun _ => filling) exShut 10 0 [] = .ok (G, B) ∧ ∃ b ∈ G ++ B, b.since = 3 ∧
    (b.got.take 4).map List.length = [3, 2, 0, 2] ∧ totalQty b.gave.flatten = totalQty b.got.flatten := by
  obtain ⟨l, gone, ps, h, -⟩ := C129_comings_and_goings_partial exShut_sensible (fun _ => filling_fair) 10
  obtain ⟨G, B, h1, -⟩ := C144_same_partial exShut_sensible (fun _ => filling_fair) h
  refine ⟨G, B, h1, ?_⟩
  have built : exShut.built 0 10 = [.source exFuel, .sink exPool,
      .reactor { exReactor with enterTime := 0 } (fun _ => 1) exDec,
      .reactor { exLast with enterTime := 3 } (fun _ => 1) exDec] := rfl
  have S : Supplies (exShut.built 0 10) exFuel 10 := by
    rw [built]
    refine ⟨?_, by decide +kernel, by decide +kernel, by decide +kernel⟩
    intro k hk
    simp only [List.mem_cons, List.not_mem_nil, or_false] at hk
    rcases hk with rfl | rfl | rfl | rfl <;> decide
  have D : Drains (exShut.built 0 10) exPool 10 := by
    rw [built]
    refine ⟨?_, by decide +kernel, by decide +kernel, by decide +kernel⟩
    intro k hk
    simp only [List.mem_cons, List.not_mem_nil, or_false] at hk
    rcases hk with rfl | rfl | rfl | rfl <;> decide
  obtain ⟨b, hb, e1, e2, e3, -, e4, is, os, s, -, -, e5, -, -, e6, -⟩ := C148_shut_down_partial
    exShut_sensible (fun _ => filling_fair) (fun _ => filling_eager) (i := 0) rfl S (y := 1) rfl D
    (by intro t x hx; simp [exShut]; omega) (T := 3) (c := exLast)
    (enc := fun _ => 1) (dec := exDec) (by simp [exShut]) (by decide) (by decide) (by decide +kernel)
    (e := 6) rfl (by decide) (by decide) rfl rfl (by decide) (by decide) h1
  refine ⟨b, hb, e1, ?_, e4⟩
  refine List.ext_getElem (by simp; omega) fun t h3 h4 => ?_
  have h4' : t < 4 := by simpa using h4
  rw [List.getElem_map, List.getElem_take, ((e6 t _ _ _ (List.getElem?_eq_getElem (by omega))
    (List.getElem?_eq_getElem (by omega)) (List.getElem?_eq_getElem (by omega))).1 (by omega)).supplied]
  interval_cases t <;> rfl

end Cyc.Sim
