import Mathlib.Tactic.IntervalCases
import Verif.Sim.Served
import Verif.Sim.Props14
import Verif.Sim.Props7

/-!
# Reactors that are built later run on schedule: property C147
-/

namespace Cyc.Sim

variable {A : Agreement}

/-- The last of several steps with accounts. -/
theorem chronicle_snoc {ex : Nat → Exchange} {plan : Plan} {m : Nat} : ∀ {t : Nat} {bs G' B' : List Book},
    chronicle ex plan (m + 1) t bs = .ok (G', B') → ∃ G B new gs ps,
      chronicle ex plan m t bs = .ok (G, B) ∧
      deployAll ((plan.builds (t + m)).map (Kind.since (t + m))) = .ok new ∧
      round (ex (t + m)) (B.map Book.p ++ new) = .ok (gs, ps) ∧
      G' = G ++ (closed (plan.leaves (t + m)) 0 (entered gs 0 (B ++ new.map (opened (t + m))) ps)).2 ∧
      B' = (closed (plan.leaves (t + m)) 0 (entered gs 0 (B ++ new.map (opened (t + m))) ps)).1 := by
  induction m with
  | zero =>
    intro t bs G' B' h
    simp only [chronicle, bind_ok, pure_eq_ok, Except.ok.injEq, Prod.mk.injEq] at h
    obtain ⟨new, d1, ⟨gs, ps⟩, r1, ⟨g, b⟩, ⟨rfl, rfl⟩, rfl, rfl⟩ := h
    exact ⟨[], bs, new, gs, ps, rfl, d1, r1, by simp, rfl⟩
  | succ m ih =>
    intro t bs G' B' h
    rw [chronicle] at h
    simp only [bind_ok, pure_eq_ok, Except.ok.injEq, Prod.mk.injEq] at h
    obtain ⟨new, d1, ⟨gs, ps⟩, r1, ⟨g, b⟩, h2, rfl, rfl⟩ := h
    obtain ⟨G, B, new', gs', ps', c1, c2, c3, rfl, rfl⟩ := ih h2
    have e : t + 1 + m = t + (m + 1) := by omega
    rw [e] at c2 c3
    refine ⟨(closed (plan.leaves t) 0 (entered gs 0 (bs ++ new.map (opened t)) ps)).2 ++ G, B, new', gs',
      ps', ?_, c2, c3, ?_, ?_⟩
    · rw [chronicle]
      simp only [d1, ok_bind, r1, c1, pure_eq_ok]
    · rw [e, List.append_assoc]
    · rw [e]

/-- A facility that has left has traded at least once. -/
theorem gone_left {ex : Nat → Exchange} {plan : Plan} {n : Nat} : ∀ {G B : List Book},
    chronicle ex plan n 0 [] = .ok (G, B) →
    ∀ b ∈ G, b.got ≠ [] ∧ mayLeave b.p.k b.p.s = true := by
  induction n with
  | zero =>
    intro G B h
    simp only [chronicle, Except.ok.injEq, Prod.mk.injEq] at h
    obtain ⟨rfl, -⟩ := h
    simp
  | succ n ih =>
    intro G B h b hb
    obtain ⟨G₀, B₀, new, gs, ps, c1, -, -, rfl, -⟩ := chronicle_snoc h
    rcases List.mem_append.1 hb with hb | hb
    · exact ih c1 b hb
    · obtain ⟨s1, s2⟩ := closed_spec (plan.leaves (0 + n)) 0
        (entered gs 0 (B₀ ++ new.map (opened (0 + n))) ps)
      obtain ⟨i, hi⟩ := List.getElem?_of_mem (s1.mem_iff.1 (List.mem_append_left _ hb))
      obtain ⟨b₀, p, -, -, rfl⟩ := entered_get hi
      exact ⟨by simp, s2 _ hb⟩

/-- The account of a reactor in which nothing is late. -/
def InTime (c : Reactor.Cfg) (enc : NMat → Nat) (dec : Nat → NMat) (b : Book) : Prop :=
  ∃ (is : List Reactor.In) (os : List Reactor.Out) (s : Reactor.State × Nat),
    b.p = ⟨.reactor c enc dec, s⟩ ∧ Reactor.History c is os s.1 ∧ os.length = b.got.length ∧
    is.map (fun i => i.buys.map Prod.snd) = numbered enc 0 b.got ∧
    os.map (fun o => material dec (o.shipped.map Prod.snd)) = b.gave ∧
    s.2 = b.got.flatten.length ∧ Reactor.Steady c b.got.length s.1 ∧
    ∀ (t : Nat) got gave o, b.got[t]? = some got → b.gave[t]? = some gave → os[t]? = some o →
      Punctual c t got gave o

theorem opened_inTime {plan : Plan} (hb : ∀ t, ∀ k ∈ plan.builds t, Sensible k ∧ Suits A k) {t : Nat}
    {new : List (Running act)} (h : deployAll ((plan.builds t).map (Kind.since t)) = .ok new)
    {p : Running act} (hp : p ∈ new) {c : Reactor.Cfg} {enc : NMat → Nat} {dec : Nat → NMat}
    (hk : p.k = .reactor c enc dec) (hz : c.cycleStep = 0) : InTime c enc dec (opened t p) := by
  have hnew : ∀ k ∈ (plan.builds t).map (Kind.since t), Sensible k ∧ Suits A k := by
    intro k hk
    obtain ⟨k', hk', rfl⟩ := List.mem_map.1 hk
    exact ⟨sensible_since t (hb t k' hk').1, suits_since t (hb t k' hk').2⟩
  obtain ⟨-, d3⟩ := deployAll_k h hnew
  obtain ⟨i, hi⟩ := List.getElem?_of_mem hp
  obtain ⟨k, h1, h2⟩ := deployAll_get h i p hi
  have e : p.k = k := by
    rw [← d3, List.getElem?_map, hi] at h1
    exact Option.some.inj h1
  rw [← e, hk] at h2
  simp only [deploy, bind_ok, pure_eq_ok, Except.ok.injEq] at h2
  obtain ⟨s0, e3, e4⟩ := h2
  subst e4
  exact ⟨[], [], _, rfl, ⟨s0, e3, trivial, rfl⟩, rfl, rfl, rfl, rfl, Reactor.steady_start hz e3,
    fun t got gave o hg => by simp [opened] at hg⟩

/-- A step of a reactor that is served. -/
theorem inTime_step {plan : Plan} (hb : ∀ t, ∀ k ∈ plan.builds t, Sensible k ∧ Suits A k)
    {ex : Exchange} (hex : ex.Fair) (hea : ex.Eager) {t : Nat} {bs : List Book}
    (h : ∀ b ∈ bs, Audited A plan t b) {gs : List (Deal × NMat)} {ps : List (Running act)}
    (hr : round ex (bs.map Book.p) = .ok (gs, ps)) {j : Nat} {b : Book} (hj : bs[j]? = some b)
    {c : Reactor.Cfg} {enc : NMat → Nat} {dec : Nat → NMat} (P : InTime c enc dec b)
    (hS : Served (bs.map fun b => b.p.k) c (t + 1)) (hx : c.exitTime = none ∨ c.nFresh = 0)
    (hret : ∀ s, b.p = ⟨.reactor c enc dec, s⟩ → Reactor.retired c s.1 = false)
    (hsp : min c.nBatch c.nCore ≤ c.nSpent) {p : Running act} (hp : ps[j]? = some p) :
    InTime c enc dec ⟨p, b.since, b.got ++ [givenTo gs j], b.gave ++ [givenBy gs j]⟩ := by
  obtain ⟨is, os, s, k1, k2, k3, k4, k5, k6, k7, k8⟩ := P
  obtain ⟨⟨f, f1, f2, f3, f4⟩, w, w1, w2, w3⟩ := hS
  have hg : ∀ p ∈ bs.map Book.p, Good A qty holdings p := by
    intro p hp
    obtain ⟨b, h1, rfl⟩ := List.mem_map.1 hp
    exact (h b h1).good
  have lived : ∀ p ∈ bs.map Book.p, Sensible p.k ∧ ∃ t got gave, Lived p.k p.s t got gave := by
    intro p hp
    obtain ⟨b, h1, rfl⟩ := List.mem_map.1 hp
    exact ⟨(h b h1).sensible hb, _, _, _, (h b h1).lived⟩
  have ek : (bs.map Book.p).map Running.k = bs.map fun b => b.p.k := by rw [List.map_map]; rfl
  have hjp : (bs.map Book.p)[j]? = some ⟨.reactor c enc dec, s⟩ := by rw [List.getElem?_map, hj, ← k1]; rfl
  have young : ∀ b ∈ bs, b.got.length < t + 1 := fun b hb' => by
    have := (h b hb').age
    omega
  -- the source
  obtain ⟨bf, hbf, ef⟩ := List.mem_map.1 f1
  obtain ⟨i, hi⟩ := List.getElem?_of_mem hbf
  have Df := h bf hbf
  have hcf := Df.sensible hb
  have yf := young bf hbf
  obtain ⟨⟨kf, sf⟩, tf, gotf, gavef⟩ := bf
  obtain rfl : kf = .source f := ef
  have hif : (bs.map Book.p)[i]? = some ⟨.source f, sf⟩ := by rw [List.getElem?_map, hi]; rfl
  have full : f.size ≤ Source.stock sf + totalQty gavef.flatten := by
    have bal := Df.balance
    have hgot : gotf.flatten = [] := by
      obtain ⟨-, -, -, -, -, -, -, e, -⟩ := Df.lived
      change gotf = _ at e
      rw [e, List.flatten_replicate_nil]
    change totalQty (holdings (.source f) sf) + totalQty gavef.flatten =
      startsWith (.source f) + totalQty gotf.flatten at bal
    rw [hgot] at bal
    have : totalQty ([] : List NMat) = 0 := rfl
    rw [this, add_zero] at bal
    exact bal.ge
  have F : Filled ex (bs.map Book.p) j := filled_source hex hea hg lived hif
    (fun rs os hr ho => OfSource.offers_full hcf Df.lived yf f2.lasts f2.offers full hr ho)
    (ek ▸ f2) hjp f3 f4
  -- the sink
  obtain ⟨bw, hbw, ew⟩ := List.mem_map.1 w1
  obtain ⟨y, hy⟩ := List.getElem?_of_mem hbw
  have Dw := h bw hbw
  have hcw := Dw.sensible hb
  have yw := young bw hbw
  obtain ⟨⟨kw, sw⟩, tw, gotw, gavew⟩ := bw
  obtain rfl : kw = .sink w := ew
  have hyw : (bs.map Book.p)[y]? = some ⟨.sink w, sw⟩ := by rw [List.getElem?_map, hy]; rfl
  obtain ⟨rs, os', ts, l2, as, ds, mm, s', P, q1, q2, q3, q4, q5⟩ :=
    round_taken hex hea hg lived hr (taken_sink hcw hyw
      (fun as ha => OfSink.asks_full hcw Dw.lived yw w2.lasts w2.asks ha) (ek ▸ w2) hg w3) hjp F
  obtain rfl := Option.some.inj (hp.symm.trans q1)
  have D := h b (List.mem_of_getElem? hj)
  have hcj : Sensible (.reactor c enc dec) := by
    have := D.sensible hb
    rwa [k1] at this
  obtain ⟨o, s1, s2, s3, H, sp, u1, u2, u3, u4⟩ := OfReactor.turn hcj k2 k4 k6 P
  have inv : Reactor.Inv c s.1 := by
    obtain ⟨s0, a1, a2, a3⟩ := k2
    exact Reactor.run_inv hcj.1 (Reactor.enter_inv hcj.1 a1) a2 a3
  have hbuys : (assemblies enc s.2 ds).length = ds.length := by
    have := congrArg List.length (assemblies_numbered enc ds s.2)
    simpa using this
  obtain ⟨v1, v2, v3, v4, v5, v6⟩ := Reactor.steady_step' hcj.1 hx hsp (hret s k1) inv k7 sp (by
    change (assemblies enc s.2 ds).length = _
    rw [hbuys, q4, u1]
    simp [OfReactor.asksOf]) q5
  have paid := D.paid
  refine ⟨_, _, s', rfl, H, by simp [k3], ?_, ?_, ?_, by simpa using v1, ?_⟩
  · rw [List.map_append, numbered_append, k4, ← k6]
    simp [numbered, assemblies_numbered, q3]
  · rw [List.map_append, k5, List.map_singleton, ← q2, u3]
    simp [material]
  · rw [u4, k6, List.flatten_append, List.length_append, ← List.length_map (f := Delivery.mat), q3]
    simp
  · intro t' got gave o' hg hg' ho
    dsimp only at hg hg'
    rcases Nat.lt_trichotomy t' b.got.length with ht | rfl | ht
    · rw [List.getElem?_append_left (by omega)] at hg hg' ho
      exact k8 t' _ _ o' hg hg' ho
    · rw [List.getElem?_append_right (by omega), Nat.sub_self] at hg
      rw [List.getElem?_append_right (by omega), paid, Nat.sub_self] at hg'
      rw [List.getElem?_append_right (by omega), k3, Nat.sub_self] at ho
      cases hg
      cases hg'
      cases ho
      refine ⟨?_, ?_, v4, v3, v2⟩
      · rw [← q3, List.length_map, ← hbuys]
        exact v5
      · rw [← q2, u3, List.length_map]
        exact v6
    · rw [List.getElem?_eq_none (by simp; omega)] at hg
      cases hg

theorem fleet {plan : Plan} (hb : ∀ t, ∀ k ∈ plan.builds t, Sensible k ∧ Suits A k)
    {ex : Nat → Exchange} (hex : ∀ t, (ex t).Fair) (hea : ∀ t, (ex t).Eager) {n : Nat}
    {c : Reactor.Cfg} {enc : NMat → Nat} {dec : Nat → NMat} (hx : c.exitTime = none)
    (hz : c.cycleStep = 0) (hsp : min c.nBatch c.nCore ≤ c.nSpent) : ∀ {G B : List Book},
    chronicle ex plan n 0 [] = .ok (G, B) → ∀ b ∈ G ++ B, b.p.k = .reactor c enc dec →
    (∀ t, b.since ≤ t → t < n → ∀ bs, trading ex plan t = .ok bs →
      Served (bs.map fun b => b.p.k) c (t + 1)) → InTime c enc dec b := by
  induction n with
  | zero =>
    intro G B h
    simp only [chronicle, Except.ok.injEq, Prod.mk.injEq] at h
    obtain ⟨rfl, rfl⟩ := h
    simp
  | succ n ih =>
    intro G B h b hbm hk hS
    obtain ⟨G₀, B₀, new, gs, ps, c1, d1, r1, rfl, rfl⟩ := chronicle_snoc h
    rw [Nat.zero_add] at d1 r1 hbm
    have old : ∀ b ∈ G₀ ++ B₀, b.p.k = .reactor c enc dec →
        (∀ t, b.since ≤ t → t < n + 1 → ∀ bs, trading ex plan t = .ok bs →
          Served (bs.map fun b => b.p.k) c (t + 1)) → InTime c enc dec b :=
      fun b h1 h2 h3 => ih c1 b h1 h2 fun t a1 a2 => h3 t a1 (by omega)
    obtain ⟨s1, s2⟩ := closed_spec (plan.leaves n) 0 (entered gs 0 (B₀ ++ new.map (opened n)) ps)
    rw [List.append_assoc] at hbm
    rcases List.mem_append.1 hbm with hbm | hbm
    · exact old b (List.mem_append_left _ hbm) hk hS
    obtain ⟨j, hj⟩ := List.getElem?_of_mem (s1.mem_iff.1 hbm)
    obtain ⟨b₀, p, h1, h2, rfl⟩ := entered_get hj
    rw [Nat.zero_add]
    obtain ⟨-, aud, -⟩ := chronicle_audited hb hex c1
    have hall : ∀ b ∈ B₀ ++ new.map (opened n), Audited A plan n b := fun b hb' =>
      (List.mem_append.1 hb').elim (aud b) (opened_audited hb d1 b)
    have hp : (B₀ ++ new.map (opened n)).map Book.p = B₀.map Book.p ++ new := by
      rw [List.map_append, List.map_map]
      congr 1
      exact List.map_id new
    rw [← hp] at r1
    obtain ⟨kinds, -, -⟩ := entered_audited hb (hex n) hall r1
    have ek : b₀.p.k = .reactor c enc dec := by
      have := congrArg (fun l => l[j]?) kinds
      rw [List.getElem?_map, List.getElem?_map, h1, h2] at this
      exact (Option.some.inj this).symm.trans hk
    have hb₀ : InTime c enc dec b₀ := by
      rcases List.mem_append.1 (List.mem_of_getElem? h1) with hm | hm
      · exact old b₀ (List.mem_append_right _ hm) ek hS
      · obtain ⟨q, hq, rfl⟩ := List.mem_map.1 hm
        exact opened_inTime hb d1 hq ek hz
    have hsince : b₀.since ≤ n := by
      have := (hall b₀ (List.mem_of_getElem? h1)).age
      omega
    refine inTime_step hb (hex n) (hea n) hall r1 h1 hb₀ (hS n hsince (by omega) _ ?_) (Or.inl hx)
      (fun s _ => by unfold Reactor.retired; rw [hx]) hsp h2
    simp only [trading, c1, d1, ok_bind, pure_eq_ok]

/-- C147. A reactor runs on schedule from the step in which it is built, whenever that is and whatever else
is built or leaves, if in every step since there are a source that can supply all the reactors then
present and a sink that can take their spent fuel, and the exchange leaves no exclusive order or bid
alone: it is given its first core and its stock of fresh fuel in its first step and then a batch at the
end of every cycle, gives a batch of spent fuel in the same step, starts a cycle in every step that its
cycle time and its refuelling time provide for, records full power in all steps of a cycle, and the
discharge never fails. It never leaves.

Partial: as C125. -/
theorem C147_later_on_schedule_partial {plan : Plan}
    (hb : ∀ t, ∀ k ∈ plan.builds t, Sensible k ∧ Suits A k)
    {ex : Nat → Exchange} (hex : ∀ t, (ex t).Fair) (hea : ∀ t, (ex t).Eager) {n : Nat}
    {G B : List Book} (h : chronicle ex plan n 0 [] = .ok (G, B)) {b : Book} (hbm : b ∈ G ++ B)
    {c : Reactor.Cfg} {enc : NMat → Nat} {dec : Nat → NMat} (hk : b.p.k = .reactor c enc dec)
    (hS : ∀ t, b.since ≤ t → t < n → ∀ bs, trading ex plan t = .ok bs →
      Served (bs.map fun b => b.p.k) c (t + 1))
    (hx : c.exitTime = none) (hz : c.cycleStep = 0) (hsp : min c.nBatch c.nCore ≤ c.nSpent) :
    (0 < c.nCore → b ∉ G ∧ b.since + b.got.length = n) ∧
    ∃ (is : List Reactor.In) (os : List Reactor.Out) (s : Reactor.State × Nat),
      b.p = ⟨.reactor c enc dec, s⟩ ∧ Reactor.History c is os s.1 ∧ os.length = b.got.length ∧
      b.gave.length = b.got.length ∧
      is.map (fun i => i.buys.map Prod.snd) = numbered enc 0 b.got ∧
      os.map (fun o => material dec (o.shipped.map Prod.snd)) = b.gave ∧
      (∀ (t : Nat) got gave o, b.got[t]? = some got → b.gave[t]? = some gave → os[t]? = some o →
        Punctual c t got gave o) ∧
      Reactor.energy os = c.powerCap * Reactor.ideal c b.got.length := by
  obtain ⟨is, os, s, k1, k2, k3, k4, k5, -, k7, k8⟩ := fleet hb hex hea hx hz hsp h b hbm hk hS
  obtain ⟨-, aud, aud'⟩ := chronicle_audited hb hex h
  have paid : b.gave.length = b.got.length := by
    obtain ⟨t, -, D⟩ := aud' b hbm
    exact D.paid
  refine ⟨fun hc => ?_, is, os, s, k1, k2, k3, paid, k4, k5, k8, ?_⟩
  · have stays : b ∉ G := fun hg => by
      obtain ⟨g1, g2⟩ := gone_left h b hg
      rw [k1] at g2
      have hcore := k7.core
      rw [if_neg (by rw [List.length_eq_zero_iff]; exact g1)] at hcore
      have g2 : Reactor.checkDecommission s.1 = true := g2
      simp only [Reactor.checkDecommission, Bool.and_eq_true, beq_iff_eq, Buf.count] at g2
      omega
    exact ⟨stays, (aud b ((List.mem_append.1 hbm).resolve_left stays)).age⟩
  · rw [Reactor.energy_eq (c := c), k3]
    intro t o ho
    have ht : t < os.length := (List.getElem?_eq_some_iff.1 ho).1
    exact (k8 t _ _ o (List.getElem?_eq_getElem (by omega)) (List.getElem?_eq_getElem (by omega)) ho).power

/-! ## A fleet that grows -/

theorem closed_first {w : Nat → Bool} {i j : Nat} {bs : List Book} (h : ∀ x < j + 1, w (i + x) = false) :
    (closed w i bs).1[j]? = bs[j]? := by
  induction bs generalizing i j with
  | nil => rfl
  | cons b bs ih =>
    have h0 := h 0 (by omega)
    rw [Nat.add_zero] at h0
    rw [closed, h0]
    simp only [Bool.false_and, Bool.false_eq_true, if_false]
    cases j with
    | zero => rfl
    | succ j =>
      refine ih fun x hx => ?_
      have := h (x + 1) (by omega)
      rwa [Nat.add_comm x, ← Nat.add_assoc] at this

theorem entered_kind {plan : Plan} (hb : ∀ t, ∀ k ∈ plan.builds t, Sensible k ∧ Suits A k)
    {ex : Nat → Exchange} (hex : ∀ t, (ex t).Fair) {n : Nat} {G B : List Book}
    (h : chronicle ex plan n 0 [] = .ok (G, B)) {new : List (Running act)}
    (d : deployAll ((plan.builds n).map (Kind.since n)) = .ok new) {gs : List (Deal × NMat)}
    {ps : List (Running act)} (hr : round (ex n) (B.map Book.p ++ new) = .ok (gs, ps)) :
    (entered gs 0 (B ++ new.map (opened n)) ps).map (fun b => (b.since, b.p.k)) =
      B.map (fun b => (b.since, b.p.k)) ++ (plan.builds n).map fun k => (n, k.since n) := by
  obtain ⟨-, aud, -⟩ := chronicle_audited hb hex h
  have hall : ∀ b ∈ B ++ new.map (opened n), Audited A plan n b := fun b hb' =>
    (List.mem_append.1 hb').elim (aud b) (opened_audited hb d b)
  have hp : (B ++ new.map (opened n)).map Book.p = B.map Book.p ++ new := by
    rw [List.map_append, List.map_map]
    congr 1
    exact List.map_id new
  rw [← hp] at hr
  obtain ⟨kinds, -, -⟩ := entered_audited hb (hex n) hall hr
  have gen : ∀ (j : Nat) (bs : List Book) (ps : List (Running act)),
      ps.map Running.k = bs.map (fun b => b.p.k) →
      (entered gs j bs ps).map (fun b => (b.since, b.p.k)) = bs.map fun b => (b.since, b.p.k) := by
    intro j bs
    induction bs generalizing j with
    | nil => intro ps _; rfl
    | cons b bs ih =>
      intro ps e
      cases ps with
      | nil => cases e
      | cons p ps =>
        obtain ⟨e1, e2⟩ := List.cons.inj e
        rw [entered, List.map_cons, List.map_cons, ih _ ps e2, e1]
  rw [gen _ _ _ kinds, List.map_append]
  congr 1
  have hnew : ∀ k ∈ (plan.builds n).map (Kind.since n), Sensible k ∧ Suits A k := by
    intro k hk
    obtain ⟨k', hk', rfl⟩ := List.mem_map.1 hk
    exact ⟨sensible_since n (hb n k' hk').1, suits_since n (hb n k' hk').2⟩
  obtain ⟨-, d3⟩ := deployAll_k d hnew
  have : (new.map (opened n)).map (fun b => (b.since, b.p.k)) = (new.map Running.k).map fun k => (n, k) := by
    rw [List.map_map, List.map_map]
    rfl
  rw [this, d3, List.map_map]
  rfl

/-- The accounts are those of what was built, each at its time. -/
theorem accounts_of {plan : Plan} (hb : ∀ t, ∀ k ∈ plan.builds t, Sensible k ∧ Suits A k)
    {ex : Nat → Exchange} (hex : ∀ t, (ex t).Fair) {n : Nat} : ∀ {G B : List Book},
    chronicle ex plan n 0 [] = .ok (G, B) → ((G ++ B).map fun b => (b.since, b.p.k)).Perm
      ((List.range n).flatMap fun t => (plan.builds t).map fun k => (t, k.since t)) := by
  induction n with
  | zero =>
    intro G B h
    simp only [chronicle, Except.ok.injEq, Prod.mk.injEq] at h
    obtain ⟨rfl, rfl⟩ := h
    exact .nil
  | succ n ih =>
    intro G B h
    obtain ⟨G₀, B₀, new, gs, ps, c1, d1, r1, rfl, rfl⟩ := chronicle_snoc h
    rw [Nat.zero_add] at d1 r1 ⊢
    obtain ⟨s1, -⟩ := closed_spec (plan.leaves n) 0 (entered gs 0 (B₀ ++ new.map (opened n)) ps)
    have := (s1.map fun b => (b.since, b.p.k))
    rw [entered_kind hb hex c1 d1 r1] at this
    rw [List.append_assoc, List.map_append, List.range_succ, List.flatMap_append]
    simp only [List.flatMap_cons, List.flatMap_nil, List.append_nil]
    refine (this.append_left _).trans ?_
    rw [← List.append_assoc, ← List.map_append]
    exact (ih c1).append_right _

/-- The first facilities stay if nobody lets them leave. -/
theorem firsts_stay {plan : Plan} (hb : ∀ t, ∀ k ∈ plan.builds t, Sensible k ∧ Suits A k)
    {ex : Nat → Exchange} (hex : ∀ t, (ex t).Fair) {i : Nat} {k : Kind}
    (hi : (plan.builds 0)[i]? = some k) (hw : ∀ t, ∀ x ≤ i, plan.leaves t x = false) {n : Nat} :
    ∀ {G B : List Book}, chronicle ex plan (n + 1) 0 [] = .ok (G, B) →
      (B.map fun b => b.p.k)[i]? = some (k.since 0) := by
  induction n with
  | zero =>
    intro G B h
    obtain ⟨G₀, B₀, new, gs, ps, c1, d1, r1, rfl, rfl⟩ := chronicle_snoc h
    have e := entered_kind hb hex c1 d1 r1
    simp only [chronicle, Except.ok.injEq, Prod.mk.injEq] at c1
    obtain ⟨rfl, rfl⟩ := c1
    have e := congrArg (fun l => (l.map Prod.snd)[i]?) e
    simp only [List.map_map, List.map_nil, List.nil_append, List.getElem?_map, hi, Option.map_some,
      Function.comp_def] at e
    rw [List.getElem?_map, closed_first (fun x hx => hw _ _ (by omega))]
    simpa using e
  | succ n ih =>
    intro G B h
    obtain ⟨G₀, B₀, new, gs, ps, c1, d1, r1, rfl, rfl⟩ := chronicle_snoc h
    rw [Nat.zero_add] at d1 r1 ⊢
    have e := entered_kind hb hex c1 d1 r1
    have e := congrArg (fun l => (l.map Prod.snd)[i]?) e
    have h1 := ih c1
    have hlt : i < (B₀.map fun b => b.p.k).length := (List.getElem?_eq_some_iff.1 h1).1
    rw [List.getElem?_map, closed_first fun x hx => by rw [Nat.zero_add]; exact hw _ x (by omega)]
    simp only [List.map_map, List.map_append, Function.comp_def] at e
    rw [List.getElem?_append_left hlt, h1] at e
    rw [← e, List.getElem?_map]

theorem sum_subperm {ks ks' : List Kind} (h : ks.Subperm ks') {v : Kind → ℚ} (hv : ∀ k ∈ ks', 0 ≤ v k) :
    (ks.map v).sum ≤ (ks'.map v).sum := by
  obtain ⟨l, h1, h2⟩ := h
  rw [← (h1.map v).sum_eq]
  refine (h2.map v).sum_le_sum fun x hx => ?_
  obtain ⟨k, hk, rfl⟩ := List.mem_map.1 hx
  exact hv k hk

theorem room_nonneg {k : Kind} (h : Sensible k) : 0 ≤ freshRoom k ∧ 0 ≤ spentRoom k := by
  cases k <;> try exact ⟨le_refl _, le_refl _⟩
  exact ⟨mul_nonneg (Nat.cast_nonneg _) h.1.assemSize.le, mul_nonneg (Nat.cast_nonneg _) h.1.assemSize.le⟩

theorem Supplies.fewer {ks ks' : List Kind} (hs : ∀ k ∈ ks', Sensible k) (h : ks.Subperm ks')
    {f : Source.Cfg} (hf : 0 ≤ f.throughput) {m n : Nat} (hm : m ≤ n) (S : Supplies ks' f n) :
    Supplies ks f m := by
  refine ⟨fun k hk => S.only k (h.subset hk),
    (sum_subperm h fun k hk => (room_nonneg (hs k hk)).1).trans S.enough, le_trans ?_ S.lasts, S.offers⟩
  exact mul_le_mul_of_nonneg_right (by exact_mod_cast hm) hf

theorem Drains.fewer {ks ks' : List Kind} (hs : ∀ k ∈ ks', Sensible k) (h : ks.Subperm ks')
    {w : Sink.Cfg} (hw : 0 ≤ w.capacity) {m n : Nat} (hm : m ≤ n) (S : Drains ks' w n) :
    Drains ks w m := by
  refine ⟨fun k hk => S.only k (h.subset hk),
    (sum_subperm h fun k hk => (room_nonneg (hs k hk)).2).trans S.enough, le_trans ?_ S.lasts, S.asks⟩
  exact mul_le_mul_of_nonneg_right (by exact_mod_cast hm) hw

/-- Who trades in a step is among what is built in the end. -/
theorem trading_subperm {plan : Plan} (hb : ∀ t, ∀ k ∈ plan.builds t, Sensible k ∧ Suits A k)
    {ex : Nat → Exchange} (hex : ∀ t, (ex t).Fair) {t n : Nat} (ht : t < n) {bs : List Book}
    (h : trading ex plan t = .ok bs) : (bs.map fun b => b.p.k).Subperm (plan.built 0 n) := by
  simp only [trading, bind_ok, pure_eq_ok, Except.ok.injEq] at h
  obtain ⟨⟨G, B⟩, c1, new, d1, rfl⟩ := h
  have hnew : ∀ k ∈ (plan.builds t).map (Kind.since t), Sensible k ∧ Suits A k := by
    intro k hk
    obtain ⟨k', hk', rfl⟩ := List.mem_map.1 hk
    exact ⟨sensible_since t (hb t k' hk').1, suits_since t (hb t k' hk').2⟩
  obtain ⟨-, d3⟩ := deployAll_k d1 hnew
  have e1 : ((B ++ new.map (opened t)).map fun b => b.p.k) =
      (B.map fun b => b.p.k) ++ (plan.builds t).map (Kind.since t) := by
    rw [List.map_append, ← d3, List.map_map]
    rfl
  have e2 := (accounts_of hb hex c1).map Prod.snd
  rw [List.map_map, List.map_flatMap] at e2
  have e3 : plan.built 0 n = plan.built 0 t ++ (plan.builds t).map (Kind.since t) ++
      plan.built (t + 1) (n - (t + 1)) := by
    have : List.range' 0 n = List.range' 0 t ++ [t] ++ List.range' (t + 1) (n - (t + 1)) := by
      have h1 : [t] = List.range' t 1 := rfl
      have h2 : n = t + (1 + (n - (t + 1))) := by omega
      conv_lhs => rw [h2]
      rw [← List.range'_append_1, ← List.range'_append_1, h1, Nat.zero_add, List.append_assoc]
    rw [Plan.built, this, List.flatMap_append, List.flatMap_append]
    simp [Plan.built]
  have e4 : plan.built 0 t = (List.range t).flatMap fun x =>
      ((plan.builds x).map fun k => (x, k.since x)).map Prod.snd := by
    rw [Plan.built, ← List.range_eq_range']
    refine List.flatMap_congr fun x _ => ?_
    rw [List.map_map]
    rfl
  rw [e1, e3, e4]
  refine List.Subperm.trans ?_ (List.sublist_append_left _ _).subperm
  refine List.Subperm.append ?_ (List.Subperm.refl _)
  refine List.Subperm.trans ?_ e2.subperm
  rw [List.map_append]
  exact (List.sublist_append_right _ _).subperm

theorem served_always {plan : Plan} (hb : ∀ t, ∀ k ∈ plan.builds t, Sensible k ∧ Suits A k)
    {ex : Nat → Exchange} (hex : ∀ t, (ex t).Fair) {n : Nat}
    {i : Nat} {f : Source.Cfg} (hi : (plan.builds 0)[i]? = some (.source f))
    (hS : Supplies (plan.built 0 n) f n) {y : Nat} {w : Sink.Cfg}
    (hy : (plan.builds 0)[y]? = some (.sink w)) (hD : Drains (plan.built 0 n) w n)
    (hl : ∀ t x, x ≤ i ∨ x ≤ y → plan.leaves t x = false) {c : Reactor.Cfg}
    (h1 : f.outcommod ∈ c.inCommods) (h2 : ∀ x ∈ c.outCommods, x ∈ w.commods)
    (h3 : f.lo ≤ c.assemSize) {t : Nat} (ht : t < n) {bs : List Book} (hbs : trading ex plan t = .ok bs) :
    Served (bs.map fun b => b.p.k) c (t + 1) := by
  have all : ∀ k ∈ plan.built 0 n, Sensible k := fun k hk => (built_all hb (fun t k h =>
    ⟨sensible_since t h.1, suits_since t h.2⟩) 0 n k hk).1
  have hf := (hb 0 _ (List.mem_of_getElem? hi)).1
  have hw := (hb 0 _ (List.mem_of_getElem? hy)).1
  have sub := trading_subperm hb hex ht hbs
  have pos : ∀ {x : Nat} {k : Kind}, (plan.builds 0)[x]? = some k → (∀ t, ∀ z ≤ x, plan.leaves t z = false) →
      k.since 0 ∈ bs.map fun b => b.p.k := by
    intro x k hx hlx
    simp only [trading, bind_ok, pure_eq_ok, Except.ok.injEq] at hbs
    obtain ⟨⟨G', B'⟩, c1, new, d1, rfl⟩ := hbs
    rw [List.map_append]
    cases t with
    | zero =>
      refine List.mem_append_right _ ?_
      have hnew : ∀ k ∈ (plan.builds 0).map (Kind.since 0), Sensible k ∧ Suits A k := by
        intro k hk
        obtain ⟨k', hk', rfl⟩ := List.mem_map.1 hk
        exact ⟨sensible_since 0 (hb 0 k' hk').1, suits_since 0 (hb 0 k' hk').2⟩
      obtain ⟨-, d3⟩ := deployAll_k d1 hnew
      have : (new.map (opened 0)).map (fun b => b.p.k) = new.map Running.k := by
        rw [List.map_map]
        rfl
      rw [this, d3]
      exact List.mem_map_of_mem (List.mem_of_getElem? hx)
    | succ t => exact List.mem_append_left _ (List.mem_of_getElem? (firsts_stay hb hex hx hlx c1))
  exact ⟨⟨f, pos hi fun t z hz => hl t z (Or.inl hz), hS.fewer all sub hf.2.1 (by omega), h1, h3⟩,
    w, pos hy fun t z hz => hl t z (Or.inr hz), hD.fewer all sub hw.1.capacity (by omega), h2⟩

/-- C147. If a source and a sink are built at the start and never leave, and the source could supply and
the sink could take the spent fuel of all the reactors of the plan at the same time, then every reactor
of the plan without a last step runs on schedule from the step in which it is built to the end.

Partial: as C125. -/
theorem C147_growing_fleet_partial {plan : Plan}
    (hb : ∀ t, ∀ k ∈ plan.builds t, Sensible k ∧ Suits A k)
    {ex : Nat → Exchange} (hex : ∀ t, (ex t).Fair) (hea : ∀ t, (ex t).Eager) {n : Nat}
    {i : Nat} {f : Source.Cfg} (hi : (plan.builds 0)[i]? = some (.source f))
    (hS : Supplies (plan.built 0 n) f n) {y : Nat} {w : Sink.Cfg}
    (hy : (plan.builds 0)[y]? = some (.sink w)) (hD : Drains (plan.built 0 n) w n)
    (hl : ∀ t x, x ≤ i ∨ x ≤ y → plan.leaves t x = false) {T : Nat} (hT : T < n) {c : Reactor.Cfg}
    {enc : NMat → Nat} {dec : Nat → NMat} (hk : .reactor c enc dec ∈ plan.builds T)
    (h1 : f.outcommod ∈ c.inCommods) (h2 : ∀ x ∈ c.outCommods, x ∈ w.commods)
    (h3 : f.lo ≤ c.assemSize) (hx : c.exitTime = none) (hz : c.cycleStep = 0) (hc : 0 < c.nCore)
    (hsp : min c.nBatch c.nCore ≤ c.nSpent) {G B : List Book}
    (h : chronicle ex plan n 0 [] = .ok (G, B)) :
    ∃ b ∈ B, b.since = T ∧ b.got.length = n - T ∧ b.gave.length = n - T ∧
      ∃ (is : List Reactor.In) (os : List Reactor.Out) (s : Reactor.State × Nat),
        b.p = ⟨.reactor { c with enterTime := T } enc dec, s⟩ ∧
        Reactor.History { c with enterTime := T } is os s.1 ∧ os.length = n - T ∧
        is.map (fun i => i.buys.map Prod.snd) = numbered enc 0 b.got ∧
        os.map (fun o => material dec (o.shipped.map Prod.snd)) = b.gave ∧
        (∀ (t : Nat) got gave o, b.got[t]? = some got → b.gave[t]? = some gave → os[t]? = some o →
          Punctual c t got gave o) ∧
        Reactor.energy os = c.powerCap * Reactor.ideal c (n - T) := by
  have mem : (T, Kind.reactor { c with enterTime := T } enc dec) ∈ (G ++ B).map fun b => (b.since, b.p.k) :=
    (accounts_of hb hex h).mem_iff.2 (List.mem_flatMap.2 ⟨T, List.mem_range.2 hT,
      List.mem_map.2 ⟨_, hk, rfl⟩⟩)
  obtain ⟨b, hbm, e⟩ := List.mem_map.1 mem
  obtain ⟨e1, e2⟩ := Prod.mk.inj e
  have key : ∀ t, b.since ≤ t → t < n → ∀ bs, trading ex plan t = .ok bs →
      Served (bs.map fun b => b.p.k) { c with enterTime := T } (t + 1) :=
    fun t _ ht bs hbs => served_always (c := { c with enterTime := T }) hb hex hi hS hy hD hl h1 h2 h3 ht hbs
  obtain ⟨r1, is, os, s, r2, r3, r4, r5, r6, r7, r8, r9⟩ := C147_later_on_schedule_partial hb hex hea h
    hbm (c := { c with enterTime := T }) e2 key hx hz hsp
  obtain ⟨g1, g2⟩ := r1 hc
  have len : b.got.length = n - T := by omega
  rw [len] at r4 r5 r9
  exact ⟨b, (List.mem_append.1 hbm).resolve_left g1, e1, len, r5, is, os, s, r2, r3, r4, r6, r7, fun t got gave o a1 a2 a3 => by
    obtain ⟨p1, p2, p3, p4, p5⟩ := r8 t got gave o a1 a2 a3
    exact ⟨p1, p2, p3, p4, p5⟩, r9⟩

/-! ## An example -/

/-- The second reactor is built in the fourth step, with a mine that is closed two steps later. -/
def exGrowing : Plan where
  builds t := if t = 0 then [.source exFuel, .sink exPool, .reactor exReactor (fun _ => 1) exDec]
    else if t = 3 then [.source exMine, .reactor exSecond (fun _ => 1) exDec] else []
  leaves t i := t = 5 ∧ i = 3

theorem exGrowing_sensible : ∀ t, ∀ k ∈ exGrowing.builds t, Sensible k ∧ Suits exOpen k := by
  intro t k hk
  simp only [exGrowing] at hk
  split at hk
  · simp only [List.mem_cons, List.not_mem_nil, or_false] at hk
    rcases hk with rfl | rfl | rfl <;> exact exFleet_sensible _ (by simp [exFleet])
  · split at hk
    · simp only [List.mem_cons, List.not_mem_nil, or_false] at hk
      rcases hk with rfl | rfl
      · refine ⟨⟨by norm_num [exMine], by norm_num [exMine], by norm_num [exMine], ?_,
          fun _ => rfl, fun _ => rfl⟩, fun _ => True, OfSource.blendable_true, fun _ _ => trivial,
          fun _ _ _ _ => trivial, fun _ _ _ => trivial⟩
        intro r hr
        cases hr
        exact ⟨by decide +kernel, by norm_num [Mat.Nonneg]⟩
      · exact exFleet_sensible _ (by simp [exFleet])
    · cases hk

/-- The second reactor runs on schedule for the seven steps that it has. -/
example : ∃ G B, chronicle (fun _ => filling) exGrowing 10 0 [] = .ok (G, B) ∧ ∃ b ∈ B, b.since = 3 ∧
    b.got.map List.length = [5, 2, 0, 2, 0, 2, 0] ∧ b.gave.map List.length = [0, 2, 0, 2, 0, 2, 0] := by
  obtain ⟨l, gone, ps, h, -⟩ := C129_comings_and_goings_partial exGrowing_sensible (fun _ => filling_fair) 10
  obtain ⟨G, B, h1, -⟩ := C144_same_partial exGrowing_sensible (fun _ => filling_fair) h
  refine ⟨G, B, h1, ?_⟩
  have built : exGrowing.built 0 10 = [.source exFuel, .sink exPool,
      .reactor { exReactor with enterTime := 0 } (fun _ => 1) exDec, .source exMine,
      .reactor { exSecond with enterTime := 3 } (fun _ => 1) exDec] := rfl
  have S : Supplies (exGrowing.built 0 10) exFuel 10 := by
    rw [built]
    refine ⟨?_, by decide +kernel, by decide +kernel, by decide +kernel⟩
    intro k hk
    simp only [List.mem_cons, List.not_mem_nil, or_false] at hk
    rcases hk with rfl | rfl | rfl | rfl | rfl <;> decide
  have D : Drains (exGrowing.built 0 10) exPool 10 := by
    rw [built]
    refine ⟨?_, by decide +kernel, by decide +kernel, by decide +kernel⟩
    intro k hk
    simp only [List.mem_cons, List.not_mem_nil, or_false] at hk
    rcases hk with rfl | rfl | rfl | rfl | rfl <;> decide
  obtain ⟨b, hb, e1, e2, e3, is, os, s, -, -, e4, -, -, e5, -⟩ := C147_growing_fleet_partial
    exGrowing_sensible (fun _ => filling_fair) (fun _ => filling_eager) (i := 0) rfl S (y := 1) rfl D
    (by intro t x hx; simp [exGrowing]; omega) (T := 3) (by decide) (c := exSecond)
    (enc := fun _ => 1) (dec := exDec) (by simp [exGrowing]) (by decide) (by decide) (by decide +kernel) rfl rfl (by decide) (by decide) h1
  refine ⟨b, hb, e1, ?_, ?_⟩
  · refine List.ext_getElem (by simp [e2]) fun t h3 h4 => ?_
    have h3' : t < b.got.length := by simpa using h3
    rw [List.getElem_map, (e5 t _ _ _ (List.getElem?_eq_getElem h3') (List.getElem?_eq_getElem (by omega))
      (List.getElem?_eq_getElem (by omega))).supplied]
    have : t < 7 := by simpa using h4
    interval_cases t <;> rfl
  · refine List.ext_getElem (by simp [e3]) fun t h3 h4 => ?_
    have h3' : t < b.gave.length := by simpa using h3
    rw [List.getElem_map, (e5 t _ _ _ (List.getElem?_eq_getElem (by omega)) (List.getElem?_eq_getElem h3')
      (List.getElem?_eq_getElem (by omega))).shipped]
    have : t < 7 := by simpa using h4
    interval_cases t <;> rfl

end Cyc.Sim
