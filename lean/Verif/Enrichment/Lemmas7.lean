import Verif.Enrichment.Lemmas6

/-!
# Requests that are served, ranking, series, deliveries
-/

namespace Cyc.Enrichment

open Mat (massOf)

theorem feasible_code {c : Cfg} (V : Valid c) {m : NMat} (hm : Mat.Nonneg m) (h : Feasible c m) :
    CodeFeasible c m := by
  have h5 := hm.mass_nonneg u235
  have h8 := h.has238
  have a5 := V.atom235
  have a8 : 0 < c.atomMass u238 := lt_of_lt_of_le a5 V.atom238
  refine ⟨h8, ?_, ?_⟩
  · have h1 : m.mass u238 / c.atomMass u238 ≤ m.mass u238 / c.atomMass u235 :=
      div_le_div_of_nonneg_left (le_of_lt h8) a5 V.atom238
    calc c.tailsAssay * (m.mass u235 / c.atomMass u235 + m.mass u238 / c.atomMass u238)
        ≤ c.tailsAssay * (m.mass u235 / c.atomMass u235 + m.mass u238 / c.atomMass u235) :=
          mul_le_mul_of_nonneg_left (by linarith) V.tails
      _ = c.tailsAssay * (m.mass u235 + m.mass u238) / c.atomMass u235 := by ring
      _ < m.mass u235 / c.atomMass u235 := div_lt_div_of_pos_right h.above a5
  · have := h.below
    have h2 : 0 < c.eps * (m.mass u235 + m.mass u238) := mul_pos V.eps (by linarith)
    have h3 : (c.maxEnrich + c.eps) * (m.mass u235 + m.mass u238) =
      c.maxEnrich * (m.mass u235 + m.mass u238) + c.eps * (m.mass u235 + m.mass u238) := by ring
    rw [h3]; linarith

theorem assign_ranked {bids l : List (Nat × NMat)} (hp : l.Perm bids)
    (hs : l.Pairwise fun a b => content a.2 ≤ content b.2) (hid : (bids.map Prod.fst).Nodup)
    (hq : ∀ b ∈ bids, 0 < qty b.2 ∧ Mat.Nonneg b.2) : Ranked bids (assign 0 false l) := by
  have hid' : (l.map Prod.fst).Nodup := (hp.map Prod.fst).nodup_iff.2 hid
  have huniq : ∀ (j : Nat) (m m' : NMat), (j, m) ∈ l → (j, m') ∈ l → m = m' := by
    intro j m m' h1 h2
    have := List.inj_on_of_nodup_map hid' h1 h2 rfl
    exact (Prod.mk.injEq _ _ _ _ ▸ this).2
  have hle : ∀ (i i' : Nat) (a b : Nat × NMat), l[i]? = some a → l[i']? = some b → i ≤ i' →
      content a.2 ≤ content b.2 := by
    intro i i' a b ha hb hii
    rcases Nat.lt_or_eq_of_le hii with h | h
    · obtain ⟨h1, e1⟩ := List.getElem?_eq_some_iff.1 ha
      obtain ⟨h2, e2⟩ := List.getElem?_eq_some_iff.1 hb
      have := List.pairwise_iff_getElem.1 hs i i' h1 h2 h
      rwa [e1, e2] at this
    · subst h
      rw [ha] at hb
      cases hb
      exact le_refl _
  have hzero : ∀ b ∈ l, content b.2 = 0 ↔ b.2.mass u235 = 0 := by
    intro b hb
    have hqb := (hq b (hp.subset hb)).1
    unfold content
    rw [div_eq_zero_iff]
    constructor
    · rintro (h | h)
      · exact h
      · linarith
    · exact Or.inl
  have hnn : ∀ b ∈ l, 0 ≤ content b.2 := by
    intro b hb
    obtain ⟨h1, h2⟩ := hq b (hp.subset hb)
    have := h2.mass_nonneg u235
    unfold content
    positivity
  have main : ∀ (j : Nat) (m : NMat) (p : ℤ), (j, m) ∈ bids → (j, p) ∈ assign 0 false l →
      ∃ i : Nat, l[i]? = some (j, m) ∧
        ((p = -1 ∧ m.mass u235 = 0) ∨ (p = (i : ℤ) + 1 ∧ m.mass u235 ≠ 0)) := by
    intro j m p hj hjp
    obtain ⟨i, m', h1, h2⟩ := assign_false hjp
    have hm : m' = m := huniq j m' m (List.mem_of_getElem? h1) (hp.symm.subset hj)
    subst hm
    refine ⟨i, h1, ?_⟩
    rcases h2 with ⟨e, h, -⟩ | ⟨e, i', b, hi, hb, hb0⟩
    · exact Or.inl ⟨e, h⟩
    · right
      refine ⟨by rw [e]; push_cast; ring, ?_⟩
      have hbm := List.mem_of_getElem? hb
      have hb1 : content b.2 ≠ 0 := fun h => hb0 ((hzero b hbm).1 h)
      have hb2 := hnn b hbm
      have := hle i' i b (j, m') hb h1 hi
      intro h0
      rw [(hzero (j, m') (List.mem_of_getElem? h1)).2 h0] at this
      exact hb1 (le_antisymm this hb2)
  refine ⟨?_, ?_, ?_, ?_⟩
  · rw [assign_fst]; exact hp.map _
  · intro j m p hj hjp h0
    obtain ⟨i, -, ⟨e, -⟩ | ⟨-, h⟩⟩ := main j m p hj hjp
    · exact e
    · exact absurd h0 h
  · intro j m p hj hjp h0
    obtain ⟨i, -, ⟨-, h⟩ | ⟨e, -⟩⟩ := main j m p hj hjp
    · exact absurd h h0
    · rw [e]; positivity
  · intro i a p j b q hi hip hj hjq hlt
    obtain ⟨k, hk, h⟩ := main i a p hi hip
    obtain ⟨k', hk', h'⟩ := main j b q hj hjq
    have hb0 : b.mass u235 ≠ 0 := by
      intro h0
      have h1 := hnn (i, a) (List.mem_of_getElem? hk)
      rw [h0, zero_div] at hlt
      exact absurd h1 (not_le.2 hlt)
    rcases h' with ⟨-, h'⟩ | ⟨e', -⟩
    · exact absurd h' hb0
    · rcases h with ⟨e, -⟩ | ⟨e, -⟩
      · rw [e, e']; omega
      · have hkk : k < k' := by
          by_contra hc
          push Not at hc
          have := hle k' k _ _ hk' hk hc
          exact absurd hlt (not_lt.2 this)
        rw [e, e']; omega

/-- Each product sale delivers the offer cut to the traded amount. -/
theorem sellLoop_delivers {c : Cfg} (he : 0 ≤ c.eps) {ts : List Trade} {s s' : State}
    {l : List (NMat × Option Enr)} (I : Inv c s) (h : sellLoop c ts s = .ok (l, s')) :
    l.length = ts.length ∧ ∀ (k : Nat) t x, ts[k]? = some t → l[k]? = some x →
      t.commod ≠ c.tailsCommod → x.1 = cut t := by
  induction ts generalizing s s' l with
  | nil =>
    simp only [sellLoop, Except.ok.injEq, Prod.mk.injEq] at h
    obtain ⟨rfl, rfl⟩ := h
    simp
  | cons t ts ih =>
    simp only [sellLoop, bind_ok] at h
    obtain ⟨⟨m, e, s1⟩, h1, ⟨l1, s2⟩, h2, h3⟩ := h
    simp only [pure_eq_ok, Except.ok.injEq, Prod.mk.injEq] at h3
    obtain ⟨rfl, rfl⟩ := h3
    obtain ⟨hl, hd⟩ := ih (sellOne_pres he I h1).1 h2
    refine ⟨by simp [hl], ?_⟩
    intro k t' x hk hx hc
    cases k with
    | zero =>
      simp only [List.getElem?_cons_zero, Option.some.injEq] at hk hx
      subst hk hx
      rcases sellOne_inv he I h1 with ⟨h, -⟩ | ⟨-, -, y, k, -, E⟩
      · exact absurd h hc
      · exact E.response
    | succ k => exact hd k t' x hk hx hc

theorem sellAll_delivers {c : Cfg} (he : 0 ≤ c.eps) {ts : List Trade} {s s' : State}
    {l : List (NMat × Option Enr)} (I : Inv c s) (h : sellAll c ts s = .ok (l, s')) :
    l.length = ts.length ∧ ∀ (k : Nat) t x, ts[k]? = some t → l[k]? = some x →
      t.commod ≠ c.tailsCommod → x.1 = cut t := by
  cases ts with
  | nil =>
    simp only [sellAll, Except.ok.injEq, Prod.mk.injEq] at h
    obtain ⟨rfl, rfl⟩ := h
    simp
  | cons t ts =>
    exact sellLoop_delivers he (I.intra (some (0, 0))) (sell_inv h).1

theorem step_intra {c : Cfg} (V : Valid c) {s s' : State} {i : In} {o : Out} (I : Inv c s)
    (hm : ∀ m ∈ i.buys, 0 < qty m ∧ Mat.Nonneg m) (h : step c s i = .ok (o, s')) :
    s'.intra = o.series ∧ o.series = if i.sells = [] then s.intra else
      some ((o.enrichments.map Enr.swu).sum, (o.enrichments.map Enr.feed).sum) := by
  have he := le_of_lt V.eps
  obtain ⟨s1, s2, l, S⟩ := step_inv h
  obtain ⟨I1, a1, a2, a3, -⟩ := bids_pres he (I.swu _) S.bids
  obtain ⟨I2, b1, b2, b3, b4, -⟩ := sellAll_pres he I1 S.sells
  have hs := (accept_pres I2 hm S.buys).2
  refine ⟨S.series.symm, ?_⟩
  have h1 : s'.intra = s2.intra := by rw [hs]
  rw [S.series, h1, b4, a3, S.enrichments]
  rfl

theorem run_intra {c : Cfg} (V : Valid c) {is : List In} {s s' : State} {os : List Out}
    (I : Inv c s) (hs : Substantial is) (h : run c s is = .ok (os, s')) :
    s'.intra = if os = [] then s.intra else lastSeries os := by
  induction is generalizing s os with
  | nil =>
    simp only [run, Except.ok.injEq, Prod.mk.injEq] at h
    obtain ⟨rfl, rfl⟩ := h
    simp
  | cons i is ih =>
    simp only [run, bind_ok] at h
    obtain ⟨⟨o, s1⟩, h1, ⟨os1, s2⟩, h2, h3⟩ := h
    simp only [pure_eq_ok, Except.ok.injEq, Prod.mk.injEq] at h3
    obtain ⟨rfl, rfl⟩ := h3
    have hm := hs i (by simp)
    have I1 := (step_pres (le_of_lt V.eps) I hm h1).1
    have e := ih I1 (fun j hj => hs j (by simp [hj])) h2
    cases os1 with
    | nil =>
      rw [if_pos rfl] at e
      rw [e, if_neg (List.cons_ne_nil _ _)]
      exact (step_intra V I hm h1).1
    | cons o' os' =>
      rw [if_neg (List.cons_ne_nil _ _)] at e
      rw [e, if_neg (List.cons_ne_nil _ _)]
      simp [lastSeries, List.getLast?_cons_cons]

end Cyc.Enrichment
