import Verif.Reactor.Props1
import Verif.Reactor.Check

/-!
# The order of the trades: C119 for `Reactor`
-/

namespace Cyc

namespace SMap

variable {α : Type}

/-- Changes under different keys commute. -/
theorem modify_comm {d : α} {k k' : String} {f g : α → α} (hk : k ≠ k') (m : SMap α) :
    modify d k f (modify d k' g m) = modify d k' g (modify d k f m) := by
  induction m with
  | nil =>
    simp only [modify, hk, Ne.symm hk, if_false]
    rcases lt_trichotomy k k' with h | h | h
    · simp [h, not_lt.2 (le_of_lt h)]
    · exact absurd h hk
    · simp [h, not_lt.2 (le_of_lt h)]
  | cons p m ih =>
    obtain ⟨x, v⟩ := p
    by_cases h1 : k = x
    · subst h1
      simp only [modify, if_true, Ne.symm hk, if_false]
      by_cases h2 : k' < k
      · simp [modify, h2, hk, not_lt.2 (le_of_lt h2)]
      · simp [modify, h2]
    · by_cases h2 : k' = x
      · subst h2
        simp only [modify, if_true, hk, if_false]
        by_cases h3 : k < k'
        · simp [modify, h3, Ne.symm hk, not_lt.2 (le_of_lt h3)]
        · simp [modify, h3]
      · by_cases h3 : k < x
        · by_cases h4 : k' < x
          · rcases lt_trichotomy k k' with h | h | h
            · simp [modify, h1, h2, h3, h4, h, hk, Ne.symm hk, not_lt.2 (le_of_lt h)]
            · exact absurd h hk
            · simp [modify, h1, h2, h3, h4, h, hk, Ne.symm hk, not_lt.2 (le_of_lt h)]
          · have h5 : ¬ k' < k := fun h => h4 (lt_trans h h3)
            simp [modify, h1, h2, h3, h4, h5, Ne.symm hk]
        · by_cases h4 : k' < x
          · have h5 : ¬ k < k' := fun h => h3 (lt_trans h h4)
            simp [modify, h1, h2, h3, h4, h5, hk]
          · simp [modify, h1, h2, h3, h4, ih]

end SMap

namespace Reactor

/-- Trades in another order take the same assemblies. -/
theorem tradeLoop_perm {ks ks' : List String} (hp : ks.Perm ks') :
    ∀ {m m' : SMap (List Assem)} {s s' : State} {resp : List (String × Assem)}, SMap.Sorted m →
      tradeLoop ks m s = .ok (resp, m', s') →
      ∃ resp', tradeLoop ks' m s = .ok (resp', m', s') ∧ resp.Perm resp' := by
  induction hp with
  | nil => intro m m' s s' resp _ h; exact ⟨resp, h, List.Perm.refl _⟩
  | cons k _ ih =>
    intro m m' s s' resp hs h
    unfold tradeLoop at h ⊢
    split at h
    · cases h
    · simp only [bind_ok] at h
      obtain ⟨⟨r, m1, s1⟩, h1, h⟩ := h
      simp only [pure_eq_ok, Except.ok.injEq, Prod.mk.injEq] at h
      obtain ⟨rfl, rfl, rfl⟩ := h
      obtain ⟨r', h2, h3⟩ := ih (SMap.sorted_modify hs) h1
      rename_i a ha
      exact ⟨(k, a) :: r', by simp only [h2, ok_bind, pure_eq_ok], h3.cons _⟩
  | swap k k' ks =>
    intro m m' s s' resp hs h
    by_cases hk : k' = k
    · subst hk; exact ⟨resp, h, List.Perm.refl _⟩
    unfold tradeLoop at h
    split at h
    · cases h
    rename_i a ha
    unfold tradeLoop at h
    simp only [SMap.get_modify hs, if_neg (Ne.symm hk)] at h
    cases hb : (m.get [] k).getLast? with
    | none => simp only [hb] at h; cases h
    | some b =>
      simp only [hb, bind_ok] at h
      obtain ⟨⟨r, m1, s1⟩, ⟨⟨r2, m2, s2⟩, h1, h2⟩, h⟩ := h
      simp only [pure_eq_ok, Except.ok.injEq, Prod.mk.injEq] at h2 h
      obtain ⟨rfl, rfl, rfl⟩ := h2
      obtain ⟨rfl, rfl, rfl⟩ := h
      refine ⟨(k, b) :: (k', a) :: r2, ?_, List.Perm.swap _ _ _⟩
      unfold tradeLoop
      simp only [hb]
      unfold tradeLoop
      simp only [SMap.get_modify hs, if_neg hk, ha, SMap.modify_comm (Ne.symm hk).symm] at h1 ⊢
      rw [show (fun x => if x = a.id then 0 else if x = b.id then 0 else s.resIdx x) =
        fun x => if x = b.id then 0 else if x = a.id then 0 else s.resIdx x from by
          funext x; split_ifs <;> rfl]
      rw [h1]; rfl
  | trans _ _ ih1 ih2 =>
    intro m m' s s' resp hs h
    obtain ⟨r1, h1, p1⟩ := ih1 hs h
    obtain ⟨r2, h2, p2⟩ := ih2 hs h1
    exact ⟨r2, h2, p1.trans p2⟩

/-- C119: a step that succeeds, in whatever state, succeeds with the same sales in any other order.
The reactor is left in exactly the same state, the same assemblies are handed over under the same
commodities, and everything else that can be observed is the same. -/
theorem C119_reactor {c : Cfg} {s s' : State} {i : In} {o : Out} (hs : step c s i = .ok (o, s'))
    {l : List String} (hl : i.sells.Perm l) :
    ∃ o', step c s { i with sells := l } = .ok (o', s') ∧ o.shipped.Perm o'.shipped ∧
      o' = { o with shipped := o'.shipped } := by
  simp only [step, bind_ok] at hs ⊢
  obtain ⟨⟨of, s1⟩, h1, ⟨resp, s2⟩, h2, h⟩ := hs
  simp only [pure_eq_ok, Except.ok.injEq, Prod.mk.injEq] at h
  obtain ⟨rfl, rfl⟩ := h
  suffices hk : ∃ resp', settlePhase c l i.buys s1 = .ok (resp', s2) ∧ resp.Perm resp' by
    obtain ⟨resp', h3, h4⟩ := hk
    exact ⟨_, ⟨(of, s1), h1, (resp', s2), h3, rfl⟩, h4, rfl⟩
  by_cases he : i.sells = []
  · rw [he] at hl h2
    rw [← hl.nil_eq]
    exact ⟨resp, h2, List.Perm.refl _⟩
  · have he' : l ≠ [] := fun e => he (by rw [e] at hl; exact hl.eq_nil)
    simp only [settlePhase, he, he', if_false, bind_ok] at h2 ⊢
    obtain ⟨⟨r, t1⟩, g1, t2, g2, t3, g3, g4⟩ := h2
    simp only [pure_eq_ok, Except.ok.injEq, Prod.mk.injEq] at g4
    obtain ⟨rfl, rfl⟩ := g4
    simp only [getMatlTrades, bind_ok] at g1 ⊢
    obtain ⟨⟨m, u1⟩, k1, ⟨r1, m', u2⟩, k2, u3, k3, k4⟩ := g1
    simp only [pure_eq_ok, Except.ok.injEq, Prod.mk.injEq] at k4
    obtain ⟨rfl, rfl⟩ := k4
    obtain ⟨r', k5, k6⟩ := tradeLoop_perm hl (popSpent_spec k1).1 k2
    exact ⟨r', ⟨(r', u3), ⟨(m, u1), k1, (r', m', u2), k5, u3, k3, rfl⟩, t2, g2, t3, g3, rfl⟩, k6⟩

/-- A history at the end of which an assembly of each kind is sold. -/
def bothSold (l : List String) : List In :=
  [⟨fun _ => [], [], [("uox", ⟨0, 1/2, 1⟩), ("mox", ⟨1, 1/2, 1⟩)]⟩, idle, supply [2, 3], idle, idle,
    supply [4], idle, idle, supply [5], idle, idle, ⟨fun _ => [1/2, 1], l, []⟩]

/-- In both orders: the assemblies are the same and so is what is left. -/
example : ((play exCfg (bothSold ["spent_uox", "spent_mox"])).toOption.map fun r =>
      ((r.1.map fun o => o.shipped.map fun x => (x.1, x.2.id)).getLast?, r.2.spent.items.map Assem.id,
        r.2.core.items.map Assem.id)) =
      some (some [("spent_uox", 0), ("spent_mox", 1)], [], [2, 3, 4]) ∧
    ((play exCfg (bothSold ["spent_mox", "spent_uox"])).toOption.map fun r =>
      ((r.1.map fun o => o.shipped.map fun x => (x.1, x.2.id)).getLast?, r.2.spent.items.map Assem.id,
        r.2.core.items.map Assem.id)) =
      some (some [("spent_mox", 1), ("spent_uox", 0)], [], [2, 3, 4]) := by
  decide +kernel

end Reactor

end Cyc
