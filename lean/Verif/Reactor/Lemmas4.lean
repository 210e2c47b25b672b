import Verif.Reactor.Lemmas3
import Verif.Reactor.Conserve

/-!
# Exact effect of the reactor's operations, continued: trades, and a whole step
-/

namespace Cyc.Reactor

/-! ## Selling -/

theorem SMap.get_of_mem {α : Type} {d : α} {m : SMap α} (hs : SMap.Sorted m) {p : String × α}
    (hp : p ∈ m) : SMap.get d m p.1 = p.2 := by
  induction m with
  | nil => simp at hp
  | cons q m ih =>
    obtain ⟨k', v⟩ := q
    have hs' := hs
    simp only [SMap.Sorted, SMap.keys, List.map_cons, List.pairwise_cons] at hs'
    rcases List.mem_cons.1 hp with rfl | hp
    · simp [SMap.get]
    · have hne : p.1 ≠ k' := by
        have := hs'.1 p.1 (List.mem_map_of_mem hp)
        exact fun e => absurd (e ▸ this) (lt_irrefl _)
      simp only [SMap.get, hne, if_false]
      exact ih hs'.2 hp

theorem get_revGroups (m : SMap (List Assem)) (k : String) :
    SMap.get [] (revGroups m) k = (SMap.get [] m k).reverse := by
  induction m with
  | nil => rfl
  | cons p m ih =>
    obtain ⟨k', v⟩ := p
    simp only [revGroups, List.map_cons, SMap.get] at ih ⊢
    split
    · rfl
    · exact ih

/-- The assemblies handed over as commodity `k`, in order. -/
def soldAs (resp : List (String × Assem)) (k : String) : List Assem :=
  (resp.filter fun d => d.1 = k).map Prod.snd

theorem tradeLoop_ok (ks : List String) :
    ∀ {m : SMap (List Assem)} (s : State), SMap.Sorted m →
      (∀ k ∈ ks, ks.count k ≤ (m.get [] k).length) →
      ∃ resp m', tradeLoop ks m s = .ok (resp, m', { s with
          resIdx := fun x => if x ∈ resp.map (fun d => d.2.id) then 0 else s.resIdx x }) ∧
        SMap.Sorted m' ∧
        (∀ k, soldAs resp k = (m.get [] k).reverse.take (ks.count k)) ∧
        (∀ k, (m'.get [] k).reverse = (m.get [] k).reverse.drop (ks.count k)) := by
  induction ks with
  | nil =>
    intro m s hs _
    exact ⟨[], m, by simp [tradeLoop], hs, by simp [soldAs], by simp⟩
  | cons k ks ih =>
    intro m s hs hc
    have hk := hc k (by simp)
    simp only [List.count_cons_self] at hk
    have hne : m.get [] k ≠ [] := by
      intro e; rw [e] at hk; simp at hk
    obtain ⟨a, ha⟩ : ∃ a, (m.get [] k).getLast? = some a := by
      rw [List.getLast?_eq_some_getLast hne]; exact ⟨_, rfl⟩
    obtain ⟨w, hw⟩ := List.getLast?_eq_some_iff.1 ha
    obtain ⟨resp, m', h1, h2, h3, h4⟩ := ih (m := SMap.modify [] k List.dropLast m)
      { s with resIdx := fun x => if x = a.id then 0 else s.resIdx x } (SMap.sorted_modify hs) (by
        intro x hx
        rw [SMap.get_modify hs]
        split
        · rename_i e
          subst e
          simp only [List.length_dropLast]; omega
        · rename_i e
          have := hc x (by simp [hx])
          rw [List.count_cons_of_ne (fun e' => e e'.symm)] at this
          exact this)
    refine ⟨(k, a) :: resp, m', ?_, h2, ?_, ?_⟩
    · unfold tradeLoop
      rw [ha]
      simp only [h1, ok_bind, pure_eq_ok, Except.ok.injEq, Prod.mk.injEq, true_and]
      congr 1
      funext x
      simp only [List.map_cons, List.mem_cons]
      by_cases e : x = a.id
      · simp only [e, true_or, if_true, ite_self]
      · simp only [e, false_or, if_false]
    · intro x
      by_cases e : k = x
      · subst e
        have := h3 k
        rw [SMap.get_modify hs, if_pos rfl, hw, List.dropLast_concat] at this
        simp only [soldAs, List.filter_cons, decide_true, if_true, List.map_cons] at this ⊢
        rw [this, hw]
        simp
      · have := h3 x
        rw [SMap.get_modify hs, if_neg (fun e' => e e'.symm)] at this
        simp only [soldAs, List.filter_cons, decide_eq_true_eq, e, if_false] at this ⊢
        rw [this, List.count_cons_of_ne e]
    · intro x
      rw [h4 x, SMap.get_modify hs]
      by_cases e : x = k
      · subst e
        rw [if_pos rfl, hw, List.dropLast_concat]
        simp
      · rw [if_neg e, List.count_cons_of_ne (fun e' => e e'.symm)]

theorem filter_groups {f : Assem → String} (m : SMap (List Assem)) (hs : SMap.Sorted m)
    (hf : ∀ p ∈ m, ∀ a ∈ p.2, f a = p.1) (k : String) :
    (m.flatMap fun p => p.2.reverse).filter (fun a => f a = k) = (SMap.get [] m k).reverse := by
  induction m with
  | nil => simp [SMap.get]
  | cons q m ih =>
    obtain ⟨k', v⟩ := q
    have hs' := hs
    simp only [SMap.Sorted, SMap.keys, List.map_cons, List.pairwise_cons] at hs'
    have hm : ∀ p ∈ m, ∀ a ∈ p.2, f a = p.1 := fun p hp => hf p (List.mem_cons_of_mem _ hp)
    have hv := hf (k', v) (by simp)
    simp only at hv
    simp only [List.flatMap_cons, List.filter_append, SMap.get]
    rw [ih hs'.2 hm]
    by_cases e : k = k'
    · subst e
      have : SMap.get ([] : List Assem) m k = [] := SMap.get_of_not_mem fun hk =>
        absurd (hs'.1 k hk) (lt_irrefl _)
      rw [this]
      simp only [List.reverse_nil, List.append_nil, if_true]
      rw [List.filter_eq_self]
      intro a ha
      simp [hv a (List.mem_reverse.1 ha)]
    · simp only [e, if_false]
      rw [List.filter_eq_nil_iff.2, List.nil_append]
      intro a ha
      simp only [decide_eq_true_eq]
      rw [hv a (List.mem_reverse.1 ha)]
      exact fun e' => e e'.symm

theorem pushSpent_ok {c : Cfg} (hw : WellFormed c) (m : SMap (List Assem)) :
    ∀ {s : State}, BufOK c c.nSpent s.spent → (∀ a ∈ flat m, a.qty = c.assemSize) →
      s.spent.items.length + (flat m).length ≤ c.nSpent →
      pushSpent c m s = .ok { s with spent := { s.spent with
        items := s.spent.items ++ m.flatMap fun p => p.2.reverse } } := by
  induction m with
  | nil => intro s _ _ _; simp [pushSpent]
  | cons p m ih =>
    intro s hb hq hl
    obtain ⟨k, l⟩ := p
    simp only [flat, List.flatMap_cons, List.length_append, List.mem_append] at hq hl
    have hlq : ∀ a ∈ l.reverse, a.qty = c.assemSize := fun a ha =>
      hq a (Or.inl (List.mem_reverse.1 ha))
    have h1 := hb.pushAll hw.assemSize hw.eps hlq (by simp only [List.length_reverse]; omega)
    simp only [pushSpent, h1, ok_bind]
    rw [ih (hb.append hlq (by simp only [List.length_reverse]; omega))
      (fun a ha => hq a (Or.inr ha)) (by
        simp only [List.length_append, List.length_reverse, flat]; omega)]
    simp

/-- What a sale does: it hands over the oldest assemblies of each commodity sold, keeps the rest in
order and changes nothing else, except that it forgets the handed-over assemblies. -/
structure Sold (c : Cfg) (s s' : State) (ks : List String) (resp : List (String × Assem)) :
    Prop where
  commods : resp.map Prod.fst = ks
  sold : ∀ k, soldAs resp k = (spentOf c s k).take (ks.count k)
  kept : ∀ k, spentOf c s' k = (spentOf c s k).drop (ks.count k)
  perm : s.spent.items.Perm (s'.spent.items ++ resp.map Prod.snd)
  idx : ∀ x, x ∉ resp.map (fun d => d.2.id) → s'.resIdx x = s.resIdx x
  rest : s' = { s with spent := s'.spent, resIdx := s'.resIdx }
  cap : s'.spent.cap = s.spent.cap

theorem mem_flat {m : SMap (List Assem)} {a : Assem} :
    a ∈ flat m ↔ ∃ p ∈ m, a ∈ p.2 := by
  simp [flat]

theorem getMatlTrades_ok {c : Cfg} (hw : WellFormed c) {s : State} (h : Good c s)
    {ks : List String} (hk : ∀ k ∈ ks, ks.count k ≤ (spentOf c s k).length) :
    ∃ resp s', getMatlTrades c ks s = .ok (resp, s') ∧ Sold c s s' ks resp := by
  obtain ⟨g, g1, g2, g3, g4⟩ := groupByCommod_ok hw
    (s := { s with spent := { s.spent with items := [] } }) s.spent.items []
    (by simp [SMap.Sorted, SMap.keys]) (fun a ha => h.idx a (mem_held_spent ha))
  have g4' : ∀ k, g.get [] k = spentOf c s k := fun k => by
    rw [g4]; simp only [SMap.get, List.nil_append]; rfl
  have hsr : SMap.Sorted (revGroups g) := by
    have := keys_revGroups g
    unfold SMap.Sorted at g2 ⊢
    rw [this]; exact g2
  have hpop : popSpent c s = .ok (revGroups g, { s with spent := { s.spent with items := [] } }) := by
    have hp : s.spent.popN s.spent.count = .ok (s.spent.items, { s.spent with items := [] }) := by
      rw [Buf.popN_ok]; exact ⟨le_rfl, by simp [Buf.count]⟩
    simp only [popSpent, hp, ok_bind, g1, pure_eq_ok]
    rfl
  obtain ⟨resp, m', t1, t2, t3, t4⟩ := tradeLoop_ok ks
    { s with spent := { s.spent with items := [] } } hsr (by
      intro k hk'
      rw [get_revGroups, List.length_reverse, g4']
      exact hk k hk')
  obtain ⟨q1, _, q3⟩ := tradeLoop_flat ks t1 hsr
  have hperm : s.spent.items.Perm (resp.map Prod.snd ++ flat m') := by
    refine List.Perm.trans ?_ ((flat_revGroups g).symm.trans q1)
    refine List.Perm.trans ?_ g3.symm
    simp [flat]
  have hlen : (flat m').length ≤ c.nSpent := by
    have h1 := hperm.length_eq
    have h2 := h.spent.count
    simp only [List.length_append, List.length_map] at h1
    omega
  have hpush := pushSpent_ok hw m' (s := { s with
      spent := { s.spent with items := [] }
      resIdx := fun x => if x ∈ resp.map (fun d => d.2.id) then 0 else s.resIdx x })
    ⟨h.spent.cap, by simp, by simp⟩ (fun a ha => h.spent.size a (hperm.symm.subset (by simp [ha])))
    (by simpa using hlen)
  refine ⟨resp, { s with
      spent := { s.spent with items := [] ++ m'.flatMap fun p => p.2.reverse }
      resIdx := fun x => if x ∈ resp.map (fun d => d.2.id) then 0 else s.resIdx x }, ?_, ?_⟩
  · unfold getMatlTrades
    simp only [hpop, ok_bind, t1, hpush, pure_eq_ok]
  · have hnd : (s.spent.items.map Assem.id).Nodup := by
      have := h.nodup
      simp only [held, List.map_append] at this
      exact (List.nodup_append.1 this).2.1
    have hnd' := (hperm.map Assem.id).nodup_iff.1 hnd
    rw [List.map_append, List.nodup_append] at hnd'
    have hold : ∀ a ∈ flat m', a.id ∉ resp.map (fun d => d.2.id) := by
      intro a ha hm
      have := hnd'.2.2 a.id (by simpa [List.map_map, Function.comp_def] using hm) a.id
        (List.mem_map_of_mem ha)
      exact this rfl
    have hget : ∀ k, (m'.get [] k).reverse = (spentOf c s k).drop (ks.count k) := by
      intro k
      rw [t4 k, get_revGroups, List.reverse_reverse, g4']
    have hgrp : ∀ p ∈ m', ∀ a ∈ p.2, outCommodOf c s a = p.1 := by
      intro p hp a ha
      have e := SMap.get_of_mem (d := []) t2 hp
      have e2 := hget p.1
      rw [e] at e2
      have : a ∈ (spentOf c s p.1).drop (ks.count p.1) := by rw [← e2]; simpa using ha
      exact (spentOf_sub (List.mem_of_mem_drop this)).2
    refine ⟨q3, ?_, ?_, ?_, ?_, rfl, rfl⟩
    · intro k; rw [t3 k, get_revGroups, List.reverse_reverse, g4']
    · intro k
      rw [← hget k, ← filter_groups m' t2 hgrp k]
      simp only [spentOf, List.nil_append]
      apply List.filter_congr
      intro a ha
      have ha' : a ∈ flat m' := by
        simp only [List.mem_flatMap, List.mem_reverse] at ha
        exact mem_flat.2 ha
      have := hold a ha'
      have e : outCommodOf c { s with
          spent := { s.spent with items := [] ++ m'.flatMap fun p => p.2.reverse }
          resIdx := fun x => if x ∈ resp.map (fun d => d.2.id) then 0 else s.resIdx x } a =
          outCommodOf c s a := by
        unfold outCommodOf
        simp only [this, if_false]
      exact decide_eq_decide.2 (iff_of_eq (congrArg (· = k) e))
    · refine hperm.trans (List.perm_append_comm.trans (List.Perm.append_right _ ?_))
      have := flat_revGroups m'
      simp only [flat, revGroups, List.flatMap_map] at this
      simpa [flat] using this.symm
    · intro x hx
      simp only [hx, if_false]

theorem Good.sold {c : Cfg} {s s' : State} {ks : List String} {resp : List (String × Assem)}
    (h : Good c s) (hs : Sold c s s' ks resp) : Good c s' := by
  have hp := hs.perm
  have hr := hs.rest
  have hf : s'.fresh = s.fresh := by rw [hr]
  have hc : s'.core = s.core := by rw [hr]
  have hnd : ((s'.spent.items ++ resp.map Prod.snd).map Assem.id).Nodup := by
    have := h.nodup
    simp only [held, List.map_append] at this
    exact (hp.map Assem.id).nodup_iff.1 (List.nodup_append.1 this).2.1
  have hsub : ∀ a ∈ s'.spent.items, a ∈ s.spent.items := fun a ha =>
    hp.symm.subset (by simp [ha])
  have hp' : (held s).Perm (held s' ++ resp.map Prod.snd) := by
    simp only [held, hf, hc, List.append_assoc]
    exact List.Perm.append_left _ (List.Perm.append_left _ hp)
  have hnd2 : ((held s' ++ resp.map Prod.snd).map Assem.id).Nodup :=
    (hp'.map Assem.id).nodup_iff.1 h.nodup
  rw [List.map_append, List.nodup_append] at hnd2
  refine ⟨by rw [hf]; exact h.fresh, by rw [hc]; exact h.core,
    ⟨by rw [hs.cap]; exact h.spent.cap, fun a ha => h.spent.size a (hsub a ha), ?_⟩,
    hnd2.1, ?_, by rw [hr]; exact h.prefs, by rw [hr]; exact h.inRecipes,
    by rw [hr]; exact h.outRecipes, by rw [hr]; exact h.knownIn, by rw [hr]; exact h.knownOut,
    by rw [hr]; exact h.named⟩
  · have h1 := hp.length_eq
    have h2 := h.spent.count
    simp only [List.length_append] at h1
    omega
  · intro a ha
    rw [hs.idx a.id]
    · exact h.idx a (hp'.symm.subset (by simp [ha]))
    · intro hm
      exact hnd2.2.2 a.id (List.mem_map_of_mem ha) a.id
        (by simpa [List.map_map, Function.comp_def] using hm) rfl

/-! ## Buying -/

/-- The fuel index given to assemblies bought as commodity `k`. -/
def fuelIndex (c : Cfg) (k : String) : Nat := (c.inCommods.findIdx? (· == k)).getD 0

/-- `res_indexes` after accepting deliveries. -/
def indexed (c : Cfg) (l : List (String × Assem)) (f : Nat → Nat) : Nat → Nat :=
  l.foldl (fun f d => fun x => if x = d.2.id then fuelIndex c d.1 else f x) f

theorem findIdx?_mem {l : List String} {k : String} (h : k ∈ l) :
    ∃ i, l.findIdx? (· == k) = some i ∧ i < l.length ∧ l.getD i "" = k := by
  have h1 : (l.findIdx? (· == k)).isSome := by
    rw [List.findIdx?_isSome]; simp [h]
  obtain ⟨i, hi⟩ := Option.isSome_iff_exists.1 h1
  have h2 := List.findIdx?_eq_some_iff_getElem.1 hi
  obtain ⟨hlt, he, _⟩ := h2
  exact ⟨i, hi, hlt, by simpa [hlt] using he⟩

theorem fuelIndex_lt {c : Cfg} {k : String} (h : k ∈ c.inCommods) :
    fuelIndex c k < c.inCommods.length := by
  obtain ⟨i, h1, h2, _⟩ := findIdx?_mem h
  simp [fuelIndex, h1, h2]

theorem indexed_of_not_mem {c : Cfg} (l : List (String × Assem)) :
    ∀ {f : Nat → Nat} {x : Nat}, x ∉ l.map (fun d => d.2.id) → indexed c l f x = f x := by
  induction l with
  | nil => intro f x _; rfl
  | cons d l ih =>
    intro f x hx
    simp only [List.map_cons, List.mem_cons, not_or] at hx
    have := ih (f := fun x => if x = d.2.id then fuelIndex c d.1 else f x) hx.2
    simp only [indexed, List.foldl_cons] at this ⊢
    rw [this]
    simp [hx.1]

theorem indexed_of_mem {c : Cfg} (l : List (String × Assem)) :
    ∀ {f : Nat → Nat}, (l.map fun d => d.2.id).Nodup → ∀ d ∈ l,
      indexed c l f d.2.id = fuelIndex c d.1 := by
  induction l with
  | nil => intro f _ d hd; simp at hd
  | cons e l ih =>
    intro f hn d hd
    simp only [List.map_cons, List.nodup_cons] at hn
    rcases List.mem_cons.1 hd with rfl | hd
    · have := indexed_of_not_mem (c := c) l
        (f := fun x => if x = d.2.id then fuelIndex c d.1 else f x) hn.1
      simp only [indexed, List.foldl_cons] at this ⊢
      rw [this]; simp
    · exact ih hn.2 d hd

/-- The state after accepting deliveries: the core is filled first, the rest goes to fresh
storage. -/
def acceptedState (c : Cfg) (l : List (String × Assem)) (s : State) : State :=
  { s with
    core := { s.core with
      items := s.core.items ++ (l.map Prod.snd).take (c.nCore - s.core.items.length) }
    fresh := { s.fresh with
      items := s.fresh.items ++ (l.map Prod.snd).drop (c.nCore - s.core.items.length) }
    resIdx := indexed c l s.resIdx }

theorem acceptLoop_ok {c : Cfg} (hw : WellFormed c) (l : List (String × Assem)) :
    ∀ {s : State}, BufOK c c.nCore s.core → BufOK c c.nFresh s.fresh →
      (∀ d ∈ l, d.1 ∈ c.inCommods ∧ d.2.qty = c.assemSize) → l.length ≤ vacancy c s →
      acceptLoop c l s = .ok (acceptedState c l s) := by
  induction l with
  | nil => intro s _ _ _ _; simp [acceptLoop, acceptedState, indexed]
  | cons d l ih =>
    intro s hc hf hd hv
    obtain ⟨k, a⟩ := d
    obtain ⟨hk, ha⟩ := hd (k, a) (by simp)
    simp only at hk ha
    obtain ⟨i, i1, _, _⟩ := findIdx?_mem hk
    have hidx : indexRes c s a k =
        .ok { s with resIdx := fun x => if x = a.id then fuelIndex c k else s.resIdx x } := by
      unfold indexRes; rw [i1]; simp [fuelIndex, i1]
    have hd' : ∀ d ∈ l, d.1 ∈ c.inCommods ∧ d.2.qty = c.assemSize := fun d h => hd d (by simp [h])
    have hcc := hc.count
    have hfc := hf.count
    simp only [vacancy, List.length_cons] at hv
    unfold acceptLoop
    simp only [hidx, ok_bind]
    by_cases hlt : s.core.items.length < c.nCore
    · have hlt' : Buf.count s.core < c.nCore := hlt
      rw [if_pos hlt', hc.push hw.assemSize hw.eps ha (by omega)]
      simp only [ok_bind]
      rw [ih (s := { s with
          core := { s.core with items := s.core.items ++ [a] }
          resIdx := fun x => if x = a.id then fuelIndex c k else s.resIdx x })
        (hc.append (by simpa using ha) (by simp; omega)) hf hd' (by
        simp only [vacancy, List.length_append, List.length_singleton]; omega)]
      simp only [acceptedState, List.length_append, List.length_singleton, List.map_cons]
      have e : c.nCore - s.core.items.length = (c.nCore - (s.core.items.length + 1)) + 1 := by omega
      rw [e, List.take_succ_cons, List.drop_succ_cons]
      simp [indexed]
    · have hlt' : ¬ Buf.count s.core < c.nCore := hlt
      rw [if_neg hlt', hf.push hw.assemSize hw.eps ha (by omega)]
      simp only [ok_bind]
      rw [ih (s := { s with
          fresh := { s.fresh with items := s.fresh.items ++ [a] }
          resIdx := fun x => if x = a.id then fuelIndex c k else s.resIdx x })
        hc (hf.append (by simpa using ha) (by simp; omega)) hd' (by
        simp only [vacancy, List.length_append, List.length_singleton]; omega)]
      have e : c.nCore - s.core.items.length = 0 := by omega
      simp [acceptedState, e, indexed]

/-- The rows written when deliveries are accepted. -/
def acceptRecs (c : Cfg) (l : List (String × Assem)) (s : State) : List Rec :=
  if min l.length (c.nCore - s.core.items.length) = 0 then []
  else [.load (min l.length (c.nCore - s.core.items.length))]

theorem acceptMatlTrades_ok {c : Cfg} (hw : WellFormed c) {l : List (String × Assem)} {s : State}
    (h : Good c s) (hd : ∀ d ∈ l, d.1 ∈ c.inCommods ∧ d.2.qty = c.assemSize)
    (hv : l.length ≤ vacancy c s) :
    acceptMatlTrades c l s =
      .ok { acceptedState c l s with log := s.log ++ acceptRecs c l s } := by
  unfold acceptMatlTrades
  have hcc := h.core.count
  have e : min (l.length : ℤ) ((c.nCore : ℤ) - s.core.count) =
      ((min l.length (c.nCore - s.core.items.length) : ℕ) : ℤ) := by
    simp only [Buf.count]; omega
  simp only [e]
  unfold acceptRecs
  by_cases h0 : min l.length (c.nCore - s.core.items.length) = 0
  · rw [if_neg (by omega), if_pos h0]
    rw [acceptLoop_ok hw l h.core h.fresh hd hv]
    simp [acceptedState]
  · rw [if_pos (by omega), if_neg h0]
    rw [acceptLoop_ok hw l (s := s.record _) h.core h.fresh hd hv]
    simp only [acceptedState, State.record, Int.toNat_natCast]

theorem Good.accepted {c : Cfg} {l : List (String × Assem)} {s : State} (h : Good c s)
    (hd : ∀ d ∈ l, d.1 ∈ c.inCommods ∧ d.2.qty = c.assemSize) (hv : l.length ≤ vacancy c s)
    (hn : (l.map fun d => d.2.id).Nodup) (hh : ∀ d ∈ l, ∀ a ∈ held s, a.id ≠ d.2.id) :
    Good c (acceptedState c l s) := by
  have hcc := h.core.count
  have hfc := h.fresh.count
  simp only [vacancy] at hv
  have hq : ∀ a ∈ l.map Prod.snd, a.qty = c.assemSize := by
    intro a ha
    obtain ⟨d, h1, rfl⟩ := List.mem_map.1 ha
    exact (hd d h1).2
  have hperm : (held (acceptedState c l s)).Perm (held s ++ l.map Prod.snd) := by
    simp only [held, acceptedState]
    set n := c.nCore - s.core.items.length
    set x := l.map Prod.snd
    have e := List.take_append_drop n x
    calc s.fresh.items ++ x.drop n ++ (s.core.items ++ x.take n) ++ s.spent.items
        |>.Perm (s.fresh.items ++ (s.core.items ++ (s.spent.items ++ (x.take n ++ x.drop n)))) := by
          simp only [List.append_assoc]
          refine List.Perm.append_left _ ?_
          refine List.perm_append_comm.trans ?_
          simp only [List.append_assoc]
          refine List.Perm.append_left _ ?_
          rw [← List.append_assoc, ← List.append_assoc]
          exact List.perm_append_comm.append_right _
      _ |>.Perm (s.fresh.items ++ s.core.items ++ s.spent.items ++ x) := by
          rw [e]; simp only [List.append_assoc]; exact List.Perm.refl _
  refine ⟨?_, ?_, h.spent, ?_, ?_, h.prefs, h.inRecipes, h.outRecipes, h.knownIn, h.knownOut,
    h.named⟩
  · refine h.fresh.append (fun a ha => hq a (List.mem_of_mem_drop ha)) ?_
    simp only [List.length_drop, List.length_map]; omega
  · refine h.core.append (fun a ha => hq a (List.mem_of_mem_take ha)) ?_
    simp only [List.length_take, List.length_map]; omega
  · refine (hperm.map Assem.id).nodup_iff.2 ?_
    rw [List.map_append, List.nodup_append]
    refine ⟨h.nodup, by simpa [List.map_map, Function.comp_def] using hn, ?_⟩
    intro x hx y hy
    obtain ⟨a, ha, rfl⟩ := List.mem_map.1 hx
    simp only [List.map_map, List.mem_map, Function.comp] at hy
    obtain ⟨d, hd', rfl⟩ := hy
    exact hh d hd' a ha
  · intro a ha
    rcases List.mem_append.1 (hperm.subset ha) with ha | ha
    · show indexed c l s.resIdx a.id < _
      rw [indexed_of_not_mem]
      · exact h.idx a ha
      · intro hm
        obtain ⟨d, hd', he⟩ := List.mem_map.1 hm
        exact hh d hd' a ha he.symm
    · obtain ⟨d, hd', rfl⟩ := List.mem_map.1 ha
      show indexed c l s.resIdx d.2.id < _
      rw [indexed_of_mem l hn d hd']
      exact fuelIndex_lt (hd d hd').1

end Cyc.Reactor
