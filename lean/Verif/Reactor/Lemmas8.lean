import Verif.Reactor.Lemmas7
import Mathlib.Algebra.Order.Group.Multiset
import Mathlib.Tactic.Abel

/-!
# The step of a retired reactor; which assemblies change composition
-/

namespace Cyc.Reactor

/-- The number of assemblies transmuted on retirement (as an argument of `take`). -/
def nRetire (c : Cfg) : Nat := if c.decomTransmuteAll then c.nCore else (c.nCore + 1) / 2

/-- The step is the first one after the exit time. -/
def FirstLate (c : Cfg) (s : State) : Prop := some s.time = c.exitTime.map (· + 1)

instance (c : Cfg) (s : State) : Decidable (FirstLate c s) := by unfold FirstLate; infer_instance

/-- The core of a retired reactor after the transmutation on retirement, if it is due. -/
def retiredCore (c : Cfg) (s : State) : List Assem :=
  if FirstLate c s then
    (s.core.items.take (nRetire c)).map (burn c s) ++ s.core.items.drop (nRetire c)
  else s.core.items

/-- Everything about a step of a retired reactor. -/
structure RetFacts (c : Cfg) (s : State) (i : In) (o : Out) (s' : State) : Prop where
  time : s'.time = s.time + 1
  requests : o.offer.requests = []
  noBuys : i.buys = []
  powers : powers o.recs = []
  sides : sides o.recs = []
  starts : ¬ Starts o
  ends : ¬ Ends o
  transmutes : transmutes o.recs =
    if FirstLate c s then [min (nRetire c) s.core.items.length] else []
  moved : (held s' ++ o.shipped.map Prod.snd).Perm
    (s.fresh.items ++ retiredCore c s ++ s.spent.items)
  decom : .schedDecom ∈ o.recs → s'.core.items = [] ∧ s'.spent.items = [] ∧ o.shipped = [] ∧
    (s'.fresh.items = [] ∨ c.nSpent = 0)
  emptied : s.core.items = [] → s'.core.items = []

theorem ret_facts {c : Cfg} (hw : WellFormed c) {s s' s1 s2 s3 : State} {i : In} {o : Out}
    (h : Inv c s) (hr : retired c s = true) (sp : StepSpec c s i o s' s1 s2 s3) :
    RetFacts c s i o s' := by
  obtain ⟨t1, t2, t3, e, e1, g1, d2, g2, _, d3, g3, hend⟩ := tickRetired_ok hw h.good
  have ht : tick c s = .ok (if checkDecommission t3 then t3.record .schedDecom else t3) := by
    unfold tick; rw [if_pos hr]; exact e
  have es1 : s1 = if checkDecommission t3 then t3.record .schedDecom else t3 := by
    have := sp.ticked; rw [ht] at this; simpa using this.symm
  have hno : nOrders c s s1 = 0 := by unfold nOrders; rw [if_pos hr]
  have hbuys : i.buys = [] := by
    have := sp.notTooMany; rw [hno] at this
    exact List.eq_nil_of_length_eq_zero (by omega)
  have hdem : demandedState c s s1 = s1 := by
    unfold demandedState; rw [hno]; simp
  have hs' : s' = { s3 with time := s.time + 1, log := [] } := by
    have := sp.final; rwa [hr] at this
  have hrecs : o.recs = s3.log := by have := sp.recs; rw [hr] at this; exact this
  have e3 : s3 = s2 := by
    rw [sp.accepted, hbuys]
    simp [acceptedState, indexed, acceptRecs]
  have hsold := sp.sold
  rw [hdem] at hsold
  have e2 := hsold.rest
  have hlog : o.recs = s1.log := by rw [hrecs, e3, e2]
  -- rows
  have e1' : t1 = if FirstLate c s then burntState c (nRetire c) (s.record .retired)
      else s.record .retired := by
    by_cases hx : FirstLate c s
    · rw [e1, if_pos hx, if_pos (show some s.time = _ from hx)]; rfl
    · rw [e1, if_neg hx, if_neg (show ¬ some s.time = _ from hx)]
  have hl1 : t1.log = .retired ::
      if FirstLate c s then [.transmute (min (nRetire c) s.core.items.length)] else [] := by
    rw [e1']
    split
    · simp [burntState, State.record, h.log]
    · simp [State.record, h.log]
  obtain ⟨l2, hl2, hl2'⟩ := d2.log
  have hl3 : t3.log = t2.log := d3.rest.2.2.2.2.2.2.2.2
  obtain ⟨x, hx⟩ : ∃ x, x = if checkDecommission t3 then [Rec.schedDecom] else [] := ⟨_, rfl⟩
  have hrows : o.recs = .retired ::
      ((if FirstLate c s then [.transmute (min (nRetire c) s.core.items.length)] else []) ++ l2 ++
        x) := by
    rw [hlog, es1, hx]
    split
    · simp [State.record, hl3, hl2, hl1]
    · simp [hl3, hl2, hl1]
  have m2 : Reactor.powers l2 = [] ∧ Reactor.sides l2 = [] ∧ Reactor.transmutes l2 = [] ∧
      .cycleStart ∉ l2 ∧ .cycleEnd ∉ l2 ∧ .schedDecom ∉ l2 := by
    refine ⟨?_, ?_, ?_, ?_, ?_, ?_⟩
    · refine List.filterMap_eq_nil_iff.2 fun r hr => ?_
      rcases hl2' r hr with ⟨n, rfl⟩ | rfl | ⟨k, q, rfl⟩ <;> rfl
    · refine List.filterMap_eq_nil_iff.2 fun r hr => ?_
      rcases hl2' r hr with ⟨n, rfl⟩ | rfl | ⟨k, q, rfl⟩ <;> rfl
    · refine List.filterMap_eq_nil_iff.2 fun r hr => ?_
      rcases hl2' r hr with ⟨n, rfl⟩ | rfl | ⟨k, q, rfl⟩ <;> rfl
    · intro hm
      rcases hl2' _ hm with ⟨n, e⟩ | e | ⟨k, q, e⟩ <;> exact absurd e (by simp)
    · intro hm
      rcases hl2' _ hm with ⟨n, e⟩ | e | ⟨k, q, e⟩ <;> exact absurd e (by simp)
    · intro hm
      rcases hl2' _ hm with ⟨n, e⟩ | e | ⟨k, q, e⟩ <;> exact absurd e (by simp)
  have mx : Reactor.powers x = [] ∧ Reactor.sides x = [] ∧ Reactor.transmutes x = [] ∧
      .cycleStart ∉ x ∧ .cycleEnd ∉ x ∧ (.schedDecom ∈ x ↔ checkDecommission t3 = true) := by
    subst hx
    split
    · rename_i hd; exact ⟨rfl, rfl, rfl, by simp, by simp, by simp [hd]⟩
    · rename_i hd; exact ⟨rfl, rfl, rfl, by simp, by simp, by simp [hd]⟩
  obtain ⟨y, hy⟩ : ∃ y, y = if FirstLate c s then
      [Rec.transmute (min (nRetire c) s.core.items.length)] else [] := ⟨_, rfl⟩
  rw [← hy] at hrows
  have my : Reactor.powers y = [] ∧ Reactor.sides y = [] ∧
      Reactor.transmutes y = (if FirstLate c s then [min (nRetire c) s.core.items.length] else []) ∧
      .cycleStart ∉ y ∧ .cycleEnd ∉ y ∧ .schedDecom ∉ y := by
    subst hy
    split
    · exact ⟨rfl, rfl, rfl, by simp, by simp, by simp⟩
    · exact ⟨rfl, rfl, rfl, by simp, by simp, by simp⟩
  obtain ⟨a1, a2, a3, a4, a5, a6⟩ := m2
  obtain ⟨b1, b2, b3, b4, b5, b6⟩ := mx
  obtain ⟨c1, c2, c3, c4, c5, c6⟩ := my
  have k1 : ∀ z, Reactor.powers (Rec.retired :: z) = Reactor.powers z := fun _ => rfl
  have k2 : ∀ z, Reactor.sides (Rec.retired :: z) = Reactor.sides z := fun _ => rfl
  have k3 : ∀ z, Reactor.transmutes (Rec.retired :: z) = Reactor.transmutes z := fun _ => rfl
  -- inventories
  have hs1 : s1.fresh = t3.fresh ∧ s1.core = t3.core ∧ s1.spent = t3.spent := by
    rw [es1]; split <;> exact ⟨rfl, rfl, rfl⟩
  have hf : s'.fresh = t3.fresh := by
    rw [hs']; show s3.fresh = _; rw [e3, e2]; exact hs1.1
  have hc : s'.core = t3.core := by
    rw [hs']; show s3.core = _; rw [e3, e2]; exact hs1.2.1
  have hsp : s'.spent = s2.spent := by rw [hs']; show s3.spent = _; rw [e3]
  have hperm := hsold.perm
  rw [hs1.2.2, ← hsp] at hperm
  obtain ⟨j, j1, j2⟩ := d2.moved
  obtain ⟨q, q1, q2⟩ := d3.moved
  have hcore1 : t1.core.items = retiredCore c s := by
    rw [e1']
    unfold retiredCore
    split
    · rfl
    · rfl
  have hfresh1 : t1.fresh = s.fresh := by rw [e1]; split <;> rfl
  have hspent1 : t1.spent = s.spent := by rw [e1]; split <;> rfl
  refine ⟨?_, ?_, hbuys, ?_, ?_, ?_, ?_, ?_, ?_, ?_, ?_⟩
  · rw [hs']
  · rw [sp.requests, hno]; rfl
  · rw [hrows, k1, powers_append, powers_append, c1, a1, b1]; rfl
  · rw [hrows, k2, sides_append, sides_append, c2, a2, b2]; rfl
  · unfold Starts; rw [hrows]; simp [c4, a4, b4]
  · unfold Ends; rw [hrows]; simp [c5, a5, b5]
  · rw [hrows, k3, transmutes_append, transmutes_append, c3, a3, b3]; simp
  · -- where everything went
    have p1 : (held s' ++ o.shipped.map Prod.snd).Perm
        (t3.fresh.items ++ t3.core.items ++ t3.spent.items) := by
      unfold held
      rw [hf, hc, List.append_assoc (t3.fresh.items ++ t3.core.items)]
      exact List.Perm.append_left _ hperm.symm
    refine p1.trans ?_
    rw [q1, q2, d3.same.2.2, j1, j2, d2.rest.2.1, hcore1, hfresh1, hspent1]
    have p2 : (s.fresh.items.drop q ++ (retiredCore c s).drop j ++
        (s.spent.items ++ (retiredCore c s).take j ++ s.fresh.items.take q)).Perm
        ((s.fresh.items.take q ++ s.fresh.items.drop q) ++
          ((retiredCore c s).take j ++ (retiredCore c s).drop j) ++ s.spent.items) := by
      rw [← Multiset.coe_eq_coe]
      simp only [← Multiset.coe_add]
      abel
    rw [List.take_append_drop, List.take_append_drop] at p2
    exact p2
  · intro hm
    rw [hrows] at hm
    have hm' : Rec.schedDecom ∈ x := by
      simpa [a6, c6] using hm
    have hd := b6.1 hm'
    have hd' : t3.core.items.length = 0 ∧ t3.spent.items.length = 0 := by
      have := hd
      unfold checkDecommission at this
      simpa [Buf.count] using this
    have hz := List.eq_nil_of_length_eq_zero hd'.2
    rw [hz] at hperm
    have hnil := List.nil_perm.1 hperm
    have hnil' := List.append_eq_nil_iff.1 hnil
    refine ⟨?_, hnil'.1, by simpa using hnil'.2, ?_⟩
    · rw [hc]; exact List.eq_nil_of_length_eq_zero hd'.1
    · rcases hend with hz' | hz'
      · left; rw [hf]; exact hz'
      · right; rw [← hz', hd'.2]
  · intro hz
    rw [hc, d3.same.2.2, j1, hcore1]
    unfold retiredCore
    rw [hz]; simp

/-! ## Which assemblies change in an operating step -/

theorem op_moved {c : Cfg} {s s' : State} {i : In} {o : Out} (h : OpFacts c s i o s') :
    (held s' ++ o.shipped.map Prod.snd).Perm
      (s.fresh.items ++ burntCore c s ++ s.spent.items ++ i.buys.map Prod.snd) := by
  have p := h.spent
  unfold held
  rw [List.append_assoc]
  refine (List.Perm.append_left _ p.symm).trans ?_
  rw [h.core, h.fresh]
  unfold tickCore
  set n := nDis c s
  set m := nIn c s
  set B := i.buys.map Prod.snd
  obtain ⟨v, hv⟩ : ∃ v, c.nCore - ((burntCore c s).drop n ++ s.fresh.items.take m).length = v :=
    ⟨_, rfl⟩
  rw [hv]
  have p2 : (s.fresh.items.drop m ++ B.drop v ++
      ((burntCore c s).drop n ++ s.fresh.items.take m ++ B.take v) ++
      (s.spent.items ++ (burntCore c s).take n)).Perm
      ((s.fresh.items.take m ++ s.fresh.items.drop m) ++
        ((burntCore c s).take n ++ (burntCore c s).drop n) ++ s.spent.items ++
        (B.take v ++ B.drop v)) := by
    rw [← Multiset.coe_eq_coe]
    simp only [← Multiset.coe_add]
    abel
  rw [List.take_append_drop, List.take_append_drop, List.take_append_drop] at p2
  exact p2

end Cyc.Reactor
