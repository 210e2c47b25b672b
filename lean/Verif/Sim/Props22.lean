import Verif.Sim.Settled
import Verif.Sim.Props5
import Verif.Sim.Props17

/-!
# With ample fuel the power that a growth region demands is generated: property C153
-/

namespace Cyc.Sim

variable {A : Agreement}

/-! ## Simulations with a growth region -/

theorem orders_from {l : List Region.Order} {m : List (Nat × String)} (h : Region.orderBuilds l = .ok m) :
    ∀ b ∈ m, ∃ o ∈ l, o.builder = some b.1 ∧ o.producer = some b.2 := by
  induction l generalizing m with
  | nil =>
    simp only [Region.orderBuilds, Except.ok.injEq] at h
    subst h
    simp
  | cons o l ih =>
    rw [Region.orderBuilds] at h
    split at h
    · rename_i b p e1 e2
      simp only [bind_ok, pure_eq_ok, Except.ok.injEq] at h
      obtain ⟨m', h1, rfl⟩ := h
      intro x hx
      rcases List.mem_append.1 hx with hx | hx
      · obtain ⟨-, rfl⟩ := List.mem_replicate.1 hx
        exact ⟨o, by simp, e1, e2⟩
      · obtain ⟨o', ho', e⟩ := ih h1 x hx
        exact ⟨o', by simp [ho'], e⟩
    · cases h

theorem tick_from {r : Region.Reg} {js : List Region.Inst} {t : ℤ} {dec : String → ℚ → List Region.Order}
    {ks : List String} {m : List (Nat × String)} (h : Region.tick r js t dec ks = .ok m) :
    ∀ b ∈ m, ∃ k u, ∃ o ∈ dec k u, o.builder = some b.1 ∧ o.producer = some b.2 := by
  induction ks generalizing m with
  | nil =>
    simp only [Region.tick, Except.ok.injEq] at h
    subst h
    simp
  | cons k ks ih =>
    simp only [Region.tick, bind_ok, pure_eq_ok, Except.ok.injEq] at h
    obtain ⟨l, h1, m', h2, rfl⟩ := h
    intro b hb
    rcases List.mem_append.1 hb with hb | hb
    · simp only [Region.tickOne, bind_ok] at h1
      obtain ⟨d, -, h1⟩ := h1
      split at h1
      · exact ⟨k, _, orders_from h1 b hb⟩
      · simp only [pure_eq_ok, Except.ok.injEq] at h1
        subst h1
        cases hb
    · exact ih h2 b hb

/-- What is built is of the prototypes of the simulation. -/
theorem due_names {C : Country} {is : List Region.Inst} {n : Nat} (hs : Region.Start is [] n)
    {ex : Nat → Exchange} {es : List Event} {os : List Seen} {x : Land} (h : Grown C is n ex es os x)
    (he : ∀ e ∈ es, C.Orderly is e) (t : Nat) : ∀ b ∈ due es os t, b.2 ∈ C.names := by
  have hlen : os.length = es.length := by
    obtain ⟨T, w, -, -, h3⟩ := h
    exact grow_length h3
  intro b hb
  rcases List.mem_append.1 hb with hb | hb
  · split at hb
    · cases hb
    · cases ho : os[t - 1]? with
      | none => rw [ho] at hb; cases hb
      | some o =>
        rw [ho] at hb
        have hlt : t - 1 < es.length := hlen ▸ (List.getElem?_eq_some_iff.1 ho).1
        obtain ⟨T, y, y', -, -, -, -, g5, -⟩ := grown_at hs h (List.getElem?_eq_getElem hlt) ho
        obtain ⟨w, new, G⟩ := growStep_stages g5
        obtain ⟨k, u, o', ho', -, e2⟩ := tick_from G.tick b hb
        obtain ⟨-, p, -, e3, -, e4⟩ := (he _ (List.getElem_mem hlt)).decision k u o' ho'
        rw [e2, Option.some.injEq] at e3
        rw [e3]
        exact e4
  · cases hee : es[t]? with
    | none => rw [hee] at hb; cases hb
    | some e =>
      rw [hee] at hb
      exact ((he e (List.mem_of_getElem? hee)).builds b hb).2

/-- The steps up to a step, with it. -/
theorem grow_upto {C : Country} {T : Region.Protos} {ex : Nat → Exchange} (j : Nat) :
    ∀ {es : List Event} {t : Nat} {x x' : Land} {os : List Seen}, grow C T ex t x es = .ok (os, x') →
    ∀ {e : Event} {o : Seen}, es[j]? = some e → os[j]? = some o →
    ∃ y y', growStep C T (ex (t + j)) (t + j) y e = .ok (o, y') ∧
      grow C T ex t x (es.take (j + 1)) = .ok (os.take (j + 1), y') := by
  induction j with
  | zero =>
    intro es t x x' os h e o he ho
    cases es with
    | nil => simp at he
    | cons e' es =>
      simp only [grow, bind_ok, pure_eq_ok, Except.ok.injEq, Prod.mk.injEq] at h
      obtain ⟨⟨o', x₁⟩, h1, ⟨os', x₂⟩, h2, rfl, rfl⟩ := h
      simp only [List.getElem?_cons_zero, Option.some.injEq] at he ho
      subst he ho
      exact ⟨x, x₁, h1, by simp [grow, h1, ok_bind, pure_eq_ok]⟩
  | succ j ih =>
    intro es t x x' os h e o he ho
    cases es with
    | nil => simp at he
    | cons e' es =>
      simp only [grow, bind_ok, pure_eq_ok, Except.ok.injEq, Prod.mk.injEq] at h
      obtain ⟨⟨o', x₁⟩, h1, ⟨os', x₂⟩, h2, rfl, rfl⟩ := h
      rw [List.getElem?_cons_succ] at he ho
      obtain ⟨y, y', g1, g2⟩ := ih h2 he ho
      refine ⟨y, y', by rw [show t + (j + 1) = t + 1 + j by omega]; exact g1, ?_⟩
      simp only [List.take_succ_cons, grow, h1, g2, ok_bind, pure_eq_ok]

theorem due_take {es : List Event} {os : List Seen} {m s : Nat} (h : s < m) :
    due (es.take m) (os.take m) s = due es os s := by
  have h1 : (es.take m)[s]? = es[s]? := by rw [List.getElem?_take, if_pos h]
  have h2 : (os.take m)[s - 1]? = os[s - 1]? := by rw [List.getElem?_take, if_pos (by omega)]
  unfold due
  rw [h1, h2]

/-- What was built up to a step has left before it or is at work in it. -/
theorem built_upto {C : Country} {is : List Region.Inst} {n : Nat} (hs : Region.Start is [] n)
    {ex : Nat → Exchange} {es : List Event} {os : List Seen} {x : Land} (h : Grown C is n ex es os x)
    {t : Nat} {e : Event} {o : Seen} (he : es[t]? = some e) (ho : os[t]? = some o) :
    (((os.take t).flatMap Seen.gone ++ o.plants).map Running.k).Perm
      ((List.range (t + 1)).flatMap fun s => (due es os s).map fun b => C.made s b.2) := by
  obtain ⟨T, w, h1, h2, h3⟩ := h
  obtain ⟨y, y', g1, g2⟩ := grow_upto t h3 he ho
  have hlt := (List.getElem?_eq_some_iff.1 he).1
  obtain ⟨b1, -⟩ := C134_built hs ⟨T, w, h1, h2, g2⟩
  obtain ⟨w', new, G⟩ := growStep_stages g1
  have hp : (o.gone ++ y'.plants).Perm o.plants := by
    rw [G.gone, G.plants]
    exact (depart_spec e.leaves 0 o.plants).1
  have e1 : (os.take (t + 1)).flatMap Seen.gone = (os.take t).flatMap Seen.gone ++ o.gone := by
    rw [List.take_add_one, ho]
    simp
  rw [e1, List.append_assoc] at b1
  have e2 : ((List.range (es.take (t + 1)).length).flatMap fun s =>
      (due (es.take (t + 1)) (os.take (t + 1)) s).map fun b => C.made s b.2) =
      (List.range (t + 1)).flatMap fun s => (due es os s).map fun b => C.made s b.2 := by
    rw [List.length_take, Nat.min_eq_left (by omega)]
    refine List.flatMap_congr fun s hs => ?_
    rw [due_take (List.mem_range.1 hs)]
  rw [e2] at b1
  exact ((hp.append_left _).map _).symm.trans b1

theorem sum_filter {α : Type} (p : α → Bool) (v : α → ℚ) (l : List α) :
    ((l.filter p).map v).sum = (l.map fun a => if p a then v a else 0).sum := by
  induction l with
  | nil => rfl
  | cons a l ih =>
    rw [List.filter_cons]
    split <;> rename_i h <;> simp [h, ih]

/-! ## C153 -/

/-- C153. In a growth region with `ManagerInst`s, a source and a sink are there from the start and stay; the
source could supply and the sink could take the spent fuel of all the reactors that are ever built at the
same time; reactors are to stay for ever, and all can burn what the source sells. Then no reactor leaves,
the supply that the region counts is in every step the power that the reactors at work record and that of
those that are being refuelled, and in every step but the first this is no less than what was demanded in
the step before, if the building manager decided for builds that cover what was missing.

Partial: as C125. -/
theorem C153_power_partial {C : Country} {is : List Region.Inst} {n : Nat} (hs : Region.Start is [] n)
    (hv : C.Valid is) (hm : ∀ i ∈ is, i.kind = .manager)
    (hin : ∀ p ∈ C.names, Sensible (C.input p) ∧ Suits A (C.input p))
    (hc : ∀ p ∈ C.names, ∀ k, 0 ≤ capacity C.power k (C.input p))
    {ex : Nat → Exchange} (hex : ∀ t, (ex t).Fair) (hea : ∀ t, (ex t).Eager) {es : List Event}
    {os : List Seen} {x : Land} (h : Grown C is n ex es os x) (he : ∀ e ∈ es, C.Orderly is e)
    {e₀ : Event} (h0 : es[0]? = some e₀) {i a : Nat} {pf : String} {f : Source.Cfg}
    (hi : e₀.builds[i]? = some (a, pf)) (hf : C.input pf = .source f) {y a' : Nat} {pw : String}
    {w : Sink.Cfg} (hy : e₀.builds[y]? = some (a', pw)) (hw : C.input pw = .sink w)
    (hl : ∀ e ∈ es, ∀ x, x ≤ i ∨ x ≤ y → e.leaves x = false)
    (hS : Supplies ((C.plan es os).built 0 es.length) f es.length)
    (hD : Drains ((C.plan es os).built 0 es.length) w es.length)
    (hr : ∀ p ∈ C.names, ∀ c enc dec, C.input p = .reactor c enc dec → C.life p = -1 ∧ Fuelled f w c)
    (hp : ∀ p ∈ C.names, C.power ∉ sellsOf (C.input p)) :
    ∃ G B, chronicle ex (C.plan es os) es.length 0 [] = .ok (G, B) ∧
      G.map Book.p = os.flatMap Seen.gone ∧ B.map Book.p = x.plants ∧
      (∀ b ∈ G, b.p.k.isReactor = false) ∧
      ∃ E : Book → Nat → ℚ,
        (∀ b ∈ B, b.p.k.isReactor = true → b.since + b.got.length = es.length ∧ b.Records (E b)) ∧
        (∀ (t : Nat) o, os[t]? = some o → o.supply C.power =
          ((atWork B t).map fun b => E b t + refuelling b.p.k (t - b.since)).sum) ∧
        ∀ (t : Nat) e fs, t + 1 < es.length → es[t]? = some e → Region.Demanded C.region C.power fs →
          (∀ u, 0 < u → u ≤ ((Region.expand (e.decision C.power u)).map fun b =>
            capacity C.power C.power (C.input b.2)).sum) →
          Region.curve fs.reverse t ≤
            ((atWork B (t + 1)).map fun b => E b (t + 1) + refuelling b.p.k (t + 1 - b.since)).sum := by
  have hlen : os.length = es.length := by
    obtain ⟨T, w, -, -, h3⟩ := h
    exact grow_length h3
  have hb : ∀ t, ∀ k ∈ (C.plan es os).builds t, Sensible k ∧ Suits A k := by
    intro t k hk
    obtain ⟨b, hb, rfl⟩ := List.mem_map.1 hk
    have := hin _ (due_names hs h he t b hb)
    exact ⟨sensible_until _ this.1, suits_until _ this.2⟩
  have hlv : ∀ t x, x ≤ i ∨ x ≤ y → (C.plan es os).leaves t x = false := by
    intro t x hx
    simp only [Country.plan]
    cases ee : es[t]? with
    | none => rfl
    | some e => exact hl e (List.mem_of_getElem? ee) x hx
  have hsim := C134_simulation hs h (plan := C.plan es os) (fun t => rfl) fun t e he => by
    simp [Country.plan, he]
  obtain ⟨G, B, ch, hG, hB, -⟩ := C144_same_partial hb hex hsim
  have acc := accounts_of hb hex ch
  have first : ∀ {j a : Nat} {p : String}, e₀.builds[j]? = some (a, p) →
      ((C.plan es os).builds 0)[j]? = some ((C.input p).until (lastStep 0 (C.life p))) := by
    intro j a p hj
    simp [Country.plan, due, h0, hj]
  -- the account of a reactor
  have reactor : ∀ b ∈ G ++ B, b.p.k.isReactor = true → ∃ c enc dec, b.p.k = .reactor c enc dec ∧
      b.since < es.length ∧ b ∉ G ∧ b.since + b.got.length = es.length ∧ b.Records fun t =>
        if (t - b.since) % (c.cycleTime + c.refuelTime) < c.cycleTime then c.powerCap else 0 := by
    intro b hbm hbr
    have mem := acc.mem_iff.1 (List.mem_map_of_mem (f := fun b => (b.since, b.p.k)) hbm)
    obtain ⟨T, hT, mem⟩ := List.mem_flatMap.1 mem
    obtain ⟨k, hk, e⟩ := List.mem_map.1 mem
    obtain ⟨e1, e2⟩ := Prod.mk.inj e
    obtain ⟨d, hd, rfl⟩ := List.mem_map.1 hk
    have hn := due_names hs h he T d hd
    have hkr : (C.input d.2).isReactor = true := by
      rw [← e2] at hbr
      revert hbr
      cases C.input d.2 <;> exact id
    obtain ⟨c, enc, dec, hcr⟩ : ∃ c enc dec, C.input d.2 = .reactor c enc dec := by
      revert hkr
      cases C.input d.2 <;> intro hkr <;> first | exact ⟨_, _, _, rfl⟩ | cases hkr
    obtain ⟨hlf, F⟩ := hr _ hn c enc dec hcr
    have e3 : b.p.k = .reactor { c with exitTime := none, enterTime := T } enc dec := by
      rw [← e2, hcr, hlf]; rfl
    have hT' := List.mem_range.1 hT
    have key : ∀ t, b.since ≤ t → t < es.length → ∀ bs, trading ex (C.plan es os) t = .ok bs →
        Served (bs.map fun b => b.p.k) { c with exitTime := none, enterTime := T } (t + 1) := by
      intro t _ ht bs hbs
      refine served_always (c := { c with exitTime := none, enterTime := T }) hb hex (i := i) (f := f) ?_ hS
        (y := y) (w := w) ?_ hD hlv F.fuel F.spent F.least ht hbs
      · rw [first hi, hf]; rfl
      · rw [first hy, hw]; rfl
    obtain ⟨r1, is', os', s, r2, r3, r4, r5, r6, r7, r8, -⟩ := C147_later_on_schedule_partial hb hex hea ch
      hbm e3 key rfl F.starts F.room
    obtain ⟨g1, g2⟩ := r1 F.core
    refine ⟨_, enc, dec, e3, by omega, g1, g2, _, enc, dec, s, is', os', r2, r3, r4, r6, r7, ?_⟩
    intro j o hj
    have hjl : j < os'.length := (List.getElem?_eq_some_iff.1 hj).1
    rw [(r8 j _ _ o (List.getElem?_eq_getElem (by omega)) (List.getElem?_eq_getElem (by omega)) hj).power]
    simp
  have noR : ∀ b ∈ G, b.p.k.isReactor = false := by
    intro b hbG
    by_contra hne
    obtain ⟨-, -, -, -, -, g, -⟩ := reactor b (List.mem_append_left _ hbG) (by simpa using hne)
    exact g hbG
  -- only reactors give power
  have cap0 : ∀ b ∈ G ++ B, b.p.k.isReactor = false → capacity C.power C.power b.p.k = 0 := by
    intro b hbm hbr
    have mem := acc.mem_iff.1 (List.mem_map_of_mem (f := fun b => (b.since, b.p.k)) hbm)
    obtain ⟨T, hT, mem⟩ := List.mem_flatMap.1 mem
    obtain ⟨k, hk, e⟩ := List.mem_map.1 mem
    obtain ⟨-, e2⟩ := Prod.mk.inj e
    obtain ⟨d, hd, rfl⟩ := List.mem_map.1 hk
    have hn := hp _ (due_names hs h he T d hd)
    rw [← e2] at hbr ⊢
    revert hbr hn
    cases C.input d.2 with
    | reactor => intro h; cases h
    | source c =>
      intro _ hn
      exact if_neg fun e => hn (by simp [sellsOf, e])
    | storage c want =>
      intro _ hn
      refine if_neg fun e => hn ?_
      exact List.mem_of_mem_head? e
    | _ => intro _ _; rfl
  have gone0 : ∀ p ∈ os.flatMap Seen.gone, capacity C.power C.power p.k = 0 := by
    intro p hp'
    rw [← hG] at hp'
    obtain ⟨b, hbG, rfl⟩ := List.mem_map.1 hp'
    exact cap0 b (List.mem_append_left _ hbG) (noR b hbG)
  have zero : ∀ {l : List (Running act)}, (∀ p ∈ l, capacity C.power C.power p.k = 0) →
      (l.map fun p => capacity C.power C.power p.k).sum = 0 := by
    intro l hl
    rw [List.map_congr_left (g := fun _ => (0 : ℚ)) hl]
    simp
  -- what is at work
  have counted : ∀ (t : Nat) o, os[t]? = some o → C.capacityOf o.plants C.power =
      ((atWork B t).map fun b => capacity C.power C.power b.p.k).sum := by
    intro t o ho
    have ht : t < es.length := hlen ▸ (List.getElem?_eq_some_iff.1 ho).1
    have upto := built_upto hs h (List.getElem?_eq_getElem ht) ho
    have s1 : (((List.range (t + 1)).flatMap fun s => (due es os s).map fun b => C.made s b.2).map
        (capacity C.power C.power)).sum = C.capacityOf o.plants C.power := by
      rw [← (upto.map _).sum_eq, List.map_append, List.map_append, List.sum_append, List.map_map]
      rw [show (((os.take t).flatMap Seen.gone).map (capacity C.power C.power ∘ Running.k)).sum = 0 from
        zero fun p hp' => gone0 p (by
          obtain ⟨o, ho, hp'⟩ := List.mem_flatMap.1 hp'
          exact List.mem_flatMap.2 ⟨o, List.mem_of_mem_take ho, hp'⟩), zero_add, List.map_map]
      rfl
    rw [← s1]
    symm
    have p1 := (acc.map fun x => if x.1 ≤ t then capacity C.power C.power x.2 else 0).sum_eq
    rw [List.map_map, List.map_append, List.sum_append] at p1
    have p2 : (G.map ((fun x : Nat × Kind => if x.1 ≤ t then capacity C.power C.power x.2 else 0) ∘
        fun b => (b.since, b.p.k))).sum = 0 := by
      rw [List.map_congr_left (g := fun _ => (0 : ℚ))]
      · simp
      · intro b hbG
        simp [cap0 b (List.mem_append_left _ hbG) (noR b hbG)]
    rw [p2, zero_add] at p1
    unfold atWork
    rw [sum_filter, List.map_congr_left (l := B) (g := (fun x : Nat × Kind =>
      if x.1 ≤ t then capacity C.power C.power x.2 else 0) ∘ fun b => (b.since, b.p.k))]
    · rw [p1, show es.length = (t + 1) + (es.length - (t + 1)) by omega, List.range_add,
        List.flatMap_append, List.map_append, List.sum_append]
      have z : ((((List.range (es.length - (t + 1))).map (t + 1 + ·)).flatMap fun s =>
          ((C.plan es os).builds s).map fun k => (s, k.since s)).map fun x =>
            if x.1 ≤ t then capacity C.power C.power x.2 else 0).sum = 0 := by
        rw [List.map_congr_left (g := fun _ => (0 : ℚ))]
        · simp
        · intro z hz
          obtain ⟨s, hs', hz⟩ := List.mem_flatMap.1 hz
          obtain ⟨s', -, rfl⟩ := List.mem_map.1 hs'
          obtain ⟨k, -, rfl⟩ := List.mem_map.1 hz
          exact if_neg (by simp only; omega)
      rw [z, add_zero]
      refine congrArg List.sum ?_
      rw [List.map_flatMap, List.map_flatMap]
      refine List.flatMap_congr fun s hs' => ?_
      have := List.mem_range.1 hs'
      simp only [Country.plan, List.map_map]
      refine List.map_congr_left fun b _ => ?_
      simp only [Function.comp, if_pos (show s ≤ t by omega)]
      rfl
    · intro b hbB
      simp only [Function.comp, Bool.and_eq_true, decide_eq_true_eq]
      cases hbr : b.p.k.isReactor with
      | true => simp
      | false => simp [cap0 b (List.mem_append_right _ hbB) hbr]
  refine ⟨G, B, ch, hG, hB, noR, fun b t => capacity C.power C.power b.p.k - refuelling b.p.k (t - b.since),
    ?_, ?_, ?_⟩
  · intro b hbB hbr
    obtain ⟨c, enc, dec, e1, -, -, g2, g3⟩ := reactor b (List.mem_append_right _ hbB) hbr
    refine ⟨g2, ?_⟩
    convert g3 using 2 with t
    simp only [e1]
    simp only [capacity, refuelling, if_true]
    split <;> ring
  · intro t o ho
    rw [C134_supply hs hm h (List.mem_of_getElem? ho), counted t o ho]
    exact congrArg List.sum (List.map_congr_left fun b _ => by ring)
  · intro t e fs ht hee hfs hcov
    have ho : os[t]? = some os[t] := List.getElem?_eq_getElem (by omega)
    have ho' : os[t + 1]? = some os[t + 1] := List.getElem?_eq_getElem (by omega)
    have met := C134_met hs hv hm hc h hee (he e (List.mem_of_getElem? hee)) ho ho' hfs hcov
    have g0 : C.capacityOf os[t].gone C.power = 0 := zero fun p hp' =>
      gone0 p (List.mem_flatMap.2 ⟨_, List.getElem_mem _, hp'⟩)
    rw [g0, sub_zero, counted _ _ ho'] at met
    exact met.trans_eq (congrArg List.sum (List.map_congr_left fun b _ => by ring))

/-! ## An example -/

/-- Power is demanded from time 1 on, 10 more in every step; reactors of 10 are built for it. -/
def exGrid : Country where
  region := ⟨[("power", [⟨1, "lin", ""⟩])], fun _ _ => .ok fun x => 10 + 10 * x⟩
  names := ["fuel", "pool", "reactor"]
  input p := if p = "fuel" then .source exFuel else if p = "pool" then .sink exPool
    else .reactor exReactor (fun _ => 1) exDec
  life _ := -1
  power := "power"
  limit := 1000

/-- The source and the sink are built at time 0. -/
def exYears : List Event :=
  [exEvent ["fuel", "pool"] 9, exEvent [] 9, exEvent [] 9, exEvent [] 9]

theorem exGrid_valid : exGrid.Valid [exManager] :=
  ⟨by simp [exGrid], fun _ _ _ _ => ⟨_, rfl⟩,
    fun kp hk => by
      have hk : kp = ("power", [⟨1, "lin", ""⟩]) := List.mem_singleton.1 hk
      subst hk
      simp,
    fun i hi _ p hp => by
      obtain rfl := List.mem_singleton.1 hi
      obtain rfl := List.mem_singleton.1 hp
      decide⟩

theorem exGrid_sensible : ∀ p ∈ exGrid.names, Sensible (exGrid.input p) ∧ Suits exOpen (exGrid.input p) := by
  intro p _
  simp only [exGrid]
  split
  · exact exFleet_sensible _ (by simp [exFleet])
  · split
    · exact exFleet_sensible _ (by simp [exFleet])
    · exact exFleet_sensible _ (by simp [exFleet])

theorem exYears_orderly : ∀ e ∈ exYears, exGrid.Orderly [exManager] e := by
  have key : ∀ bs i, (∀ p ∈ bs, p ∈ exGrid.names) → exGrid.Orderly [exManager] (exEvent bs i) := by
    intro bs i hb
    refine ⟨fun b h => ?_, fun k u o ho => ?_⟩
    · obtain ⟨p, hp, rfl⟩ := List.mem_map.1 h
      exact ⟨by simp [exManager], hb p hp⟩
    · obtain rfl := List.mem_singleton.1 ho
      exact ⟨1, "reactor", rfl, rfl, by simp [exManager], by decide⟩
  intro e he
  simp only [exYears, List.mem_cons, List.not_mem_nil, or_false] at he
  rcases he with rfl | rfl | rfl | rfl <;> exact key _ _ (by decide)

/-- What the region orders in the example. -/
def exOrders : R (List (List (Nat × String))) := do
  let T ← exGrid.load exGrid.names
  let w ← Region.enter exGrid.region T [exManager] [] [] 2
  let (os, _) ← grow exGrid T (fun _ => filling) 0 ⟨w, []⟩ exYears
  pure (os.map Seen.ordered)

theorem exOrders_eq : exOrders.toOption = some [[], [(1, "reactor")], [(1, "reactor")], [(1, "reactor")]] := by
  decide +kernel

/-- The example runs; two reactors are built in it, and the demand of time 2 is met at time 3. -/
example : ∃ os x G B, Grown exGrid [exManager] 2 (fun _ => filling) exYears os x ∧
    chronicle (fun _ => filling) (exGrid.plan exYears os) 4 0 [] = .ok (G, B) ∧
    ∃ E : Book → Nat → ℚ, (∀ b ∈ B, b.p.k.isReactor = true → b.Records (E b)) ∧
      20 ≤ ((atWork B 3).map fun b => E b 3 + refuelling b.p.k (3 - b.since)).sum := by
  obtain ⟨os, x, h, hl⟩ := C134_runs_partial exCountry_start exGrid_valid exGrid_sensible
    (fun _ => filling_fair) exYears_orderly
  have hl : os.length = 4 := hl
  have ho : os.map Seen.ordered = [[], [(1, "reactor")], [(1, "reactor")], [(1, "reactor")]] := by
    obtain ⟨T, w, h1, h2, h3⟩ := h
    have := exOrders_eq
    simp only [exOrders, h1, h2, h3, ok_bind, pure_eq_ok, Except.toOption, Option.some.injEq] at this
    exact this
  obtain ⟨o₀, o₁, o₂, o₃, rfl⟩ : ∃ o₀ o₁ o₂ o₃, os = [o₀, o₁, o₂, o₃] := by
    match os, hl with
    | [o₀, o₁, o₂, o₃], _ => exact ⟨_, _, _, _, rfl⟩
  simp only [List.map_cons, List.map_nil, List.cons.injEq, and_true] at ho
  obtain ⟨e0, e1, e2, e3⟩ := ho
  have built : (exGrid.plan exYears [o₀, o₁, o₂, o₃]).built 0 4 = [.source exFuel, .sink exPool,
      .reactor { exReactor with enterTime := 2 } (fun _ => 1) exDec,
      .reactor { exReactor with enterTime := 3 } (fun _ => 1) exDec] := by
    simp [Plan.built, List.range', Country.plan, due, exYears, exEvent, e0, e1, e2, exGrid, lastStep]
    exact ⟨rfl, rfl, rfl, rfl⟩
  have S : Supplies ((exGrid.plan exYears [o₀, o₁, o₂, o₃]).built 0 4) exFuel 4 := by
    rw [built]
    refine ⟨?_, by decide +kernel, by decide +kernel, by decide +kernel⟩
    intro k hk
    simp only [List.mem_cons, List.not_mem_nil, or_false] at hk
    rcases hk with rfl | rfl | rfl | rfl <;> decide
  have D : Drains ((exGrid.plan exYears [o₀, o₁, o₂, o₃]).built 0 4) exPool 4 := by
    rw [built]
    refine ⟨?_, by decide +kernel, by decide +kernel, by decide +kernel⟩
    intro k hk
    simp only [List.mem_cons, List.not_mem_nil, or_false] at hk
    rcases hk with rfl | rfl | rfl | rfl <;> decide
  have hd : Region.Demanded exGrid.region "power" [(1, fun x => 10 + 10 * x)] :=
    ⟨_, List.mem_singleton.2 rfl, .cons ⟨by norm_num, rfl⟩ .nil⟩
  obtain ⟨G, B, k1, -, -, -, E, k2, -, k3⟩ := C153_power_partial exCountry_start exGrid_valid
    (by simp [exManager]) exGrid_sensible (by
      intro p _ k
      simp only [exGrid]
      split
      · simp only [capacity]; split <;> norm_num [exFuel]
      · split
        · exact le_refl _
        · simp only [capacity]; split <;> norm_num [exReactor])
    (fun _ => filling_fair) (fun _ => filling_eager) h exYears_orderly (e₀ := exEvent ["fuel", "pool"] 9) rfl
    (i := 0) (f := exFuel) rfl rfl (y := 1) (w := exPool) rfl rfl (by
      intro e he x hx
      simp only [exYears, List.mem_cons, List.not_mem_nil, or_false] at he
      rcases he with rfl | rfl | rfl | rfl <;> simp [exEvent] <;> omega) S D (by
      intro p _ c enc dec e
      refine ⟨rfl, ?_⟩
      simp only [exGrid] at e
      split at e
      · cases e
      · split at e
        · cases e
        · cases e
          exact ⟨by decide, by decide +kernel, by decide, rfl, by decide, by decide⟩) (by decide)
  refine ⟨_, x, G, B, h, k1, E, fun b hb hr => (k2 b hb hr).2, ?_⟩
  have := k3 2 (exEvent [] 9) _ (by decide) rfl hd (by
      intro u hu
      have h2 : u / 10 ≤ (Int.ceil (u / 10) : ℚ) := Int.le_ceil _
      have h4 : 0 < Int.ceil (u / 10) := Int.ceil_pos.2 (by linarith)
      have h5 : ((Int.ceil (u / 10)).toNat : ℚ) = (Int.ceil (u / 10) : ℚ) := by
        have : ((Int.ceil (u / 10)).toNat : ℤ) = Int.ceil (u / 10) := Int.toNat_of_nonneg h4.le
        exact_mod_cast this
      have h6 : capacity exGrid.power exGrid.power (exGrid.input "reactor") = 10 := by decide +kernel
      simp only [exEvent, Region.expand, List.flatMap_cons, List.flatMap_nil, List.append_nil,
        List.map_replicate, List.sum_replicate, Option.getD_some, h6, nsmul_eq_mul, h5]
      linarith)
  have e : Region.curve [(1, fun x : ℚ => 10 + 10 * x)].reverse ((2 : Nat) : ℚ) = 20 := by
    norm_num [Region.curve]
  rwa [e] at this

end Cyc.Sim
