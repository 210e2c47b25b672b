import Verif.Reactor.Recipes
import Verif.Reactor.Props1

/-!
# The fuel that reactors ask for and hand over, for every input

Unlike most theorems about reactors these make no assumption about the input or the exchange: the
vectors may have any lengths, recipes may be missing, deliveries may be any.
-/

namespace Cyc.Reactor

/-- An assembly of the history `is`: delivered with this number and quantity, and with this
composition unless it is now that of an output recipe. -/
def Delivered (c : Cfg) (is : List In) (a : Assem) : Prop :=
  ∃ i ∈ is, ∃ q ∈ i.buys, q.2.id = a.id ∧ q.2.qty = a.qty ∧
    (q.2.comp = a.comp ∨
      ∃ n, (n ∈ c.outRecipes ∨ n ∈ c.recipeChangeOut) ∧ c.recipe n = some a.comp)

theorem covers_delivered (c : Cfg) (is : List In) : Covers c (Delivered c is) := by
  rintro a ⟨i, hi, q, hq, h1, h2, _⟩ n hn k hk
  exact ⟨i, hi, q, hq, h1, h2, Or.inr ⟨n, hn, hk⟩⟩

theorem run_fits {c : Cfg} (is : List In) :
    ∀ {past : List In} {s s' : State} {os : List Out}, Fits c (Delivered c past) s →
      run c s is = .ok (os, s') →
      (∀ o ∈ os, ∀ p ∈ o.offer.requests, Sound c p) ∧
      ∀ (t : Nat) (o : Out), os[t]? = some o → ∀ p ∈ o.shipped,
        Delivered c (past ++ is.take t) p.2 := by
  induction is with
  | nil =>
    intro past s s' os hf h
    simp only [run, Except.ok.injEq, Prod.mk.injEq] at h
    obtain ⟨rfl, rfl⟩ := h
    exact ⟨by simp, by simp⟩
  | cons i is ih =>
    intro past s s' os hf h
    unfold run at h
    rw [bind_ok] at h
    obtain ⟨⟨o, s1⟩, h1, h⟩ := h
    rw [bind_ok] at h
    obtain ⟨⟨os', s2⟩, h2, h⟩ := h
    simp only [pure_eq_ok, Except.ok.injEq, Prod.mk.injEq] at h
    obtain ⟨rfl, rfl⟩ := h
    have hmono : ∀ {l l' : List In} {a : Assem}, (∀ x ∈ l, x ∈ l') → Delivered c l a →
        Delivered c l' a := by
      rintro l l' a hl ⟨i, hi, r⟩
      exact ⟨i, hl i hi, r⟩
    have hf1 : Fits c (Delivered c (past ++ [i])) s :=
      ⟨hf.ins, hf.outs, fun a ha => hmono (fun x hx => List.mem_append_left _ hx) (hf.comps a ha)⟩
    obtain ⟨g1, g2, _⟩ := step_fits (covers_delivered c _) hf1
      (fun p hp => ⟨i, by simp, p, hp, rfl, rfl, Or.inl rfl⟩) h1
    -- what is shipped in this step was there before the deliveries of this step
    have g3 : ∀ p ∈ o.shipped, Delivered c past p.2 :=
      step_shipped (covers_delivered c _) hf h1
    obtain ⟨i1, i2⟩ := ih g1 h2
    refine ⟨?_, ?_⟩
    · intro o' ho'
      rcases List.mem_cons.1 ho' with rfl | ho'
      · exact g2
      · exact i1 o' ho'
    · intro t o' ho' p hp
      cases t with
      | zero =>
        simp only [List.getElem?_cons_zero, Option.some.injEq] at ho'
        subst ho'
        simpa using g3 p hp
      | succ t =>
        rw [List.getElem?_cons_succ] at ho'
        have := i2 t o' ho' p hp
        rwa [List.append_assoc] at this

theorem enter_fits {c : Cfg} {s0 : State} (h0 : enter c = .ok s0) (A : Assem → Prop) :
    Fits c A s0 ∧ held s0 = [] ∧ s0.time = c.enterTime := by
  unfold enter at h0
  dsimp only at h0
  split at h0
  · exact absurd h0 (by simp)
  · simp only [Except.ok.injEq] at h0
    subst h0
    refine ⟨⟨?_, fun n hn => Or.inl hn, by simp [held]⟩, by simp [held], rfl⟩
    intro j k r hk hr
    refine Or.inl (List.mem_of_getElem? (i := j) ?_)
    rw [List.getElem?_zip_eq_some]
    exact ⟨hk, hr⟩

/-- **C159.** In every step of every history in which the reactor does not fail, each of its
portfolios has one request for each of its input commodities, in this order, and the composition
requested is that of a recipe that exists and that the input names for the commodity. -/
theorem C159_requests {c : Cfg} {s0 s : State} {is : List In} {os : List Out}
    (h0 : enter c = .ok s0) (h : run c s0 is = .ok (os, s)) :
    ∀ o ∈ os, ∀ p ∈ o.offer.requests, p.map (·.commod) = c.inCommods ∧
      ∀ r ∈ p, ∃ n, Names c r.commod n ∧ c.recipe n = some r.comp :=
  (run_fits is (past := []) (enter_fits h0 _).1 h).1

/-- **C159.** In every history in which the reactor does not fail, whatever it hands over in step
`t` was delivered to it in an earlier step, in the same quantity, and has the composition with
which it was delivered or that of an output recipe that exists and that the input names. -/
theorem C159_shipments {c : Cfg} {s0 s : State} {is : List In} {os : List Out}
    (h0 : enter c = .ok s0) (h : run c s0 is = .ok (os, s)) :
    ∀ (t : Nat) (o : Out), os[t]? = some o → ∀ p ∈ o.shipped,
      ∃ i ∈ is.take t, ∃ q ∈ i.buys, q.2.id = p.2.id ∧ q.2.qty = p.2.qty ∧
        (q.2.comp = p.2.comp ∨
          ∃ n, (n ∈ c.outRecipes ∨ n ∈ c.recipeChangeOut) ∧ c.recipe n = some p.2.comp) := by
  intro t o ho p hp
  have := (run_fits is (past := []) (enter_fits h0 _).1 h).2 t o ho p hp
  simpa [Delivered] using this

/-- **C159.** A reactor without an exit time that has room for fuel, and none of whose recipes for
one of its input commodities exists, fails in its first step, whatever the rest of the simulation
does. -/
theorem C159_unknown_recipe {c : Cfg} {s0 : State} {k : String} (h0 : enter c = .ok s0)
    (hk : k ∈ c.inCommods) (hn : ∀ n, Names c k n → c.recipe n = none)
    (he : c.exitTime = none) (hr : 0 < c.nCore + c.nFresh) (i : In) :
    ∃ e, step c s0 i = .error e := by
  cases hs : step c s0 i with
  | error e => exact ⟨e, rfl⟩
  | ok r =>
    exfalso
    obtain ⟨o, s'⟩ := r
    obtain ⟨hf, hh, _⟩ := enter_fits h0 (fun _ => True)
    unfold step at hs
    rw [bind_ok] at hs
    obtain ⟨⟨of, s1⟩, h1, _⟩ := hs
    have hso := (offerPhase_comp (A := fun _ => True) (fun _ _ _ _ _ _ => trivial) hf h1).2
    unfold offerPhase at h1
    rw [bind_ok] at h1
    obtain ⟨s2, h2, h1⟩ := h1
    rw [bind_ok] at h1
    obtain ⟨⟨rq, s3⟩, h3, h1⟩ := h1
    rw [bind_ok] at h1
    obtain ⟨⟨bd, s4⟩, _, h1⟩ := h1
    simp only [pure_eq_ok, Except.ok.injEq, Prod.mk.injEq] at h1
    obtain ⟨rfl, rfl⟩ := h1
    have hsame := tick_same h2
    unfold Same at hsame
    rw [hh] at hsame
    have hnil : held s2 = [] := by
      have := hsame.length_eq
      simpa using this
    have hcore : s2.core.count = 0 := by
      unfold held at hnil
      simp only [List.append_eq_nil_iff] at hnil
      simp [Buf.count, hnil.1.2]
    have hfresh : s2.fresh.count = 0 := by
      unfold held at hnil
      simp only [List.append_eq_nil_iff] at hnil
      simp [Buf.count, hnil.1.1]
    unfold getMatlRequests at h3
    have hno : nOrder c s2 = .ok ((c.nCore : ℤ) + c.nFresh) := by
      unfold nOrder
      simp [he, hcore, hfresh]
    rw [hno, ok_bind] at h3
    have hne : ((c.nCore : ℤ) + c.nFresh) ≠ 0 := by omega
    have hret : retired c s2 = false := by unfold retired; rw [he]
    rw [if_neg hne, hret] at h3
    simp only [Bool.false_eq_true, if_false] at h3
    obtain ⟨_, hl, _⟩ := requestLoop_comp _ h3
    cases rq with
    | nil => simp at hl; omega
    | cons p ps =>
      obtain ⟨g1, g2⟩ := hso p (by simp)
      rw [← g1] at hk
      obtain ⟨r, hr', rfl⟩ := List.mem_map.1 hk
      obtain ⟨n, hn1, hn2⟩ := g2 r hr'
      rw [hn n hn1] at hn2
      simp at hn2

/-! ## Cases that meet the hypotheses -/

/-- The recipe of the second fuel is missing, and so is the one that replaces the first. -/
def exMissing : Cfg := { exCfg with recipe := fun n => if n = "u" then some 1 else none,
                                    exitTime := none }

example : ∃ s0, enter exMissing = .ok s0 ∧ "mox" ∈ exMissing.inCommods ∧
    (∀ n, Names exMissing "mox" n → exMissing.recipe n = none) ∧
    exMissing.exitTime = none ∧ 0 < exMissing.nCore + exMissing.nFresh := by
  refine ⟨_, rfl, by decide, ?_, rfl, by decide⟩
  intro n hn
  simp only [Names, exMissing, exCfg, List.zip_cons_cons, List.zip_nil_left, List.mem_cons,
    Prod.mk.injEq, List.not_mem_nil, or_false] at hn ⊢
  rcases hn with (⟨h, _⟩ | ⟨_, rfl⟩) | ⟨h, _⟩
  · exact absurd h (by decide)
  · decide
  · exact absurd h (by decide)

/-- The output recipe of the second fuel is missing; the example history, which brings the first
fuel only, happens nonetheless. It is not `WellFormed`. -/
def exHalf : Cfg := { exCfg with outRecipes := ["su", "none"] }

example : ¬ WellFormed exHalf ∧ ∃ s0 os s, enter exHalf = .ok s0 ∧
    run exHalf s0 exHist = .ok (os, s) ∧ (os.flatMap fun o => o.offer.requests).length = 12 ∧
    (os.flatMap fun o => o.shipped).length = 6 := by
  refine ⟨fun h => ?_, ?_⟩
  · have := h.known "none" (Or.inr (Or.inl (by simp [exHalf])))
    simp [exHalf, exCfg] at this
  · have h : ((enter exHalf).toOption.bind fun s0 => (run exHalf s0 exHist).toOption.map fun r =>
        ((r.1.flatMap fun o => o.offer.requests).length,
          (r.1.flatMap fun o => o.shipped).length)) = some (12, 6) := by decide +kernel
    cases h0 : enter exHalf with
    | error e => rw [h0] at h; simp [Except.toOption] at h
    | ok s0 =>
      rw [h0] at h
      cases h1 : run exHalf s0 exHist with
      | error e => rw [show (Except.ok s0 : R State).toOption = some s0 from rfl] at h
                   simp [h1, Except.toOption] at h
      | ok r =>
        rw [show (Except.ok s0 : R State).toOption = some s0 from rfl] at h
        simp only [Option.bind_some, h1, Except.toOption, Option.map_some, Option.some.injEq,
          Prod.mk.injEq] at h
        exact ⟨s0, r.1, r.2, rfl, h1, h.1, h.2⟩

end Cyc.Reactor
