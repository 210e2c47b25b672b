import Verif.Sim.Round

/-!
# An exchange that leaves nothing undone

The solvers of cyclus make a deal of an exclusive order or bid whenever it still fits. What follows from
that for whoever asks and offers.
-/

namespace Cyc.Sim

/-- The deal has its amount from an exclusive order or from an exclusive bid, and the supplier has no
further constraints on its commodity. -/
def Fixed (asks : List (List Ask)) (offers : List (List Offer)) (d : Deal) : Prop :=
  (∀ os, offers[d.src]? = some os → ∀ o ∈ os, o.commod = d.commod → o.limits = []) ∧
  ((∃ as, asks[d.dst]? = some as ∧ ∃ a, as[d.port]? = some a ∧ a.whole = true ∧ d.amt = a.amount) ∨
    ∃ os, offers[d.src]? = some os ∧ ∃ o ∈ os, o.commod = d.commod ∧ o.piece = some d.amt)

/-- The exchange leaves no exclusive order and no exclusive bid alone for which a deal could be added. -/
def Exchange.Eager (ex : Exchange) : Prop := ∀ asks offers, (∀ as ∈ asks, ∀ a ∈ as, 0 ≤ a.amount) →
  (∀ os ∈ offers, ∀ o ∈ os, 0 ≤ o.cap ∧ ∀ L ∈ o.limits, 0 ≤ L.cap) →
  ∀ d, Fixed asks offers d → ¬ Sim.Fair asks offers (ex asks offers ++ [d])

/-- The deal has its amount from an exclusive order or from an exclusive bid. -/
def Wanted (asks : List (List Ask)) (offers : List (List Offer)) (d : Deal) : Prop :=
  (∃ as, asks[d.dst]? = some as ∧ ∃ a, as[d.port]? = some a ∧ a.whole = true ∧ d.amt = a.amount) ∨
    ∃ os, offers[d.src]? = some os ∧ ∃ o ∈ os, o.commod = d.commod ∧ o.piece = some d.amt

/-- As above, whatever the further constraints of the suppliers. -/
def Exchange.Keen (ex : Exchange) : Prop := ∀ asks offers, (∀ as ∈ asks, ∀ a ∈ as, 0 ≤ a.amount) →
  (∀ os ∈ offers, ∀ o ∈ os, 0 ≤ o.cap ∧ ∀ L ∈ o.limits, 0 ≤ L.cap) →
  ∀ d, Wanted asks offers d → ¬ Sim.Fair asks offers (ex asks offers ++ [d])

theorem Exchange.Keen.eager {ex : Exchange} (h : ex.Keen) : ex.Eager :=
  fun asks offers h1 h2 d hd => h asks offers h1 h2 d hd.2

/-! ## Totals of deals -/

@[simp] theorem dealt_nil (p : Deal → Bool) : dealt [] p = 0 := rfl

theorem dealt_append (ds ds' : List Deal) (p : Deal → Bool) :
    dealt (ds ++ ds') p = dealt ds p + dealt ds' p := by
  simp [dealt]

theorem dealt_single (d : Deal) (p : Deal → Bool) : dealt [d] p = if p d then d.amt else 0 := by
  by_cases h : p d <;> simp [dealt, h]

theorem dealt_cons (d : Deal) (ds : List Deal) (p : Deal → Bool) :
    dealt (d :: ds) p = (if p d then d.amt else 0) + dealt ds p := by
  rw [← List.singleton_append, dealt_append, dealt_single]

theorem dealt_nonneg {ds : List Deal} (h : ∀ d ∈ ds, 0 ≤ d.amt) (p : Deal → Bool) : 0 ≤ dealt ds p := by
  apply List.sum_nonneg
  intro x hx
  obtain ⟨d, hd, rfl⟩ := List.mem_map.1 hx
  exact h d (List.mem_filter.1 hd).1

theorem dealt_mono {ds : List Deal} (h : ∀ d ∈ ds, 0 ≤ d.amt) {p q : Deal → Bool}
    (hpq : ∀ d ∈ ds, p d = true → q d = true) : dealt ds p ≤ dealt ds q := by
  induction ds with
  | nil => simp
  | cons d ds ih =>
    rw [dealt_cons, dealt_cons]
    have h1 := ih (fun x hx => h x (by simp [hx])) fun x hx => hpq x (by simp [hx])
    have h2 := h d (by simp)
    have h3 := hpq d (by simp)
    by_cases hp : p d
    · rw [if_pos hp, if_pos (h3 hp)]; linarith
    · rw [if_neg hp]
      split <;> linarith

theorem dealt_zero {ds : List Deal} {p : Deal → Bool} (h : ∀ d ∈ ds, p d = false) : dealt ds p = 0 := by
  unfold dealt
  rw [List.filter_eq_nil_iff.2 fun d hd => by simp [h d hd]]
  rfl

/-- The total, by a number that every deal has. -/
theorem dealt_split {ds : List Deal} {p : Deal → Bool} (f : Deal → Nat) {n : Nat}
    (h : ∀ d ∈ ds, p d = true → f d < n) :
    dealt ds p = ((List.range n).map fun x => dealt ds fun d => p d && decide (f d = x)).sum := by
  induction ds with
  | nil => simp
  | cons d ds ih =>
    rw [dealt_cons, ih fun x hx => h x (by simp [hx])]
    have hd := h d (by simp)
    simp only [dealt_cons]
    rw [List.sum_map_add]
    congr 1
    by_cases hp : p d
    · have := hd hp
      simp only [hp, if_true, Bool.true_and, decide_eq_true_eq]
      clear ih h hd
      induction n with
      | zero => omega
      | succ n ihn =>
        rw [List.range_succ, List.map_append, List.sum_append]
        by_cases e : f d = n
        · have : (List.range n).map (fun x => if f d = x then d.amt else 0) =
              (List.range n).map fun _ => (0 : ℚ) := by
            apply List.map_congr_left
            intro x hx
            have := List.mem_range.1 hx
            rw [if_neg (by omega)]
          rw [this]
          simp [e]
        · rw [← ihn (by omega)]
          simp [e]
    · simp [hp]

theorem sum_le_of_get {n : Nat} {f : Nat → ℚ} {l : List ℚ} (hn : l.length = n)
    (h : ∀ (x : Nat) b, l[x]? = some b → f x ≤ b) : ((List.range n).map f).sum ≤ l.sum := by
  subst hn
  induction l using List.reverseRecOn with
  | nil => simp
  | append_singleton l a ih =>
    rw [List.length_append, List.length_singleton, List.range_succ, List.map_append, List.sum_append,
      List.sum_append]
    have h1 := ih fun x b hb => h x b (by
      rw [List.getElem?_append_left (List.getElem?_eq_some_iff.1 hb).1]; exact hb)
    have h2 := h l.length a (by simp)
    simp only [List.map_cons, List.map_nil, List.sum_cons, List.sum_nil, add_zero]
    linarith

/-! ## One more deal -/

/-- A deal may be added if it fits. -/
theorem Fair.add' {asks : List (List Ask)} {offers : List (List Offer)} {ds : List Deal}
    (F : Fair asks offers ds) {d : Deal} (h1 : 0 < d.amt ∧ d.amt ≤ qty d.target)
    (h2 : ∃ os, offers[d.src]? = some os ∧ ∃ o ∈ os, o.commod = d.commod ∧
      o.least ≤ d.amt ∧ (∀ u, o.piece = some u → d.amt = u) ∧ o.serves d.target = true)
    (h3 : ∃ as, asks[d.dst]? = some as ∧ ∃ a, as[d.port]? = some a ∧
      (d.commod, d.target) ∈ a.alts ∧ (a.whole = true → d.amt = a.amount))
    (h4 : ∀ os, offers[d.src]? = some os → ∀ o ∈ os, o.commod = d.commod → ∀ L ∈ o.limits,
      ∃ vs : List ℚ, ((ds ++ [d]).filter fun e => e.src = d.src ∧ e.commod = d.commod).map
        (fun e => L.weigh e.target e.amt) = vs.map some ∧ vs.sum ≤ L.cap)
    (h5 : ∀ os, offers[d.src]? = some os → ∀ o ∈ os, o.commod = d.commod →
      dealt (ds ++ [d]) (fun e => e.src = d.src ∧ e.commod = d.commod) ≤ o.cap)
    (h6 : ∀ as, asks[d.dst]? = some as → ∀ a, as[d.port]? = some a →
      dealt (ds ++ [d]) (fun e => e.dst = d.dst ∧ e.port = d.port) ≤ a.amount) :
    Fair asks offers (ds ++ [d]) := by
  refine ⟨?_, ?_, ?_, ?_, ?_, ?_⟩
  · intro e he
    rcases List.mem_append.1 he with he | he
    · exact F.pos e he
    · rw [List.mem_singleton.1 he]; exact h1
  · intro e he
    rcases List.mem_append.1 he with he | he
    · exact F.offered e he
    · rw [List.mem_singleton.1 he]; exact h2
  · intro e he
    rcases List.mem_append.1 he with he | he
    · exact F.asked e he
    · rw [List.mem_singleton.1 he]; exact h3
  · intro k os hk o ho
    by_cases e : d.src = k ∧ d.commod = o.commod
    · obtain ⟨rfl, e⟩ := e
      have := h5 os hk o ho e.symm
      rw [e] at this
      exact this
    · rw [dealt_append, dealt_single, if_neg (by simpa using e), add_zero]
      exact F.caps k os hk o ho
  · intro k os hk o ho L hL
    by_cases e : d.src = k ∧ d.commod = o.commod
    · obtain ⟨rfl, e⟩ := e
      have := h4 os hk o ho e.symm L hL
      rw [e] at this
      exact this
    · rw [List.filter_append, List.filter_cons_of_neg (by simpa using e), List.filter_nil,
        List.append_nil]
      exact F.limits k os hk o ho L hL
  · intro j as hj p a ha
    by_cases e : d.dst = j ∧ d.port = p
    · obtain ⟨rfl, rfl⟩ := e
      exact h6 as hj a ha
    · rw [dealt_append, dealt_single, if_neg (by simpa using e), add_zero]
      exact F.amounts j as hj p a ha

/-- A deal may be added if it fits and the supplier has no further constraints. -/
theorem Fair.add {asks : List (List Ask)} {offers : List (List Offer)} {ds : List Deal}
    (F : Fair asks offers ds) {d : Deal} (h1 : 0 < d.amt ∧ d.amt ≤ qty d.target)
    (h2 : ∃ os, offers[d.src]? = some os ∧ ∃ o ∈ os, o.commod = d.commod ∧
      o.least ≤ d.amt ∧ (∀ u, o.piece = some u → d.amt = u) ∧ o.serves d.target = true)
    (h3 : ∃ as, asks[d.dst]? = some as ∧ ∃ a, as[d.port]? = some a ∧
      (d.commod, d.target) ∈ a.alts ∧ (a.whole = true → d.amt = a.amount))
    (h4 : ∀ os, offers[d.src]? = some os → ∀ o ∈ os, o.commod = d.commod → o.limits = [])
    (h5 : ∀ os, offers[d.src]? = some os → ∀ o ∈ os, o.commod = d.commod →
      dealt (ds ++ [d]) (fun e => e.src = d.src ∧ e.commod = d.commod) ≤ o.cap)
    (h6 : ∀ as, asks[d.dst]? = some as → ∀ a, as[d.port]? = some a →
      dealt (ds ++ [d]) (fun e => e.dst = d.dst ∧ e.port = d.port) ≤ a.amount) :
    Fair asks offers (ds ++ [d]) := by
  refine F.add' h1 h2 h3 ?_ h5 h6
  intro os hos o ho e L hL
  rw [h4 os hos o ho e] at hL
  cases hL

/-- What does not fit any more, does not fit after further deals. -/
theorem Fair.earlier {asks : List (List Ask)} {offers : List (List Offer)} {ds more : List Deal}
    (F : Fair asks offers ds) {d : Deal} (G : Fair asks offers (ds ++ more ++ [d]))
    (h4 : ∀ os, offers[d.src]? = some os → ∀ o ∈ os, o.commod = d.commod → o.limits = []) :
    Fair asks offers (ds ++ [d]) := by
  have hd : d ∈ ds ++ more ++ [d] := by simp
  have mono : ∀ p, dealt (ds ++ [d]) p ≤ dealt (ds ++ more ++ [d]) p := by
    intro p
    simp only [dealt_append]
    have := dealt_nonneg (ds := more) (fun e he => (G.pos e (by simp [he])).1.le) p
    linarith
  refine F.add (G.pos d hd) (G.offered d hd) (G.asked d hd) h4 ?_ ?_
  · intro os hos o ho e
    have := G.caps _ os hos o ho
    rw [e] at this
    exact (mono _).trans this
  · intro as has a ha
    exact (mono _).trans (G.amounts _ as has _ a ha)

/-- What a facility is given in a time step is no more than it asks for. -/
theorem received_le {asks : List (List Ask)} {ds : List Deal}
    (h3 : ∀ d ∈ ds, ∃ as, asks[d.dst]? = some as ∧ ∃ a, as[d.port]? = some a ∧
      (d.commod, d.target) ∈ a.alts)
    (h6 : ∀ j as, asks[j]? = some as → ∀ p a, as[p]? = some a →
      dealt ds (fun d => d.dst = j ∧ d.port = p) ≤ a.amount)
    {j : Nat} {as : List Ask} (hj : asks[j]? = some as) :
    dealt ds (fun d => d.dst = j) ≤ (as.map Ask.amount).sum := by
  rw [dealt_split Deal.port (n := as.length)]
  · refine sum_le_of_get (by simp) fun p b hb => ?_
    rw [List.getElem?_map] at hb
    cases ha : as[p]? with
    | none => rw [ha] at hb; cases hb
    | some a =>
      rw [ha] at hb
      cases hb
      refine le_of_eq_of_le ?_ (h6 j as hj p a ha)
      congr 1
      funext d
      rw [Bool.eq_iff_iff]; simp
  · intro d hd e
    simp only [decide_eq_true_eq] at e
    obtain ⟨as', k1, a, k2, -⟩ := h3 d hd
    rw [e, hj] at k1
    cases k1
    exact (List.getElem?_eq_some_iff.1 k2).1

/-- What is dealt in a commodity is no more than what is asked of those who want it. -/
theorem demand_le {asks : List (List Ask)} {ds : List Deal} (h1 : ∀ d ∈ ds, 0 < d.amt)
    (h3 : ∀ d ∈ ds, ∃ as, asks[d.dst]? = some as ∧ ∃ a, as[d.port]? = some a ∧
      (d.commod, d.target) ∈ a.alts)
    (h6 : ∀ j as, asks[j]? = some as → ∀ p a, as[p]? = some a →
      dealt ds (fun d => d.dst = j ∧ d.port = p) ≤ a.amount)
    {k : String} {B : List ℚ} (hB : B.length = asks.length)
    (hb : ∀ (j : Nat) as b, asks[j]? = some as → B[j]? = some b →
      (0 ≤ b ∧ ∀ a ∈ as, ∀ x ∈ a.alts, x.1 ≠ k) ∨ (as.map Ask.amount).sum ≤ b) :
    dealt ds (fun d => d.commod = k) ≤ B.sum := by
  rw [dealt_split Deal.dst (n := asks.length)]
  · refine sum_le_of_get hB fun j b hjb => ?_
    have hj : j < asks.length := hB ▸ (List.getElem?_eq_some_iff.1 hjb).1
    obtain ⟨as, has⟩ : ∃ as, asks[j]? = some as := ⟨_, List.getElem?_eq_getElem hj⟩
    rcases hb j as b has hjb with ⟨e0, e⟩ | e
    · refine le_of_eq_of_le (dealt_zero fun d hd => ?_) e0
      by_contra hc
      simp only [Bool.not_eq_false, Bool.and_eq_true, decide_eq_true_eq] at hc
      obtain ⟨as', k1, a, k2, k3⟩ := h3 d hd
      rw [hc.2, has] at k1
      cases k1
      exact e a (List.mem_of_getElem? k2) _ k3 hc.1
    · refine le_trans (dealt_mono (fun d hd => (h1 d hd).le) ?_) ((received_le h3 h6 has).trans e)
      intro d _ hd
      simp only [Bool.and_eq_true, decide_eq_true_eq] at hd ⊢
      exact hd.2
  · intro d hd _
    obtain ⟨as, k1, -⟩ := h3 d hd
    exact (List.getElem?_eq_some_iff.1 k1).1

/-- Numbers that are no more than others. -/
theorem weighed {L : Limit} {κ : ℚ} {l : List Deal}
    (h : ∀ d ∈ l, ∃ v, L.weigh d.target d.amt = some v ∧ v ≤ κ * d.amt) : ∃ vs : List ℚ,
    l.map (fun d => L.weigh d.target d.amt) = vs.map some ∧ vs.sum ≤ κ * (l.map Deal.amt).sum := by
  induction l with
  | nil => exact ⟨[], rfl, by simp⟩
  | cons d l ih =>
    obtain ⟨v, h1, h2⟩ := h d (by simp)
    obtain ⟨vs, h3, h4⟩ := ih fun x hx => h x (by simp [hx])
    refine ⟨v :: vs, by simp [h1, h3], ?_⟩
    simp only [List.sum_cons, List.map_cons, mul_add]
    linarith

/-- An exclusive order is filled if someone offers enough for all who may want the same, and a further
constraint does not matter. -/
theorem filled' {asks : List (List Ask)} {offers : List (List Offer)} {ds : List Deal}
    (F : Fair asks offers ds) {j p : Nat} {as : List Ask} {a : Ask} (hj : asks[j]? = some as)
    (hp : as[p]? = some a) {k : String} {m : NMat} (hk : (k, m) ∈ a.alts)
    (hm : 0 < a.amount ∧ a.amount ≤ qty m) {i : Nat} {os : List Offer} {o : Offer}
    (hi : offers[i]? = some os) (ho : o ∈ os) (hos : ∀ o' ∈ os, o'.commod = k → o' = o)
    (h1 : o.commod = k) (h2 : o.least ≤ a.amount) (h3 : o.piece = none) (h4 : o.serves m = true)
    {B : List ℚ} (hB : B.length = asks.length)
    (hb : ∀ (j : Nat) as b, asks[j]? = some as → B[j]? = some b →
      (0 ≤ b ∧ ∀ a ∈ as, ∀ x ∈ a.alts, x.1 ≠ k) ∨ (as.map Ask.amount).sum ≤ b)
    (hcap : B.sum ≤ o.cap)
    (h5 : ∀ L ∈ o.limits, ∃ κ, 0 ≤ κ ∧ κ * B.sum ≤ L.cap ∧
      ∀ d ∈ ds ++ [⟨i, j, p, k, m, a.amount⟩], d.src = i → d.commod = k →
        ∃ v, L.weigh d.target d.amt = some v ∧ v ≤ κ * d.amt)
    (E : ¬ Fair asks offers (ds ++ [⟨i, j, p, k, m, a.amount⟩])) : ∃ d ∈ ds, d.dst = j ∧ d.port = p := by
  by_contra hno
  push Not at hno
  set d : Deal := ⟨i, j, p, k, m, a.amount⟩ with hd
  have hport : dealt (ds ++ [d]) (fun e => e.dst = j ∧ e.port = p) = a.amount := by
    rw [dealt_append, dealt_zero, dealt_single, if_pos (by simp [hd]), zero_add]
    intro e he
    simpa using hno e he
  have ham : ∀ as', asks[j]? = some as' → ∀ a', as'[p]? = some a' → a' = a := by
    intro as' has' a' ha'
    rw [hj, Option.some.injEq] at has'
    subst has'
    rw [hp, Option.some.injEq] at ha'
    exact ha'.symm
  have hall : dealt (ds ++ [d]) (fun e => e.commod = k) ≤ B.sum := by
    refine demand_le (asks := asks) ?_ ?_ ?_ hB hb
    · intro e he
      rcases List.mem_append.1 he with he | he
      · exact (F.pos e he).1
      · rw [List.mem_singleton.1 he]; exact hm.1
    · intro e he
      rcases List.mem_append.1 he with he | he
      · obtain ⟨as', k1, a', k2, k3, -⟩ := F.asked e he
        exact ⟨as', k1, a', k2, k3⟩
      · rw [List.mem_singleton.1 he]; exact ⟨as, hj, a, hp, hk⟩
    · intro j' as' hj' p' a' hp'
      by_cases e : j = j' ∧ p = p'
      · obtain ⟨rfl, rfl⟩ := e
        rw [ham as' hj' a' hp', hport]
      · rw [dealt_append, dealt_single, if_neg (by simpa [hd] using e), add_zero]
        exact F.amounts j' as' hj' p' a' hp'
  have hsum : dealt (ds ++ [d]) (fun e => e.src = i ∧ e.commod = k) ≤ B.sum := by
    refine le_trans (dealt_mono ?_ ?_) hall
    · intro e he
      rcases List.mem_append.1 he with he | he
      · exact (F.pos e he).1.le
      · rw [List.mem_singleton.1 he]; exact hm.1.le
    · intro e _ he
      simp only [decide_eq_true_eq] at he ⊢
      exact he.2
  have hos' : ∀ os', offers[i]? = some os' → ∀ o' ∈ os', o'.commod = k → o' = o := by
    intro os' hos' o' ho' e
    rw [hi, Option.some.injEq] at hos'
    subst hos'
    exact hos o' ho' e
  refine E (F.add' hm ⟨os, hi, o, ho, h1, h2, ?_, h4⟩ ⟨as, hj, a, hp, hk, fun _ => rfl⟩ ?_ ?_ ?_)
  · intro u hu
    rw [h3] at hu; cases hu
  · intro os' h o' ho' e L hL
    rw [hos' os' h o' ho' e] at hL
    obtain ⟨κ, h6, h7, h8⟩ := h5 L hL
    obtain ⟨vs, h9, h10⟩ := weighed (L := L) (κ := κ)
      (l := (ds ++ [d]).filter fun e => e.src = i ∧ e.commod = k) (by
        intro e he
        obtain ⟨he1, he2⟩ := List.mem_filter.1 he
        have he2 := of_decide_eq_true he2
        exact h8 e he1 he2.1 he2.2)
    exact ⟨vs, h9, h10.trans ((mul_le_mul_of_nonneg_left hsum h6).trans h7)⟩
  · intro os' h o' ho' e
    rw [hos' os' h o' ho' e]
    exact hsum.trans hcap
  · intro as' has' a' ha'
    rw [ham as' has' a' ha']
    exact hport.le

/-- An exclusive order is filled if someone offers enough for all who may want the same. -/
theorem filled {asks : List (List Ask)} {offers : List (List Offer)} {ds : List Deal}
    (F : Fair asks offers ds) (E : ∀ d, Fixed asks offers d → ¬ Fair asks offers (ds ++ [d]))
    {j p : Nat} {as : List Ask} {a : Ask} (hj : asks[j]? = some as) (hp : as[p]? = some a)
    (hw : a.whole = true) {k : String} {m : NMat} (hk : (k, m) ∈ a.alts)
    (hm : 0 < a.amount ∧ a.amount ≤ qty m) {i : Nat} {o : Offer} (hi : offers[i]? = some [o])
    (h1 : o.commod = k) (h2 : o.least ≤ a.amount) (h3 : o.piece = none) (h4 : o.serves m = true)
    (h5 : o.limits = []) {B : List ℚ} (hB : B.length = asks.length)
    (hb : ∀ (j : Nat) as b, asks[j]? = some as → B[j]? = some b →
      (0 ≤ b ∧ ∀ a ∈ as, ∀ x ∈ a.alts, x.1 ≠ k) ∨ (as.map Ask.amount).sum ≤ b)
    (hcap : B.sum ≤ o.cap) : ∃ d ∈ ds, d.dst = j ∧ d.port = p := by
  refine filled' F hj hp hk hm hi (List.mem_singleton.2 rfl)
    (fun o' ho' _ => List.mem_singleton.1 ho') h1 h2 h3 h4 hB hb hcap ?_
    (E _ ⟨?_, Or.inl ⟨as, hj, a, hp, hw, rfl⟩⟩)
  · intro L hL
    rw [h5] at hL
    cases hL
  · intro os hos o' ho' _
    have hos' := hi.symm.trans hos
    simp only [Option.some.injEq] at hos'
    subst hos'
    rw [List.mem_singleton.1 ho', h5]

/-- Exclusive bids are taken as long as there are any, if someone asks for enough of what all offer who
may offer the same. -/
theorem taken {asks : List (List Ask)} {offers : List (List Offer)} {ds : List Deal}
    (F : Fair asks offers ds) (E : ∀ d, Fixed asks offers d → ¬ Fair asks offers (ds ++ [d]))
    {i : Nat} {os : List Offer} {o : Offer} {u : ℚ} (hi : offers[i]? = some os) (ho : o ∈ os)
    (hu : o.piece = some u) (h0 : 0 < u) (h1 : o.least ≤ u) (h2 : ∀ m, o.serves m = true)
    (h3 : ∀ o' ∈ os, o'.commod = o.commod → o'.cap = o.cap ∧ o'.limits = [])
    {j : Nat} {a : Ask} (hj : asks[j]? = some [a]) {m : NMat} (hm : (o.commod, m) ∈ a.alts)
    (hum : u ≤ qty m) (hw : a.whole = false) {B : List ℚ} (hB : B.length = offers.length)
    (hb : ∀ (i' : Nat) b, B[i']? = some b →
      dealt (ds ++ [⟨i, j, 0, o.commod, m, u⟩]) (fun d => d.dst = j ∧ d.src = i') ≤ b)
    (hcap : B.sum ≤ a.amount) :
    o.cap < dealt ds (fun d => d.src = i ∧ d.commod = o.commod) + u := by
  by_contra hno
  push Not at hno
  set d : Deal := ⟨i, j, 0, o.commod, m, u⟩ with hd
  have hl : ∀ os, offers[i]? = some os → ∀ o' ∈ os, o'.commod = o.commod →
      o'.cap = o.cap ∧ o'.limits = [] := by
    intro os' hos' o' ho' e
    rw [hi, Option.some.injEq] at hos'
    subst hos'
    exact h3 o' ho' e
  refine E d ⟨fun os' h o' ho' e => (hl os' h o' ho' e).2, Or.inr ⟨os, hi, o, ho, rfl, hu⟩⟩
    (F.add ⟨h0, hum⟩ ⟨os, hi, o, ho, rfl, h1, ?_, h2 m⟩ ⟨[a], hj, a, rfl, hm, ?_⟩
      (fun os' h o' ho' e => (hl os' h o' ho' e).2) ?_ ?_)
  · intro v hv
    rw [hu, Option.some.injEq] at hv
    exact hv
  · intro h; rw [hw] at h; cases h
  · intro os' hos' o' ho' e
    rw [(hl os' hos' o' ho' e).1, dealt_append, dealt_single, if_pos (by simp)]
    exact hno
  · intro as' has' a' ha'
    have has := hj.symm.trans has'
    simp only [Option.some.injEq] at has
    subst has
    obtain rfl : a = a' := by simpa [hd] using ha'
    refine le_trans ?_ hcap
    have hpos : ∀ e ∈ ds ++ [d], 0 ≤ e.amt := by
      intro e he
      rcases List.mem_append.1 he with he | he
      · exact (F.pos e he).1.le
      · rw [List.mem_singleton.1 he]; exact h0.le
    refine le_trans (dealt_mono (q := fun e => e.dst = j) hpos ?_) ?_
    · intro e _ he
      simp only [decide_eq_true_eq] at he ⊢
      exact he.1
    · rw [dealt_split Deal.src (n := offers.length)]
      · refine sum_le_of_get hB fun i' b hb' => ?_
        refine le_of_eq_of_le ?_ (hb i' b hb')
        congr 1
        funext e
        rw [Bool.eq_iff_iff]; simp
      · intro e he _
        rcases List.mem_append.1 he with he | he
        · obtain ⟨os', k1, -⟩ := F.offered e he
          exact (List.getElem?_eq_some_iff.1 k1).1
        · rw [List.mem_singleton.1 he]; exact (List.getElem?_eq_some_iff.1 hi).1

end Cyc.Sim
