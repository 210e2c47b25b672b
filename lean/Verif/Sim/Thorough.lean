import Verif.Sim.Filling

/-!
# An exchange that leaves no trade of any amount alone

It makes the deals of exclusive amounts first and then pours what is left.
-/

namespace Cyc.Sim

/-- The deal may have any amount: neither the order nor the bid is exclusive, and the supplier has no
further constraints on its commodity. -/
def Loose (asks : List (List Ask)) (offers : List (List Offer)) (d : Deal) : Prop :=
  (∀ os, offers[d.src]? = some os → ∀ o ∈ os, o.commod = d.commod → o.limits = [] ∧ o.piece = none) ∧
  ∃ as, asks[d.dst]? = some as ∧ ∃ a, as[d.port]? = some a ∧ a.whole = false

/-- The exchange leaves nobody with an offer and nobody with a request for which a deal could be added,
unless orders or bids are exclusive. -/
def Exchange.Thorough (ex : Exchange) : Prop := ∀ asks offers, (∀ as ∈ asks, ∀ a ∈ as, 0 ≤ a.amount) →
  (∀ os ∈ offers, ∀ o ∈ os, 0 ≤ o.cap ∧ ∀ L ∈ o.limits, 0 ≤ L.cap) →
  ∀ d, Loose asks offers d → ¬ Sim.Fair asks offers (ex asks offers ++ [d])

/-! ## Such an exchange -/

/-- The most that may still be dealt like `d`. -/
def spare (asks : List (List Ask)) (offers : List (List Offer)) (ds : List Deal) (d : Deal) : ℚ :=
  ((offers[d.src]?.getD []).filter fun o => o.commod = d.commod).foldl
    (fun q o => min q (o.cap - dealt ds fun e => e.src = d.src ∧ e.commod = d.commod))
    (min (qty d.target) (asked asks d - dealt ds fun e => e.dst = d.dst ∧ e.port = d.port))

/-- The deal with the most that is possible, up to `n` times. -/
def pour (asks : List (List Ask)) (offers : List (List Offer)) (d : Deal) : Nat → List Deal → List Deal
  | 0, ds => ds
  | n + 1, ds =>
    if fairB asks offers (ds ++ [{ d with amt := spare asks offers ds d }]) then
      pour asks offers d n (ds ++ [{ d with amt := spare asks offers ds d }])
    else ds

/-- An exchange that makes all deals of exclusive amounts that are possible, and then pours. -/
def pouring : Exchange := fun asks offers =>
  (candidates asks offers).foldl
    (fun ds d => pour asks offers d (⌈asked asks d / qty d.target⌉₊ + 1) ds) (filling asks offers)

theorem foldl_min_le {α : Type} (f : α → ℚ) (l : List α) : ∀ b : ℚ,
    l.foldl (fun q o => min q (f o)) b ≤ b ∧ ∀ o ∈ l, l.foldl (fun q o => min q (f o)) b ≤ f o := by
  induction l with
  | nil => intro b; simp
  | cons a l ih =>
    intro b
    obtain ⟨h1, h2⟩ := ih (min b (f a))
    rw [List.foldl_cons]
    refine ⟨h1.trans (min_le_left _ _), fun o ho => ?_⟩
    rcases List.mem_cons.1 ho with rfl | ho
    · exact h1.trans (min_le_right _ _)
    · exact h2 o ho

theorem le_foldl_min {α : Type} (f : α → ℚ) (l : List α) {c : ℚ} : ∀ {b : ℚ}, c ≤ b →
    (∀ o ∈ l, c ≤ f o) → c ≤ l.foldl (fun q o => min q (f o)) b := by
  induction l with
  | nil => intro b h _; exact h
  | cons a l ih =>
    intro b h1 h2
    exact ih (le_min h1 (h2 a (by simp))) fun o ho => h2 o (by simp [ho])

/-- If some amount can still be dealt, so can the most. -/
theorem spare_fits {asks : List (List Ask)} {offers : List (List Offer)} {ds : List Deal} {d : Deal}
    (F : Fair asks offers ds) (hl : Loose asks offers d) (G : Fair asks offers (ds ++ [d])) :
    Fair asks offers (ds ++ [{ d with amt := spare asks offers ds d }]) ∧
      d.amt ≤ spare asks offers ds d := by
  have hd : d ∈ ds ++ [d] := by simp
  obtain ⟨os, e1, o, e2, e3, e4, e5, e6⟩ := G.offered d hd
  obtain ⟨as, f1, a, f2, f3, -⟩ := G.asked d hd
  obtain ⟨hl1, as', g1, a', g2, g3⟩ := hl
  obtain rfl := Option.some.inj (f1.symm.trans g1)
  obtain rfl := Option.some.inj (f2.symm.trans g2)
  have ea : asked asks d = a.amount := by simp [asked, f1, f2]
  have hle : d.amt ≤ spare asks offers ds d := by
    unfold spare
    apply le_foldl_min
    · refine le_min (G.pos d hd).2 ?_
      have := G.amounts _ as f1 _ a f2
      rw [dealt_append, dealt_single, if_pos (by simp)] at this
      rw [ea]; linarith
    · intro o' ho'
      obtain ⟨h1, h2⟩ := List.mem_filter.1 ho'
      rw [e1, Option.getD_some] at h1
      simp only [decide_eq_true_eq] at h2
      have := G.caps _ os e1 o' h1
      rw [h2, dealt_append, dealt_single, if_pos (by simp)] at this
      linarith
  have hsp := foldl_min_le (fun o : Offer => o.cap - dealt ds fun e => e.src = d.src ∧ e.commod = d.commod)
    ((offers[d.src]?.getD []).filter fun o => o.commod = d.commod)
    (min (qty d.target) (asked asks d - dealt ds fun e => e.dst = d.dst ∧ e.port = d.port))
  change spare asks offers ds d ≤ _ ∧ ∀ o ∈ _, spare asks offers ds d ≤ _ at hsp
  refine ⟨F.add ⟨lt_of_lt_of_le (G.pos d hd).1 hle, hsp.1.trans (min_le_left _ _)⟩ ?_ ?_ ?_ ?_ ?_, hle⟩
  · exact ⟨os, e1, o, e2, e3, e4.trans hle, fun u hu => absurd ((hl1 os e1 o e2 e3).2.symm.trans hu) (by simp), e6⟩
  · exact ⟨as, f1, a, f2, f3, fun h => by rw [g3] at h; cases h⟩
  · exact fun os' h o' ho' e => (hl1 os' h o' ho' e).1
  · intro os' h o' ho' e
    obtain rfl := Option.some.inj (e1.symm.trans h)
    have := hsp.2 o' (List.mem_filter.2 ⟨by rw [e1]; exact ho', by simpa using e⟩)
    rw [dealt_append, dealt_single, if_pos (by simp)]
    show _ + spare asks offers ds d ≤ _
    linarith
  · intro as' h a' ha'
    obtain rfl := Option.some.inj (f1.symm.trans h)
    obtain rfl := Option.some.inj (f2.symm.trans ha')
    have := hsp.1.trans (min_le_right _ _)
    rw [dealt_append, dealt_single, if_pos (by simp)]
    show _ + spare asks offers ds d ≤ _
    rw [ea] at this
    linarith

theorem pour_spec {asks : List (List Ask)} {offers : List (List Offer)} {d : Deal} (n : Nat) :
    ∀ {ds : List Deal}, Fair asks offers ds → ∃ more, pour asks offers d n ds = ds ++ more ∧
      Fair asks offers (ds ++ more) ∧
      (¬ Fair asks offers (ds ++ more ++ [{ d with amt := spare asks offers (ds ++ more) d }]) ∨
        (n * qty d.target ≤ dealt more fun e => e.dst = d.dst ∧ e.port = d.port) ∨
        spare asks offers (ds ++ more) d ≤ 0) := by
  induction n with
  | zero => intro ds F; exact ⟨[], by simp [pour], by simpa using F, Or.inr (Or.inl (by simp))⟩
  | succ n ih =>
    intro ds F
    unfold pour
    split
    · rename_i h
      have G := fair_of_fairB h
      obtain ⟨more, h1, h2, h3⟩ := ih G
      refine ⟨{ d with amt := spare asks offers ds d } :: more, by simpa using h1, by simpa using h2, ?_⟩
      rcases h3 with h3 | h3 | h3
      · exact Or.inl (by simpa using h3)
      · -- the deal was of the whole target, or nothing is left
        right
        set r := spare asks offers ds d with hr
        by_cases e : qty d.target ≤ r
        · left
          rw [dealt_cons, if_pos (by simp)]
          push_cast
          show _ ≤ r + _
          linarith
        · right
          push Not at e
          have hpos := fun p => dealt_nonneg (ds := more) (fun x hx => (h2.pos x (by simp [hx])).1.le) p
          -- r is one of them
          have att : ∀ (f : Offer → ℚ) (l : List Offer) (b : ℚ), l.foldl (fun q o => min q (f o)) b = b ∨
              ∃ o ∈ l, l.foldl (fun q o => min q (f o)) b = f o := by
            intro f l
            induction l with
            | nil => intro b; exact Or.inl rfl
            | cons a l ih =>
              intro b
              rw [List.foldl_cons]
              rcases ih (min b (f a)) with h | ⟨o, ho, h⟩
              · rw [h]
                rcases min_choice b (f a) with h' | h'
                · exact Or.inl h'
                · exact Or.inr ⟨a, by simp, h'⟩
              · exact Or.inr ⟨o, by simp [ho], h⟩
          have hsp := foldl_min_le (fun o : Offer => o.cap -
              dealt (ds ++ { d with amt := r } :: more) fun e => e.src = d.src ∧ e.commod = d.commod)
            ((offers[d.src]?.getD []).filter fun o => o.commod = d.commod)
            (min (qty d.target) (asked asks d -
              dealt (ds ++ { d with amt := r } :: more) fun e => e.dst = d.dst ∧ e.port = d.port))
          change spare asks offers _ d ≤ _ ∧ ∀ o ∈ _, spare asks offers _ d ≤ _ at hsp
          rcases att (fun o : Offer => o.cap - dealt ds fun e => e.src = d.src ∧ e.commod = d.commod)
              ((offers[d.src]?.getD []).filter fun o => o.commod = d.commod)
              (min (qty d.target) (asked asks d - dealt ds fun e => e.dst = d.dst ∧ e.port = d.port))
            with h | ⟨o, ho, h⟩
          · change r = _ at h
            have h' : r = asked asks d - dealt ds fun e => e.dst = d.dst ∧ e.port = d.port := by
              rcases min_choice (qty d.target)
                (asked asks d - dealt ds fun e => e.dst = d.dst ∧ e.port = d.port) with h' | h'
              · rw [h'] at h; linarith
              · rw [h'] at h; exact h
            refine (hsp.1.trans (min_le_right _ _)).trans ?_
            rw [dealt_append, dealt_cons, if_pos (by simp)]
            show _ - (_ + (r + _)) ≤ _
            have := hpos fun e => e.dst = d.dst ∧ e.port = d.port
            linarith
          · change r = _ at h
            refine (hsp.2 o ho).trans ?_
            rw [dealt_append, dealt_cons, if_pos (by simp)]
            show _ - (_ + (r + _)) ≤ _
            have := hpos fun e => e.src = d.src ∧ e.commod = d.commod
            linarith
      · exact Or.inr (Or.inr (by simpa using h3))
    · rename_i h
      exact ⟨[], by simp, by simpa using F, Or.inl fun G => h (fairB_of_fair (by simpa using G))⟩

theorem pour_done {asks : List (List Ask)} {offers : List (List Offer)} {d : Deal} {ds : List Deal}
    (F : Fair asks offers ds) : ∃ more,
      pour asks offers d (⌈asked asks d / qty d.target⌉₊ + 1) ds = ds ++ more ∧
      Fair asks offers (ds ++ more) ∧ ∀ e : Deal, Loose asks offers e →
        (e.src, e.dst, e.port, e.commod, e.target) = (d.src, d.dst, d.port, d.commod, d.target) →
        ¬ Fair asks offers (ds ++ more ++ [e]) := by
  obtain ⟨more, h1, h2, h3⟩ := pour_spec (d := d) (⌈asked asks d / qty d.target⌉₊ + 1) F
  refine ⟨more, h1, h2, ?_⟩
  intro e hl he G
  obtain ⟨s, j, p, k, m, q⟩ := e
  obtain ⟨s', j', p', k', m', q'⟩ := d
  simp only [Prod.mk.injEq] at he
  obtain ⟨rfl, rfl, rfl, rfl, rfl⟩ := he
  obtain ⟨h4, h5⟩ := spare_fits h2 hl G
  have hpos := G.pos _ (show (⟨s, j, p, k, m, q⟩ : Deal) ∈ _ by simp)
  rcases h3 with h3 | h3 | h3
  · exact h3 h4
  · obtain ⟨as, e1, a, e2, -⟩ := G.asked ⟨s, j, p, k, m, q⟩ (by simp)
    have e3 : asked asks ⟨s, j, p, k, m, q'⟩ = a.amount := by simp [asked, e1, e2]
    have h6 := h2.amounts _ as e1 _ a e2
    rw [dealt_append] at h6
    have h7 := dealt_nonneg (ds := ds) (fun x hx => (F.pos x hx).1.le) fun e => e.dst = j ∧ e.port = p
    have hm : 0 < qty m := lt_of_lt_of_le hpos.1 hpos.2
    have h8 := Nat.le_ceil (asked asks ⟨s, j, p, k, m, q'⟩ / qty m)
    rw [div_le_iff₀ hm, e3] at h8
    rw [e3] at h3
    push_cast at h3
    change _ ≤ dealt more fun e => e.dst = j ∧ e.port = p at h3
    change dealt ds (fun e => e.dst = j ∧ e.port = p) + dealt more (fun e => e.dst = j ∧ e.port = p) ≤ _ at h6
    change (↑⌈a.amount / qty m⌉₊ + 1) * qty m ≤ _ at h3
    nlinarith
  · change q ≤ spare asks offers (ds ++ more) ⟨s, j, p, k, m, q⟩ at h5
    change spare asks offers (ds ++ more) ⟨s, j, p, k, m, q⟩ ≤ 0 at h3
    exact absurd hpos.1 (not_lt.2 (h5.trans h3))

theorem pour_fold {asks : List (List Ask)} {offers : List (List Offer)} (l : List Deal) :
    ∀ {ds : List Deal}, Fair asks offers ds → ∃ more,
      l.foldl (fun ds d => pour asks offers d (⌈asked asks d / qty d.target⌉₊ + 1) ds) ds = ds ++ more ∧
      Fair asks offers (ds ++ more) ∧ ∀ e, Loose asks offers e → (∃ d ∈ l,
        (e.src, e.dst, e.port, e.commod, e.target) = (d.src, d.dst, d.port, d.commod, d.target)) →
        ¬ Fair asks offers (ds ++ more ++ [e]) := by
  induction l with
  | nil => intro ds F; exact ⟨[], by simp, by simpa using F, by simp⟩
  | cons d l ih =>
    intro ds F
    obtain ⟨more, h1, h2, h3⟩ := pour_done (d := d) F
    obtain ⟨more', h4, h5, h6⟩ := ih h2
    refine ⟨more ++ more', by rw [List.foldl_cons, h1, h4]; simp, by simpa using h5, ?_⟩
    rintro e hl ⟨d', hd', he⟩ G
    rcases List.mem_cons.1 hd' with rfl | hd'
    · exact h3 e hl he (h2.earlier (more := more') (by simpa using G)
        fun os h o ho k => (hl.1 os h o ho k).1)
    · exact h6 e hl ⟨d', hd', he⟩ (by simpa using G)

theorem pouring_spec (asks : List (List Ask)) (offers : List (List Offer))
    (h1 : ∀ as ∈ asks, ∀ a ∈ as, 0 ≤ a.amount)
    (h2 : ∀ os ∈ offers, ∀ o ∈ os, 0 ≤ o.cap ∧ ∀ L ∈ o.limits, 0 ≤ L.cap) :
    ∃ more, pouring asks offers = filling asks offers ++ more ∧
      Fair asks offers (filling asks offers ++ more) ∧
      ∀ e, Loose asks offers e → ¬ Fair asks offers (filling asks offers ++ more ++ [e]) := by
  obtain ⟨more, e, F, hl⟩ := pour_fold (candidates asks offers) (filling_fair asks offers h1 h2)
  refine ⟨more, e, F, fun d hd G => hl d hd ?_ G⟩
  have hmem : d ∈ filling asks offers ++ more ++ [d] := by simp
  obtain ⟨os, b1, o, b2, b3, -⟩ := G.offered d hmem
  obtain ⟨as, a1, a, a2, a3, -⟩ := G.asked d hmem
  refine ⟨⟨d.src, d.dst, d.port, d.commod, d.target, a.amount⟩, ?_, rfl⟩
  refine List.mem_flatMap.2 ⟨(os, d.src), List.mem_zipIdx_iff_getElem?.2 b1, ?_⟩
  refine List.mem_flatMap.2 ⟨o, b2, ?_⟩
  refine List.mem_flatMap.2 ⟨(as, d.dst), List.mem_zipIdx_iff_getElem?.2 a1, ?_⟩
  refine List.mem_flatMap.2 ⟨(a, d.port), List.mem_zipIdx_iff_getElem?.2 a2, ?_⟩
  refine List.mem_flatMap.2 ⟨(d.commod, d.target), a3, ?_⟩
  exact List.mem_map.2 ⟨a.amount, by simp, rfl⟩

theorem pouring_fair : pouring.Fair := by
  intro asks offers h1 h2
  obtain ⟨more, e, F, -⟩ := pouring_spec asks offers h1 h2
  rw [e]; exact F

theorem pouring_thorough : pouring.Thorough := by
  intro asks offers h1 h2 d hd
  obtain ⟨more, e, -, h⟩ := pouring_spec asks offers h1 h2
  rw [e]; exact h d hd

theorem pouring_eager : pouring.Eager := by
  intro asks offers h1 h2 d hd G
  obtain ⟨more, e, -, -⟩ := pouring_spec asks offers h1 h2
  rw [e] at G
  exact filling_eager asks offers h1 h2 d hd ((filling_fair asks offers h1 h2).earlier G hd.1)

end Cyc.Sim
