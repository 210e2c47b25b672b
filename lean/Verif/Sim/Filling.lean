import Verif.Sim.Eager
import Verif.Sim.Example
import Mathlib.Data.Rat.Floor

/-!
# An exchange that leaves no exclusive order alone

It goes through all the deals that might be made and makes each as often as possible.
-/

namespace Cyc.Sim

/-- The deals that an offer, an alternative of a request and an exclusive amount make. -/
def candidates (asks : List (List Ask)) (offers : List (List Offer)) : List Deal :=
  offers.zipIdx.flatMap fun (os, k) => os.flatMap fun o => asks.zipIdx.flatMap fun (as, j) =>
    as.zipIdx.flatMap fun (a, p) => a.alts.flatMap fun x =>
      (a.amount :: o.piece.toList).map fun q => ⟨k, j, p, x.1, x.2, q⟩

/-- A deal, up to `n` times. -/
def fill (asks : List (List Ask)) (offers : List (List Offer)) (d : Deal) : Nat → List Deal → List Deal
  | 0, ds => ds
  | n + 1, ds => if fairB asks offers (ds ++ [d]) then fill asks offers d n (ds ++ [d]) else ds

/-- How much is asked for where the deal goes. -/
def asked (asks : List (List Ask)) (d : Deal) : ℚ :=
  (((asks[d.dst]?.getD [])[d.port]?).map Ask.amount).getD 0

/-- An exchange that makes every deal of an exclusive amount as often as possible. -/
def filling : Exchange := fun asks offers =>
  (candidates asks offers).foldl (fun ds d => fill asks offers d (⌈asked asks d / d.amt⌉₊ + 1) ds) []

theorem limitB_of {L : Limit} {ds : List Deal} (h : ∃ vs : List ℚ,
    ds.map (fun d => L.weigh d.target d.amt) = vs.map some ∧ vs.sum ≤ L.cap) : limitB L ds = true := by
  obtain ⟨vs, h1, h2⟩ := h
  simp only [limitB, Bool.and_eq_true, List.all_eq_true, decide_eq_true_eq]
  constructor
  · intro d hd
    have : L.weigh d.target d.amt ∈ vs.map some := h1 ▸ List.mem_map_of_mem hd
    obtain ⟨v, -, e⟩ := List.mem_map.1 this
    rw [← e]; rfl
  · have e : ds.map (fun d => (L.weigh d.target d.amt).getD 0) = vs := by
      have := congrArg (List.map fun o : Option ℚ => o.getD 0) h1
      simpa [Function.comp_def] using this
    rw [e]
    exact h2

theorem fairB_of_fair {asks : List (List Ask)} {offers : List (List Offer)} {ds : List Deal}
    (F : Fair asks offers ds) : fairB asks offers ds = true := by
  simp only [fairB, Bool.and_eq_true, List.all_eq_true, List.any_eq_true, decide_eq_true_eq]
  refine ⟨⟨⟨⟨⟨F.pos, ?_⟩, ?_⟩, ?_⟩, ?_⟩, ?_⟩
  · intro d hd
    obtain ⟨os, e1, o, e2, e3, e4, e5, e6⟩ := F.offered d hd
    rw [e1]
    refine ⟨o, e2, e3, e4, ?_, e6⟩
    cases e : o.piece with
    | none => exact Or.inl rfl
    | some u => exact Or.inr (by rw [e5 u e])
  · intro d hd
    obtain ⟨as, e1, a, e2, e3⟩ := F.asked d hd
    rw [e1, Option.getD_some, e2]
    exact decide_eq_true e3
  · rintro ⟨os, k⟩ hk o ho
    exact F.caps k os (List.mem_zipIdx_iff_getElem?.1 hk) o ho
  · rintro ⟨os, k⟩ hk o ho L hL
    exact limitB_of (F.limits k os (List.mem_zipIdx_iff_getElem?.1 hk) o ho L hL)
  · rintro ⟨as, j⟩ hj ⟨a, p⟩ hp
    exact F.amounts j as (List.mem_zipIdx_iff_getElem?.1 hj) p a (List.mem_zipIdx_iff_getElem?.1 hp)

theorem fill_spec {asks : List (List Ask)} {offers : List (List Offer)} {d : Deal} (n : Nat) :
    ∀ {ds : List Deal}, Fair asks offers ds → ∃ more, fill asks offers d n ds = ds ++ more ∧
      Fair asks offers (ds ++ more) ∧
      (¬ Fair asks offers (ds ++ more ++ [d]) ∨ more = List.replicate n d) := by
  induction n with
  | zero => intro ds F; exact ⟨[], by simp [fill], by simpa using F, Or.inr rfl⟩
  | succ n ih =>
    intro ds F
    unfold fill
    split
    · rename_i h
      obtain ⟨more, h1, h2, h3⟩ := ih (fair_of_fairB h)
      refine ⟨d :: more, by simpa using h1, by simpa using h2, ?_⟩
      rcases h3 with h3 | h3
      · exact Or.inl (by simpa using h3)
      · exact Or.inr (by rw [h3, List.replicate_succ])
    · rename_i h
      exact ⟨[], by simp, by simpa using F, Or.inl fun G => h (fairB_of_fair (by simpa using G))⟩

theorem dealt_replicate (d : Deal) (p : Deal → Bool) (hp : p d = true) (n : Nat) :
    dealt (List.replicate n d) p = n * d.amt := by
  induction n with
  | zero => simp
  | succ n ih =>
    rw [List.replicate_succ, dealt_cons, ih, if_pos hp]
    push_cast
    ring

theorem fill_done {asks : List (List Ask)} {offers : List (List Offer)} {d : Deal} {ds : List Deal}
    (F : Fair asks offers ds) : ∃ more,
      fill asks offers d (⌈asked asks d / d.amt⌉₊ + 1) ds = ds ++ more ∧
      Fair asks offers (ds ++ more) ∧ ¬ Fair asks offers (ds ++ more ++ [d]) := by
  obtain ⟨more, h1, h2, h3⟩ := fill_spec (d := d) (⌈asked asks d / d.amt⌉₊ + 1) F
  refine ⟨more, h1, h2, h3.elim id fun e => ?_⟩
  intro G
  have hd : d ∈ ds ++ more ++ [d] := by simp
  obtain ⟨as, e1, a, e2, -⟩ := G.asked d hd
  have e3 : asked asks d = a.amount := by simp [asked, e1, e2]
  have h5 := h2.amounts _ as e1 _ a e2
  have h6 := (G.pos d hd).1
  rw [dealt_append, e, dealt_replicate _ _ (by simp), e3] at h5
  have h7 := dealt_nonneg (ds := ds) (fun x hx => (F.pos x hx).1.le)
    (fun e => e.dst = d.dst ∧ e.port = d.port)
  have h8 := Nat.le_ceil (a.amount / d.amt)
  rw [div_le_iff₀ h6] at h8
  push_cast at h5
  nlinarith

theorem foldl_done {asks : List (List Ask)} {offers : List (List Offer)} (l : List Deal) :
    ∀ {ds : List Deal}, Fair asks offers ds → ∃ more,
      l.foldl (fun ds d => fill asks offers d (⌈asked asks d / d.amt⌉₊ + 1) ds) ds = ds ++ more ∧
      Fair asks offers (ds ++ more) ∧ ∀ d ∈ l,
        (∀ os, offers[d.src]? = some os → ∀ o ∈ os, o.commod = d.commod → o.limits = []) →
        ¬ Fair asks offers (ds ++ more ++ [d]) := by
  induction l with
  | nil => intro ds F; exact ⟨[], by simp, by simpa using F, by simp⟩
  | cons d l ih =>
    intro ds F
    obtain ⟨more, h1, h2, h3⟩ := fill_done (d := d) F
    obtain ⟨more', h4, h5, h6⟩ := ih h2
    refine ⟨more ++ more', by rw [List.foldl_cons, h1, h4]; simp, by simpa using h5, ?_⟩
    intro e he hl
    rcases List.mem_cons.1 he with rfl | he
    · intro G
      exact h3 (h2.earlier (more := more') (by simpa using G) hl)
    · intro G
      exact h6 e he hl (by simpa using G)

theorem filling_fair : filling.Fair := by
  intro asks offers h1 h2
  obtain ⟨more, e, F, -⟩ := foldl_done (candidates asks offers) (fair_nil h1 h2)
  unfold filling
  rw [e]
  exact F

/-- A deal of an exclusive amount that may be made is among those that might be made. -/
theorem mem_candidates {asks : List (List Ask)} {offers : List (List Offer)} {ds : List Deal} {d : Deal}
    (hd : Wanted asks offers d) (G : Fair asks offers (ds ++ [d])) : d ∈ candidates asks offers := by
  have hmem : d ∈ ds ++ [d] := by simp
  obtain ⟨as, a1, a, a2, a3, -⟩ := G.asked d hmem
  have key : ∀ os, offers[d.src]? = some os → ∀ o ∈ os, d.amt ∈ a.amount :: o.piece.toList →
      d ∈ candidates asks offers := by
    intro os ho o hm hq
    refine List.mem_flatMap.2 ⟨(os, d.src), List.mem_zipIdx_iff_getElem?.2 ho, ?_⟩
    refine List.mem_flatMap.2 ⟨o, hm, ?_⟩
    refine List.mem_flatMap.2 ⟨(as, d.dst), List.mem_zipIdx_iff_getElem?.2 a1, ?_⟩
    refine List.mem_flatMap.2 ⟨(a, d.port), List.mem_zipIdx_iff_getElem?.2 a2, ?_⟩
    refine List.mem_flatMap.2 ⟨(d.commod, d.target), a3, ?_⟩
    exact List.mem_map.2 ⟨d.amt, hq, rfl⟩
  rcases hd with ⟨as', b1, a', b2, -, b3⟩ | ⟨os, b1, o, b2, -, b3⟩
  · obtain rfl := Option.some.inj (b1.symm.trans a1)
    obtain rfl := Option.some.inj (b2.symm.trans a2)
    obtain ⟨os, c1, o, c2, -⟩ := G.offered d hmem
    exact key os c1 o c2 (by rw [b3]; simp)
  · exact key os b1 o b2 (by rw [b3]; simp)

theorem filling_eager : filling.Eager := by
  intro asks offers h1 h2 d hd G
  obtain ⟨more, e, F, hl⟩ := foldl_done (candidates asks offers) (fair_nil h1 h2)
  unfold filling at G
  rw [e] at G
  exact hl d (mem_candidates hd.2 G) hd.1 G

end Cyc.Sim
