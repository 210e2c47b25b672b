import Verif.Separations.Spec

/-!
# Conservation of every nuclide, and what separation takes out of a material
-/

namespace Cyc.Separations

open Mat (massOf)

/-! ## Fractions -/

theorem entry_eq (effs : List (Nat × ℚ)) (k : Nat) : entry effs k = Map.get? effs k := by
  induction effs with
  | nil => rfl
  | cons e l ih =>
    obtain ⟨k', v⟩ := e
    unfold entry at ih ⊢
    simp only [List.find?_cons, Map.get?]
    by_cases h : k' = k
    · simp [h]
    · simp [h, ih]

theorem element_eq (n : Nat) : element n = n / 10000000 * 10000000 := by
  unfold element; omega

theorem fraction_eq (effs : List (Nat × ℚ)) (n : Nat) : fraction effs n = (effOf effs n).getD 0 := by
  unfold fraction effOf
  rw [entry_eq, entry_eq, element_eq]
  cases Map.get? effs n <;> simp

theorem fraction_nonneg {effs : List (Nat × ℚ)} (h : ∀ e ∈ effs, 0 ≤ e.2) (n : Nat) :
    0 ≤ fraction effs n := by
  have key : ∀ k, ∀ v, Map.get? effs k = some v → 0 ≤ v := fun k v hv => h _ (Map.mem_of_get? hv)
  rw [fraction_eq]; unfold effOf
  cases h1 : Map.get? effs n with
  | some v => simpa using key n v h1
  | none =>
    cases h2 : Map.get? effs (n / 10000000 * 10000000) with
    | some v => simpa using key _ v h2
    | none => simp [h2]

/-! ## `SepMaterial` -/

theorem mass_sepMaterial (effs : List (Nat × ℚ)) (m : NMat) (n : Nat) :
    (sepMaterial effs m).mass n = fraction effs n * m.mass n := by
  unfold sepMaterial Mat.mass
  simp only
  induction m.entries with
  | nil => simp
  | cons e l ih =>
    rw [List.filterMap_cons]
    by_cases hn : e.1 = n
    · subst hn
      rw [fraction_eq] at ih ⊢
      cases he : effOf effs e.1 with
      | none =>
        rw [he] at ih
        simp only [Option.map_none, Option.getD_none, zero_mul] at ih ⊢
        exact ih
      | some v =>
        rw [he] at ih
        simp only [Option.map_some, Option.getD_some, List.filter_cons, decide_true, if_true,
          List.map_cons, List.sum_cons] at ih ⊢
        rw [ih]; ring
    · cases he : effOf effs e.1 with
      | none => simpa [List.filter_cons, hn] using ih
      | some v => simpa [List.filter_cons, hn] using ih

theorem qty_sepMaterial (effs : List (Nat × ℚ)) (m : NMat) :
    qty (sepMaterial effs m) = yield effs [m] := by
  unfold sepMaterial yield
  rw [Mat.qty_def]
  simp only [List.flatMap_cons, List.flatMap_nil, List.append_nil]
  induction m.entries with
  | nil => simp
  | cons e l ih =>
    rw [List.filterMap_cons, List.map_cons, List.sum_cons, ← ih, fraction_eq]
    cases he : effOf effs e.1 with
    | none => simp
    | some v => simp; ring

theorem nonneg_sepMaterial {effs : List (Nat × ℚ)} {m : NMat} (h : ∀ e ∈ effs, 0 ≤ e.2)
    (hm : Mat.Nonneg m) : Mat.Nonneg (sepMaterial effs m) := by
  intro e he
  simp only [sepMaterial, List.mem_filterMap] at he
  obtain ⟨a, ha, he⟩ := he
  cases hf : effOf effs a.1 with
  | none => simp [hf] at he
  | some v =>
    rw [hf] at he
    simp only [Option.map_some, Option.some.injEq] at he
    subst he
    have := fraction_nonneg h a.1
    rw [fraction_eq, hf] at this
    exact mul_nonneg (hm a ha) this

/-! ## Conservation -/

/-- Mass of a nuclide in the stream buffers. -/
def bufMass (bufs : List (String × Buf NMat)) (n : Nat) : ℚ :=
  (bufs.map fun b => massOf b.2.items n).sum

theorem massOf_flatMap {α : Type} (l : List α) (f : α → List NMat) (n : Nat) :
    massOf (l.flatMap f) n = (l.map fun a => massOf (f a) n).sum := by
  induction l with
  | nil => simp
  | cons a l ih => simp [ih]

theorem massOf_contents (s : State) (n : Nat) :
    massOf (contents s) n = massOf s.feed.items n + massOf s.leftover.items n + bufMass s.bufs n := by
  simp [contents, massOf_flatMap, bufMass]; ring

theorem bufMass_set (bufs : List (String × Buf NMat)) (k : String) (b : Buf NMat) (n : Nat) :
    bufMass (Map.set bufs k b) n =
      bufMass bufs n - massOf (getBuf bufs k).items n + massOf b.items n :=
  Map.sum_set bufs k b emptyBuf (fun b => massOf b.items n) rfl

theorem push_mass {ε : ℚ} {b b' : Buf NMat} {m : NMat} (h : b.push ε m = .ok b') (n : Nat) :
    massOf b'.items n = massOf b.items n + m.mass n := by
  rw [Buf.push_ok] at h
  rw [h.2]; simp

theorem popLoop_conserve {l a b : List NMat} {q : ℚ} (h : popLoop q l = .ok (a, b)) (n : Nat) :
    massOf a n + massOf b n = massOf l n := by
  induction l generalizing q a b with
  | nil =>
    unfold popLoop at h
    split at h
    · simp only [Except.ok.injEq, Prod.mk.injEq] at h; obtain ⟨rfl, rfl⟩ := h; simp
    · cases h
  | cons m l ih =>
    unfold popLoop at h
    split at h
    · simp only [Except.ok.injEq, Prod.mk.injEq] at h; obtain ⟨rfl, rfl⟩ := h; simp
    · split at h
      · simp only [Except.ok.injEq, Prod.mk.injEq] at h; obtain ⟨rfl, rfl⟩ := h
        simp [Mat.split]; ring
      · simp only [bind_ok] at h
        obtain ⟨⟨a', b'⟩, h1, h2⟩ := h
        simp only [pure_eq_ok, Except.ok.injEq, Prod.mk.injEq] at h2
        obtain ⟨rfl, rfl⟩ := h2
        have := ih h1
        simp; linarith

theorem popEps_conserve {lo ε : ℚ} {b b' : Buf NMat} {q : ℚ} {m : NMat}
    (h : b.popEps lo ε q = .ok (m, b')) (n : Nat) :
    m.mass n + massOf b'.items n = massOf b.items n := by
  unfold Buf.popEps at h
  split at h
  · cases h
  · split at h
    · split at h
      · cases h
      · simp only [Except.ok.injEq, Prod.mk.injEq] at h; obtain ⟨rfl, rfl⟩ := h; simp
    · unfold Buf.popQty at h
      split at h
      · cases h
      · simp only [bind_ok] at h
        obtain ⟨⟨a', r⟩, h1, h2⟩ := h
        simp only [pure_eq_ok, Except.ok.injEq, Prod.mk.injEq] at h2
        obtain ⟨rfl, rfl⟩ := h2
        simpa using popLoop_conserve h1 n

theorem stage_bufMass (mat : NMat) (l : List (String × Stream)) (bufs : List (String × Buf NMat))
    (f : ℚ) (n : Nat) : bufMass (stage mat l bufs f).2.1 n = bufMass bufs n := by
  induction l generalizing bufs f with
  | nil => rfl
  | cons s l ih =>
    simp only [stage]
    rw [ih, bufMass_set]; ring

theorem sepOne_conserve {eps f : ℚ} {x : String × NMat} {mat mat' : NMat}
    {bufs bufs' : List (String × Buf NMat)} {r : SepRec}
    (h : sepOne eps f x mat bufs = .ok (r, mat', bufs')) (n : Nat) :
    mat'.mass n + bufMass bufs' n = mat.mass n + bufMass bufs n := by
  unfold sepOne at h
  split at h
  · simp only [bind_ok] at h
    obtain ⟨⟨ext, rest⟩, h1, b, h2, h3⟩ := h
    simp only [pure_eq_ok, Except.ok.injEq, Prod.mk.injEq] at h3
    obtain ⟨-, rfl, rfl⟩ := h3
    obtain ⟨-, rfl, rfl, -⟩ := Mat.extractComp_inv h1
    rw [bufMass_set, push_mass h2]
    simp only [Mat.mass_sub, Mat.mass_scale]; ring
  · simp only [Except.ok.injEq, Prod.mk.injEq] at h
    obtain ⟨-, rfl, rfl⟩ := h; rfl

theorem sepLoop_conserve {eps f : ℚ} {l : List (String × NMat)} {mat mat' : NMat}
    {bufs bufs' : List (String × Buf NMat)} {rs : List SepRec}
    (h : sepLoop eps f l mat bufs = .ok (rs, mat', bufs')) (n : Nat) :
    mat'.mass n + bufMass bufs' n = mat.mass n + bufMass bufs n := by
  induction l generalizing mat bufs rs with
  | nil =>
    simp only [sepLoop, Except.ok.injEq, Prod.mk.injEq] at h
    obtain ⟨-, rfl, rfl⟩ := h; rfl
  | cons x l ih =>
    simp only [sepLoop, bind_ok] at h
    obtain ⟨⟨r, m1, b1⟩, h1, ⟨rs', m2, b2⟩, h2, h3⟩ := h
    simp only [pure_eq_ok, Except.ok.injEq, Prod.mk.injEq] at h3
    obtain ⟨-, rfl, rfl⟩ := h3
    rw [ih h2, sepOne_conserve h1]

theorem pushLeftover_conserve {c : Cfg} {mat : NMat} {s s' : State}
    (hmat : qty mat ≤ 0 → ∀ n, mat.mass n = 0)
    (h : pushLeftover c mat s = .ok s') (n : Nat) :
    massOf (contents s') n = massOf (contents s) n + mat.mass n := by
  unfold pushLeftover at h
  split at h
  · simp only [bind_ok] at h
    obtain ⟨b, h1, h2⟩ := h
    simp only [pure_eq_ok, Except.ok.injEq] at h2
    subst h2
    simp only [massOf_contents, push_mass h1]; ring
  · rename_i hq
    simp only [Except.ok.injEq] at h
    subst h
    rw [hmat (not_lt.1 hq) n]; ring

theorem split_nonneg {m : NMat} {q : ℚ} (hm : Mat.Nonneg m) (h0 : 0 ≤ q) (hq : q ≤ qty m) :
    Mat.Nonneg (m.split q).1 ∧ Mat.Nonneg (m.split q).2 := by
  have hm0 := hm.qty_nonneg
  refine ⟨hm.scale (by positivity), hm.scale ?_⟩
  rcases hm0.eq_or_lt with h | h
  · rw [← h]; simp
  · have : q / qty m ≤ 1 := by rw [div_le_one h]; exact hq
    linarith

theorem stage_le (mat : NMat) (l : List (String × Stream)) (bufs : List (String × Buf NMat))
    (f : ℚ) : (stage mat l bufs f).2.2 ≤ f := by
  induction l generalizing bufs f with
  | nil => exact le_rfl
  | cons s l ih =>
    simp only [stage]
    refine (ih _ _).trans ?_
    unfold limitFrac
    split
    · exact le_rfl
    · split
      · exact le_rfl
      · split
        · rename_i h; exact le_of_lt h
        · exact le_rfl

theorem sepLoop_nonneg {eps f : ℚ} {l : List (String × NMat)} {mat mat' : NMat}
    {bufs bufs' : List (String × Buf NMat)} {rs : List SepRec} (hm : Mat.Nonneg mat)
    (h : sepLoop eps f l mat bufs = .ok (rs, mat', bufs')) : Mat.Nonneg mat' := by
  induction l generalizing mat bufs rs with
  | nil =>
    simp only [sepLoop, Except.ok.injEq, Prod.mk.injEq] at h
    obtain ⟨-, rfl, rfl⟩ := h; exact hm
  | cons x l ih =>
    simp only [sepLoop, bind_ok] at h
    obtain ⟨⟨r, m1, b1⟩, h1, ⟨rs', m2, b2⟩, h2, h3⟩ := h
    simp only [pure_eq_ok, Except.ok.injEq, Prod.mk.injEq] at h3
    obtain ⟨-, rfl, rfl⟩ := h3
    refine ih ?_ h2
    unfold sepOne at h1
    split at h1
    · simp only [bind_ok] at h1
      obtain ⟨⟨ext, rest⟩, e1, b, e2, e3⟩ := h1
      simp only [pure_eq_ok, Except.ok.injEq, Prod.mk.injEq] at e3
      obtain ⟨-, rfl, rfl⟩ := e3
      exact (Mat.extractComp_inv e1).2.2.2
    · simp only [Except.ok.injEq, Prod.mk.injEq] at h1
      obtain ⟨-, rfl, rfl⟩ := h1; exact hm

theorem pushLeftover_feed {c : Cfg} {mat : NMat} {s s' : State}
    (h : pushLeftover c mat s = .ok s') : s'.feed = s.feed ∧ s'.bufs = s.bufs ∧ s'.time = s.time ∧
      s'.prefs = s.prefs := by
  unfold pushLeftover at h
  split at h
  · simp only [bind_ok] at h
    obtain ⟨b, h1, h2⟩ := h
    simp only [pure_eq_ok, Except.ok.injEq] at h2
    subst h2; exact ⟨rfl, rfl, rfl, rfl⟩
  · simp only [Except.ok.injEq] at h
    subst h; exact ⟨rfl, rfl, rfl, rfl⟩

theorem finish_conserve {c : Cfg} {f orig : ℚ} {mat : NMat} {s s' : State} (hm : Mat.Nonneg mat)
    (hf : f ≤ 1) (ho : 0 ≤ orig) (hs : AllNonneg s.feed.items)
    (h : finish c f orig mat s = .ok s') :
    (∀ n, massOf (contents s') n = massOf (contents s) n + mat.mass n) ∧
      AllNonneg s'.feed.items := by
  have hz : ∀ m : NMat, Mat.Nonneg m → qty m ≤ 0 → ∀ n, m.mass n = 0 := fun m hm hq n =>
    Mat.mass_eq_zero hm (le_antisymm hq hm.qty_nonneg) n
  unfold finish at h
  split at h
  · refine ⟨pushLeftover_conserve (hz mat hm) h, ?_⟩
    rw [(pushLeftover_feed h).1]; exact hs
  · simp only [bind_ok] at h
    obtain ⟨⟨back, rest⟩, h1, b, h2, h3⟩ := h
    unfold Mat.extractQty at h1
    split at h1
    · cases h1
    · rename_i hq
      simp only [Except.ok.injEq] at h1
      have hsp := split_nonneg hm (mul_nonneg (by linarith : 0 ≤ 1 - f) ho) (not_lt.1 hq)
      rw [h1] at hsp
      have hsum : ∀ n, mat.mass n = back.mass n + rest.mass n := by
        intro n
        have e1 : back = (mat.split ((1 - f) * orig)).1 := by rw [h1]
        have e2 : rest = (mat.split ((1 - f) * orig)).2 := by rw [h1]
        rw [e1, e2]; simp [Mat.split]; ring
      constructor
      · intro n
        rw [pushLeftover_conserve (hz rest hsp.2) h3 n, hsum n]
        simp only [massOf_contents, push_mass h2]; ring
      · rw [(pushLeftover_feed h3).1]
        rw [Buf.push_ok] at h2
        rw [h2.2]
        exact AllNonneg.append.2 ⟨hs, by simpa [AllNonneg] using hsp.1⟩

/-- `Tick` conserves every nuclide. -/
theorem tick_conserve {c : Cfg} (hε : 0 ≤ c.eps) {s s' : State} {r : Option TickRec}
    (hs : AllNonneg s.feed.items) (h : tick c s = .ok (r, s')) :
    (∀ n, massOf (contents s') n = massOf (contents s) n) ∧ AllNonneg s'.feed.items := by
  unfold tick at h
  split at h
  · simp only [Except.ok.injEq, Prod.mk.injEq] at h
    obtain ⟨-, rfl⟩ := h; exact ⟨fun _ => rfl, hs⟩
  · simp only [bind_ok] at h
    obtain ⟨⟨mat, feed⟩, h1, -, -, ⟨recs, rest, bufs⟩, h2, s1, h3, h4⟩ := h
    simp only [pure_eq_ok, Except.ok.injEq, Prod.mk.injEq] at h4
    obtain ⟨-, rfl⟩ := h4
    obtain ⟨-, -, -, -, -, hm, hfe, -, -⟩ := popEps_invNN hs hε (min_le_right _ _) h1
    have hrest := sepLoop_nonneg hm h2
    obtain ⟨g1, g2⟩ := finish_conserve hrest (stage_le _ _ _ _) hm.qty_nonneg hfe h3
    refine ⟨fun n => ?_, g2⟩
    rw [g1 n]
    have e1 := popEps_conserve h1 n
    have e2 := sepLoop_conserve h2 n
    rw [stage_bufMass] at e2
    simp only [massOf_contents]
    linarith

theorem sellOne_conserve {c : Cfg} {s s' : State} {t : String × ℚ} {m : NMat}
    (h : sellOne c s t = .ok (m, s')) :
    (∀ n, m.mass n + massOf (contents s') n = massOf (contents s) n) ∧ s'.feed = s.feed := by
  unfold sellOne at h
  split at h
  · simp only [bind_ok] at h
    obtain ⟨⟨m', b⟩, h1, h2⟩ := h
    simp only [pure_eq_ok, Except.ok.injEq, Prod.mk.injEq] at h2
    obtain ⟨rfl, rfl⟩ := h2
    refine ⟨fun n => ?_, rfl⟩
    have := popEps_conserve h1 n
    simp only [massOf_contents]; linarith
  · split at h
    · rename_i b hb
      simp only [bind_ok] at h
      obtain ⟨⟨m', b'⟩, h1, h2⟩ := h
      simp only [pure_eq_ok, Except.ok.injEq, Prod.mk.injEq] at h2
      obtain ⟨rfl, rfl⟩ := h2
      refine ⟨fun n => ?_, rfl⟩
      have := popEps_conserve h1 n
      have hg : getBuf s.bufs t.1 = b := by simp [getBuf, Map.getD, hb]
      simp only [massOf_contents, bufMass_set, hg]; linarith
    · cases h

theorem sellLoop_conserve {c : Cfg} {ts : List (String × ℚ)} {s s' : State} {ms : List NMat}
    (h : sellLoop c ts s = .ok (ms, s')) :
    (∀ n, massOf ms n + massOf (contents s') n = massOf (contents s) n) ∧ s'.feed = s.feed := by
  induction ts generalizing s ms with
  | nil =>
    simp only [sellLoop, Except.ok.injEq, Prod.mk.injEq] at h
    obtain ⟨rfl, rfl⟩ := h; simp
  | cons t ts ih =>
    simp only [sellLoop, bind_ok] at h
    obtain ⟨⟨m, s1⟩, h1, ⟨ms', s2⟩, h2, h3⟩ := h
    simp only [pure_eq_ok, Except.ok.injEq, Prod.mk.injEq] at h3
    obtain ⟨rfl, rfl⟩ := h3
    obtain ⟨a1, a2⟩ := sellOne_conserve h1
    obtain ⟨b1, b2⟩ := ih h2
    refine ⟨fun n => ?_, b2.trans a2⟩
    have := a1 n
    have := b1 n
    simp; linarith

theorem accept_conserve {c : Cfg} {l : List NMat} {s s' : State}
    (h : l.foldlM (accept c) s = .ok s') :
    (∀ n, massOf (contents s') n = massOf (contents s) n + massOf l n) ∧
      s'.feed.items = s.feed.items ++ l ∧ s'.feed.cap = s.feed.cap ∧ s'.leftover = s.leftover ∧
      s'.bufs = s.bufs ∧ s'.time = s.time ∧ s'.prefs = s.prefs := by
  induction l generalizing s with
  | nil =>
    simp only [List.foldlM_nil, pure_eq_ok, Except.ok.injEq] at h
    subst h; simp
  | cons m l ih =>
    simp only [List.foldlM_cons, bind_ok, accept, pure_eq_ok] at h
    obtain ⟨s1, ⟨b, hb, h1⟩, h2⟩ := h
    simp only [Except.ok.injEq] at h1
    subst h1
    obtain ⟨a1, a2, a3, a4, a5, a6, a7⟩ := ih h2
    rw [Buf.push_ok] at hb
    refine ⟨fun n => ?_, ?_, ?_, a4, a5, a6, a7⟩
    · rw [a1 n]
      simp only [massOf_contents, hb.2]
      simp; ring
    · rw [a2, hb.2]; simp
    · rw [a3, hb.2]

theorem step_conserve {c : Cfg} (hε : 0 ≤ c.eps) {s s' : State} {i : In} {o : Out}
    (hs : AllNonneg s.feed.items) (hi : AllNonneg i.buys) (h : step c s i = .ok (o, s')) :
    (∀ n, massOf o.sold n + massOf (contents s') n = massOf (contents s) n + massOf i.buys n) ∧
      AllNonneg s'.feed.items := by
  simp only [step, bind_ok] at h
  obtain ⟨⟨tr, s1⟩, h1, ⟨d, rq⟩, h2, -, -, ⟨sd, s2⟩, h3, s3, h4, h5⟩ := h
  simp only [pure_eq_ok, Except.ok.injEq, Prod.mk.injEq] at h5
  obtain ⟨rfl, rfl⟩ := h5
  obtain ⟨a1, a2⟩ := tick_conserve hε hs h1
  obtain ⟨b1, b2⟩ := sellLoop_conserve h3
  obtain ⟨c1, c2, -⟩ := accept_conserve h4
  constructor
  · intro n
    have := a1 n; have := b1 n; have := c1 n
    show massOf sd n + massOf (contents s3) n = _
    linarith
  · show AllNonneg s3.feed.items
    rw [c2, b2]
    exact AllNonneg.append.2 ⟨a2, hi⟩

theorem run_conserve {c : Cfg} (hε : 0 ≤ c.eps) {is : List In} {s s' : State} {os : List Out}
    (hs : AllNonneg s.feed.items) (hi : Substantial is) (h : run c s is = .ok (os, s')) :
    (∀ n, massOf (sold os) n + massOf (contents s') n =
      massOf (contents s) n + massOf (received is) n) ∧ AllNonneg s'.feed.items := by
  induction is generalizing s os with
  | nil =>
    simp only [run, Except.ok.injEq, Prod.mk.injEq] at h
    obtain ⟨rfl, rfl⟩ := h
    exact ⟨by simp [sold, received], hs⟩
  | cons i is ih =>
    simp only [run, bind_ok] at h
    obtain ⟨⟨o, s1⟩, h1, ⟨os', s2⟩, h2, h3⟩ := h
    simp only [pure_eq_ok, Except.ok.injEq, Prod.mk.injEq] at h3
    obtain ⟨rfl, rfl⟩ := h3
    obtain ⟨a1, a2⟩ := step_conserve hε hs (fun m hm => (hi i (by simp) m hm).2) h1
    obtain ⟨b1, b2⟩ := ih a2 (fun j hj => hi j (by simp [hj])) h2
    refine ⟨fun n => ?_, b2⟩
    have := a1 n; have := b1 n
    simp only [sold, received, List.flatMap_cons, Mat.massOf_append] at *
    linarith

theorem enter_inv {c : Cfg} {s : State} (h : enter c = .ok s) :
    s.feed = ⟨some c.feedbufSize, []⟩ ∧ s.leftover = ⟨c.leftoverCap, []⟩ ∧
      s.bufs = initBufs c.streams ∧ s.time = c.enterTime := by
  unfold enter at h
  split at h
  · cases h
  · simp only [Except.ok.injEq] at h
    subst h; exact ⟨rfl, rfl, rfl, rfl⟩

theorem initBufs_items (l : List (String × Stream)) : ∀ b ∈ initBufs l, b.2.items = [] := by
  induction l with
  | nil => simp [initBufs]
  | cons s l ih =>
    unfold initBufs; split
    · exact Map.forall_set (p := fun b : Buf NMat => b.items = []) ih rfl
    · exact ih

theorem enter_contents {c : Cfg} {s : State} (h : enter c = .ok s) : contents s = [] := by
  obtain ⟨h1, h2, h3, -⟩ := enter_inv h
  simp only [contents, h1, h2, h3, List.nil_append, List.append_nil, List.flatMap_eq_nil_iff]
  exact initBufs_items _

end Cyc.Separations
