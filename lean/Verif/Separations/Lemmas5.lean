import Verif.Separations.Lemmas4

/-!
# The efficiency check, bids, snapshots
-/

namespace Cyc.Separations

open Mat (massOf)

theorem massOf_solid {l : List NMat} (h : AllNonneg l) (n : Nat) :
    massOf (solid l) n = massOf l n := by
  induction l with
  | nil => rfl
  | cons m l ih =>
    obtain ⟨hm, hl⟩ := AllNonneg.cons.1 h
    unfold solid at ih ⊢
    rw [List.filter_cons]
    by_cases h0 : qty m = 0
    · simp only [h0, ne_eq, not_true_eq_false, decide_false, Bool.false_eq_true, if_false]
      rw [ih hl, Mat.massOf_cons, Mat.mass_eq_zero hm h0]; ring
    · simp only [h0, ne_eq, not_false_eq_true, decide_true, if_true]
      rw [Mat.massOf_cons, Mat.massOf_cons, ih hl]

/-! ## Efficiencies -/

/-- The sum over all streams of the efficiencies listed under one key. -/
def listed (streams : List (String × Stream)) (k : Nat) : ℚ :=
  (streams.map fun s => (entry s.2.effs k).getD 0).sum

theorem addEff_getD (tot : List (Nat × ℚ)) (e : Nat × ℚ) (k : Nat) :
    Map.getD (addEff tot e) k 0 = Map.getD tot k 0 + if e.1 = k then e.2 else 0 := by
  unfold addEff
  by_cases h : e.1 = k
  · subst h; simp
  · rw [Map.getD_set_ne h]; simp [h]

theorem entry_cons (e : Nat × ℚ) (l : List (Nat × ℚ)) (k : Nat) :
    entry (e :: l) k = if e.1 = k then some e.2 else entry l k := by
  unfold entry
  rw [List.find?_cons]
  by_cases h : e.1 = k <;> simp [h]

theorem entry_none {l : List (Nat × ℚ)} {k : Nat} (h : k ∉ l.map Prod.fst) : entry l k = none := by
  rw [entry_eq]; exact Map.get?_eq_none.2 h

theorem foldl_addEff {l : List (Nat × ℚ)} (hn : (l.map Prod.fst).Nodup) (tot : List (Nat × ℚ))
    (k : Nat) : Map.getD (l.foldl addEff tot) k 0 = Map.getD tot k 0 + (entry l k).getD 0 := by
  induction l generalizing tot with
  | nil => simp [entry]
  | cons e l ih =>
    simp only [List.map_cons, List.nodup_cons] at hn
    rw [List.foldl_cons, ih hn.2, addEff_getD, entry_cons]
    by_cases h : e.1 = k
    · rw [if_pos h, if_pos h, entry_none (by rw [← h]; exact hn.1)]; simp
    · simp [h]

theorem nodup_addEff {l tot : List (Nat × ℚ)} (h : (Map.keys tot).Nodup) :
    (Map.keys (l.foldl addEff tot)).Nodup := by
  induction l generalizing tot with
  | nil => exact h
  | cons e l ih => exact ih (Map.nodup_set h _ _)

theorem efficiencies_spec {l : List (String × Stream)}
    (hn : ∀ s ∈ l, (s.2.effs.map Prod.fst).Nodup) :
    (Map.keys (efficiencies l)).Nodup ∧ ∀ k, Map.getD (efficiencies l) k 0 = listed l k := by
  have key : ∀ (l : List (String × Stream)) (tot : List (Nat × ℚ)),
      (∀ s ∈ l, (s.2.effs.map Prod.fst).Nodup) → (Map.keys tot).Nodup →
      (Map.keys (l.foldl (fun tot s => s.2.effs.foldl addEff tot) tot)).Nodup ∧
      ∀ k, Map.getD (l.foldl (fun tot s => s.2.effs.foldl addEff tot) tot) k 0 =
        Map.getD tot k 0 + listed l k := by
    intro l
    induction l with
    | nil => intro tot _ h; exact ⟨h, fun k => by simp [listed]⟩
    | cons s l ih =>
      intro tot hn h
      obtain ⟨h1, h2⟩ := ih (s.2.effs.foldl addEff tot) (fun x hx => hn x (by simp [hx]))
        (nodup_addEff h)
      refine ⟨h1, fun k => ?_⟩
      rw [List.foldl_cons, h2, foldl_addEff (hn s (by simp))]
      simp only [listed, List.map_cons, List.sum_cons]; ring
  obtain ⟨h1, h2⟩ := key l [] hn (by simp [Map.keys])
  exact ⟨h1, fun k => by have := h2 k; simpa [Map.getD, efficiencies] using this⟩

/-- The check at deployment. -/
theorem enter_check {c : Cfg} (hn : ∀ s ∈ c.streams, (s.2.effs.map Prod.fst).Nodup) :
    ((∃ k, 1 < listed c.streams k) → enter c = .error .value) ∧
    ((∀ k, listed c.streams k ≤ 1) → ∃ s, enter c = .ok s) := by
  obtain ⟨h1, h2⟩ := efficiencies_spec hn
  constructor
  · rintro ⟨k, hk⟩
    unfold enter
    rw [if_pos]
    rw [List.any_eq_true]
    rw [← h2] at hk
    cases hg : Map.get? (efficiencies c.streams) k with
    | none => simp only [Map.getD, hg, Option.getD_none] at hk; norm_num at hk
    | some v =>
      simp only [Map.getD, hg, Option.getD_some] at hk
      exact ⟨(k, v), Map.mem_of_get? hg, by simpa using hk⟩
  · intro h
    unfold enter
    rw [if_neg]
    · exact ⟨_, rfl⟩
    · rw [List.any_eq_true]
      rintro ⟨⟨k, v⟩, he, hv⟩
      have := h k
      rw [← h2, Map.getD, Map.get?_of_mem h1 he] at this
      simp only [decide_eq_true_eq, gt_iff_lt, Option.getD_some] at hv this
      linarith

theorem listed_le_share {l : List (String × Stream)} (h : ∀ s ∈ l, ∀ e ∈ s.2.effs, 0 ≤ e.2)
    (k : Nat) : listed l k ≤ share l k := by
  unfold listed share
  apply List.sum_le_sum
  intro s hs
  have hn : ∀ j v, entry s.2.effs j = some v → 0 ≤ v := by
    intro j v hv
    rw [entry_eq] at hv
    exact h s hs _ (Map.mem_of_get? hv)
  unfold fraction
  cases h1 : entry s.2.effs k with
  | some v => simp
  | none =>
    cases h2 : entry s.2.effs (element k) with
    | none => simp
    | some v => simpa using hn _ _ h2

theorem totalQty_entries (p : List NMat) :
    totalQty p = ((p.flatMap Mat.entries).map Prod.snd).sum := by
  rw [← Mat.qty_squash, Mat.qty_def]; rfl

/-- Streams that ask for the same fraction of every nuclide present ask for that fraction of the
whole. -/
theorem yieldAll_const {l : List (String × Stream)} {p : List NMat} {a : ℚ}
    (h : ∀ n, massOf p n ≠ 0 → share l n = a) : yieldAll l p = a * totalQty p := by
  -- the difference has no mass in any nuclide
  have key : ∀ n, ((Mat.squash p).mass n) * share l n = ((Mat.squash p).mass n) * a := by
    intro n
    rw [Mat.mass_squash]
    by_cases hn : massOf p n = 0
    · rw [hn]; ring
    · rw [h n hn]
  have h1 : qty (⟨(Mat.squash p).entries.map fun e => (e.1, share l e.1 * e.2)⟩ : NMat) =
      qty (⟨(Mat.squash p).entries.map fun e => (e.1, a * e.2)⟩ : NMat) := by
    apply qty_congr
    intro n
    have hm : ∀ (g : Nat → ℚ) (es : List (Nat × ℚ)),
        (⟨es.map fun e => (e.1, g e.1 * e.2)⟩ : NMat).mass n = g n * (⟨es⟩ : NMat).mass n := by
      intro g es
      unfold Mat.mass
      simp only
      induction es with
      | nil => simp
      | cons e es ih =>
        by_cases he : e.1 = n
        · simp only [List.map_cons, List.filter_cons, he, decide_true, if_true, List.sum_cons]
          rw [ih]; ring
        · simp only [List.map_cons, List.filter_cons, he, decide_false, Bool.false_eq_true,
            if_false]
          exact ih
    rw [hm (fun k => share l k), hm (fun _ => a)]
    have := key n
    rw [mul_comm, this, mul_comm]
  rw [Mat.qty_def, Mat.qty_def] at h1
  simp only [List.map_map, Function.comp_def] at h1
  rw [yieldAll_eq, totalQty_entries]
  have e : (Mat.squash p).entries = p.flatMap Mat.entries := rfl
  rw [e] at h1
  rw [h1]
  generalize p.flatMap Mat.entries = es
  induction es with
  | nil => simp
  | cons x es ih => simp only [List.map_cons, List.sum_cons, ih]; ring

/-! ## Bids -/

/-- The bids for one request: a prefix of the materials, without the negligible ones; the prefix
stops as soon as the request is covered. -/
theorem bidLoop_spec (eps target : ℚ) (j : Nat) (l : List NMat) (tot : ℚ) :
    ∃ k ≤ l.length, bidLoop eps target j l tot =
        ((l.take k).filter fun m => eps < qty m).map (fun m => (j, m)) ∧
      (k = l.length ∨ target ≤ tot + totalQty (l.take k)) ∧
      ∀ k' < k, 0 < k' → tot + totalQty (l.take k') < target := by
  induction l generalizing tot with
  | nil => exact ⟨0, le_rfl, by simp [bidLoop]⟩
  | cons m l ih =>
    by_cases ht : tot + qty m ≥ target
    · refine ⟨1, by simp, ?_, ?_, ?_⟩
      · by_cases hm : qty m > eps <;> simp [bidLoop, ht, hm]
      · right; simpa using ht
      · intro k' h1 h2; omega
    · obtain ⟨k, hk, e1, e2, e3⟩ := ih (tot + qty m)
      refine ⟨k + 1, by simp [hk], ?_, ?_, ?_⟩
      · by_cases hm : qty m > eps <;> simp [bidLoop, ht, hm, e1]
      · rcases e2 with e2 | e2
        · left; simp [e2]
        · right; simp only [List.take_succ_cons, totalQty_cons]; linarith
      · intro k' h1 h2
        obtain ⟨k'', rfl⟩ : ∃ k'', k' = k'' + 1 := ⟨k' - 1, by omega⟩
        simp only [List.take_succ_cons, totalQty_cons]
        rcases Nat.eq_zero_or_pos k'' with h | h
        · subst h; simp only [List.take_zero, totalQty_nil]; push Not at ht; linarith
        · have := e3 k'' (by omega) h; linarith

theorem filter_flatMap_range {α : Type} (n : Nat) (f : Nat → List (Nat × α))
    (hf : ∀ j, ∀ x ∈ f j, x.1 = j) {j : Nat} (hj : j < n) :
    ((List.range n).flatMap f).filter (fun x => x.1 = j) = f j := by
  induction n with
  | zero => omega
  | succ n ih =>
    rw [List.range_succ, List.flatMap_append, List.filter_append]
    simp only [List.flatMap_cons, List.flatMap_nil, List.append_nil]
    rcases Nat.lt_or_ge j n with h | h
    · rw [ih h]
      have : (f n).filter (fun x => x.1 = j) = [] := by
        rw [List.filter_eq_nil_iff]
        intro x hx; simp only [decide_eq_true_eq]; rw [hf n x hx]; omega
      rw [this, List.append_nil]
    · have : j = n := by omega
      subst this
      have h1 : ((List.range j).flatMap f).filter (fun x => x.1 = j) = [] := by
        rw [List.filter_eq_nil_iff]
        intro x hx
        obtain ⟨i, hi, hx⟩ := List.mem_flatMap.1 hx
        have := List.mem_range.1 hi
        simp only [decide_eq_true_eq]; rw [hf i x hx]; omega
      have h2 : (f j).filter (fun x => x.1 = j) = f j := by
        rw [List.filter_eq_self]; intro x hx; simpa using hf j x hx
      rw [h1, h2, List.nil_append]

/-! ## Snapshots -/

theorem snapshot_fold (bufs : List (String × Buf NMat)) (hn : (Map.keys bufs).Nodup)
    (inv : List (String × List NMat)) (hi : (Map.keys inv).Nodup) :
    (Map.keys (bufs.foldl (fun inv b => Map.set inv b.1 b.2.items) inv)).Nodup ∧
    ∀ k, Map.get? (bufs.foldl (fun inv b => Map.set inv b.1 b.2.items) inv) k =
      ((Map.get? bufs k).map Buf.items).or (Map.get? inv k) := by
  induction bufs generalizing inv with
  | nil => exact ⟨hi, fun k => by simp⟩
  | cons b l ih =>
    simp only [Map.keys, List.map_cons, List.nodup_cons] at hn
    obtain ⟨h1, h2⟩ := ih hn.2 (Map.set inv b.1 b.2.items) (Map.nodup_set hi _ _)
    refine ⟨h1, fun k => ?_⟩
    rw [List.foldl_cons, h2, Map.get?_set]
    obtain ⟨k', b'⟩ := b
    by_cases h : k' = k
    · subst h
      have : Map.get? l k' = none := Map.get?_eq_none.2 hn.1
      simp [Map.get?, this]
    · simp [Map.get?, h]

theorem restoreBufs_ok {eps : ℚ} {inv : List (String × List NMat)} (hn : (Map.keys inv).Nodup)
    {bufs : List (String × Buf NMat)}
    (hf : ∀ x ∈ inv, (getBuf bufs x.1).fits eps (totalQty x.2) = true) :
    ∃ bufs', restoreBufs eps inv bufs = .ok bufs' ∧
      ∀ k, getBuf bufs' k = { getBuf bufs k with
        items := (getBuf bufs k).items ++ Map.getD inv k [] } := by
  induction inv generalizing bufs with
  | nil => exact ⟨bufs, rfl, fun k => by simp [Map.getD]⟩
  | cons x l ih =>
    simp only [Map.keys, List.map_cons, List.nodup_cons] at hn
    have hne : ∀ y ∈ l, x.1 ≠ y.1 := by
      intro y hy h; exact hn.1 (h ▸ List.mem_map.2 ⟨y, hy, rfl⟩)
    have hp : (getBuf bufs x.1).pushAll eps x.2 = .ok { getBuf bufs x.1 with
        items := (getBuf bufs x.1).items ++ x.2 } :=
      Buf.pushAll_ok.2 ⟨hf x (by simp), rfl⟩
    obtain ⟨bufs', h1, h2⟩ := ih hn.2 (bufs := Map.set bufs x.1 { getBuf bufs x.1 with
        items := (getBuf bufs x.1).items ++ x.2 }) (by
      intro y hy
      rw [getBuf_set_ne (hne y hy)]
      exact hf y (by simp [hy]))
    refine ⟨bufs', ?_, fun k => ?_⟩
    · simp only [restoreBufs, hp, ok_bind, h1]
    · rw [h2]
      obtain ⟨k', v⟩ := x
      by_cases h : k' = k
      · subst h
        rw [getBuf_set_self]
        have : Map.get? l k' = none := Map.get?_eq_none.2 hn.1
        simp [Map.getD, Map.get?, this]
      · rw [getBuf_set_ne h]; simp [Map.getD, Map.get?, h]

end Cyc.Separations
