import Verif.Sim.Props25
import Mathlib.Data.List.GetD

/-!
# Bids on several requests (C158)

In the model of the ranking, the bids on a request are those that a facility makes when there is no other
request (`bidsOn`). Here the requests of all facilities are on the table, as in the code, and the bids on one of them
are picked from the portfolios.
-/

namespace Cyc.Sim

/-! ## Specification -/

/-- The bids with the number `j`. -/
def answering {α : Type} (j : Nat) (l : List (Nat × α)) : List α := (l.filter fun b => decide (b.1 = j)).map Prod.snd

/-- The number of the request after `pre`, among those for its commodity. -/
def numberOf (pre : List Req) (r : Req) : Nat := (pre.filter fun r' => r'.commod = r.commod).length

/-- The bids of a facility on the request `r`, when the requests are `pre`, then `r`, then `post`: those of the
bids of its `GetMatlBids` (see `bidsOn`) that answer this request. A bid names the request it answers by its
position among all requests (`Conversion`, `Source`) or among those for its commodity. -/
def bidsAt (pre : List Req) (r : Req) (post : List Req) : (k : Kind) → (act k).S → List NMat
  | .conversion c => fun s : Conversion.State =>
    gather (Conversion.tick c s >>= Conversion.bids c (conversionReqs (pre ++ r :: post))) fun p =>
      (p.map fun p => (p.bids.filter fun b => decide (b.id = pre.length)).map Conversion.Bid.offer).getD []
  | .enrichment c => fun s : Enrichment.State =>
    gather (Enrichment.bids c (targets (pre ++ r :: post)) (Enrichment.tick c s)) fun p =>
      (if r.commod = c.tailsCommod then (p.1.tails.map fun t => answering (numberOf pre r) t.bids).getD []
        else []) ++
      (if r.commod = c.productCommod then (p.1.product.map fun t => answering (numberOf pre r) t.bids).getD []
        else [])
  | .fuelFab c => fun s : FuelFab.State =>
    gather (FuelFab.requests c id s >>= fun x => FuelFab.bids c (fuelTargets (pre ++ r :: post)) x.2) fun p =>
      if r.commod = c.outCommod then (p.map fun p => answering (numberOf pre r) p.bids).getD [] else []
  | .mixer c => fun s : Mixer.State =>
    gather (Mixer.tick c s) fun s => policyBid [c.outCommod] s.output.items r
  | .reactor c _ dec => fun s : Reactor.State × Nat =>
    gather (Reactor.offerPhase c (quantities (pre ++ r :: post)) s.1) fun x =>
      (x.1.bids.filter fun p => decide (p.commod = r.commod)).flatMap fun p =>
        (answering (numberOf pre r) p.bids).map fun b => (dec b.comp).scale b.qty
  | .separations c => fun s : Separations.State =>
    gather (Separations.tick c s) fun x =>
      ((Separations.bids c x.2 (quantities (pre ++ r :: post))).filter fun p =>
        decide (p.commod = r.commod)).flatMap fun p => answering (numberOf pre r) p.bids
  | .sink _ => fun _ => []
  | .source c => fun s : Source.State =>
    ((Source.bids c (sourceReqs (pre ++ r :: post)) s).map fun p =>
      (p.bids.filter fun b => decide (b.id = pre.length)).map Source.Bid.offer).getD []
  | .storage c _ => fun s : Storage.State Nat => policyBid (c.outCommods.take 1) s.stocks.items r

/-! ## Proofs -/

theorem answering_append {α : Type} (j : Nat) (l l' : List (Nat × α)) :
    answering j (l ++ l') = answering j l ++ answering j l' := by
  simp [answering]

theorem answering_none {α : Type} {j : Nat} {l : List (Nat × α)} (h : ∀ b ∈ l, b.1 ≠ j) : answering j l = [] := by
  simp only [answering, List.map_eq_nil_iff, List.filter_eq_nil_iff, decide_eq_true_eq]
  exact h

theorem answering_all {α : Type} {j : Nat} {l : List (Nat × α)} (h : ∀ b ∈ l, b.1 = j) :
    answering j l = l.map Prod.snd := by
  unfold answering
  rw [List.filter_eq_self.2 fun b hb => by simpa using h b hb]

/-- Bids that are made request by request. -/
theorem answering_range {α : Type} {f : Nat → List (Nat × α)} (hf : ∀ i, ∀ b ∈ f i, b.1 = i) {j n : Nat}
    (h : j < n) : answering j ((List.range n).flatMap f) = (f j).map Prod.snd := by
  obtain ⟨d, rfl⟩ := Nat.exists_eq_add_of_lt h
  have e : List.range (j + d + 1) = List.range j ++ j :: (List.range d).map (fun x => (j + 1) + x) := by
    rw [show j + d + 1 = (j + 1) + d by omega, List.range_add, List.range_succ]
    simp
  rw [e, List.flatMap_append, List.flatMap_cons, answering_append, answering_append,
    answering_none, answering_all (hf j), answering_none]
  · simp
  · intro b hb
    obtain ⟨i, hi, hb⟩ := List.mem_flatMap.1 hb
    obtain ⟨x, -, rfl⟩ := List.mem_map.1 hi
    rw [hf _ b hb]; omega
  · intro b hb
    obtain ⟨i, hi, hb⟩ := List.mem_flatMap.1 hb
    rw [hf _ b hb]
    have := List.mem_range.1 hi
    omega

theorem filter_middle (pre post : List Req) (r : Req) (k : String) :
    ((pre ++ r :: post).filter fun x => decide (x.commod = k)) =
      (pre.filter fun x => decide (x.commod = k)) ++ ((if r.commod = k then [r] else []) ++
        post.filter fun x => decide (x.commod = k)) := by
  rw [List.filter_append, List.filter_cons]
  by_cases h : r.commod = k <;> simp [h]

theorem zipIdx_middle {α : Type} (pre post : List α) (r : α) :
    (pre ++ r :: post).zipIdx = pre.zipIdx ++ (r, pre.length) :: post.zipIdx (pre.length + 1) := by
  rw [List.zipIdx_append, List.zipIdx_cons]
  simp

theorem OfConversion.bidLoop_append {s : Conversion.State} {l l' : List Conversion.Req} {bs : List Conversion.Bid}
    (h : Conversion.bidLoop s (l ++ l') = .ok bs) :
    ∃ b b', Conversion.bidLoop s l = .ok b ∧ Conversion.bidLoop s l' = .ok b' ∧ bs = b ++ b' := by
  induction l generalizing bs with
  | nil => exact ⟨[], bs, rfl, h, rfl⟩
  | cons r l ih =>
    simp only [List.cons_append, Conversion.bidLoop, bind_ok, pure_eq_ok, Except.ok.injEq] at h
    obtain ⟨b, h1, bs', h2, rfl⟩ := h
    obtain ⟨x, y, h3, h4, rfl⟩ := ih h2
    refine ⟨b.toList ++ x, y, ?_, h4, by simp⟩
    simp only [Conversion.bidLoop, bind_ok, pure_eq_ok, Except.ok.injEq]
    exact ⟨b, h1, x, h3, rfl⟩

theorem OfConversion.bidLoop_ids {s : Conversion.State} {l : List Conversion.Req} {bs : List Conversion.Bid}
    (h : Conversion.bidLoop s l = .ok bs) : ∀ b ∈ bs, ∃ r ∈ l, b.id = r.id := by
  induction l generalizing bs with
  | nil =>
    simp only [Conversion.bidLoop, Except.ok.injEq] at h
    subst h
    simp
  | cons r l ih =>
    simp only [Conversion.bidLoop, bind_ok, pure_eq_ok, Except.ok.injEq] at h
    obtain ⟨b, h1, bs', h2, rfl⟩ := h
    intro x hx
    rcases List.mem_append.1 hx with hx | hx
    · refine ⟨r, List.mem_cons_self .., ?_⟩
      unfold Conversion.bidOne at h1
      split at h1
      · simp only [bind_ok, pure_eq_ok, Except.ok.injEq] at h1
        obtain ⟨m, -, rfl⟩ := h1
        simp only [Option.toList_some, List.mem_singleton] at hx
        subst hx
        rfl
      · simp only [Except.ok.injEq] at h1
        subst h1
        cases hx
    · obtain ⟨y, hy, e⟩ := ih h2 x hx
      exact ⟨y, List.mem_cons_of_mem _ hy, e⟩

theorem OfConversion.bidOne_offer {s : Conversion.State} {r r' : Conversion.Req} (hq : r.qty = r'.qty)
    {b : Option Conversion.Bid} (h : Conversion.bidOne s r = .ok b) :
    ∃ b', Conversion.bidOne s r' = .ok b' ∧ b'.toList.map Conversion.Bid.offer = b.toList.map Conversion.Bid.offer := by
  unfold Conversion.bidOne at h ⊢
  rw [hq] at h
  split at h
  · rename_i hp
    simp only [bind_ok, pure_eq_ok, Except.ok.injEq] at h
    obtain ⟨m, h1, rfl⟩ := h
    rw [if_pos hp]
    refine ⟨some ⟨r'.id, Conversion.untracked (min s.output.quantity r'.qty) m⟩, ?_, rfl⟩
    simp only [bind_ok, pure_eq_ok, Except.ok.injEq]
    exact ⟨m, h1, rfl⟩
  · rename_i hp
    cases h
    rw [if_neg hp]
    exact ⟨none, rfl, rfl⟩

theorem conversionReqs_ids {l : List Req} {n : Nat} {r : Conversion.Req} {P : Conversion.Req → Bool}
    (h : r ∈ ((l.zipIdx n).map fun x => (⟨x.2, x.1.commod, qty x.1.target⟩ : Conversion.Req)).filter P) :
    n ≤ r.id ∧ r.id < n + l.length := by
  obtain ⟨h, -⟩ := List.mem_filter.1 h
  obtain ⟨x, hx, rfl⟩ := List.mem_map.1 h
  have h1 := List.le_snd_of_mem_zipIdx hx
  have h2 := List.snd_lt_add_of_mem_zipIdx hx
  exact ⟨h1, by simpa [Nat.add_comm] using h2⟩

theorem sourceReqs_ids {l : List Req} {n : Nat} {r : Source.Req} {P : Source.Req → Bool}
    (h : r ∈ ((l.zipIdx n).map fun x => (⟨x.2, x.1.commod, x.1.target⟩ : Source.Req)).filter P) :
    n ≤ r.id ∧ r.id < n + l.length := by
  obtain ⟨h, -⟩ := List.mem_filter.1 h
  obtain ⟨x, hx, rfl⟩ := List.mem_map.1 h
  have h1 := List.le_snd_of_mem_zipIdx hx
  have h2 := List.snd_lt_add_of_mem_zipIdx hx
  exact ⟨h1, by simpa [Nat.add_comm] using h2⟩

theorem OfFuelFab.bidLoop_middle {c : FuelFab.Cfg} {k : FuelFab.Comps} {t : Bool} {m : NMat} {A B : List NMat}
    {j : Nat} {bs : List (Nat × NMat)} (h : FuelFab.bidLoop c k t j (A ++ m :: B) = .ok bs) :
    ∃ b, FuelFab.bidOne c k t m = .ok b ∧ answering (j + A.length) bs = b.toList := by
  have after : ∀ (B : List NMat) (j : Nat) bs, FuelFab.bidLoop c k t j B = .ok bs → ∀ b ∈ bs, j ≤ b.1 := by
    intro B
    induction B with
    | nil => intro j bs h; simp only [FuelFab.bidLoop, Except.ok.injEq] at h; subst h; simp
    | cons m B ih =>
      intro j bs h
      simp only [FuelFab.bidLoop, bind_ok, pure_eq_ok, Except.ok.injEq] at h
      obtain ⟨b, -, bs', h2, rfl⟩ := h
      intro x hx
      rcases List.mem_append.1 hx with hx | hx
      · cases b with
        | none => cases hx
        | some y =>
          simp only [Option.map_some, Option.toList_some, List.mem_singleton] at hx
          subst hx
          exact Nat.le_refl _
      · have := ih _ _ h2 x hx
        omega
  induction A generalizing j bs with
  | nil =>
    simp only [List.nil_append, FuelFab.bidLoop, bind_ok, pure_eq_ok, Except.ok.injEq] at h
    obtain ⟨b, h1, bs', h2, rfl⟩ := h
    refine ⟨b, h1, ?_⟩
    rw [List.length_nil, Nat.add_zero, answering_append, answering_none (l := bs'), List.append_nil]
    · cases b <;> simp [answering]
    · intro x hx
      have := after _ _ _ h2 x hx
      omega
  | cons a A ih =>
    simp only [List.cons_append, FuelFab.bidLoop, bind_ok, pure_eq_ok, Except.ok.injEq] at h
    obtain ⟨b, h1, bs', h2, rfl⟩ := h
    obtain ⟨b', h3, h4⟩ := ih h2
    refine ⟨b', h3, ?_⟩
    rw [answering_append, answering_none, List.nil_append, List.length_cons, ← h4]
    · congr 1; omega
    · intro x hx
      cases b with
      | none => cases hx
      | some y =>
        simp only [Option.map_some, Option.toList_some, List.mem_singleton] at hx
        subst hx
        simp only [List.length_cons]
        omega

theorem OfReactor.bidsFor_num {j : Nat} {q : ℚ} {l : List Reactor.Assem} {t : ℚ} :
    (∀ b ∈ Reactor.bidsFor j q l t, b.1 = j) ∧
    ∀ i, (Reactor.bidsFor j q l t).map Prod.snd = (Reactor.bidsFor i q l t).map Prod.snd := by
  induction l generalizing t with
  | nil => simp [Reactor.bidsFor]
  | cons a l ih =>
    simp only [Reactor.bidsFor]
    constructor
    · intro b hb
      rcases List.mem_cons.1 hb with rfl | hb
      · rfl
      · split at hb
        · cases hb
        · exact ih.1 b hb
    · intro i
      simp only [List.map_cons]
      split
      · rfl
      · rw [ih.2 i]

theorem OfReactor.bidsForAll_middle {l : List Reactor.Assem} {A B : List ℚ} {q : ℚ} {j : Nat} :
    answering (j + A.length) (Reactor.bidsForAll l (A ++ q :: B) j) = (Reactor.bidsFor 0 q l 0).map Prod.snd := by
  have after : ∀ (B : List ℚ) (j : Nat), ∀ b ∈ Reactor.bidsForAll l B j, j ≤ b.1 := by
    intro B
    induction B with
    | nil => intro j; simp [Reactor.bidsForAll]
    | cons m B ih =>
      intro j b hb
      rcases List.mem_append.1 hb with hb | hb
      · exact (bidsFor_num.1 b hb).ge
      · have := ih _ b hb; omega
  induction A generalizing j with
  | nil =>
    simp only [List.nil_append, Reactor.bidsForAll, List.length_nil, Nat.add_zero]
    rw [answering_append, answering_all bidsFor_num.1, answering_none, List.append_nil]
    · exact bidsFor_num.2 0
    · intro b hb
      have := after _ _ b hb
      omega
  | cons a A ih =>
    simp only [List.cons_append, Reactor.bidsForAll]
    rw [answering_append, answering_none, List.nil_append, List.length_cons, ← ih (j := j + 1)]
    · congr 1; omega
    · intro b hb
      rw [bidsFor_num.1 b hb, List.length_cons]
      omega

theorem quantities_middle (pre post : List Req) (r : Req) (k : String) : quantities (pre ++ r :: post) k =
    (pre.filter fun x => decide (x.commod = k)).map (fun r => qty r.target) ++
      ((if r.commod = k then [qty r.target] else []) ++
        (post.filter fun x => decide (x.commod = k)).map fun r => qty r.target) := by
  unfold quantities
  rw [filter_middle]
  by_cases h : r.commod = k <;> simp [h]

theorem OfReactor.bidLoop_alone {c : Reactor.Cfg} {pre post : List Req} {r : Req} {dec : Nat → NMat}
    {ks : List String} {s s' : Reactor.State} {ps : List Reactor.BidPort}
    (h : Reactor.bidLoop c (quantities (pre ++ r :: post)) ks s = .ok (ps, s')) :
    ∃ ps', Reactor.bidLoop c (quantities [r]) ks s = .ok (ps', s) ∧
      ((ps.filter fun p => decide (p.commod = r.commod)).flatMap fun p =>
        (answering (numberOf pre r) p.bids).map fun b => (dec b.comp).scale b.qty) =
      ps'.flatMap fun p => p.bids.map fun b => (dec b.2.comp).scale b.2.qty := by
  induction ks generalizing s s' ps with
  | nil =>
    simp only [Reactor.bidLoop, Except.ok.injEq, Prod.mk.injEq] at h
    obtain ⟨rfl, -⟩ := h
    exact ⟨[], rfl, rfl⟩
  | cons k ks ih =>
    unfold Reactor.bidLoop at h
    by_cases hk : r.commod = k
    · rw [if_neg (by rw [quantities_middle, if_pos hk]; simp)] at h
      simp only [bind_ok] at h
      obtain ⟨⟨m, s₁⟩, h1, h⟩ := h
      have e1 : s₁ = s := Reactor.peekSpent_items h1
      subst e1
      have start : Reactor.bidLoop c (quantities [r]) (k :: ks) s₁ =
          (if SMap.get [] m k = [] then Reactor.bidLoop c (quantities [r]) ks s₁
          else if totalQty (SMap.get [] m k) ≤ 0 then .error .value
          else do
            let (ps, s'') ← Reactor.bidLoop c (quantities [r]) ks s₁
            pure ({ commod := k, bids := Reactor.bidsForAll (SMap.get [] m k) (quantities [r] k) 0,
                    cap := totalQty (SMap.get [] m k) } :: ps, s'')) := by
        rw [Reactor.bidLoop, if_neg (by rw [quantities_one, if_pos hk]; simp), h1]
        rfl
      rw [start]
      split at h
      · rename_i hm
        rw [if_pos hm]
        exact ih h
      · rename_i hm
        rw [if_neg hm]
        split at h
        · cases h
        · rename_i hq
          rw [if_neg hq]
          simp only [bind_ok, pure_eq_ok, Except.ok.injEq, Prod.mk.injEq] at h
          obtain ⟨⟨ps₁, s₂⟩, h2, rfl, -⟩ := h
          obtain ⟨ps', h3, h4⟩ := ih h2
          rw [h3]
          refine ⟨_, rfl, ?_⟩
          rw [List.filter_cons, if_pos (by simp [hk]), List.flatMap_cons, List.flatMap_cons, h4]
          congr 1
          show List.map _ (answering (numberOf pre r) (Reactor.bidsForAll _ (quantities (pre ++ r :: post) k) 0)) =
            List.map _ (Reactor.bidsForAll _ (quantities [r] k) 0)
          rw [quantities_middle, if_pos hk, quantities_one, if_pos hk]
          have := bidsForAll_middle (l := SMap.get [] m k) (j := 0) (q := qty r.target)
            (A := (pre.filter fun x => decide (x.commod = k)).map fun r => qty r.target)
            (B := (post.filter fun x => decide (x.commod = k)).map fun r => qty r.target)
          rw [List.length_map, Nat.zero_add, ← hk] at this
          rw [numberOf, ← hk]
          erw [this]
          simp [Reactor.bidsForAll]
    · have hone : quantities [r] k = [] := by rw [quantities_one, if_neg hk]
      have start : Reactor.bidLoop c (quantities [r]) (k :: ks) s =
          Reactor.bidLoop c (quantities [r]) ks s := by
        rw [Reactor.bidLoop, if_pos hone]
      rw [start]
      split at h
      · exact ih h
      · simp only [bind_ok] at h
        obtain ⟨⟨m, s₁⟩, h1, h⟩ := h
        have e1 : s₁ = s := Reactor.peekSpent_items h1
        subst e1
        split at h
        · exact ih h
        · split at h
          · cases h
          · simp only [bind_ok, pure_eq_ok, Except.ok.injEq, Prod.mk.injEq] at h
            obtain ⟨⟨ps₁, s₂⟩, h2, rfl, -⟩ := h
            obtain ⟨ps', h3, h4⟩ := ih h2
            refine ⟨ps', h3, ?_⟩
            rw [List.filter_cons, if_neg (by simpa using fun e => hk e.symm)]
            exact h4

theorem OfSeparations.bidLoop_num {eps q : ℚ} {j : Nat} {l : List NMat} {t : ℚ} :
    (∀ b ∈ Separations.bidLoop eps q j l t, b.1 = j) ∧
    ∀ i, (Separations.bidLoop eps q j l t).map Prod.snd = (Separations.bidLoop eps q i l t).map Prod.snd := by
  induction l generalizing t with
  | nil => simp [Separations.bidLoop]
  | cons a l ih =>
    simp only [Separations.bidLoop]
    constructor
    · intro b hb
      rcases List.mem_append.1 hb with hb | hb
      · split at hb
        · obtain rfl := List.mem_singleton.1 hb; rfl
        · cases hb
      · split at hb
        · cases hb
        · exact ih.1 b hb
    · intro i
      simp only [List.map_append]
      congr 1
      · split <;> rfl
      · split
        · rfl
        · rw [ih.2 i]

theorem OfSeparations.bidsFor_alone {eps : ℚ} {k : String} {b : Buf NMat} {pre post : List Req} {r : Req} :
    (((Separations.bidsFor eps k b (quantities (pre ++ r :: post) k)).filter fun p =>
      decide (p.commod = r.commod)).flatMap fun p => answering (numberOf pre r) p.bids) =
    (Separations.bidsFor eps k b (quantities [r] k)).flatMap fun p => p.bids.map Prod.snd := by
  by_cases hk : r.commod = k
  · subst hk
    unfold Separations.bidsFor
    have h1 : ¬(quantities (pre ++ r :: post) r.commod).length = 0 := by
      rw [quantities_middle, if_pos rfl]; simp
    have h2 : ¬([qty r.target] : List ℚ).length = 0 := by simp
    rw [quantities_one, if_pos rfl, if_neg h1, if_neg h2]
    split
    · rfl
    · rw [List.filter_cons, if_pos (by simp)]
      simp only [List.filter_nil, List.flatMap_cons, List.flatMap_nil, List.append_nil]
      rw [answering_range (fun i => bidLoop_num.1)]
      · rw [bidLoop_num.2 0]
        congr 1
        simp only [List.length_cons, List.length_nil, Nat.zero_add, List.range_one, List.flatMap_cons,
          List.flatMap_nil, List.append_nil, List.getD_cons_zero]
        congr 1
        rw [quantities_middle, if_pos rfl, List.getD_append_right _ _ _ _ (by simp [numberOf])]
        simp [numberOf]
      · rw [quantities_middle, if_pos rfl]
        simp [numberOf]
  · unfold Separations.bidsFor
    rw [quantities_one, if_neg hk]
    simp only [List.length_nil, if_true, List.flatMap_nil]
    split
    · rfl
    · split
      · rfl
      · rw [List.filter_cons, if_neg (by simpa using fun e => hk e.symm)]
        rfl

theorem targets_middle (pre post : List Req) (r : Req) (k : String) (hk : r.commod = k) :
    targets (pre ++ r :: post) k = some ((pre.filter fun x => decide (x.commod = k)).map Req.target ++
      r.target :: (post.filter fun x => decide (x.commod = k)).map Req.target) := by
  unfold targets
  rw [filter_middle, if_pos hk, if_neg (by simp)]
  simp

theorem targets_one (r : Req) (k : String) : targets [r] k = if r.commod = k then some [r.target] else none := by
  unfold targets
  by_cases hk : r.commod = k <;> simp [hk]

/-- C158, other requests: whatever else is requested, a facility bids on a request what it bids when this is
the only request. -/
theorem C158_bids_alone {pre post : List Req} {r : Req} {k : Kind} {s : (act k).S} {os : List Offer}
    (h : (act k).offers (pre ++ r :: post) s = .ok os) : bidsAt pre r post k s = bidsOn r k s := by
  cases k with
  | conversion c =>
    simp only [act, conversion, bind_ok, pure_eq_ok, Except.ok.injEq] at h
    obtain ⟨s₁, h1, b, h2, -⟩ := h
    show gather _ _ = gather _ _
    rw [h1, ok_bind, ok_bind, h2]
    unfold Conversion.bids at h2 ⊢
    split at h2
    · rename_i hq
      cases h2
      rw [if_pos hq]
      rfl
    · rename_i hq
      rw [if_neg hq]
      simp only [bind_ok, pure_eq_ok, Except.ok.injEq] at h2
      obtain ⟨bs, h2, rfl⟩ := h2
      simp only [gather, Option.map_some, Option.getD_some]
      unfold conversionReqs at h2 ⊢
      rw [zipIdx_middle, List.map_append, List.filter_append] at h2
      obtain ⟨b₁, b₂, h3, h4, rfl⟩ := OfConversion.bidLoop_append h2
      have n1 : b₁.filter (fun b => decide (b.id = pre.length)) = [] := by
        rw [List.filter_eq_nil_iff]
        intro b hb
        obtain ⟨x, hx, e⟩ := OfConversion.bidLoop_ids h3 b hb
        have := (conversionReqs_ids hx).2
        simp only [decide_eq_true_eq]; omega
      rw [List.filter_append, n1, List.nil_append]
      have tail : ∀ {bs}, Conversion.bidLoop s₁ (((post.zipIdx (pre.length + 1)).map fun x =>
            (⟨x.2, x.1.commod, qty x.1.target⟩ : Conversion.Req)).filter fun r => decide (r.commod = c.outcommod)) =
            .ok bs → bs.filter (fun b => decide (b.id = pre.length)) = [] := by
        intro bs hb
        rw [List.filter_eq_nil_iff]
        intro b hb'
        obtain ⟨x, hx, e⟩ := OfConversion.bidLoop_ids hb b hb'
        have := (conversionReqs_ids hx).1
        simp only [decide_eq_true_eq]; omega
      by_cases hk : r.commod = c.outcommod
      · rw [List.map_cons, List.filter_cons, if_pos (by simpa using hk)] at h4
        simp only [Conversion.bidLoop, bind_ok, pure_eq_ok, Except.ok.injEq] at h4
        obtain ⟨b, h5, b', h6, rfl⟩ := h4
        obtain ⟨b₀, h7, h8⟩ := OfConversion.bidOne_offer
          (r := ⟨pre.length, r.commod, qty r.target⟩) (r' := ⟨0, r.commod, qty r.target⟩) rfl h5
        have hid : ∀ x ∈ b.toList, x.id = pre.length := by
          intro x hx
          have : Conversion.bidLoop s₁ [⟨pre.length, r.commod, qty r.target⟩] = .ok (b.toList ++ []) := by
            simp only [Conversion.bidLoop, bind_ok, pure_eq_ok, Except.ok.injEq]
            exact ⟨b, h5, [], rfl, rfl⟩
          obtain ⟨y, hy, e⟩ := OfConversion.bidLoop_ids this x (by simpa using hx)
          obtain rfl := List.mem_singleton.1 hy
          exact e
        rw [List.filter_append, tail h6, List.append_nil,
          List.filter_eq_self.2 (fun x hx => by simpa using hid x hx), ← h8]
        simp only [List.zipIdx_cons, List.zipIdx_nil, List.map_cons, List.map_nil, List.filter_cons, hk,
          decide_true, if_true, List.filter_nil, Conversion.bidLoop]
        rw [← hk, h7]
        simp only [ok_bind, pure_eq_ok, List.append_nil, Option.map_some, Option.getD_some]
      · rw [List.map_cons, List.filter_cons, if_neg (by simpa using hk)] at h4
        rw [tail h4]
        simp only [List.zipIdx_cons, List.zipIdx_nil, List.map_cons, List.map_nil, List.filter_cons, hk,
          decide_false, if_false, List.filter_nil, Conversion.bidLoop, Bool.false_eq_true]
        rfl
  | enrichment c =>
    simp only [act, enrichment, bind_ok] at h
    obtain ⟨⟨p, s₁⟩, h1, -⟩ := h
    show gather _ _ = gather _ _
    rw [h1]
    simp only [Enrichment.bids, bind_ok, pure_eq_ok, Except.ok.injEq, Prod.mk.injEq] at h1
    obtain ⟨⟨q, s₂⟩, h2, rfl, -⟩ := h1
    have ht : (if r.commod = c.tailsCommod then
          ((Enrichment.tailsBids (Enrichment.tick c s) (targets (pre ++ r :: post) c.tailsCommod)).map fun t =>
            answering (numberOf pre r) t.bids).getD [] else []) =
        ((Enrichment.tailsBids (Enrichment.tick c s) (targets [r] c.tailsCommod)).map fun t =>
            t.bids.map Prod.snd).getD [] := by
      rw [targets_one]
      by_cases hk : r.commod = c.tailsCommod
      · rw [if_pos hk, if_pos hk, targets_middle _ _ _ _ hk]
        simp only [Enrichment.tailsBids]
        split
        · simp only [Option.map_some, Option.getD_some]
          rw [answering_range]
          · simp
          · intro i b hb
            obtain ⟨m, -, rfl⟩ := List.mem_map.1 hb
            rfl
          · simp [numberOf, hk]
        · rfl
      · rw [if_neg hk, if_neg hk]
        rfl
    have hp : ∃ q' s', Enrichment.productBids c (Enrichment.tick c s) (targets [r] c.productCommod) = .ok (q', s') ∧
        (if r.commod = c.productCommod then (q.map fun t => answering (numberOf pre r) t.bids).getD [] else []) =
          (q'.map fun t => t.bids.map Prod.snd).getD [] := by
      rw [targets_one]
      by_cases hk : r.commod = c.productCommod
      · rw [if_pos hk, if_pos hk]
        rw [targets_middle _ _ _ _ hk] at h2
        simp only [Enrichment.productBids] at h2 ⊢
        split at h2
        · rename_i hq
          rw [if_pos hq]
          simp only [bind_ok] at h2
          obtain ⟨⟨x, s₃⟩, h3, h2⟩ := h2
          rw [h3, ok_bind]
          split at h2
          · cases h2
          · rename_i hs
            rw [if_neg hs]
            simp only [pure_eq_ok, Except.ok.injEq, Prod.mk.injEq] at h2
            obtain ⟨rfl, -⟩ := h2
            refine ⟨_, _, rfl, ?_⟩
            simp only [Option.map_some, Option.getD_some]
            rw [answering_range]
            · rw [List.getD_append_right _ _ _ _ (by simp [numberOf, hk])]
              simp only [numberOf, hk, List.length_map, Nat.sub_self, List.getD_cons_zero, List.length_cons,
                List.length_nil, Nat.zero_add, List.range_one, List.flatMap_cons, List.flatMap_nil, List.append_nil]
              split <;> simp
            · intro i b hb
              split at hb
              · obtain rfl := List.mem_singleton.1 hb; rfl
              · cases hb
            · simp [numberOf, hk]
        · rename_i hq
          rw [if_neg hq]
          simp only [Except.ok.injEq, Prod.mk.injEq] at h2
          obtain ⟨rfl, -⟩ := h2
          exact ⟨none, _, rfl, rfl⟩
      · rw [if_neg hk, if_neg hk]
        exact ⟨none, _, rfl, rfl⟩
    obtain ⟨q', s', h3, h4⟩ := hp
    have h5 : Enrichment.bids c (targets [r]) (Enrichment.tick c s) =
        .ok (⟨Enrichment.tailsBids (Enrichment.tick c s) (targets [r] c.tailsCommod), q'⟩, s') := by
      simp only [Enrichment.bids, bind_ok, pure_eq_ok, Except.ok.injEq, Prod.mk.injEq]
      exact ⟨(q', s'), h3, rfl, rfl⟩
    rw [h5]
    simp only [gather]
    rw [ht, h4]
  | fuelFab c =>
    simp only [act, fuelFab, bind_ok, pure_eq_ok, Except.ok.injEq] at h
    obtain ⟨⟨a, s₁⟩, h1, b, h2, -⟩ := h
    show gather _ _ = gather _ _
    rw [h1, ok_bind, ok_bind, h2]
    simp only [gather]
    by_cases hk : r.commod = c.outCommod
    · rw [if_pos hk]
      have e : fuelTargets (pre ++ r :: post) c.outCommod =
          (pre.filter fun x => decide (x.commod = c.outCommod)).map Req.target ++
            r.target :: (post.filter fun x => decide (x.commod = c.outCommod)).map Req.target := by
        unfold fuelTargets
        rw [filter_middle, if_pos hk]
        simp
      have e1 : fuelTargets [r] c.outCommod = [r.target] := by simp [fuelTargets, hk]
      unfold FuelFab.bids at h2 ⊢
      rw [e] at h2
      rw [e1]
      split at h2
      · rename_i ht
        cases h2
        rw [if_pos ht]
        rfl
      · rename_i ht
        rw [if_neg ht, if_neg (by simp)]
        rw [if_neg (by simp)] at h2
        simp only [bind_ok] at h2
        obtain ⟨k, hk1, bs, hb, h2⟩ := h2
        rw [hk1, ok_bind]
        obtain ⟨b', h3, h4⟩ := OfFuelFab.bidLoop_middle hb
        simp only [FuelFab.bidLoop, h3, ok_bind, pure_eq_ok, List.append_nil]
        split at h2
        · cases h2
        · rename_i hth
          rw [if_neg hth]
          simp only [pure_eq_ok, Except.ok.injEq] at h2
          subst h2
          simp only [Option.map_some, Option.getD_some]
          rw [Nat.zero_add, List.length_map] at h4
          rw [numberOf, hk, h4]
          cases b' <;> rfl
    · rw [if_neg hk]
      have e1 : fuelTargets [r] c.outCommod = [] := by simp [fuelTargets, hk]
      unfold FuelFab.bids
      rw [e1]
      split
      · rename_i h
        split at h
        · cases h; rfl
        · simp only [List.length_nil, if_true, Except.ok.injEq] at h
          subst h; rfl
      · rfl
  | mixer c => rfl
  | reactor c enc dec =>
    simp only [act, reactor, bind_ok] at h
    obtain ⟨⟨o, s₁⟩, h1, -⟩ := h
    show gather _ _ = gather _ _
    rw [h1]
    simp only [Reactor.offerPhase, bind_ok, pure_eq_ok, Except.ok.injEq, Prod.mk.injEq] at h1
    obtain ⟨s₂, h2, ⟨rq, s₃⟩, h3, ⟨bd, s₄⟩, h4, rfl, -⟩ := h1
    obtain ⟨ps', h5, h6⟩ := OfReactor.bidLoop_alone (dec := dec) h4
    have h7 : Reactor.offerPhase c (quantities [r]) s.1 = .ok (⟨rq, ps'⟩, s₃) := by
      simp only [Reactor.offerPhase, bind_ok, pure_eq_ok, Except.ok.injEq, Prod.mk.injEq]
      exact ⟨s₂, h2, (rq, s₃), h3, (ps', s₃), h5, rfl, rfl⟩
    rw [h7]
    exact h6
  | separations c =>
    simp only [act, separations, bind_ok] at h
    obtain ⟨⟨tr, s₁⟩, h1, -⟩ := h
    show gather _ _ = gather _ _
    rw [h1]
    simp only [gather, Separations.bids, List.filter_append, List.flatMap_append]
    rw [OfSeparations.bidsFor_alone]
    congr 1
    generalize s₁.bufs = bufs
    induction bufs with
    | nil => rfl
    | cons b bufs ih =>
      simp only [List.flatMap_cons, List.filter_append, List.flatMap_append]
      rw [OfSeparations.bidsFor_alone, ih]
  | sink c => rfl
  | source c =>
    show Option.getD (Option.map _ (Source.bids c (sourceReqs (pre ++ r :: post)) s)) [] =
      Option.getD (Option.map _ (Source.bids c (sourceReqs [r]) s)) []
    unfold Source.bids
    split
    · rfl
    · rename_i hm
      have none_of : ∀ {l : List Source.Req}, (∀ x ∈ l, x.id ≠ pre.length) →
          (l.flatMap (Source.bidsFor c s)).filter (fun b => decide (b.id = pre.length)) = [] := by
        intro l hl
        rw [List.filter_eq_nil_iff]
        intro b hb
        obtain ⟨x, hx, hb⟩ := List.mem_flatMap.1 hb
        obtain ⟨q, -, rfl⟩ := List.mem_map.1 hb
        simpa using hl x hx
      have n1 : ∀ x ∈ ((pre.zipIdx.map fun x => (⟨x.2, x.1.commod, x.1.target⟩ : Source.Req)).filter
          fun r => decide (r.commod = c.outcommod)), x.id ≠ pre.length := by
        intro x hx
        have := (sourceReqs_ids hx).2
        omega
      have n2 : ∀ x ∈ (((post.zipIdx (pre.length + 1)).map fun x =>
          (⟨x.2, x.1.commod, x.1.target⟩ : Source.Req)).filter
          fun r => decide (r.commod = c.outcommod)), x.id ≠ pre.length := by
        intro x hx
        have := (sourceReqs_ids hx).1
        omega
      have e : (sourceReqs (pre ++ r :: post)).filter (fun r => decide (r.commod = c.outcommod)) =
          ((pre.zipIdx.map fun x => (⟨x.2, x.1.commod, x.1.target⟩ : Source.Req)).filter
            fun r => decide (r.commod = c.outcommod)) ++
          ((if r.commod = c.outcommod then [⟨pre.length, r.commod, r.target⟩] else []) ++
          (((post.zipIdx (pre.length + 1)).map fun x => (⟨x.2, x.1.commod, x.1.target⟩ : Source.Req)).filter
            fun r => decide (r.commod = c.outcommod))) := by
        unfold sourceReqs
        rw [zipIdx_middle, List.map_append, List.filter_append, List.map_cons, List.filter_cons]
        by_cases hk : r.commod = c.outcommod <;> simp [hk]
      by_cases hk : r.commod = c.outcommod
      · rw [e, if_pos hk, if_neg (by simp), if_neg (by simp [sourceReqs, hk])]
        simp only [Option.map_some, Option.getD_some, List.flatMap_append, List.filter_append]
        rw [none_of n1, none_of n2]
        simp only [List.nil_append, List.append_nil, List.flatMap_cons, List.flatMap_nil]
        rw [List.filter_eq_self.2]
        · simp [sourceReqs, hk, Source.bidsFor, Source.lots]
        · intro b hb
          obtain ⟨q, -, rfl⟩ := List.mem_map.1 hb
          simp
      · rw [if_pos (show (sourceReqs [r]).filter (fun r => decide (r.commod = c.outcommod)) = [] by
          simp [sourceReqs, hk])]
        split
        · rfl
        · rw [e, if_neg hk]
          simp only [Option.map_some, Option.getD_some, List.flatMap_append, List.filter_append]
          rw [none_of n1, none_of n2]
          rfl
  | storage c want => rfl

/-! ## Examples -/

/-- A buyer of fuel with 2 % of uranium-235. -/
def exLeanBuyer : Sink.Cfg :=
  { exBuyer with recipe := some ⟨[(922350000, 2), (922380000, 98)]⟩, capacity := 1 }

/-- Enriches tails. -/
def exReenrich : Enrichment.Cfg :=
  { exEnrichment with
    feedCommod := "tails"
    productCommod := "again"
    tailsCommod := "rest"
    feedRecipe := ⟨[(922350000, 1), (922380000, 499)]⟩
    tailsAssay := 1/1000
    initialFeed := 0
    orderPrefs := true }

/-- One enrichment facility, two buyers of its fuel, and an enrichment facility that buys its tails. -/
def exCascade : Plan :=
  ⟨fun t => if t = 0 then [.enrichment exEnrichment, .sink exLeanBuyer, .sink exLeanBuyer, .enrichment exReenrich]
    else [], fun _ _ => false⟩

theorem exCascade_sensible : ∀ t, ∀ k ∈ exCascade.builds t, Sensible k.plain := by
  intro t k hk
  simp only [exCascade] at hk
  split at hk
  · simp only [List.mem_cons, List.not_mem_nil, or_false] at hk
    rcases hk with rfl | rfl | rfl | rfl
    · exact exKinds_sensible (.enrichment exEnrichment) (by simp [exKinds])
    · refine ⟨⟨by norm_num [exSink, exBuyer, exLeanBuyer], by norm_num [exSink, exBuyer, exLeanBuyer],
        by norm_num [exSink, exBuyer, exLeanBuyer], by norm_num [exSink, exBuyer, exLeanBuyer], ?_⟩, ?_,
        Or.inl rfl, rfl, rfl⟩
      · intro r hr
        cases hr
        decide +kernel
      · intro r hr
        cases hr
        norm_num [Mat.Nonneg]
    · refine ⟨⟨by norm_num [exSink, exBuyer, exLeanBuyer], by norm_num [exSink, exBuyer, exLeanBuyer],
        by norm_num [exSink, exBuyer, exLeanBuyer], by norm_num [exSink, exBuyer, exLeanBuyer], ?_⟩, ?_,
        Or.inl rfl, rfl, rfl⟩
      · intro r hr
        cases hr
        decide +kernel
      · intro r hr
        cases hr
        norm_num [Mat.Nonneg]
    · refine ⟨⟨by norm_num [Mat.Nonneg, exEnrichment, exReenrich], by decide +kernel, ?_, ?_, ?_, ?_, ?_, ?_, ?_⟩, ?_,
        by decide, rfl⟩ <;> norm_num [exEnrichment, exReenrich, Enrichment.u235, Enrichment.u238]
  · cases hk

/-- C158, the defect with one supplier: an enrichment facility sells the tails of two deals, and the only
facility that buys them is an enrichment facility with the default `order_prefs`. The tails are bid for
one by one and are alike, so the behaviour is undefined; without `order_prefs` the simulation runs. So in
`C158_one_seller_partial` it is not enough that there is one supplier. -/
theorem C158_counterexample_tails : ∃ (plan : Plan) (ex : Exchange), ex.Fair ∧
    (∀ t, ∀ k ∈ plan.builds t, Sensible k.plain) ∧
    (∀ c, .enrichment c ∈ plan.built 0 2 → c.orderPrefs = true →
      ((plan.built 0 2).filter fun k => c.feedCommod ∈ sellsOf k).length = 1) ∧
    rankedLive (fun _ _ => ex) plan 2 0 [] = .error .ub ∧
    ∃ x, live (fun _ => ex) (plan.map Kind.plain) 2 0 [] = .ok x := by
  refine ⟨exCascade, greedy, greedy_fair, exCascade_sensible, ?_, ?_, ?_⟩
  · intro c hc ho
    have : exCascade.built 0 2 = [.enrichment exEnrichment, .sink exLeanBuyer, .sink exLeanBuyer,
        .enrichment exReenrich] := rfl
    rw [this] at hc ⊢
    simp only [List.mem_cons, Kind.enrichment.injEq, reduceCtorEq, List.not_mem_nil, or_false, false_or] at hc
    rcases hc with rfl | rfl
    · cases ho
    · decide
  · have key : (match rankedLive (fun _ _ => greedy) exCascade 2 0 [] with
        | .error .ub => true
        | _ => false) = true := by decide +kernel
    cases h : rankedLive (fun _ _ => greedy) exCascade 2 0 [] with
    | ok x => rw [h] at key; cases key
    | error e =>
      rw [h] at key
      cases e with
      | ub => rfl
      | _ => cases key
  · have key : (match live (fun _ => greedy) (exCascade.map Kind.plain) 2 0 [] with
        | .ok _ => true
        | .error _ => false) = true := by decide +kernel
    cases h : live (fun _ => greedy) (exCascade.map Kind.plain) 2 0 [] with
    | ok x => exact ⟨x, rfl⟩
    | error e => rw [h] at key; cases key

/-- The hypothesis of `C158_bids_alone` can be met, and there are bids: an enrichment facility with feed and two
portions of tails, and requests for fuel and for tails. -/
example : ∃ (s : (act (.enrichment exEnrichment)).S) (os : List Offer),
    (act (.enrichment exEnrichment)).offers
      ([⟨"tails", blank 3⟩, ⟨"fuel", ⟨[(922350000, 5), (922380000, 95)]⟩⟩] ++ ⟨"tails", blank 4⟩ :: [⟨"ore", blank 1⟩]) s =
      .ok os ∧
    (bidsAt [⟨"tails", blank 3⟩, ⟨"fuel", ⟨[(922350000, 5), (922380000, 95)]⟩⟩] ⟨"tails", blank 4⟩ [⟨"ore", blank 1⟩]
      (.enrichment exEnrichment) s).length = 2 := by
  refine ⟨(⟨⟨some 250, [⟨[(922350000, 1), (922380000, 99)]⟩]⟩,
    ⟨none, [⟨[(922350000, 1), (922380000, 499)]⟩, ⟨[(922350000, 2), (922380000, 998)]⟩]⟩, 1/5, none⟩ :
    Enrichment.State), ?_⟩
  have key : (match (act (.enrichment exEnrichment)).offers
      ([⟨"tails", blank 3⟩, ⟨"fuel", ⟨[(922350000, 5), (922380000, 95)]⟩⟩] ++ ⟨"tails", blank 4⟩ :: [⟨"ore", blank 1⟩])
      (⟨⟨some 250, [⟨[(922350000, 1), (922380000, 99)]⟩]⟩,
        ⟨none, [⟨[(922350000, 1), (922380000, 499)]⟩, ⟨[(922350000, 2), (922380000, 998)]⟩]⟩, 1/5, none⟩ :
        Enrichment.State) with
      | .ok _ => true
      | .error _ => false) = true := by decide +kernel
  split at key
  · exact ⟨_, ‹_›, by decide +kernel⟩
  · cases key

end Cyc.Sim
