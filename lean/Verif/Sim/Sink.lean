import Verif.Sim.Conversion
import Verif.Sink.Lemmas

/-!
# `Sink` keeps the contract
-/

namespace Cyc.Sim

namespace OfSink
open Sink

/-- A sink that buys whenever there is room asks for as much as there is room for. -/
theorem asked {c : Cfg} (V : Valid c) (hz : c.sizeType = "None") {t : ℤ} {s : State} (I : Inv c s)
    (hn : s.nextBuy = -1) :
    tickAmt c noRng t s = .ok { s with requestAmt := room c s } ∧
    matlRequests c noRng { s with requestAmt := room c s } =
      .ok ((outOf c (room c s)).matl, { s with requestAmt := room c s }) := by
  have I₁ : Inv c { s with requestAmt := room c s } := ⟨I.cap, I.prefs, I.length⟩
  constructor
  · unfold tickAmt
    rw [if_pos hn]
    unfold setRequestAmt
    simp only [hz, if_true, pure_eq_ok, I.space]
  · have e1 : readjust c noRng { s with requestAmt := room c s } =
        .ok { s with requestAmt := room c s } := by
      unfold readjust
      rw [I₁.space, if_neg (by exact lt_irrefl _)]; rfl
    simp only [matlRequests, e1, matlPort_eq I₁, ok_bind, pure_eq_ok]

theorem solid_target {c : Cfg} (V : Valid c) (hr : ∀ r, c.recipe = some r → Mat.Nonneg r) {a : ℚ}
    (h : 0 < a) : Sim.Solid (target c a) := by
  refine ⟨by rw [qty_target V]; exact h, ?_⟩
  unfold target
  cases e : c.recipe with
  | none => exact (solid_blank h).2
  | some r => exact (hr r e).scale (by have := V.recipe r e; positivity)

theorem sunk_append (l : List Res) (ms : List Sim.NMat) :
    sunk (l ++ ms.map Res.mat) = sunk l ++ ms := by
  unfold sunk
  rw [List.filterMap_append, List.filterMap_map]
  congr 1
  induction ms with
  | nil => rfl
  | cons m ms ih => simpa using ih

theorem contract {μ : Sim.NMat → ℚ} {c : Cfg} (hc : Sensible (.sink c)) :
    Contract (sink c) μ (fun s => sunk s.2.inventory.items) fun s =>
      (Inv c s.2 ∧ s.2.nextBuy = -1) ∧ AllNonneg (sunk s.2.inventory.items) := by
  obtain ⟨V, hr, hp, hz, -⟩ := hc
  have ha : ∀ {s : ℤ × State}, Inv c s.2 → s.2.nextBuy = -1 →
      (sink c).asks s = .ok (if room c s.2 > c.eps then [⟨(c.commods.zip (prefsOf c)).map fun r =>
        (r.1, target c (room c s.2)), room c s.2, false⟩] else []) := by
    intro s I hn
    obtain ⟨e1, e2⟩ := asked V hz (t := s.1) I hn
    simp only [sink, e1, e2, ok_bind, pure_eq_ok, outOf]
    split
    · rename_i h
      split at h
      · cases h
      · rename_i h'; rw [if_neg h']
    · rename_i p h
      split at h
      · rename_i h'
        rw [if_pos h']
        simp only [Option.some.injEq] at h
        subst h
        simp only [qty_target V]
      · cases h
  have hs : ∀ {s : ℤ × State} {rs ts}, Inv c s.2 → s.2.nextBuy = -1 →
      (sink c).sell rs ts s = .ok ([], (s.1, { s.2 with requestAmt := room c s.2 })) := by
    intro s rs ts I hn
    obtain ⟨e1, e2⟩ := asked V hz (t := s.1) I hn
    simp only [sink, e1, e2, ok_bind, pure_eq_ok]
  constructor
  · rintro s ⟨⟨I, hn⟩, -⟩
    refine ⟨_, ha I hn, ?_⟩
    intro a h
    split at h
    · rename_i hq
      rw [List.mem_singleton] at h
      subst h
      refine ⟨room_nonneg V _, fun x hx => ?_⟩
      simp only [List.mem_map] at hx
      obtain ⟨y, -, rfl⟩ := hx
      exact solid_target V hr (lt_trans V.eps hq)
    · cases h
  · intro s rs _ _
    exact ⟨_, rfl, by simp⟩
  · rintro s rs os ts ⟨⟨I, hn⟩, -⟩ - ho W
    simp only [sink, Except.ok.injEq] at ho
    subst ho
    rw [WithinOffers.empty W]
    exact ⟨_, _, hs I hn, .nil⟩
  · rintro s rs os ts l m as ds ⟨⟨I, hn⟩, hk⟩ - ho W h1 h2 WA
    rw [hs I hn] at h1
    rw [ha I hn] at h2
    simp only [Except.ok.injEq] at h1 h2
    have hm := (Prod.mk.inj h1).2
    subst hm h2
    have I₁ : Inv c { s.2 with requestAmt := room c s.2 } := ⟨I.cap, I.prefs, I.length⟩
    have hq : totalQty (ds.map Delivery.mat) ≤ room c s.2 := by
      split at WA
      · exact WA.single
      · rw [WithinAsks.empty WA]
        simpa using room_nonneg V s.2
    have ht : totalQty ((ds.map Delivery.mat).map Res.mat) = totalQty (ds.map Delivery.mat) := by
      unfold totalQty; rw [List.map_map]; rfl
    obtain ⟨s', h⟩ := accept_fits V (rs := (ds.map Delivery.mat).map Res.mat) I₁ (by
      intro r h
      simp only [List.map_map, List.mem_map] at h
      obtain ⟨d, hd, rfl⟩ := h
      exact (WA.solid d hd).1.le) (by
        rw [ht]
        exact hq.trans (min_le_right _ _))
    refine ⟨(s.1 + 1, s'), by simp only [sink, h, ok_bind, pure_eq_ok], ?_⟩
    rw [accept_ok h]
    have hl : l = [] := ((Prod.mk.inj h1).1).symm
    refine ⟨⟨⟨⟨I.cap, I.prefs, I.length⟩, hn⟩, ?_⟩, ?_⟩
    · show AllNonneg (sunk (s.2.inventory.items ++ (ds.map Delivery.mat).map Res.mat))
      rw [sunk_append]
      intro x hx
      rcases List.mem_append.1 hx with hx | hx
      · exact hk x hx
      · obtain ⟨d, hd, rfl⟩ := List.mem_map.1 hx
        exact (WA.solid d hd).2
    · simp only [hl, sunk_append, List.append_nil]
  · rintro s ⟨-, hk⟩
    exact hk

theorem deployed {μ : Sim.NMat → ℚ} {A : Agreement} {c : Cfg} (hc : Sensible (.sink c))
    (hA : Suits A (.sink c)) : ∃ p, deploy (.sink c) = .ok p ∧ Good A μ holdings p := by
  have hc' := hc
  obtain ⟨V, hr, hp, hz, hf⟩ := hc
  obtain ⟨ps, h1⟩ : ∃ ps, setPrefs c c.prefs = .ok ps := by
    unfold setPrefs
    rcases hp with h | h
    · rw [h]; exact ⟨_, rfl⟩
    · split
      · exact ⟨_, rfl⟩
      · rw [if_neg (by simpa using h)]; exact ⟨_, rfl⟩
  obtain ⟨s, h⟩ : ∃ s, enter c noRng 0 = .ok s := by
    simp only [enter, enterWith, h1, ok_bind, setRequestAmt, hz, if_true, pure_eq_ok, setNextBuyTime,
      hf]
    exact ⟨_, rfl⟩
  obtain ⟨I, empty, -, hn⟩ := enter_ok h
  refine ⟨⟨.sink c, (0, s)⟩, by simp only [deploy, h, ok_bind, pure_eq_ok], _,
    (contract hc').free ?_ ?_, ⟨⟨I, hn ?_⟩, ?_⟩, trivial⟩
  · rintro s as ⟨⟨I, hn⟩, -⟩ h a ha x hx hq
    obtain ⟨e1, e2⟩ := asked V hz (t := s.1) I hn
    simp only [sink, e1, e2, ok_bind, pure_eq_ok, Except.ok.injEq, outOf] at h
    subst h
    split at ha
    · cases ha
    · rename_i p hp
      split at hp
      · rename_i hr'
        simp only [Option.some.injEq] at hp
        subst hp
        rw [List.mem_singleton] at ha
        subst ha
        obtain ⟨r, hr, rfl⟩ := List.mem_map.1 hx
        exact hA _ (List.of_mem_zip hr).1 _ (lt_trans V.eps hr')
      · cases hp
  · intro s rs os _ h o ho
    simp only [sink, Except.ok.injEq] at h
    subst h
    cases ho
  · unfold RandomTime
    rw [hf]; decide
  · intro x hx
    rw [empty] at hx
    cases hx

end OfSink

end Cyc.Sim
