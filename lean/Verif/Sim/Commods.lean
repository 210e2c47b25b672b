import Verif.Sim.SupplyLemmas

/-!
# Commodities of facilities in any state

Which commodities a facility asks for and offers, and which requests of others it takes notice of,
whatever its input and its state.
-/

namespace Cyc.Sim

theorem mem_of_mapM {α β : Type} {f : α → R β} {l : List α} {l' : List β} (h : l.mapM f = .ok l') :
    ∀ b ∈ l', ∃ a ∈ l, f a = .ok b := by
  induction l generalizing l' with
  | nil =>
    simp only [List.mapM_nil, pure_eq_ok, Except.ok.injEq] at h
    subst h; simp
  | cons a l ih =>
    simp only [List.mapM_cons, bind_ok, pure_eq_ok, Except.ok.injEq] at h
    obtain ⟨b, h1, bs, h2, rfl⟩ := h
    intro x hx
    rcases List.mem_cons.1 hx with rfl | hx
    · exact ⟨a, by simp, h1⟩
    · obtain ⟨y, hy, e⟩ := ih h2 x hx
      exact ⟨y, by simp [hy], e⟩

theorem mem_of_at! {α : Type} {l : List α} {i : Nat} {a : α} (h : at! l i = .ok a) : a ∈ l := by
  unfold at! at h
  split at h
  · rename_i x hx
    rw [Except.ok.injEq] at h
    exact h ▸ List.mem_of_getElem? hx
  · cases h

/-! ## Requests -/

theorem OfFuelFab.ask_commods {c : FuelFab.Cfg} {addr : Nat → Nat} {k : Nat} {name : String}
    {b : Buf NMat} {recipe : Option NMat} {commods : List String} {prefs : List ℚ}
    {inv : List (Nat × String)} {x : Option FuelFab.ReqPort × List (Nat × String)}
    (h : FuelFab.ask c addr k name b recipe commods prefs inv = .ok x) :
    ∀ y ∈ (fuelAsk x.1).alts, y.1 ∈ commods := by
  unfold FuelFab.ask at h
  split at h
  · simp only [bind_ok, pure_eq_ok, Except.ok.injEq] at h
    obtain ⟨rs, h1, rfl⟩ := h
    intro y hy
    simp only [fuelAsk, List.mem_map] at hy
    obtain ⟨r, hr, rfl⟩ := hy
    obtain ⟨i, -, e⟩ := mem_of_mapM h1 r hr
    simp only [bind_ok, pure_eq_ok, Except.ok.injEq] at e
    obtain ⟨k', e1, p, -, rfl⟩ := e
    exact mem_of_at! e1
  · simp only [Except.ok.injEq] at h
    subst h
    simp [fuelAsk]

theorem OfReactor.portfolio_commods {c : Reactor.Cfg} {s : Reactor.State} {ks : List String} {j : Nat}
    {p : List Reactor.Request} (h : Reactor.portfolio c s ks j = .ok p) :
    ∀ r ∈ p, r.commod ∈ ks := by
  induction ks generalizing j p with
  | nil =>
    simp only [Reactor.portfolio, Except.ok.injEq] at h
    subst h; simp
  | cons k ks ih =>
    simp only [Reactor.portfolio, bind_ok, pure_eq_ok, Except.ok.injEq] at h
    obtain ⟨_, -, _, -, _, -, rest, h1, rfl⟩ := h
    intro r hr
    rcases List.mem_cons.1 hr with rfl | hr
    · simp
    · exact List.mem_cons_of_mem _ (ih h1 r hr)

theorem OfReactor.requestLoop_commods {c : Reactor.Cfg} {n : Nat} {s s' : Reactor.State}
    {ps : List (List Reactor.Request)} (h : Reactor.requestLoop c n s = .ok (ps, s')) :
    ∀ p ∈ ps, ∀ r ∈ p, r.commod ∈ c.inCommods := by
  induction n generalizing s ps with
  | zero =>
    simp only [Reactor.requestLoop, Except.ok.injEq, Prod.mk.injEq] at h
    obtain ⟨rfl, -⟩ := h
    simp
  | succ n ih =>
    simp only [Reactor.requestLoop, bind_ok, pure_eq_ok, Except.ok.injEq, Prod.mk.injEq] at h
    obtain ⟨p, h1, k, -, ⟨ps', s₁⟩, h2, rfl, rfl⟩ := h
    intro q hq
    rcases List.mem_cons.1 hq with rfl | hq
    · exact OfReactor.portfolio_commods h1
    · exact ih h2 q hq

theorem OfReactor.getMatlRequests_commods {c : Reactor.Cfg} {s s' : Reactor.State}
    {ps : List (List Reactor.Request)} (h : Reactor.getMatlRequests c s = .ok (ps, s')) :
    ∀ p ∈ ps, ∀ r ∈ p, r.commod ∈ c.inCommods := by
  simp only [Reactor.getMatlRequests, bind_ok] at h
  obtain ⟨n, -, h⟩ := h
  split at h
  · simp only [pure_eq_ok, Except.ok.injEq, Prod.mk.injEq] at h
    obtain ⟨rfl, -⟩ := h
    simp
  · split at h
    · simp only [pure_eq_ok, Except.ok.injEq, Prod.mk.injEq] at h
      obtain ⟨rfl, -⟩ := h
      simp
    · exact OfReactor.requestLoop_commods h

theorem OfSink.reqLoop_commods {ks : List String} {ps : List ℚ} {l : List (String × ℚ)}
    (h : Sink.reqLoop ks ps = .ok l) : ∀ x ∈ l, x.1 ∈ ks := by
  induction ks generalizing ps l with
  | nil =>
    simp only [Sink.reqLoop, Except.ok.injEq] at h
    subst h; simp
  | cons k ks ih =>
    cases ps with
    | nil => cases h
    | cons p ps =>
      simp only [Sink.reqLoop, bind_ok, pure_eq_ok, Except.ok.injEq] at h
      obtain ⟨l', h1, rfl⟩ := h
      intro x hx
      rcases List.mem_cons.1 hx with rfl | hx
      · simp
      · exact List.mem_cons_of_mem _ (ih h1 x hx)

/-- A facility asks for what its prototype buys, in any state. -/
theorem asks_commods {k : Kind} {s : (act k).S} {as : List Ask} (h : (act k).asks s = .ok as) :
    ∀ a ∈ as, ∀ x ∈ a.alts, x.1 ∈ buysOf k := by
  intro a ha x hx
  cases k with
  | conversion c =>
    simp only [act, conversion, bind_ok, pure_eq_ok, Except.ok.injEq] at h
    obtain ⟨s₁, -, rfl⟩ := h
    unfold Conversion.requests at ha
    split at ha
    · cases ha
    · rename_i p hp
      split at hp
      · cases hp
      · simp only [Option.some.injEq] at hp
        subst hp
        rw [List.mem_singleton] at ha
        subst ha
        simp only [List.map_map, List.mem_map] at hx
        obtain ⟨k, hk, rfl⟩ := hx
        exact hk
  | enrichment c =>
    simp only [act, enrichment, Except.ok.injEq] at h
    subst h
    split at ha
    · cases ha
    · rw [List.mem_singleton] at ha
      subst ha
      rw [List.mem_singleton] at hx
      subst hx
      simp [buysOf]
  | fuelFab c =>
    change (fuelFab c).asks s = _ at h
    simp only [fuelFab, FuelFab.requests, bind_ok, pure_eq_ok, Except.ok.injEq] at h
    obtain ⟨⟨A, s₁⟩, ⟨⟨p1, i1⟩, h1, ⟨p2, i2⟩, h2, ⟨p3, i3⟩, h3, e⟩, rfl⟩ := h
    obtain ⟨rfl, -⟩ := Prod.mk.inj e
    simp only [List.mem_cons, List.not_mem_nil, or_false] at ha
    simp only [buysOf, List.mem_append]
    rcases ha with rfl | rfl | rfl
    · exact Or.inl (Or.inl (OfFuelFab.ask_commods h1 x hx))
    · exact Or.inl (Or.inr (OfFuelFab.ask_commods h2 x hx))
    · exact Or.inr (OfFuelFab.ask_commods h3 x hx)
  | mixer c =>
    simp only [act, mixer, bind_ok, pure_eq_ok, Except.ok.injEq] at h
    obtain ⟨s₁, -, rfl⟩ := h
    rw [OfMixer.asks_eq, List.map_map, List.mem_map] at ha
    obtain ⟨y, hy, rfl⟩ := ha
    have hk := List.mem_of_getElem? (List.mem_zipIdx_iff_getElem?.1 hy)
    simp only [Function.comp, Mixer.ask] at hx
    split at hx
    · simp only [mixerAsk, Mixer.mkReqs, List.mem_map, exists_exists_and_eq_and] at hx
      obtain ⟨z, hz, rfl⟩ := hx
      exact List.mem_flatMap.2 ⟨_, hk, List.mem_map.2
        ⟨z.1, List.mem_of_getElem? (List.mem_zipIdx_iff_getElem?.1 hz), rfl⟩⟩
    · simp [mixerAsk] at hx
  | reactor c enc dec =>
    change (reactor c enc dec).asks s = _ at h
    simp only [reactor, Reactor.offerPhase, bind_ok, pure_eq_ok, Except.ok.injEq] at h
    obtain ⟨⟨o, s₁⟩, ⟨s₂, -, ⟨rq, s₃⟩, h2, ⟨bd, s₄⟩, -, e⟩, rfl⟩ := h
    obtain ⟨rfl, -⟩ := Prod.mk.inj e
    obtain ⟨p, hp, rfl⟩ := List.mem_map.1 ha
    obtain ⟨r, hr, rfl⟩ := List.mem_map.1 hx
    exact OfReactor.getMatlRequests_commods h2 p hp r hr
  | separations c =>
    change (separations c).asks s = _ at h
    simp only [separations, bind_ok, pure_eq_ok, Except.ok.injEq] at h
    obtain ⟨⟨r, s₁⟩, h1, ⟨d, rq⟩, h2, rfl⟩ := h
    split at ha
    · cases ha
    · rename_i p
      simp only at p
      subst p
      rw [List.mem_singleton] at ha
      subst ha
      obtain ⟨k, hk, rfl⟩ := List.mem_map.1 hx
      unfold Separations.requests at h2
      simp only [bind_ok] at h2
      obtain ⟨k', -, h2⟩ := h2
      split at h2
      · simp only [pure_eq_ok, Except.ok.injEq, Prod.mk.injEq, reduceCtorEq, and_false] at h2
      · split at h2
        · simp only [pure_eq_ok, Except.ok.injEq, Prod.mk.injEq, reduceCtorEq, and_false] at h2
        · simp only [bind_ok, pure_eq_ok, Except.ok.injEq, Prod.mk.injEq, Option.some.injEq] at h2
          obtain ⟨l, h2, -, rfl⟩ := h2
          obtain ⟨i, -, e⟩ := mem_of_mapM h2 k hk
          simp only [bind_ok, pure_eq_ok, Except.ok.injEq] at e
          obtain ⟨k', e1, p, -, rfl⟩ := e
          exact mem_of_at! e1
  | sink c =>
    change (sink c).asks s = _ at h
    simp only [sink, bind_ok, pure_eq_ok, Except.ok.injEq] at h
    obtain ⟨s₁, -, ⟨m, s₂⟩, h2, rfl⟩ := h
    simp only [Sink.matlRequests, bind_ok, pure_eq_ok, Except.ok.injEq, Prod.mk.injEq] at h2
    obtain ⟨s₃, -, p, h3, rfl, rfl⟩ := h2
    simp only at ha
    split at ha
    · cases ha
    · rename_i p
      rw [List.mem_singleton] at ha
      subst ha
      unfold Sink.matlPort at h3
      split at h3
      · simp only [bind_ok, pure_eq_ok, Except.ok.injEq, Option.some.injEq] at h3
        obtain ⟨l, h4, rfl⟩ := h3
        obtain ⟨r, hr, rfl⟩ := List.mem_map.1 hx
        exact OfSink.reqLoop_commods h4 r hr
      · simp only [pure_eq_ok, Except.ok.injEq, reduceCtorEq] at h3
  | source c =>
    simp only [act, source, Except.ok.injEq] at h
    subst h
    cases ha
  | storage c want =>
    simp only [act, storage, Except.ok.injEq] at h
    subst h
    split at ha
    · rw [List.mem_singleton] at ha
      subst ha
      obtain ⟨k, hk, rfl⟩ := List.mem_map.1 hx
      exact hk
    · cases ha

/-! ## States -/

/-- A separations facility has no other buffers than those of its streams. The other archetypes keep
nothing by name that could differ from the input. -/
def Keyed : (k : Kind) → (act k).S → Prop
  | .separations c => fun s : Separations.State => ∀ k ∈ Map.keys s.bufs, k ∈ c.streams.map Prod.fst
  | .conversion _ => fun _ => True
  | .enrichment _ => fun _ => True
  | .fuelFab _ => fun _ => True
  | .mixer _ => fun _ => True
  | .reactor _ _ _ => fun _ => True
  | .sink _ => fun _ => True
  | .source _ => fun _ => True
  | .storage _ _ => fun _ => True

namespace OfSeparations
open Separations

theorem sepLoop_keys {eps f : ℚ} {l : List (String × NMat)} {mat mat' : NMat}
    {bufs bufs' : List (String × Buf NMat)} {rs : List SepRec}
    (h : sepLoop eps f l mat bufs = .ok (rs, mat', bufs')) :
    ∀ k ∈ Map.keys bufs', k ∈ Map.keys bufs ∨ k ∈ l.map Prod.fst := by
  induction l generalizing mat mat' bufs bufs' rs with
  | nil =>
    simp only [sepLoop, Except.ok.injEq, Prod.mk.injEq] at h
    obtain ⟨-, -, rfl⟩ := h
    exact fun k hk => Or.inl hk
  | cons x l ih =>
    simp only [sepLoop, bind_ok, pure_eq_ok, Except.ok.injEq, Prod.mk.injEq] at h
    obtain ⟨⟨r, m1, b1⟩, h1, ⟨rs', m2, b2⟩, h2, -, -, rfl⟩ := h
    intro k hk
    rcases ih h2 k hk with hk | hk
    · unfold sepOne at h1
      split at h1
      · simp only [bind_ok, pure_eq_ok, Except.ok.injEq, Prod.mk.injEq] at h1
        obtain ⟨_, -, b, -, -, -, rfl⟩ := h1
        rcases Map.mem_keys_set.1 hk with rfl | hk
        · exact Or.inr (by simp)
        · exact Or.inl hk
      · simp only [Except.ok.injEq, Prod.mk.injEq] at h1
        obtain ⟨-, -, rfl⟩ := h1
        exact Or.inl hk
    · exact Or.inr (List.mem_cons_of_mem _ hk)

theorem stage_names (mat : NMat) (l : List (String × Stream)) (bufs : List (String × Buf NMat))
    (f : ℚ) : (stage mat l bufs f).1.map Prod.fst = l.map Prod.fst := by
  induction l generalizing bufs f with
  | nil => rfl
  | cons s l ih => simp only [stage, List.map_cons, ih]

theorem pushLeftover_bufs {c : Cfg} {mat : NMat} {s s' : State} (h : pushLeftover c mat s = .ok s') :
    s'.bufs = s.bufs := by
  unfold pushLeftover at h
  split at h
  · simp only [bind_ok, pure_eq_ok, Except.ok.injEq] at h
    obtain ⟨b, -, rfl⟩ := h
    rfl
  · rw [Except.ok.injEq] at h
    rw [h]

theorem finish_bufs {c : Cfg} {f q : ℚ} {mat : NMat} {s s' : State} (h : finish c f q mat s = .ok s') :
    s'.bufs = s.bufs := by
  unfold finish at h
  split at h
  · exact pushLeftover_bufs h
  · simp only [bind_ok] at h
    obtain ⟨_, -, b, -, h⟩ := h
    exact (pushLeftover_bufs h).trans rfl

theorem tick_keyed {c : Cfg} {s s' : State} {r : Option TickRec}
    (K : ∀ k ∈ Map.keys s.bufs, k ∈ c.streams.map Prod.fst) (h : tick c s = .ok (r, s')) :
    ∀ k ∈ Map.keys s'.bufs, k ∈ c.streams.map Prod.fst := by
  unfold tick at h
  split at h
  · simp only [Except.ok.injEq, Prod.mk.injEq] at h
    obtain ⟨-, rfl⟩ := h
    exact K
  · simp only [bind_ok, pure_eq_ok, Except.ok.injEq, Prod.mk.injEq] at h
    obtain ⟨⟨mat, feed⟩, -, u, -, ⟨recs, rest, bufs⟩, h1, s₁, h2, -, rfl⟩ := h
    rw [finish_bufs h2]
    intro k hk
    rcases sepLoop_keys h1 k hk with hk | hk
    · rcases (stage_keys _ _ _ _).1 hk with hk | hk
      · exact hk
      · exact K k hk
    · rw [stage_names] at hk
      exact hk

theorem sellLoop_keyed {c : Cfg} {ts : List (String × ℚ)} {s s' : State} {l : List NMat}
    (h : sellLoop c ts s = .ok (l, s')) : ∀ k ∈ Map.keys s'.bufs, k ∈ Map.keys s.bufs := by
  induction ts generalizing s l with
  | nil =>
    simp only [sellLoop, Except.ok.injEq, Prod.mk.injEq] at h
    obtain ⟨-, rfl⟩ := h
    exact fun _ hk => hk
  | cons t ts ih =>
    simp only [sellLoop, bind_ok, pure_eq_ok, Except.ok.injEq, Prod.mk.injEq] at h
    obtain ⟨⟨m, s₁⟩, h1, ⟨ms, s₂⟩, h2, -, rfl⟩ := h
    intro k hk
    have hk := ih h2 k hk
    unfold sellOne at h1
    split at h1
    · simp only [bind_ok, pure_eq_ok, Except.ok.injEq, Prod.mk.injEq] at h1
      obtain ⟨_, -, -, rfl⟩ := h1
      exact hk
    · split at h1
      · rename_i b hb
        simp only [bind_ok, pure_eq_ok, Except.ok.injEq, Prod.mk.injEq] at h1
        obtain ⟨_, -, -, rfl⟩ := h1
        rcases Map.mem_keys_set.1 hk with rfl | hk
        · exact Map.mem_keys.2 ⟨b, hb⟩
        · exact hk
      · cases h1

theorem accept_bufs {c : Cfg} {ms : List NMat} {s s' : State} (h : ms.foldlM (accept c) s = .ok s') :
    s'.bufs = s.bufs := by
  induction ms generalizing s with
  | nil =>
    simp only [List.foldlM_nil, pure_eq_ok, Except.ok.injEq] at h
    rw [h]
  | cons m ms ih =>
    simp only [List.foldlM_cons, bind_ok] at h
    obtain ⟨s₁, h1, h2⟩ := h
    simp only [accept, bind_ok, pure_eq_ok, Except.ok.injEq] at h1
    obtain ⟨b, -, rfl⟩ := h1
    exact (ih h2).trans rfl

end OfSeparations

theorem deploy_keyed {k : Kind} {p : Running act} (h : deploy k = .ok p) : p.k = k ∧ Keyed p.k p.s := by
  cases k with
  | separations c =>
    simp only [deploy, bind_ok, pure_eq_ok, Except.ok.injEq] at h
    obtain ⟨s, h1, rfl⟩ := h
    refine ⟨rfl, ?_⟩
    unfold Separations.enter at h1
    split at h1
    · cases h1
    · rw [Except.ok.injEq] at h1
      subst h1
      exact (Separations.initBufs_keys _).2
  | conversion c =>
    simp only [deploy, Except.ok.injEq] at h
    subst h; exact ⟨rfl, trivial⟩
  | enrichment c =>
    simp only [deploy, bind_ok, pure_eq_ok, Except.ok.injEq] at h
    obtain ⟨s, -, rfl⟩ := h
    exact ⟨rfl, trivial⟩
  | fuelFab c =>
    simp only [deploy, bind_ok, pure_eq_ok, Except.ok.injEq] at h
    obtain ⟨s, -, rfl⟩ := h
    exact ⟨rfl, trivial⟩
  | mixer c =>
    simp only [deploy, Except.ok.injEq] at h
    subst h; exact ⟨rfl, trivial⟩
  | reactor c enc dec =>
    simp only [deploy, bind_ok, pure_eq_ok, Except.ok.injEq] at h
    obtain ⟨s, -, rfl⟩ := h
    exact ⟨rfl, trivial⟩
  | sink c =>
    simp only [deploy, bind_ok, pure_eq_ok, Except.ok.injEq] at h
    obtain ⟨s, -, rfl⟩ := h
    exact ⟨rfl, trivial⟩
  | source c =>
    simp only [deploy, bind_ok, pure_eq_ok, Except.ok.injEq] at h
    obtain ⟨s, -, rfl⟩ := h
    exact ⟨rfl, trivial⟩
  | storage c want =>
    simp only [deploy, bind_ok, pure_eq_ok, Except.ok.injEq] at h
    obtain ⟨s, -, rfl⟩ := h
    exact ⟨rfl, trivial⟩

theorem step_keyed {k : Kind} {s s' : (act k).S} {m : (act k).M} {rs : List Req} {ts : List Sale}
    {l : List NMat} {ds : List Delivery} (K : Keyed k s) (h1 : (act k).sell rs ts s = .ok (l, m))
    (h2 : (act k).settle ds m = .ok s') : Keyed k s' := by
  cases k with
  | separations c =>
    change (separations c).sell rs ts s = _ at h1
    change (separations c).settle ds m = _ at h2
    simp only [separations] at h1
    obtain ⟨⟨r, s₁⟩, e1, h1⟩ := bind_ok.1 h1
    obtain ⟨_, -, h1⟩ := bind_ok.1 h1
    obtain ⟨_, -, e2⟩ := bind_ok.1 h1
    simp only [separations] at h2
    obtain ⟨s₂, e3, h2⟩ := bind_ok.1 h2
    obtain rfl := Except.ok.inj h2
    intro k hk
    change k ∈ Map.keys s₂.bufs at hk
    rw [OfSeparations.accept_bufs e3] at hk
    exact OfSeparations.tick_keyed K e1 k (OfSeparations.sellLoop_keyed e2 k hk)
  | conversion c => exact trivial
  | enrichment c => exact trivial
  | fuelFab c => exact trivial
  | mixer c => exact trivial
  | reactor c enc dec => exact trivial
  | sink c => exact trivial
  | source c => exact trivial
  | storage c want => exact trivial

/-! ## Offers -/

theorem OfReactor.bidLoop_commods {c : Reactor.Cfg} {reqs : String → List ℚ} {ks : List String}
    {s s' : Reactor.State} {ps : List Reactor.BidPort}
    (h : Reactor.bidLoop c reqs ks s = .ok (ps, s')) : ∀ p ∈ ps, p.commod ∈ ks := by
  induction ks generalizing s s' ps with
  | nil =>
    simp only [Reactor.bidLoop, Except.ok.injEq, Prod.mk.injEq] at h
    obtain ⟨rfl, -⟩ := h
    simp
  | cons k ks ih =>
    unfold Reactor.bidLoop at h
    split at h
    · exact fun p hp => List.mem_cons_of_mem _ (ih h p hp)
    · simp only [bind_ok] at h
      obtain ⟨⟨m, s₁⟩, -, h⟩ := h
      split at h
      · exact fun p hp => List.mem_cons_of_mem _ (ih h p hp)
      · split at h
        · cases h
        · simp only [bind_ok, pure_eq_ok, Except.ok.injEq, Prod.mk.injEq] at h
          obtain ⟨⟨ps', s₂⟩, h1, rfl, -⟩ := h
          intro p hp
          rcases List.mem_cons.1 hp with rfl | hp
          · simp
          · exact List.mem_cons_of_mem _ (ih h1 p hp)

/-- A facility offers what its prototype sells. -/
theorem offers_commods {k : Kind} {s : (act k).S} (K : Keyed k s) {rs : List Req} {os : List Offer}
    (h : (act k).offers rs s = .ok os) : ∀ o ∈ os, o.commod ∈ sellsOf k := by
  intro o ho
  cases k with
  | conversion c => simp [sellsOf, (OfConversion.offers_eq h o ho).2]
  | enrichment c =>
    change (enrichment c).offers rs s = _ at h
    simp only [enrichment, bind_ok, pure_eq_ok, Except.ok.injEq] at h
    obtain ⟨⟨p, q⟩, hq, rfl⟩ := h
    simp only [sellsOf]
    rcases List.mem_append.1 ho with ho | ho
    · unfold tailsOffer at ho
      split at ho
      · cases ho
      · rw [List.mem_singleton.1 ho]; simp
    · unfold productOffer at ho
      split at ho
      · cases ho
      · rw [List.mem_singleton.1 ho]; simp
  | fuelFab c =>
    change (fuelFab c).offers rs s = _ at h
    simp only [fuelFab, bind_ok, pure_eq_ok, Except.ok.injEq] at h
    obtain ⟨⟨a, s₁⟩, -, b, -, rfl⟩ := h
    split at ho
    · cases ho
    · rw [List.mem_singleton.1 ho]; simp [sellsOf, fuelOffer]
  | mixer c =>
    change (mixer c).offers rs s = _ at h
    simp only [mixer, bind_ok, pure_eq_ok, Except.ok.injEq] at h
    obtain ⟨s₁, -, rfl⟩ := h
    rw [List.mem_singleton.1 ho]; simp [sellsOf]
  | reactor c enc dec =>
    change (reactor c enc dec).offers rs s = _ at h
    simp only [reactor, Reactor.offerPhase, bind_ok, pure_eq_ok, Except.ok.injEq] at h
    obtain ⟨⟨o', s₁⟩, ⟨s₂, -, ⟨rq, s₃⟩, -, ⟨bd, s₄⟩, h2, e⟩, rfl⟩ := h
    obtain ⟨rfl, -⟩ := Prod.mk.inj e
    obtain ⟨p, hp, rfl⟩ := List.mem_map.1 ho
    exact Reactor.mem_uniqOutCommods.1 (OfReactor.bidLoop_commods h2 p hp)
  | separations c =>
    change (separations c).offers rs s = _ at h
    simp only [separations, bind_ok, pure_eq_ok, Except.ok.injEq] at h
    obtain ⟨⟨r, s₁⟩, h1, ⟨d, rq⟩, -, u, -, rfl⟩ := h
    obtain ⟨p, hp', rfl⟩ := List.mem_map.1 ho
    have key : ∀ {k b qs}, p ∈ Separations.bidsFor c.eps k b qs → p.commod = k := by
      intro k b qs hb
      unfold Separations.bidsFor at hb
      split at hb
      · cases hb
      · split at hb
        · cases hb
        · rw [List.mem_singleton] at hb
          subst hb; rfl
    show p.commod ∈ _
    rcases List.mem_append.1 hp' with hp' | hp'
    · obtain ⟨b, hb, hp'⟩ := List.mem_flatMap.1 hp'
      rw [key hp']
      exact List.mem_cons_of_mem _ (OfSeparations.tick_keyed K h1 b.1 (List.mem_map_of_mem hb))
    · rw [key hp']
      simp [sellsOf]
  | sink c =>
    simp only [act, sink, Except.ok.injEq] at h
    subst h
    cases ho
  | source c => simp [sellsOf, (OfSource.offers_eq h o ho).2]
  | storage c want =>
    simp only [act, storage, Except.ok.injEq] at h
    subst h
    obtain ⟨k, hk, rfl⟩ := List.mem_map.1 ho
    exact List.mem_of_mem_take hk

/-! ## Requests of others -/

/-- Two tables of requests agree on the commodities. -/
def Alike (ks : List String) (rs rs' : List Req) : Prop :=
  ∀ k ∈ ks, rs.filter (fun r => r.commod = k) = rs'.filter fun r => r.commod = k

theorem Alike.quantities {ks : List String} {rs rs' : List Req} (h : Alike ks rs rs') {k : String}
    (hk : k ∈ ks) : quantities rs k = quantities rs' k := by
  unfold Sim.quantities; rw [h k hk]

theorem Alike.targets {ks : List String} {rs rs' : List Req} (h : Alike ks rs rs') {k : String}
    (hk : k ∈ ks) : targets rs k = targets rs' k := by
  unfold Sim.targets; rw [h k hk]

theorem Alike.fuelTargets {ks : List String} {rs rs' : List Req} (h : Alike ks rs rs') {k : String}
    (hk : k ∈ ks) : fuelTargets rs k = fuelTargets rs' k := by
  unfold Sim.fuelTargets; rw [h k hk]

theorem OfConversion.bidLoop_iff {s : Conversion.State} {rs rs' : List Conversion.Req}
    (h : rs.map Conversion.Req.qty = rs'.map Conversion.Req.qty) :
    (∃ bs, Conversion.bidLoop s rs = .ok bs ∧ ∃ bs', Conversion.bidLoop s rs' = .ok bs') ∨
    ∃ e, Conversion.bidLoop s rs = .error e ∧ Conversion.bidLoop s rs' = .error e := by
  induction rs generalizing rs' with
  | nil =>
    cases rs' with
    | nil => exact Or.inl ⟨[], rfl, [], rfl⟩
    | cons _ _ => simp at h
  | cons r rs ih =>
    cases rs' with
    | nil => simp at h
    | cons r' rs' =>
      simp only [List.map_cons, List.cons.injEq] at h
      obtain ⟨h1, h2⟩ := h
      have one : (∃ b, Conversion.bidOne s r = .ok b ∧ ∃ b', Conversion.bidOne s r' = .ok b') ∨
          ∃ e, Conversion.bidOne s r = .error e ∧ Conversion.bidOne s r' = .error e := by
        unfold Conversion.bidOne
        rw [h1]
        split
        · cases Conversion.peek s.output with
          | ok m => exact Or.inl ⟨_, rfl, _, rfl⟩
          | error e => exact Or.inr ⟨e, rfl, rfl⟩
        · exact Or.inl ⟨_, rfl, _, rfl⟩
      rcases one with ⟨b, e1, b', e2⟩ | ⟨e, e1, e2⟩
      · rcases ih h2 with ⟨bs, e3, bs', e4⟩ | ⟨e, e3, e4⟩
        · exact Or.inl ⟨b.toList ++ bs, by simp [Conversion.bidLoop, e1, e3], b'.toList ++ bs', by
            simp [Conversion.bidLoop, e2, e4]⟩
        · exact Or.inr ⟨e, by simp [Conversion.bidLoop, e1, e3], by simp [Conversion.bidLoop, e2, e4]⟩
      · exact Or.inr ⟨e, by simp [Conversion.bidLoop, e1], by simp [Conversion.bidLoop, e2]⟩

theorem zipIdx_filter {α β : Type} (p : α → Bool) (f : α → β) (l : List α) (n : Nat) :
    ((l.zipIdx n).filter fun x => p x.1).map (fun x => f x.1) = (l.filter p).map f := by
  induction l generalizing n with
  | nil => rfl
  | cons a l ih =>
    by_cases h : p a = true
    · simp [List.zipIdx_cons, h, ih]
    · simp [List.zipIdx_cons, h, ih]

theorem OfConversion.reqs_alike {ks : List String} {rs rs' : List Req} (h : Alike ks rs rs')
    {k : String} (hk : k ∈ ks) :
    ((conversionReqs rs).filter fun r => decide (r.commod = k)).map Conversion.Req.qty =
      ((conversionReqs rs').filter fun r => decide (r.commod = k)).map Conversion.Req.qty := by
  have e : ∀ rs : List Req,
      ((conversionReqs rs).filter fun r => decide (r.commod = k)).map Conversion.Req.qty =
      (rs.filter fun r => r.commod = k).map fun r => qty r.target := by
    intro rs
    unfold conversionReqs
    rw [List.filter_map, List.map_map]
    exact zipIdx_filter (fun r : Req => decide (r.commod = k)) (fun r : Req => qty r.target) rs 0
  rw [e, e, h k hk]

/-- What `Conversion` offers depends only on the requests for what it sells. -/
theorem OfConversion.bids_alike {c : Conversion.Cfg} {s : Conversion.State} {rs rs' : List Req}
    (h : Alike [c.outcommod] rs rs') :
    (∃ b b', Conversion.bids c (conversionReqs rs) s = .ok b ∧
      Conversion.bids c (conversionReqs rs') s = .ok b' ∧ b.map Conversion.BidPort.cap = b'.map Conversion.BidPort.cap) ∨
    ∃ e, Conversion.bids c (conversionReqs rs) s = .error e ∧
      Conversion.bids c (conversionReqs rs') s = .error e := by
  unfold Conversion.bids
  split
  · exact Or.inl ⟨none, none, rfl, rfl, rfl⟩
  · rcases OfConversion.bidLoop_iff (s := s) (OfConversion.reqs_alike h (k := c.outcommod) (by simp)) with
      ⟨bs, e1, bs', e2⟩ | ⟨e, e1, e2⟩
    · exact Or.inl ⟨some ⟨bs, s.output.quantity⟩, some ⟨bs', s.output.quantity⟩, by rw [e1]; rfl, by
        rw [e2]; rfl, rfl⟩
    · exact Or.inr ⟨e, by rw [e1]; rfl, by rw [e2]; rfl⟩

theorem OfSource.bids_alike {c : Source.Cfg} {s : Source.State} {rs rs' : List Req}
    (h : Alike [c.outcommod] rs rs') :
    (Source.bids c (sourceReqs rs) s).map Source.BidPort.cap =
      (Source.bids c (sourceReqs rs') s).map Source.BidPort.cap := by
  have e : ∀ rs : List Req, ((sourceReqs rs).filter fun r => decide (r.commod = c.outcommod)) = [] ↔
      (rs.filter fun r => r.commod = c.outcommod) = [] := by
    intro rs
    have := zipIdx_filter (fun r : Req => decide (r.commod = c.outcommod)) (fun r : Req => r.target) rs 0
    unfold sourceReqs
    rw [List.filter_map, List.map_eq_nil_iff, ← List.map_eq_nil_iff (f := fun r : Req => r.target),
      ← this, List.map_eq_nil_iff]
    rfl
  have e2 := (e rs).trans ((by rw [h c.outcommod (by simp)] : _ ↔ _).trans (e rs').symm)
  unfold Source.bids
  split
  · rfl
  · by_cases hn : ((sourceReqs rs).filter fun r => decide (r.commod = c.outcommod)) = []
    · rw [if_pos hn, if_pos (e2.1 hn)]
    · rw [if_neg hn, if_neg (fun h => hn (e2.2 h))]
      rfl

theorem OfReactor.bidLoop_alike {c : Reactor.Cfg} {reqs reqs' : String → List ℚ} {ks : List String}
    (h : ∀ k ∈ ks, reqs k = reqs' k) (s : Reactor.State) :
    Reactor.bidLoop c reqs ks s = Reactor.bidLoop c reqs' ks s := by
  induction ks generalizing s with
  | nil => rfl
  | cons k ks ih =>
    have ih := fun s => ih (fun x hx => h x (by simp [hx])) s
    simp only [Reactor.bidLoop, ih, h k (by simp)]

theorem OfReactor.offerPhase_alike {c : Reactor.Cfg} {rs rs' : List Req}
    (h : Alike c.outCommods rs rs') (s : Reactor.State) :
    Reactor.offerPhase c (quantities rs) s = Reactor.offerPhase c (quantities rs') s := by
  have e : ∀ s, Reactor.getMatlBids c (quantities rs) s = Reactor.getMatlBids c (quantities rs') s :=
    fun s => OfReactor.bidLoop_alike (fun k hk => h.quantities (Reactor.mem_uniqOutCommods.1 hk)) s
  simp only [Reactor.offerPhase, e]

theorem OfSeparations.bids_alike {c : Separations.Cfg} {s : Separations.State} {rs rs' : List Req}
    (K : ∀ k ∈ Map.keys s.bufs, k ∈ c.streams.map Prod.fst)
    (h : Alike (c.leftoverCommod :: c.streams.map Prod.fst) rs rs') :
    Separations.reinsert c s (quantities rs) = Separations.reinsert c s (quantities rs') ∧
      Separations.bids c s (quantities rs) = Separations.bids c s (quantities rs') := by
  have hl := h.quantities (k := c.leftoverCommod) (by simp)
  have hb : ∀ b ∈ s.bufs, quantities rs b.1 = quantities rs' b.1 := fun b hb =>
    h.quantities (List.mem_cons_of_mem _ (K b.1 (List.mem_map_of_mem hb)))
  have e : Separations.reinsertAll c.eps (quantities rs) s.bufs =
      Separations.reinsertAll c.eps (quantities rs') s.bufs := by
    revert hb
    generalize s.bufs = l
    intro hb
    induction l with
    | nil => rfl
    | cons b l ih =>
      simp only [Separations.reinsertAll, hb b (by simp), ih fun x hx => hb x (by simp [hx])]
  refine ⟨by simp only [Separations.reinsert, e, hl], ?_⟩
  unfold Separations.bids
  rw [hl]
  congr 1
  refine List.flatMap_congr fun b hb' => ?_
  rw [hb b hb']

/-- What a facility offers depends only on the requests for what its prototype sells. -/
theorem offers_alike {k : Kind} {s : (act k).S} (K : Keyed k s) {rs rs' : List Req}
    (h : Alike (sellsOf k) rs rs') : (act k).offers rs s = (act k).offers rs' s := by
  cases k with
  | conversion c =>
    show (conversion c).offers rs s = (conversion c).offers rs' s
    simp only [conversion]
    cases Conversion.tick c s with
    | error e => rfl
    | ok s₁ =>
      simp only [ok_bind]
      rcases OfConversion.bids_alike (s := s₁) h with ⟨b, b', e1, e2, e3⟩ | ⟨e, e1, e2⟩
      · rw [e1, e2]
        cases b <;> cases b' <;> simp_all
      · rw [e1, e2]
  | enrichment c =>
    show (enrichment c).offers rs s = (enrichment c).offers rs' s
    simp only [enrichment, Enrichment.bids, h.targets (k := c.tailsCommod) (by simp [sellsOf]),
      h.targets (k := c.productCommod) (by simp [sellsOf])]
  | fuelFab c =>
    show (fuelFab c).offers rs s = (fuelFab c).offers rs' s
    simp only [fuelFab, FuelFab.bids, h.fuelTargets (k := c.outCommod) (by simp [sellsOf])]
  | mixer c => rfl
  | reactor c enc dec =>
    show (reactor c enc dec).offers rs s = (reactor c enc dec).offers rs' s
    simp only [reactor, OfReactor.offerPhase_alike h]
  | separations c =>
    show (separations c).offers rs s = (separations c).offers rs' s
    simp only [separations]
    cases h1 : Separations.tick c s with
    | error e => rfl
    | ok x =>
      obtain ⟨r, s₁⟩ := x
      obtain ⟨e1, e2⟩ := OfSeparations.bids_alike (OfSeparations.tick_keyed K h1) h
      simp only [ok_bind, e1, e2]
  | sink c => rfl
  | source c =>
    show (source c).offers rs s = (source c).offers rs' s
    have e := OfSource.bids_alike (s := s) h
    simp only [source]
    revert e
    cases Source.bids c (sourceReqs rs) s <;> cases Source.bids c (sourceReqs rs') s <;> simp_all
  | storage c want => rfl

/-- What a facility hands over depends only on the requests for what its prototype sells. -/
theorem sell_alike {k : Kind} {s : (act k).S} (K : Keyed k s) {rs rs' : List Req} (ts : List Sale)
    (h : Alike (sellsOf k) rs rs') : (act k).sell rs ts s = (act k).sell rs' ts s := by
  cases k with
  | conversion c =>
    show (conversion c).sell rs ts s = (conversion c).sell rs' ts s
    simp only [conversion]
    cases Conversion.tick c s with
    | error e => rfl
    | ok s₁ =>
      simp only [ok_bind]
      rcases OfConversion.bids_alike (s := s₁) h with ⟨b, b', e1, e2, e3⟩ | ⟨e, e1, e2⟩
      · rw [e1, e2]; rfl
      · rw [e1, e2]
  | enrichment c =>
    show (enrichment c).sell rs ts s = (enrichment c).sell rs' ts s
    simp only [enrichment, Enrichment.bids, h.targets (k := c.tailsCommod) (by simp [sellsOf]),
      h.targets (k := c.productCommod) (by simp [sellsOf])]
  | fuelFab c =>
    show (fuelFab c).sell rs ts s = (fuelFab c).sell rs' ts s
    simp only [fuelFab, FuelFab.bids, h.fuelTargets (k := c.outCommod) (by simp [sellsOf])]
  | mixer c => rfl
  | reactor c enc dec =>
    show (reactor c enc dec).sell rs ts s = (reactor c enc dec).sell rs' ts s
    simp only [reactor, OfReactor.offerPhase_alike h]
  | separations c =>
    show (separations c).sell rs ts s = (separations c).sell rs' ts s
    simp only [separations]
    cases h1 : Separations.tick c s with
    | error e => rfl
    | ok x =>
      obtain ⟨r, s₁⟩ := x
      obtain ⟨e1, -⟩ := OfSeparations.bids_alike (OfSeparations.tick_keyed K h1) h
      simp only [ok_bind, e1]
  | sink c => rfl
  | source c => rfl
  | storage c want => rfl

end Cyc.Sim
