import Verif.Sim.Later
import Verif.Sim.Props2

/-!
# A simulation depends on ages, not on dates (C155)
-/

namespace Cyc.Sim

/-- The same facility, after it has handed over, `d` steps later. -/
def Halfway.later (d : Nat) : Halfway act → Halfway act
  | ⟨.reactor c enc dec, s⟩ => ⟨.reactor (c.later d) enc dec, (Reactor.State.later d s.1, s.2)⟩
  | ⟨.separations c, s⟩ => ⟨.separations (c.later d), Separations.State.later d s⟩
  | ⟨.storage c want, s⟩ => ⟨.storage (c.later d) fun s => want (stockBefore d s), Storage.State.later d s⟩
  | p => p

variable {d : Nat}

/-- The stores of storage facilities are as they were made. -/
def Running.Kept : Running act → Prop
  | ⟨.storage c _, s⟩ => Storage.Fixed c (s : Storage.State Nat)
  | _ => True

def Halfway.Kept : Halfway act → Prop
  | ⟨.storage c _, s⟩ => Storage.Fixed c (s : Storage.State Nat)
  | _ => True

theorem stockBefore_later (s : Storage.State Nat) : stockBefore d (s.later d) = s := by
  obtain ⟨t, a, b, e, f, es, ps⟩ := s
  simp only [stockBefore, Storage.State.later, Storage.State.mk.injEq, List.map_map, true_and, and_true]
  refine ⟨by omega, ?_⟩
  have : ((fun x => x - d) ∘ fun x => x + d) = id := by funext x; simp
  rw [this, List.map_id]

theorem then_then {α β γ : Type} (f : α → β) (g : β → γ) (x : R α) :
    R.then g (R.then f x) = R.then (fun a => g (f a)) x := by cases x <;> rfl

/-! ## The archetypes that look at the date -/

/-- The state of a reactor in a simulation, later. -/
def reactorLater (d : Nat) (s : Reactor.State × Nat) : Reactor.State × Nat := (s.1.later d, s.2)

theorem reactor_asks (c : Reactor.Cfg) (enc : NMat → Nat) (dec : Nat → NMat) (s : Reactor.State × Nat) :
    (reactor (c.later d) enc dec).asks (reactorLater d s) = (reactor c enc dec).asks s := by
  show (Reactor.offerPhase (c.later d) (fun _ => []) (s.1.later d) >>= _) =
    (Reactor.offerPhase c (fun _ => []) s.1 >>= _)
  rw [Reactor.offerPhase_later, bind_then]
  rfl

theorem reactor_offers (c : Reactor.Cfg) (enc : NMat → Nat) (dec : Nat → NMat) (rs : List Req)
    (s : Reactor.State × Nat) :
    (reactor (c.later d) enc dec).offers rs (reactorLater d s) = (reactor c enc dec).offers rs s := by
  show (Reactor.offerPhase (c.later d) (quantities rs) (s.1.later d) >>= _) =
    (Reactor.offerPhase c (quantities rs) s.1 >>= _)
  rw [Reactor.offerPhase_later, bind_then]
  rfl

theorem reactor_sell (c : Reactor.Cfg) (enc : NMat → Nat) (dec : Nat → NMat) (rs : List Req)
    (ts : List Sale) (s : Reactor.State × Nat) :
    ((reactor (c.later d) enc dec).sell rs ts (reactorLater d s) : R (List NMat × Reactor.State × Nat)) =
      R.then (fun x : List NMat × Reactor.State × Nat => (x.1, reactorLater d x.2))
        ((reactor c enc dec).sell rs ts s : R (List NMat × Reactor.State × Nat)) := by
  simp only [reactor, reactorLater, Reactor.offerPhase_later, bind_then, then_bind]
  congr 1; funext x
  simp only [Reactor.onState]
  by_cases h : ts.map Sale.commod = []
  · simp only [h, if_true, pure_eq_ok, ok_bind]; rfl
  · simp only [h, if_false, Reactor.getMatlTrades_later, bind_then, then_bind, Reactor.onState]; rfl

theorem reactor_settle (c : Reactor.Cfg) (enc : NMat → Nat) (dec : Nat → NMat) (ds : List Delivery)
    (s : Reactor.State × Nat) :
    ((reactor (c.later d) enc dec).settle ds (reactorLater d s) : R (Reactor.State × Nat)) =
      R.then (reactorLater d) ((reactor c enc dec).settle ds s : R (Reactor.State × Nat)) := by
  simp only [reactor, reactorLater, Reactor.acceptMatlTrades_later, bind_then, then_bind, Reactor.tock_later]
  congr 1; funext x
  congr 1; funext y
  have : ({ y.later d with time := (y.later d).time + 1, log := [] } : Reactor.State) =
      Reactor.State.later d { y with time := y.time + 1, log := [] } := by
    unfold Reactor.State.later
    simp only [Reactor.State.mk.injEq, and_true]
    omega
  simp only [this]
  rfl

theorem separations_asks (c : Separations.Cfg) (s : Separations.State) :
    (separations (c.later d)).asks (s.later d) = (separations c).asks s := by
  simp only [separations, Separations.tick_later, bind_then, Separations.onState, Separations.requests_later]

theorem separations_offers (c : Separations.Cfg) (rs : List Req) (s : Separations.State) :
    (separations (c.later d)).offers rs (s.later d) = (separations c).offers rs s := by
  simp only [separations, Separations.tick_later, bind_then, Separations.onState, Separations.requests_later]
  rfl

theorem separations_sell (c : Separations.Cfg) (rs : List Req) (ts : List Sale) (s : Separations.State) :
    ((separations (c.later d)).sell rs ts (s.later d) : R (List NMat × Separations.State)) =
      R.then (Separations.onState d) ((separations c).sell rs ts s : R (List NMat × Separations.State)) := by
  have h1 : ∀ t : Separations.State, ∀ r,
      Separations.reinsert (c.later d) (t.later d) r = Separations.reinsert c t r := fun _ _ => rfl
  simp only [separations, Separations.tick_later, bind_then, Separations.requests_later, Separations.sellLoop_later,
    then_bind, Separations.onState, h1]

theorem separations_settle (c : Separations.Cfg) (ds : List Delivery) (s : Separations.State) :
    ((separations (c.later d)).settle ds (s.later d) : R Separations.State) =
      R.then (Separations.State.later d) ((separations c).settle ds s : R Separations.State) := by
  have : ∀ x : Separations.State, ({ x.later d with time := (x.later d).time + 1 } : Separations.State) =
      Separations.State.later d { x with time := x.time + 1 } := by
    intro x
    unfold Separations.State.later
    simp only [Separations.State.mk.injEq, and_true]
    omega
  simp only [separations, Separations.buys_later, bind_then, then_bind, this]
  rfl

theorem storage_asks (c : Storage.Cfg) (want : Storage.State Nat → ℚ) (s : Storage.State Nat) :
    (storage (c.later d) fun s => want (stockBefore d s)).asks (s.later d) = (storage c want).asks s := by
  simp only [storage, stockBefore_later]
  rfl

theorem storage_sell (c : Storage.Cfg) (want : Storage.State Nat → ℚ) (rs : List Req) (ts : List Sale)
    (s : Storage.State Nat) :
    ((storage (c.later d) fun s => want (stockBefore d s)).sell rs ts (s.later d) :
        R (List NMat × Storage.State Nat)) =
      R.then (Storage.onState d) ((storage c want).sell rs ts s : R (List NMat × Storage.State Nat)) :=
  Storage.sellLoop_later _

theorem storage_settle (c : Storage.Cfg) (want : Storage.State Nat → ℚ) (ds : List Delivery)
    {s : Storage.State Nat} (hk : Storage.Fixed c s) :
    ((storage (c.later d) fun s => want (stockBefore d s)).settle ds (s.later d) : R (Storage.State Nat)) =
      R.then (Storage.State.later d) ((storage c want).settle ds s : R (Storage.State Nat)) := by
  have : ∀ y : Storage.State Nat, ({ y.later d with time := (y.later d).time + 1 } : Storage.State Nat) =
      Storage.State.later d { y with time := y.time + 1 } := by
    intro y
    unfold Storage.State.later
    simp only [Storage.State.mk.injEq, and_true]
    omega
  simp only [storage, Storage.buys_later, bind_then, then_bind]
  refine bind_congr_ok fun x hx => ?_
  simp only [Storage.tock_later (Storage.buys_fixed hk hx), bind_then, Storage.onState, this]
  rfl

/-! ## All archetypes -/

theorem asks_later (p : Running act) : (act (p.later d).k).asks (p.later d).s = (act p.k).asks p.s := by
  obtain ⟨k, s⟩ := p
  cases k with
  | reactor c enc dec => exact reactor_asks c enc dec s
  | separations c => exact separations_asks c s
  | storage c want => exact storage_asks c want s
  | _ => rfl

theorem offers_later (rs : List Req) (p : Running act) :
    (act (p.later d).k).offers rs (p.later d).s = (act p.k).offers rs p.s := by
  obtain ⟨k, s⟩ := p
  cases k with
  | reactor c enc dec => exact reactor_offers c enc dec rs s
  | separations c => exact separations_offers c rs s
  | _ => rfl

theorem sell_later (rs : List Req) (ts : List Sale) (p : Running act) :
    R.then (fun x => (x.1, (⟨(p.later d).k, x.2⟩ : Halfway act)))
        ((act (p.later d).k).sell rs ts (p.later d).s) =
      R.then (fun x => (x.1, Halfway.later d ⟨p.k, x.2⟩)) ((act p.k).sell rs ts p.s) := by
  obtain ⟨k, s⟩ := p
  cases k with
  | reactor c enc dec => exact (congrArg _ (reactor_sell c enc dec rs ts s)).trans (then_then _ _ _)
  | separations c => exact (congrArg _ (separations_sell c rs ts s)).trans (then_then _ _ _)
  | storage c want => exact (congrArg _ (storage_sell c want rs ts s)).trans (then_then _ _ _)
  | _ => rfl

theorem settle_later (ds : List Delivery) (h : Halfway act) (hk : h.Kept) :
    R.then (fun x => (⟨(h.later d).k, x⟩ : Running act)) ((act (h.later d).k).settle ds (h.later d).m) =
      R.then (fun x => Running.later d ⟨h.k, x⟩) ((act h.k).settle ds h.m) := by
  obtain ⟨k, s⟩ := h
  cases k with
  | reactor c enc dec => exact (congrArg _ (reactor_settle c enc dec ds s)).trans (then_then _ _ _)
  | separations c => exact (congrArg _ (separations_settle c ds s)).trans (then_then _ _ _)
  | storage c want => exact (congrArg _ (storage_settle c want ds hk)).trans (then_then _ _ _)
  | _ => rfl

theorem sell_kept {rs : List Req} {ts : List Sale} {p : Running act} (hp : p.Kept) {x : List NMat × (act p.k).M}
    (h : (act p.k).sell rs ts p.s = .ok x) : Halfway.Kept ⟨p.k, x.2⟩ := by
  obtain ⟨k, s⟩ := p
  cases k with
  | storage c want => exact Storage.sellLoop_fixed hp h
  | _ => trivial

theorem storage_kept {c : Storage.Cfg} {want : Storage.State Nat → ℚ} {ds : List Delivery}
    {s x : Storage.State Nat} (hm : Storage.Fixed c s)
    (h : ((storage c want).settle ds s : R (Storage.State Nat)) = .ok x) : Storage.Fixed c x := by
  simp only [storage, Storage.tock, bind_ok, pure_eq_ok, Except.ok.injEq, Prod.mk.injEq] at h
  obtain ⟨s2, h2, ⟨rep, s3⟩, ⟨s4, h4, s5, h5, s6, h6, _, _, _, _, h7⟩, rfl⟩ := h
  simp only [Prod.mk.injEq] at h7
  obtain ⟨-, rfl⟩ := h7
  have f3 := Storage.processMat_fixed (Storage.tockReady_fixed (Storage.beginProcessing_fixed
    (Storage.buys_fixed hm h2) h4) h5) h6
  exact ⟨⟨f3.isOpen.inventory, f3.isOpen.processing, f3.isOpen.ready, f3.isOpen.stocks⟩, f3.prefs⟩

theorem settle_kept {ds : List Delivery} {m : Halfway act} (hm : m.Kept) {x : (act m.k).S}
    (h : (act m.k).settle ds m.m = .ok x) : Running.Kept ⟨m.k, x⟩ := by
  obtain ⟨k, s⟩ := m
  cases k with
  | storage c want => exact storage_kept hm h
  | _ => trivial

theorem deploy_kept {k : Kind} {p : Running act} (h : deploy k = .ok p) : p.Kept := by
  cases k with
  | conversion c => cases h; trivial
  | mixer c => cases h; trivial
  | storage c want =>
    simp only [deploy, bind_ok, pure_eq_ok, Except.ok.injEq] at h
    obtain ⟨⟨q, s⟩, h1, rfl⟩ := h
    exact (Storage.enter_fixed h1).1
  | _ =>
    simp only [deploy, bind_ok, pure_eq_ok, Except.ok.injEq] at h
    obtain ⟨s, -, rfl⟩ := h
    trivial

theorem mayLeave_later (p : Running act) : mayLeave (p.later d).k (p.later d).s = mayLeave p.k p.s := by
  obtain ⟨k, s⟩ := p
  cases k <;> rfl

theorem deploy_later (k : Kind) : deploy (k.later d) = R.then (Running.later d) (deploy k) := by
  cases k with
  | reactor c enc dec =>
    show (Reactor.enter (c.later d) >>= _) = R.then _ (Reactor.enter c >>= _)
    rw [Reactor.enter_later, bind_then, then_bind]
    rfl
  | separations c =>
    show (Separations.enter (c.later d) >>= _) = R.then _ (Separations.enter c >>= _)
    rw [Separations.enter_later, bind_then, then_bind]
    rfl
  | storage c want =>
    show (Storage.enter (c.later d) >>= _) = R.then _ (Storage.enter c >>= _)
    rw [Storage.enter_later, bind_then, then_bind]
    rfl
  | conversion c => rfl
  | mixer c => rfl
  | _ => simp only [deploy, Kind.later, then_bind]; rfl

/-! ## A time step -/

theorem deployAll_later (ks : List Kind) :
    deployAll (ks.map (Kind.later d)) = R.then (List.map (Running.later d)) (deployAll ks) := by
  induction ks with
  | nil => rfl
  | cons k ks ih =>
    simp only [List.map_cons, deployAll, deploy_later, ih, bind_then, then_bind]
    rfl

theorem deployAll_kept {ks : List Kind} {ps : List (Running act)} (h : deployAll ks = .ok ps) :
    ∀ p ∈ ps, p.Kept := by
  induction ks generalizing ps with
  | nil => cases h; simp
  | cons k ks ih =>
    simp only [deployAll, bind_ok, pure_eq_ok, Except.ok.injEq] at h
    obtain ⟨p, h1, qs, h2, rfl⟩ := h
    intro q hq
    rcases List.mem_cons.1 hq with rfl | hq
    · exact deploy_kept h1
    · exact ih h2 q hq

theorem askAll_later (ps : List (Running act)) : askAll (ps.map (Running.later d)) = askAll ps := by
  induction ps with
  | nil => rfl
  | cons p ps ih => simp only [List.map_cons, askAll, asks_later, ih]

theorem offerAll_later (rs : List Req) (ps : List (Running act)) :
    offerAll rs (ps.map (Running.later d)) = offerAll rs ps := by
  induction ps with
  | nil => rfl
  | cons p ps ih => simp only [List.map_cons, offerAll, offers_later, ih]

theorem sellAll_cons (rs : List Req) (ds : List Deal) (k : Nat) (p : Running act) (ps : List (Running act)) :
    sellAll rs ds k (p :: ps) =
      (R.then (fun x => (x.1, (⟨p.k, x.2⟩ : Halfway act)))
        ((act p.k).sell rs ((dealsOf ds k).map Deal.sale) p.s)) >>= fun y =>
        sellAll rs ds (k + 1) ps >>= fun z => pure ((dealsOf ds k).zip y.1 ++ z.1, y.2 :: z.2) := by
  rw [bind_then]
  rfl

theorem sellAll_later (rs : List Req) (ds : List Deal) (k : Nat) (ps : List (Running act)) :
    sellAll rs ds k (ps.map (Running.later d)) =
      R.then (fun z => (z.1, z.2.map (Halfway.later d))) (sellAll rs ds k ps) := by
  induction ps generalizing k with
  | nil => rfl
  | cons p ps ih =>
    rw [List.map_cons, sellAll_cons, sell_later, sellAll_cons]
    simp only [bind_then, then_bind, ih]
    rfl

theorem sellAll_kept {rs : List Req} {ds : List Deal} {k : Nat} {ps : List (Running act)}
    (hp : ∀ p ∈ ps, p.Kept) {z : List (Deal × NMat) × List (Halfway act)} (h : sellAll rs ds k ps = .ok z) :
    ∀ m ∈ z.2, m.Kept := by
  induction ps generalizing k z with
  | nil => cases h; simp
  | cons p ps ih =>
    simp only [sellAll, bind_ok, pure_eq_ok, Except.ok.injEq] at h
    obtain ⟨x, h1, y, h2, rfl⟩ := h
    intro m hm
    rcases List.mem_cons.1 hm with rfl | hm
    · exact sell_kept (hp p (by simp)) h1
    · exact ih (fun p hq => hp p (by simp [hq])) h2 m hm

theorem settleAll_cons (gs : List (Deal × NMat)) (k : Nat) (h : Halfway act) (hs : List (Halfway act)) :
    settleAll gs k (h :: hs) =
      (R.then (fun x => (⟨h.k, x⟩ : Running act))
        ((act h.k).settle ((gs.filter fun g => g.1.dst = k).map delivery) h.m)) >>= fun p =>
        settleAll gs (k + 1) hs >>= fun ps => pure (p :: ps) := by
  rw [bind_then]
  rfl

theorem settleAll_later (gs : List (Deal × NMat)) (k : Nat) {hs : List (Halfway act)} (hk : ∀ h ∈ hs, h.Kept) :
    settleAll gs k (hs.map (Halfway.later d)) = R.then (List.map (Running.later d)) (settleAll gs k hs) := by
  induction hs generalizing k with
  | nil => rfl
  | cons h hs ih =>
    rw [List.map_cons, settleAll_cons, settle_later _ _ (hk h (by simp)), settleAll_cons]
    simp only [bind_then, then_bind, ih _ fun m hm => hk m (by simp [hm])]
    rfl

theorem settleAll_kept {gs : List (Deal × NMat)} {k : Nat} {hs : List (Halfway act)} (hk : ∀ h ∈ hs, h.Kept)
    {ps : List (Running act)} (h : settleAll gs k hs = .ok ps) : ∀ p ∈ ps, p.Kept := by
  induction hs generalizing k ps with
  | nil => cases h; simp
  | cons m hs ih =>
    simp only [settleAll, bind_ok, pure_eq_ok, Except.ok.injEq] at h
    obtain ⟨x, h1, y, h2, rfl⟩ := h
    intro p hp
    rcases List.mem_cons.1 hp with rfl | hp
    · exact settle_kept (hk m (by simp)) h1
    · exact ih (fun p hq => hk p (by simp [hq])) h2 p hp

theorem round_later (ex : Exchange) {ps : List (Running act)} (hk : ∀ p ∈ ps, p.Kept) :
    round ex (ps.map (Running.later d)) = R.then (fun x => (x.1, x.2.map (Running.later d))) (round ex ps) := by
  simp only [round, askAll_later, offerAll_later, sellAll_later, bind_then, then_bind]
  congr 1; funext asks
  congr 1; funext offers
  refine bind_congr_ok fun z hz => ?_
  simp only [settleAll_later _ _ (sellAll_kept hk hz), bind_then]
  rfl

theorem round_kept {ex : Exchange} {ps : List (Running act)} (hk : ∀ p ∈ ps, p.Kept)
    {x : List (Deal × NMat) × List (Running act)} (h : round ex ps = .ok x) : ∀ p ∈ x.2, p.Kept := by
  simp only [round, bind_ok, pure_eq_ok, Except.ok.injEq] at h
  obtain ⟨as, -, os, -, z, h1, qs, h2, rfl⟩ := h
  exact settleAll_kept (sellAll_kept hk h1) h2

theorem depart_later (w : Nat → Bool) (i : Nat) (ps : List (Running act)) :
    depart w i (ps.map (Running.later d)) =
      ((depart w i ps).1.map (Running.later d), (depart w i ps).2.map (Running.later d)) := by
  induction ps generalizing i with
  | nil => rfl
  | cons p ps ih =>
    simp only [List.map_cons, depart, mayLeave_later, ih]
    split <;> rfl

theorem depart_stays {w : Nat → Bool} {i : Nat} {ps : List (Running act)} :
    ∀ p ∈ (depart w i ps).1, p ∈ ps := by
  induction ps generalizing i with
  | nil => simp [depart]
  | cons p ps ih =>
    intro q hq
    unfold depart at hq
    split at hq
    · exact List.mem_cons_of_mem _ (ih q hq)
    · rcases List.mem_cons.1 hq with rfl | hq
      · simp
      · exact List.mem_cons_of_mem _ (ih q hq)

/-- What an observer of a simulation sees, `d` steps later. -/
def postponed (d : Nat) (x : List (List (Deal × NMat)) × List (Running act) × List (Running act)) :
    List (List (Deal × NMat)) × List (Running act) × List (Running act) :=
  (x.1, x.2.1.map (Running.later d), x.2.2.map (Running.later d))

theorem live_later {ex ex' : Nat → Exchange} (he : ∀ t, ex' (t + d) = ex t) (plan : Plan) (n t : Nat)
    {ps : List (Running act)} (hk : ∀ p ∈ ps, p.Kept) :
    live ex' (plan.later d) n (t + d) (ps.map (Running.later d)) =
      R.then (postponed d) (live ex plan n t ps) := by
  induction n generalizing t ps with
  | zero => rfl
  | succ n ih =>
    have hb : ((plan.later d).builds (t + d)).map (Kind.since (t + d)) =
        ((plan.builds t).map (Kind.since t)).map (Kind.later d) := by
      unfold Plan.later
      simp only [Nat.not_lt.2 (Nat.le_add_left d t), if_false, Nat.add_sub_cancel, List.map_map]
      refine List.map_congr_left fun k _ => ?_
      cases k <;> rfl
    have hl : (plan.later d).leaves (t + d) = plan.leaves t := by
      funext i
      unfold Plan.later
      simp only [Nat.not_lt.2 (Nat.le_add_left d t), if_false, Nat.add_sub_cancel]
    simp only [live, hb, deployAll_later, bind_then, then_bind, he, hl]
    refine bind_congr_ok fun new hn => ?_
    have hk' : ∀ p ∈ ps ++ new, p.Kept := by
      intro p hp
      rcases List.mem_append.1 hp with hp | hp
      · exact hk p hp
      · exact deployAll_kept hn p hp
    rw [← List.map_append, round_later _ hk', bind_then]
    refine bind_congr_ok fun x hx => ?_
    simp only [depart_later]
    rw [show t + d + 1 = t + 1 + d by omega,
      ih (t + 1) fun p hp => round_kept hk' hx p (depart_stays p hp), bind_then]
    congr 1; funext y
    show Except.ok _ = Except.ok _
    simp only [postponed, List.map_append]

/-- C155: a simulation that starts `d` steps later, in which everything that is built is the same but for
dates in its input, which are `d` steps later: nothing happens in the first `d` steps, and then the same
happens as in the other. It fails where that fails. -/
theorem C155_later {ex ex' : Nat → Exchange} (d : Nat) (he : ∀ t, ex' (t + d) = ex t) (plan : Plan) (n : Nat) :
    live ex' (plan.later d) (d + n) 0 [] = R.then (fun x =>
      (List.replicate d [] ++ x.1, x.2.1.map (Running.later d), x.2.2.map (Running.later d)))
        (live ex plan n 0 []) := by
  have H : ∀ m t, t + m = d → live ex' (plan.later d) (m + n) t [] = R.then (fun x =>
      (List.replicate m [] ++ x.1, x.2.1.map (Running.later d), x.2.2.map (Running.later d)))
        (live ex plan n 0 []) := by
    intro m
    induction m with
    | zero =>
      intro t ht
      rw [Nat.add_zero] at ht
      have := live_later (d := d) he plan n 0 (ps := []) (by simp)
      rw [Nat.zero_add, List.map_nil] at this
      rw [Nat.zero_add, ht, this]
      rfl
    | succ m ih =>
      intro t ht
      have hb : (plan.later d).builds t = [] := by
        exact if_pos (by omega)
      rw [Nat.succ_add_eq_add_succ, Nat.add_succ]
      simp only [live, hb, List.map_nil, deployAll, ok_bind, List.append_nil]
      show (live ex' (plan.later d) (m + n) (t + 1) [] >>= _) = _
      rw [ih (t + 1) (by omega), bind_then]
      cases live ex plan n 0 [] <;> rfl
  exact H d 0 (by omega)

/-- The example of C129, with reactors that come and go, 100 steps later: nothing is handed over in the first
100 steps, and then the same as in the example. -/
example : ∃ l gone ps, live (fun _ => greedy) exPlan 9 0 [] = .ok (l, gone, ps) ∧ l.flatten.length = 32 ∧
    live (fun _ => greedy) (exPlan.later 100) 109 0 [] =
      .ok (List.replicate 100 [] ++ l, gone.map (Running.later 100), ps.map (Running.later 100)) := by
  have h : (live (fun _ => greedy) exPlan 9 0 []).toOption.map (fun r => r.1.flatten.length) = some 32 := by
    decide +kernel
  cases e : live (fun _ => greedy) exPlan 9 0 [] with
  | error f => rw [e] at h; cases h
  | ok x =>
    rw [e] at h
    refine ⟨x.1, x.2.1, x.2.2, rfl, by simpa [Except.toOption] using h, ?_⟩
    rw [C155_later (ex := fun _ => greedy) 100 (fun _ => rfl) exPlan 9, e]
    rfl

end Cyc.Sim
