import Verif.Toolkit.Extract

/-!
# A simulation: facilities and an exchange

What the cyclus kernel does with the facilities of cycamore in one time step (DESIGN.md, section 3):
every facility publishes requests and offers, the exchange makes deals of them, the suppliers hand
over, the receivers accept. A facility is known to the simulation by these four functions alone; the
file `Actors` gives them for the archetypes.
-/

namespace Cyc.Sim

/-- Material with nuclide labels. -/
abbrev NMat := Mat Nat

/-- A material of positive quantity, without negative masses. -/
def Solid (m : NMat) : Prop := 0 < qty m ∧ Mat.Nonneg m

/-- A request portfolio: the alternatives (commodity and requested material), the most that may be
delivered in all, and whether the orders are exclusive, that is, filled entirely or not at all. -/
structure Ask where
  alts : List (String × NMat)
  amount : ℚ
  whole : Bool
  deriving DecidableEq

/-- A request, as the suppliers see it: commodity and requested material. -/
structure Req where
  commod : String
  target : NMat
  deriving DecidableEq

/-- A further constraint of a bid portfolio: what an amount uses up of something, depending on the
requested material (nothing if that has no finite value), and how much there is. -/
structure Limit where
  weigh : NMat → ℚ → Option ℚ
  cap : ℚ

/-- A bid portfolio: the commodity, the most that may be taken in all, the least that can be handed
over in one piece, the amount of a piece if the bids are exclusive, the requested materials for which
there is a bid, and further constraints. -/
structure Offer where
  commod : String
  cap : ℚ
  least : ℚ
  piece : Option ℚ
  serves : NMat → Bool
  limits : List Limit

/-- What a supplier is told of a deal. -/
structure Sale where
  commod : String
  target : NMat
  amt : ℚ
  deriving DecidableEq

/-- What a receiver is given: the portfolio and the commodity it answers, and the material. -/
structure Delivery where
  port : Nat
  commod : String
  mat : NMat
  deriving DecidableEq

/-- A facility in a simulation: its states between time steps (`S`) and between handing over and
accepting (`M`), the requests and offers it makes in a time step, what it hands over, and what it
does with what it is given. -/
structure Actor where
  S : Type
  M : Type
  asks : S → R (List Ask)
  offers : List Req → S → R (List Offer)
  sell : List Req → List Sale → S → R (List NMat × M)
  settle : List Delivery → M → R S

variable {K : Type} {act : K → Actor}

/-- A facility of the prototype `k` between time steps; `act` says how each prototype behaves. -/
structure Running (act : K → Actor) where
  k : K
  s : (act k).S

/-- A facility that has handed over. -/
structure Halfway (act : K → Actor) where
  k : K
  m : (act k).M

/-- A deal: supplier, receiver and its portfolio, commodity and requested material, amount. -/
structure Deal where
  src : Nat
  dst : Nat
  port : Nat
  commod : String
  target : NMat
  amt : ℚ
  deriving DecidableEq

/-- The total of the deals that satisfy `p`. -/
def dealt (ds : List Deal) (p : Deal → Bool) : ℚ := ((ds.filter p).map Deal.amt).sum

/-- The exchange respects the requests and the offers: each deal answers an alternative of a
portfolio and is covered by an offer in its commodity; exclusive orders are filled entirely and
exclusive bids taken entirely; portfolios and offers are not exceeded, and neither are the further
constraints of an offer. -/
structure Fair (asks : List (List Ask)) (offers : List (List Offer)) (ds : List Deal) : Prop where
  pos : ∀ d ∈ ds, 0 < d.amt ∧ d.amt ≤ qty d.target
  offered : ∀ d ∈ ds, ∃ os, offers[d.src]? = some os ∧ ∃ o ∈ os, o.commod = d.commod ∧
    o.least ≤ d.amt ∧ (∀ u, o.piece = some u → d.amt = u) ∧ o.serves d.target = true
  asked : ∀ d ∈ ds, ∃ as, asks[d.dst]? = some as ∧ ∃ a, as[d.port]? = some a ∧
    (d.commod, d.target) ∈ a.alts ∧ (a.whole = true → d.amt = a.amount)
  caps : ∀ k os, offers[k]? = some os → ∀ o ∈ os,
    dealt ds (fun d => d.src = k ∧ d.commod = o.commod) ≤ o.cap
  limits : ∀ k os, offers[k]? = some os → ∀ o ∈ os, ∀ L ∈ o.limits, ∃ vs : List ℚ,
    (ds.filter fun d => d.src = k ∧ d.commod = o.commod).map (fun d => L.weigh d.target d.amt) =
      vs.map some ∧ vs.sum ≤ L.cap
  amounts : ∀ j as, asks[j]? = some as → ∀ p a, as[p]? = some a →
    dealt ds (fun d => d.dst = j ∧ d.port = p) ≤ a.amount

/-- All requests, as the suppliers see them. -/
def requestsOf (asks : List (List Ask)) : List Req :=
  asks.flatten.flatMap fun a => a.alts.map fun x => ⟨x.1, x.2⟩

/-- Every facility publishes its requests. -/
def askAll : List (Running act) → R (List (List Ask))
  | [] => .ok []
  | p :: ps => do
    let a ← (act p.k).asks p.s
    let as ← askAll ps
    pure (a :: as)

/-- Every facility publishes its offers. -/
def offerAll (rs : List Req) : List (Running act) → R (List (List Offer))
  | [] => .ok []
  | p :: ps => do
    let o ← (act p.k).offers rs p.s
    let os ← offerAll rs ps
    pure (o :: os)

/-- The deals of a supplier. -/
def dealsOf (ds : List Deal) (k : Nat) : List Deal := ds.filter fun d => d.src = k

/-- A deal as the supplier sees it. -/
def Deal.sale (d : Deal) : Sale := ⟨d.commod, d.target, d.amt⟩

/-- A deal and what was handed over, as the receiver sees it. -/
def delivery (g : Deal × NMat) : Delivery := ⟨g.1.port, g.1.commod, g.2⟩

/-- Every facility hands over, from number `k` on: the deals with the materials, and the
facilities. -/
def sellAll (rs : List Req) (ds : List Deal) : Nat → List (Running act) →
    R (List (Deal × NMat) × List (Halfway act))
  | _, [] => .ok ([], [])
  | k, p :: ps => do
    let (l, m) ← (act p.k).sell rs ((dealsOf ds k).map Deal.sale) p.s
    let (gs, hs) ← sellAll rs ds (k + 1) ps
    pure ((dealsOf ds k).zip l ++ gs, ⟨p.k, m⟩ :: hs)

/-- Every facility accepts what it is given, from number `k` on. -/
def settleAll (gs : List (Deal × NMat)) : Nat → List (Halfway act) → R (List (Running act))
  | _, [] => .ok []
  | k, h :: hs => do
    let s ← (act h.k).settle ((gs.filter fun g => g.1.dst = k).map delivery) h.m
    let ps ← settleAll gs (k + 1) hs
    pure (⟨h.k, s⟩ :: ps)

/-- An exchange makes deals of the requests and offers. -/
abbrev Exchange := List (List Ask) → List (List Offer) → List Deal

/-- One time step: what was handed over, by deal, and the facilities afterwards. -/
def round (ex : Exchange) (ps : List (Running act)) : R (List (Deal × NMat) × List (Running act)) := do
  let asks ← askAll ps
  let offers ← offerAll (requestsOf asks) ps
  let (gs, hs) ← sellAll (requestsOf asks) (ex asks offers) 0 ps
  let ps ← settleAll gs 0 hs
  pure (gs, ps)

/-- The first `n` time steps, from time `t` on. -/
def simulate (ex : Nat → Exchange) : Nat → Nat → List (Running act) →
    R (List (List (Deal × NMat)) × List (Running act))
  | 0, _, ps => .ok ([], ps)
  | n + 1, t, ps => do
    let (gs, ps) ← round (ex t) ps
    let (l, ps) ← simulate ex n (t + 1) ps
    pure (gs :: l, ps)

/-- An exchange that respects requests and offers whatever they are, as long as no amount in them is
negative. -/
def Exchange.Fair (ex : Exchange) : Prop := ∀ asks offers, (∀ as ∈ asks, ∀ a ∈ as, 0 ≤ a.amount) →
  (∀ os ∈ offers, ∀ o ∈ os, 0 ≤ o.cap ∧ ∀ L ∈ o.limits, 0 ≤ L.cap) → Sim.Fair asks offers (ex asks offers)

/-- What is agreed upon for a simulation: what may be requested and what may be delivered in a
commodity. -/
structure Agreement where
  target : String → NMat → Prop
  mat : String → NMat → Prop

end Cyc.Sim
