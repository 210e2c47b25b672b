import Verif.Producer.Spec
import Verif.Region.Props2
import Verif.Sim.Plan

/-!
# Simulations in which a growth region has facilities built

A region with its institutions (`Verif/Region/Model.lean`) and the facilities at work
(`Verif/Sim/Plan.lean`), driven together by the cyclus kernel (`Timer::RunSim`): in every time step it
builds what is scheduled, has the region look at demand and supply and order builds for the next step,
has the facilities trade, and decommissions facilities. Institutions neither enter nor leave here.
-/

namespace Cyc.Sim

/-- The table of capacities of a facility, if the archetype is a `CommodityProducer`: the prototype
fills it in when it is loaded, and the facility copies it (`source.cc:19-29`, `reactor.cc:41-58`,
`storage.cc:32-44`). `power` is `power_name`, and `limit` is `kModifierLimit`. -/
def announce (limit : ℚ) (power : String) : Kind → R (Option Producer.Table)
  | .source c => .ok (some (Producer.copy limit (Producer.loadSource c)))
  | .reactor c _ _ => do
    let t ← Producer.loadReactor power c
    pure (some (Producer.copy limit t))
  | .storage c _ => do
    let t ← Producer.loadStorage limit c
    pure (some (Producer.copy limit t))
  | _ => .ok none

/-- A simulation with a growth region: the input of the region, the prototypes by name, the archetype
with the input and the lifetime of each, the name of power, and `kModifierLimit`. All reactors give
power the same name here. -/
structure Country where
  region : Region.Cfg
  names : List String
  input : String → Kind
  life : String → ℤ
  power : String
  limit : ℚ

/-- The prototypes are loaded: what institutions and regions see of them. -/
def Country.load (C : Country) : List String → R Region.Protos
  | [] => .ok []
  | p :: ps => do
    let t ← announce C.limit C.power (C.input p)
    let T ← C.load ps
    pure ((p, t.map Producer.capsOf) :: T)

/-- A facility of prototype `p` that is built at time `t`. -/
def Country.made (C : Country) (t : Nat) (p : String) : Kind :=
  ((C.input p).until (lastStep t (C.life p))).since t

/-- A region with its institutions, and its facilities at work, in the same order as in the region. -/
structure Land where
  world : Region.World
  plants : List (Running act)

/-- What the rest of the simulation does in one step: the builds that others have scheduled, the
decisions of the building manager, and the facilities that are to be decommissioned, by their number
among those present. -/
structure Event where
  builds : List (Nat × String)
  decision : String → ℚ → List Region.Order
  leaves : Nat → Bool

/-- What an observer sees of one step: the facilities that exist at the tick, as the region sees them;
the supply of each commodity as the region sees it; the builds that it orders; what was handed over;
the facilities at work, after the trades; those that leave, as the region sees them and at work. -/
structure Seen where
  living : List (Nat × Region.Fac)
  supply : String → ℚ
  ordered : List (Nat × String)
  deals : List (Deal × NMat)
  plants : List (Running act)
  left : List (Nat × Region.Fac)
  gone : List (Running act)

/-- The entries of `xs` in the places of the facilities that leave (as in `depart`), from number `i`
on. -/
def departing {α : Type} (w : Nat → Bool) : Nat → List (Running act) → List α → List α
  | i, p :: ps, x :: xs =>
    if w i && mayLeave p.k p.s then x :: departing w (i + 1) ps xs else departing w (i + 1) ps xs
  | _, _, _ => []

/-- One time step. -/
def growStep (C : Country) (T : Region.Protos) (ex : Exchange) (t : Nat) (x : Land) (e : Event) :
    R (Seen × Land) := do
  let w ← Region.doBuild T (x.world.queue ++ e.builds) { x.world with queue := [] }
  let new ← deployAll ((x.world.queue ++ e.builds).map fun b => C.made t b.2)
  let l ← Region.tick w.region w.insts t e.decision (C.region.demand.map Prod.fst)
  let (gs, ps) ← round ex (x.plants ++ new)
  pure (⟨w.living, Region.supply w.region w.insts, l, gs, ps, departing e.leaves 0 ps w.living,
      (depart e.leaves 0 ps).2⟩,
    ⟨Region.doDecom (departing e.leaves 0 ps w.living) { w with queue := l },
      (depart e.leaves 0 ps).1⟩)

/-- Any number of time steps, from time `t` on. -/
def grow (C : Country) (T : Region.Protos) (ex : Nat → Exchange) : Nat → Land → List Event →
    R (List Seen × Land)
  | _, x, [] => .ok ([], x)
  | t, x, e :: es => do
    let (o, x) ← growStep C T (ex t) t x e
    let (os, x) ← grow C T ex (t + 1) x es
    pure (o :: os, x)

/-- The prototypes are loaded, and the simulation starts with institutions `is` and no facilities, `n`
being the next free identifier; then it lives through `es` with observations `os`. -/
def Grown (C : Country) (is : List Region.Inst) (n : Nat) (ex : Nat → Exchange) (es : List Event)
    (os : List Seen) (x : Land) : Prop :=
  ∃ T w, C.load C.names = .ok T ∧ Region.enter C.region T is [] [] n = .ok w ∧
    grow C T ex 0 ⟨w, []⟩ es = .ok (os, x)

/-! ## Vocabulary -/

/-- What a facility can make of commodity `k` in one step: a source and a storage their throughput of
what they sell, a reactor its power and its side products, and the others nothing. -/
def capacity (power k : String) : Kind → ℚ
  | .source c => if c.outcommod = k then c.throughput else 0
  | .reactor c _ _ => if power = k then c.powerCap
    else ((c.sideProducts.zip c.sideQty).find? fun x => x.1 = k).elim 0 Prod.snd
  | .storage c _ => if c.outCommods.head? = some k then c.throughput else 0
  | _ => 0

/-- What facilities can make of commodity `k` in one step. -/
def Country.capacityOf (C : Country) (ps : List (Running act)) (k : String) : ℚ :=
  (ps.map fun p => capacity C.power k p.k).sum

/-- The input of the region can be used: the pieces of each commodity start in increasing order, all
functions can be made, and the prototypes of every `ManagerInst` exist. -/
structure Country.Valid (C : Country) (is : List Region.Inst) : Prop where
  commods : (C.region.demand.map Prod.fst).Nodup
  functions : ∀ kp ∈ C.region.demand, ∀ p ∈ kp.2, ∃ f, C.region.fn p.type p.params = .ok f
  starts : ∀ kp ∈ C.region.demand, (kp.2.map Region.PieceCfg.start).IsChain (· < ·)
  protos : ∀ i ∈ is, i.kind = .manager → ∀ p ∈ i.prototypes, p ∈ C.names

/-- Others schedule builds that can be done, and so are all that the building manager decides. -/
structure Country.Orderly (C : Country) (is : List Region.Inst) (e : Event) : Prop where
  builds : ∀ b ∈ e.builds, b.1 ∈ is.map Region.Inst.id ∧ b.2 ∈ C.names
  decision : ∀ k u, ∀ o ∈ e.decision k u, ∃ b p, o.builder = some b ∧ o.producer = some p ∧
    b ∈ is.map Region.Inst.id ∧ p ∈ C.names

/-- The builds of step `t`: those that the region ordered in the step before, and those that others
scheduled. -/
def due (es : List Event) (os : List Seen) (t : Nat) : List (Nat × String) :=
  (if t = 0 then [] else (os[t - 1]?.map Seen.ordered).getD []) ++ (es[t]?.map Event.builds).getD []

end Cyc.Sim
