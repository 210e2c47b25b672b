import Verif.Sim.Actors

/-!
# Simulations in which facilities come and go

In every time step cyclus first builds what is scheduled for it, then has the facilities trade, and
finally decommissions facilities (`Timer::RunSim`).
-/

namespace Cyc.Sim

/-- A facility that is deployed at time `t`: `enter_time()` of the archetypes that look at it. A sink
looks at the time only to draw random numbers, which a `Sensible` one does not. -/
def Kind.since (t : Nat) : Kind → Kind
  | .reactor c enc dec => .reactor { c with enterTime := t } enc dec
  | .separations c => .separations { c with enterTime := t }
  | .storage c want => .storage { c with enterTime := t } want
  | k => k

/-- The last step of a facility with the given lifetime that is deployed at time `t`
(`Agent::exit_time()`); -1 is unlimited. -/
def lastStep (t : Nat) (life : ℤ) : Option Nat := if life = -1 then none else some (t + life - 1).toNat

/-- A facility with the last step `e`: `exit_time()` of the archetypes that look at it. -/
def Kind.until (e : Option Nat) : Kind → Kind
  | .reactor c enc dec => .reactor { c with exitTime := e } enc dec
  | .separations c => .separations { c with exitTime := e }
  | k => k

/-- `CheckDecommissionCondition` (`reactor.cc:115-117`, `separations.cc:353-366`); other facilities
do not define it, and the default is `true`. -/
def mayLeave : (k : Kind) → (act k).S → Bool
  | .reactor _ _ _ => fun s : Reactor.State × Nat => Reactor.checkDecommission s.1
  | .separations _ => fun s : Separations.State => Separations.mayRetire s
  | _ => fun _ => true

/-- The prototypes that are built in each step, and the facilities that are to be decommissioned at the
end of each step, by their number among those present. When a facility is to be decommissioned is up to
cyclus and to the institutions: it may be any time. -/
structure Plan where
  builds : Nat → List Kind
  leaves : Nat → Nat → Bool

/-- The facilities that stay and those that leave at the end of a step, from number `i` on. -/
def depart (w : Nat → Bool) : Nat → List (Running act) → List (Running act) × List (Running act)
  | _, [] => ([], [])
  | i, p :: ps =>
    if w i && mayLeave p.k p.s then ((depart w (i + 1) ps).1, p :: (depart w (i + 1) ps).2)
    else (p :: (depart w (i + 1) ps).1, (depart w (i + 1) ps).2)

/-- `n` time steps from time `t` on: what was handed over in each step, the facilities that have left,
and those that are present. -/
def live (ex : Nat → Exchange) (plan : Plan) : Nat → Nat → List (Running act) →
    R (List (List (Deal × NMat)) × List (Running act) × List (Running act))
  | 0, _, ps => .ok ([], [], ps)
  | n + 1, t, ps => do
    let new ← deployAll ((plan.builds t).map (Kind.since t))
    let (gs, ps) ← round (ex t) (ps ++ new)
    let (l, gone, ps') ← live ex plan n (t + 1) (depart (plan.leaves t) 0 ps).1
    pure (gs :: l, (depart (plan.leaves t) 0 ps).2 ++ gone, ps')

/-- What is built in the `n` steps from time `t` on. -/
def Plan.built (plan : Plan) (t n : Nat) : List Kind :=
  (List.range' t n).flatMap fun t => (plan.builds t).map (Kind.since t)

end Cyc.Sim
