import Verif.Sim.Plan
import Verif.Age.PropsReactor
import Verif.Age.PropsSeparations
import Verif.Age.PropsStorage

/-!
# The same simulation at a later date

`Cfg.later` and `State.later` of the archetypes that look at the date are those of C121.
-/

namespace Cyc.Sim

/-- The same state of a storage facility at an earlier date. -/
def stockBefore (d : Nat) (s : Storage.State Nat) : Storage.State Nat :=
  { s with time := s.time - d, entryTimes := s.entryTimes.map (· - d) }

/-- The same prototype for a simulation that takes place `d` steps later: dates in the input are `d` steps
later. The buy policy of a storage facility does what it would do `d` steps before. -/
def Kind.later (d : Nat) : Kind → Kind
  | .reactor c enc dec => .reactor (c.later d) enc dec
  | .separations c => .separations (c.later d)
  | .storage c want => .storage (c.later d) fun s => want (stockBefore d s)
  | k => k

/-- The same facility `d` steps later. -/
def Running.later (d : Nat) : Running act → Running act
  | ⟨.reactor c enc dec, s⟩ => ⟨.reactor (c.later d) enc dec, (Reactor.State.later d s.1, s.2)⟩
  | ⟨.separations c, s⟩ => ⟨.separations (c.later d), Separations.State.later d s⟩
  | ⟨.storage c want, s⟩ => ⟨.storage (c.later d) fun s => want (stockBefore d s), Storage.State.later d s⟩
  | p => p

/-- The same plan, `d` steps later: nothing happens before. -/
def Plan.later (d : Nat) (plan : Plan) : Plan where
  builds t := if t < d then [] else (plan.builds (t - d)).map (Kind.later d)
  leaves t i := if t < d then false else plan.leaves (t - d) i

end Cyc.Sim
