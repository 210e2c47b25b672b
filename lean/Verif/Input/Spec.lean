import Verif.Input.Model

/-!
# Leaving values out
-/

namespace Cyc.Input

/-- The first value is the second, or it is left out. -/
def Less {α : Type} (a b : Option α) : Prop := a = none ∨ a = b

/-- The first input is the second, but some optional values are left out. -/
def LeavesOut : Input → Input → Prop
  | .conversion c' o', .conversion c o => c' = c ∧ Less o'.throughput o.throughput ∧ Less o'.capacity o.capacity
  | .enrichment c' o', .enrichment c o => c' = c ∧ Less o'.tailsAssay o.tailsAssay ∧
    Less o'.initialFeed o.initialFeed ∧ Less o'.maxFeed o.maxFeed ∧ Less o'.maxEnrich o.maxEnrich ∧
    Less o'.orderPrefs o.orderPrefs ∧ Less o'.swuCapacity o.swuCapacity
  | .fuelFab c' o', .fuelFab c o => c' = c ∧ Less o'.fillPrefs o.fillPrefs ∧ Less o'.fissPrefs o.fissPrefs ∧
    Less o'.fissRecipe o.fissRecipe ∧ Less o'.topupCommod o.topupCommod ∧ Less o'.topupPref o.topupPref ∧
    Less o'.topupRecipe o.topupRecipe ∧ Less o'.topupSize o.topupSize ∧ Less o'.throughput o.throughput
  | .mixer c' o', .mixer c o => c' = c ∧ Less o'.outSize o.outSize ∧ Less o'.throughput o.throughput
  | .reactor c' o' enc' dec', .reactor c o enc dec => c' = c ∧ enc' = enc ∧ dec' = dec ∧ Less o'.prefs o.prefs ∧
    Less o'.recipeChangeTimes o.recipeChangeTimes ∧ Less o'.recipeChangeCommods o.recipeChangeCommods ∧
    Less o'.recipeChangeIn o.recipeChangeIn ∧ Less o'.recipeChangeOut o.recipeChangeOut ∧
    Less o'.nCore o.nCore ∧ Less o'.nFresh o.nFresh ∧ Less o'.nSpent o.nSpent ∧ Less o'.cycleTime o.cycleTime ∧
    Less o'.refuelTime o.refuelTime ∧ Less o'.cycleStep o.cycleStep ∧ Less o'.powerCap o.powerCap ∧
    Less o'.sideProducts o.sideProducts ∧ Less o'.sideQty o.sideQty ∧
    Less o'.decomTransmuteAll o.decomTransmuteAll ∧ Less o'.prefChangeTimes o.prefChangeTimes ∧
    Less o'.prefChangeCommods o.prefChangeCommods ∧ Less o'.prefChangeValues o.prefChangeValues
  | .separations c' o', .separations c o => c' = c ∧ Less o'.feedPrefs o.feedPrefs ∧
    Less o'.throughput o.throughput ∧ Less o'.leftoverCommod o.leftoverCommod ∧ Less o'.leftoverCap o.leftoverCap
  | .sink c' o', .sink c o => c' = c ∧ Less o'.prefs o.prefs ∧ Less o'.recipe o.recipe ∧ Less o'.maxInv o.maxInv ∧
    Less o'.capacity o.capacity ∧ Less o'.sizeType o.sizeType ∧ Less o'.sizeMean o.sizeMean ∧
    Less o'.sizeStd o.sizeStd ∧ Less o'.freqType o.freqType ∧ Less o'.freqMean o.freqMean ∧
    Less o'.freqStd o.freqStd ∧ Less o'.freqMin o.freqMin ∧ Less o'.freqMax o.freqMax
  | .source c' o', .source c o => c' = c ∧ Less o'.recipe o.recipe ∧ Less o'.size o.size ∧
    Less o'.throughput o.throughput ∧ Less o'.package o.package ∧ Less o'.unit o.unit
  | .storage c' o' want', .storage c o want => c' = c ∧ want' = want ∧ Less o'.prefs o.prefs ∧
    Less o'.inRecipe o.inRecipe ∧ Less o'.residence o.residence ∧ Less o'.throughput o.throughput ∧
    Less o'.maxInv o.maxInv ∧ Less o'.discrete o.discrete
  | _, _ => False

/-- What has to be observed when values are left out. An enrichment facility must be told not to order its
preferences, and have less initial feed than the default limit. The changes of recipes and of preferences of a
reactor are given with all their lists or not at all, and side products with their quantities. A separations
facility must have no stream of the name of the default leftover, or a name for the leftover. Storage that is
told nothing of the handling of batches must have some throughput; and the amounts of its policy must be
below the default limit. The tolerances are below that as well. -/
def Careful : Input → Prop
  | .enrichment _ o => o.orderPrefs ≠ none ∧ ∀ q, o.initialFeed = some q → q ≤ large
  | .reactor _ o _ _ =>
    ((o.recipeChangeTimes = none ∧ o.recipeChangeCommods = none ∧ o.recipeChangeIn = none ∧
        o.recipeChangeOut = none) ∨
      (o.recipeChangeTimes ≠ none ∧ o.recipeChangeCommods ≠ none ∧ o.recipeChangeIn ≠ none ∧
        o.recipeChangeOut ≠ none)) ∧
    ((o.prefChangeTimes = none ∧ o.prefChangeCommods = none ∧ o.prefChangeValues = none) ∨
      (o.prefChangeTimes ≠ none ∧ o.prefChangeCommods ≠ none ∧ o.prefChangeValues ≠ none)) ∧
    (o.sideQty = none → o.sideProducts = none)
  | .separations c o => c.lo ≤ large ∧
    (o.leftoverCommod = none → "default-waste-stream" ∉ c.streams.map Prod.fst)
  | .storage c o _ => c.lo ≤ large ∧ c.reorderPoint + c.reorderQty ≤ large ∧
    (o.discrete = none → ∀ q, o.throughput = some q → 0 < q ∧ c.lo ≤ q)
  | _ => True

end Cyc.Input
