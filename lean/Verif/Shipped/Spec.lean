import Verif.Shipped.Model
import Verif.Sim.Growth

/-!
# Running an input file
-/

namespace Cyc.Shipped

open Cyc.Sim

/-- What cyclus and its libraries provide is as it should be: tolerances are positive and small, and so is the
least amount that a buffer gives out; atoms have mass, those of uranium-238 not less than those of uranium-235;
for thermal neutrons there are cross sections of uranium-238 and of plutonium-239, of which the neutron surplus
is not the same. -/
structure World.Sound (W : World) : Prop where
  eps : 0 < W.eps
  epsRsrc : 0 ≤ W.epsRsrc
  lo : W.lo ≤ 1
  near : 0 < W.near
  nearHalf : W.near ≤ 1 / 2
  atom : ∀ n, 0 < W.atomMass n
  heavier : W.atomMass Enrichment.u235 ≤ W.atomMass Enrichment.u238
  u238 : ∃ x, W.xs "thermal" 922380000 = some x
  pu239 : ∃ x, W.xs "thermal" 942390000 = some x
  surplus : ∀ c : FuelFab.Cfg, c.spectrum = "thermal" → c.xs = W.xs →
    FuelFab.surplus c 942390000 ≠ FuelFab.surplus c 922380000

/-- The kind of facility that is built of the prototype at time `t`. -/
def Proto.made (p : Proto) (t : Nat) : Kind := p.input.kind.until (lastStep t p.life)

/-- Whatever is built, and whenever: it is of one of the prototypes of the file. -/
def Plays (f : File) (plan : Plan) : Prop :=
  ∀ t, ∀ k ∈ plan.builds t, ∃ p ∈ f.protos, k = p.made t

/-- The facilities that the file has built at time `t` without a growth region. -/
def File.due (f : File) (t : Nat) : List Proto :=
  f.builds.flatMap fun b => if b.1 = t then
    (f.protos.filter fun p => p.name = b.2.1).flatMap fun p => List.replicate b.2.2 p else []

/-- The plan of the file, if facilities leave as in `leaves`. -/
def File.plan (f : File) (leaves : Nat → Nat → Bool) : Plan :=
  ⟨fun t => (f.due t).map fun p => p.made t, leaves⟩

/-- The prototypes of the file as a growth region finds them. -/
def File.country (f : File) (region : Region.Cfg) (power : String) (limit : ℚ) : Country where
  region := region
  names := f.protos.map Proto.name
  input n := match f.protos.find? fun p => p.name = n with
    | some p => p.input.kind
    | none => .sink
      { commods := [], prefs := [], recipe := none, maxInv := 0, capacity := 0, sizeType := "",
        sizeMean := 0, sizeStd := 0, freqType := "", freqMean := 0, freqStd := 0, freqMin := 0, freqMax := 0,
        defaultPref := 0, eps := 0, epsRsrc := 0 }
  life n := match f.protos.find? fun p => p.name = n with
    | some p => p.life
    | none => -1
  power := power
  limit := limit

end Cyc.Shipped
