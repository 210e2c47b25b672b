import Verif.Mixer.Model
import Mathlib.Order.Bounds.Basic

/-!
# Vocabulary for the properties of `Mixer`

Independent of how the model computes: what a stream holds, what can be mixed, histories, honest
markets.
-/

namespace Cyc.Mixer

/-- What the stream `k` holds. -/
def held (s : State) (k : Nat) : List NMat := (getBuf s.bufs (name k)).items

/-- Everything the facility holds. -/
def contents (s : State) : List NMat := s.output.items ++ s.bufs.flatMap fun b => b.2.items

/-- The facility is deployed and then lives through the steps `is`, with observations `os`. -/
def History (c : Cfg) (is : List In) (os : List Out) (s : State) : Prop :=
  run c (enter c) is = .ok (os, s)

/-- Everything received. -/
def received (is : List In) : List NMat := is.flatMap fun i => i.buys.map Prod.snd

/-- Everything sold. -/
def sold (os : List Out) : List NMat := os.flatMap Out.sold

/-- A material of positive quantity, without negative masses. -/
def Solid (m : NMat) : Prop := 0 < qty m ∧ Mat.Nonneg m

/-- Every delivery is of positive quantity and has no negative mass. -/
def Substantial (is : List In) : Prop := ∀ i ∈ is, ∀ d ∈ i.buys, Solid d.2

/-- Sensible input: at least one stream, no negative ratio, throughput or output size. -/
structure Valid (c : Cfg) : Prop where
  streams : c.streams ≠ []
  ratios : ∀ x ∈ c.streams, 0 ≤ x.ratio
  outSize : 0 ≤ c.outSize
  throughput : 0 ≤ c.throughput
  eps : 0 ≤ c.eps

/-- The amounts that can be mixed in the state `s`: within the throughput, the free space of the
output, and for each stream its ratio of the amount is no more than it holds. -/
def Mixable (c : Cfg) (s : State) (t : ℚ) : Prop :=
  0 ≤ t ∧ t ≤ c.throughput ∧ t ≤ c.outSize - totalQty s.output.items ∧
    ∀ (k : Nat) (r : ℚ), s.ratios[k]? = some r → r * t ≤ totalQty (held s k)

/-- The free space of a stream; `none` is unlimited, which a negative size stands for. -/
def room (x : Stream) (l : List NMat) : Option ℚ :=
  if 0 ≤ x.size then some (max 0 (x.size - totalQty l)) else none

/-- More than the tolerance. -/
def Exceeds (eps : ℚ) (a : Option ℚ) : Prop := ∀ x, a = some x → eps < x

instance (eps : ℚ) (a : Option ℚ) : Decidable (Exceeds eps a) :=
  match a with
  | none => isTrue (by simp [Exceeds])
  | some x => if h : eps < x then isTrue (by simpa [Exceeds] using h)
    else isFalse (by simpa [Exceeds] using h)

/-- The identifiers of the requests of a stream. -/
def ids (p : Option ReqPort) : List Nat :=
  match p with
  | none => []
  | some p => p.reqs.map Req.id

/-- The identifiers of the requests of the stream `k`. -/
def idsAt (asks : List (Option ReqPort)) (k : Nat) : List Nat := ids (asks[k]?.getD none)

/-- The deliveries that answer a request of the stream `k`. -/
def answers (asks : List (Option ReqPort)) (k : Nat) (ds : List (Nat × NMat)) : List NMat :=
  (ds.filter fun d => d.1 ∈ idsAt asks k).map Prod.snd

/-- No two requests have the same identifier. -/
def Distinct (asks : List (Option ReqPort)) : Prop := (asks.flatMap ids).Nodup

/-- What is delivered is within the amount of the portfolio. -/
def Within (p : Option ReqPort) (l : List NMat) : Prop :=
  ∀ x a, p = some x → x.amount = some a → totalQty l ≤ a

/-- The trades of one step are what an exchange can make of the requests and the offer of a facility
in the state `s`: each delivery answers a request, the deliveries for one stream do not exceed its
portfolio, the sales do not exceed the output and can be removed from a buffer. -/
structure Honest (c : Cfg) (s : State) (i : In) : Prop where
  solid : ∀ d ∈ i.buys, Solid d.2
  distinct : Distinct (requests c i.addr s).1
  answered : ∀ d ∈ i.buys, ∃ k, d.1 ∈ idsAt (requests c i.addr s).1 k
  amounts : ∀ k, Within ((requests c i.addr s).1[k]?.getD none)
    (answers (requests c i.addr s).1 k i.buys)
  sells : ∀ q ∈ i.sells, 0 < q ∧ c.lo ≤ q
  total : i.sells.sum ≤ totalQty s.output.items

/-- Every step of a history is honest, and what is mixed is not too small to be removed. -/
def HonestRun (c : Cfg) : State → List In → Prop
  | _, [] => True
  | s, i :: is => (∀ t, IsGreatest {t | Mixable c s t} t → 0 < t → ∀ r ∈ s.ratios, c.lo ≤ r * t) ∧
    (∀ s₁, tick c s = .ok s₁ → Honest c s₁ i) ∧
    ∀ o s', step c s i = .ok (o, s') → HonestRun c s' is

end Cyc.Mixer
