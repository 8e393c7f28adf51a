import Verif.Model.Lifetime

/-!
# Which programs respect the lifetimes of objects
-/

namespace Lev.Spec

/-- The algorithms of the transducers made, in order. -/
def made : List LOp → List Algorithm
  | [] => []
  | .transducer A :: ops => A :: made ops
  | _ :: ops => made ops

/-- The queries started, in order: the transducer, the query string and the distance. -/
def started : List LOp → List (Nat × Str × Nat)
  | [] => []
  | .start t q n :: ops => (t, q, n) :: started ops
  | _ :: ops => started ops

/-- `op` makes sense after `p`.  A query is started and advanced while its transducer and the dictionary are there; each
object is destroyed once, in any order; nothing is copied. -/
def LifeOpOk (p : List LOp) : LOp → Prop
  | .transducer _ => .dropDictionary ∉ p
  | .start t q n => t < (made p).length ∧ .dropTransducer t ∉ p ∧ .dropDictionary ∉ p ∧ QueryFits n q ∧ n < 2 ^ 64
  | .next i => .dropQuery i ∉ p ∧ .dropDictionary ∉ p ∧ ∃ s ∈ (started p)[i]?, .dropTransducer s.1 ∉ p
  | .copy _ => False
  | .copyTransducer _ => False
  | .dropQuery i => i < (started p).length ∧ .dropQuery i ∉ p
  | .dropTransducer t => t < (made p).length ∧ .dropTransducer t ∉ p
  | .dropDictionary => .dropDictionary ∉ p

/-- Every operation makes sense after those before it. -/
def LifeOk (ops : List LOp) : Prop := ∀ p op r, ops = p ++ op :: r → LifeOpOk p op

/-- Everything was destroyed. -/
def AllDropped (ops : List LOp) : Prop :=
  (∀ i, i < (started ops).length → LOp.dropQuery i ∈ ops) ∧ ∀ t, t < (made ops).length → LOp.dropTransducer t ∈ ops

end Lev.Spec
