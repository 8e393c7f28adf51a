import Verif.Model.Session
import Verif.Spec.Dict

/-!
# Which sequences of operations on queries make sense
-/

namespace Lev.Spec

/-- The queries started, in order. -/
def starts : List QOp → List (Str × Nat)
  | [] => []
  | .start q n :: ops => (q, n) :: starts ops
  | _ :: ops => starts ops

/-- `op` makes sense after `p`: a query is started with a query string that is not too long and a distance that fits
`std::size_t`; a query is advanced or destroyed after its start and before its destruction. -/
def OpOk (p : List QOp) : QOp → Prop
  | .start q n => QueryFits n q ∧ n < 2 ^ 64
  | .next i => i < (starts p).length ∧ .destroy i ∉ p
  | .destroy i => i < (starts p).length ∧ .destroy i ∉ p

/-- Every operation makes sense after those before it. -/
def SessionOk (ops : List QOp) : Prop := ∀ p op r, ops = p ++ op :: r → OpOk p op

end Lev.Spec
