import Verif.Spec.Edit

/-!
# What a position of the automaton stands for

The positions of Schulz and Mihov's automata, independently of the code: a number of characters of the query that
have been dealt with, the number of errors so far, and a flag saying that an operation on two characters is half
done (a swap whose first character has been read, or a split whose first half has been read).
-/

namespace Lev.Spec

variable {α : Type}

/-- From index `i` of the query `q`, with an operation half done if `half`, the string `u` can be read to the end
of the query at cost `k`. -/
def Completes (A : Algorithm) (q : List α) (i : Nat) (half : Bool) (u : List α) (k : Nat) : Prop :=
  match half, A with
  | false, _ => Align A (q.drop i) u k
  | true, .standard => False
  | true, .transposition => ∃ a b v u', q.drop i = a :: b :: v ∧ u = a :: u' ∧ Align A v u' k
  | true, .mergeAndSplit => ∃ a v y u', q.drop i = a :: v ∧ u = y :: u' ∧ Align A v u' k

end Lev.Spec
