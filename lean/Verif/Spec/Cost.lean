import Verif.Spec.Dict

/-!
Counting, for the statements about costs.
-/

namespace Lev.Spec

/-- How many pairs of places of a list hold the same element. -/
def clashes : List UInt64 → Nat
  | [] => 0
  | x :: l => l.count x + clashes l

/-- `n` strings can be read from the node `a`. -/
def Readable (mem : Mem) (a n : Nat) : Prop := ∃ ws : List Str, ws.Nodup ∧ (∀ w, w ∈ ws ↔ ∃ b, Leads mem a w b) ∧ ws.length = n

/-- The longest strings that can be read from the node `a` have `L` characters. -/
def Longest (mem : Mem) (a L : Nat) : Prop :=
  (∃ w b, Leads mem a w b ∧ w.length = L) ∧ ∀ w b, Leads mem a w b → w.length ≤ L

end Lev.Spec
