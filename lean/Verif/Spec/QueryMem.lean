import Verif.Spec.BuildMem
import Verif.Spec.Edit
import Verif.Spec.Lifetime

/-!
What a query keeps in memory, in terms of the strings.
-/

namespace Lev

namespace Spec

/-- `ws` lists the non-empty beginnings of terms that can be continued to a string within distance `n` of `q` and come, by
length and then lexicographically, not after the string `c`; all of them if there is no `c`. -/
def Held (sgn : Bool) (A : Algorithm) (terms : List Str) (q : Str) (n : Nat) (c : Option Str) (ws : List Str) : Prop :=
  ws.Nodup ∧ ∀ w, w ∈ ws ↔ w ≠ [] ∧ (∃ t ∈ terms, w <+: t) ∧ Viable A q n w ∧ ∀ t, c = some t → w = t ∨ shortLex sgn w t

/-- The most positions that a state can have. -/
def maxPositions (A : Algorithm) (n : Nat) : Nat := (n + 1) ^ 2 + if A = .standard then 0 else n ^ 2

/-- `rs` lists the terms within distance `n` of `q` with their distances, in the order in which queries yield them. -/
def FoundBy (sgn : Bool) (A : Algorithm) (terms : List Str) (q : Str) (n : Nat) (rs : List (Str × Nat)) : Prop :=
  (∀ s c, (s, c) ∈ rs ↔ s ∈ terms ∧ IsMinCost A q s c ∧ c ≤ n) ∧ rs.Pairwise fun a b => shortLex sgn a.1 b.1

/-- The most positions of a state of the `i`-th query of a program. -/
def mostPositions (ops : List LOp) (i : Nat) : Nat :=
  match (started ops)[i]? with
  | some (t, _, n) => (((made ops)[t]?).map fun A => maxPositions A n).getD 0
  | none => 0

end Spec

end Lev
