import Verif.Model.Node

/-! # When words are too long for an `int` -/

namespace Lev.Spec

/-- A query of 2^31 or more characters with a distance of 2^30 or more, on a dictionary with a term that is not empty. -/
def LongQuery (terms : List Str) (q : Str) (n : Nat) : Prop := 2 ^ 31 ≤ q.length ∧ 2 ^ 30 ≤ n ∧ ∃ t ∈ terms, t ≠ []

/-- A word of 2^31 or more characters, the first 2^31 - 1 of which begin a term. -/
def LongProbe (terms : List Str) (t : Str) : Prop := 2 ^ 31 ≤ t.length ∧ ∃ s ∈ terms, t.take (2 ^ 31 - 1) <+: s

end Lev.Spec
