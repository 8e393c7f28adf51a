/-!
Lengths of strings that cannot be hashed.
-/

namespace Lev.Spec

/-- The lengths whose lowest 32 bits, taken as a signed number, are -8 or less. -/
def BadLength (n : Nat) : Prop := 2 ^ 31 ≤ n % 2 ^ 32 ∧ n % 2 ^ 32 ≤ 2 ^ 32 - 8

end Lev.Spec
