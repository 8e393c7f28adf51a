import Verif.Spec.Graph

/-!
# Specification: which strings an iterator has in hand

Small definitions used to state C104.
-/

namespace Lev.Spec

/-- The string `v` can be read from the root, and does not come after `w` by length and then by `char`. -/
def ReadUpTo (sgn : Bool) (mem : Mem) (root : Nat) (w v : Str) : Prop := (∃ b, Leads mem root v b) ∧ ¬ shortLex sgn w v

/-- The string `u` can be read from the root, and without its last character it does not come after `w`. -/
def OneBeyond (sgn : Bool) (mem : Mem) (root : Nat) (w u : Str) : Prop :=
  (∃ b, Leads mem root u b) ∧ ∀ v c, u = v ++ [c] → ¬ shortLex sgn w v

end Lev.Spec
