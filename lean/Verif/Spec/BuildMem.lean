import Verif.Spec.Dict

/-!
Nodes in memory while a dictionary is built, in terms of the strings.
-/

namespace Lev

namespace Spec

/-- `L` lists the objects that are there in `m'` and not in `m`; the others are as in `m`. -/
def Gained {α : Type} (m m' : Nat → Option α) (L : List Nat) : Prop :=
  L.Nodup ∧ (∀ a, a ∈ L ↔ m a = none ∧ m' a ≠ none) ∧ ∀ a, a ∉ L → m' a = m a

/-- `qs` lists the different non-empty beginnings of the terms: one for each node besides the root of the tree of the
terms in which nothing is shared. -/
def Beginnings (terms qs : List Str) : Prop := qs.Nodup ∧ ∀ q, q ∈ qs ↔ q ≠ [] ∧ ∃ t ∈ terms, q <+: t

/-- The same strings make terms of `p` and of `q`. -/
def SameRest (terms : List Str) (p q : Str) : Prop := ∀ u, p ++ u ∈ terms ↔ q ++ u ∈ terms

/-- `R` has exactly one beginning of the terms (the empty one is always one) for each set of strings that make terms of
a beginning. -/
def Classes (terms R : List Str) : Prop :=
  R.Pairwise (fun p q => ¬ SameRest terms p q) ∧ (∀ p ∈ R, p = [] ∨ ∃ t ∈ terms, p <+: t) ∧
    ∀ p, (p = [] ∨ ∃ t ∈ terms, p <+: t) → ∃ q ∈ R, SameRest terms p q

end Spec

end Lev
