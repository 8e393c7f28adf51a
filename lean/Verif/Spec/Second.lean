import Verif.Spec.AnyOrder

/-!
# A second construction on a dictionary: what happens to its words

No nodes here, only words.  `W` are the words of the dictionary, `C` the letters that the new words begin with.  In a minimal
dictionary two beginnings of words lead to the same node exactly if the same endings make words of them.
-/

namespace Lev.Spec

/-- The first letters of words. -/
def firsts (ws : List Str) (c : UInt8) : Prop := ∃ u, c :: u ∈ ws

/-- Some word begins like this. -/
def Begins (W : List Str) (p : Str) : Prop := ∃ u, p ++ u ∈ W

/-- The same endings make words of both. -/
def SameAfter (W : List Str) (p q : Str) : Prop := ∀ u, p ++ u ∈ W ↔ q ++ u ∈ W

/-- One letter, and new words begin with it. -/
def Cut (C : UInt8 → Prop) (p : Str) : Prop := ∃ c, p = [c] ∧ C c

/-- The first letter is one that no new word begins with. -/
def Kept (C : UInt8 → Prop) (p : Str) : Prop := ∃ c u, p = c :: u ∧ ¬ C c

/-- The node behind a letter that new words begin with is also needed behind another such letter or behind a beginning that
is kept. -/
def StillNeeded (W : List Str) (C : UInt8 → Prop) : Prop :=
  ∃ c p, C c ∧ Begins W [c] ∧ Begins W p ∧ p ≠ [c] ∧ SameAfter W [c] p ∧ (Cut C p ∨ Kept C p)

/-- Some node is behind a beginning that is not kept and is neither the node behind its first letter nor needed otherwise. -/
def GoneAstray (W : List Str) (C : UInt8 → Prop) : Prop :=
  ∃ p, Begins W p ∧ (∃ c u, p = c :: u ∧ C c) ∧ ∀ q, Begins W q → SameAfter W p q → ¬ Cut C q ∧ ¬ Kept C q

end Lev.Spec
