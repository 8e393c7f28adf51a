import Verif.Model.BuildFail

/-!
# What an exception of `add` or `finish` does to the words of a dictionary

No nodes here, only words.  While it is built a dictionary has a last word, a path (the letters of the transitions that
are not checked yet) and the words that lead from the root to a final node, the unchecked transitions included.
-/

namespace Lev.Spec

/-- How many letters two words have in common at the start. -/
def commonLen : Str → Str → Nat
  | x :: s, y :: t => if x = y then commonLen s t + 1 else 0
  | _, _ => 0

/-- A dictionary that is being built. -/
structure Progress where
  /-- the word of the last call of `add` that returned true -/
  prev : Str := []
  /-- the word of the last call of `add` that returned true or threw -/
  last : Str := []
  path : Str := []
  words : List Str := []
  size : Nat := 0
  /-- number of nodes that nobody will delete -/
  stray : Nat := 0
deriving DecidableEq, Repr

/-- An exception of `minimize`, which is to leave `i` letters of the path. -/
inductive Stuck (i : Nat) (s : Progress) : BFault → Progress → Prop
  /-- The transition is taken off the path, but the edge is not made: all words through it are lost. -/
  | lost {k : Nat} {f : BFault} : f = .find k ∨ f = .edge k → k < s.path.length - i →
      Stuck i s f { s with
        path := s.path.take (s.path.length - (k + 1))
        words := s.words.filter fun w => !(s.path.take (s.path.length - k)).isPrefixOf w }
  /-- The edge is made, but the node is not in the register: it will not be shared. -/
  | unregistered {k : Nat} : k < s.path.length - i →
      Stuck i s (.register k) { s with path := s.path.take (s.path.length - (k + 1)) }

/-- `minimize`, which is to leave `i` letters of the path, does not come past this place. -/
def Unmet (i : Nat) (s : Progress) : BFault → Prop
  | .find k => s.path.length - i ≤ k
  | .edge k => s.path.length - i ≤ k
  | _ => True

/-- The loop for the rest of the word, `n` letters, does not come past this place. -/
def Beyond (n : Nat) : BFault → Prop
  | .node j => n ≤ j
  | .float j => n ≤ j
  | .emplace j => n ≤ j
  | _ => True

/-- A call of `add` with the word `t`. -/
inductive AddOut (s : Progress) (t : Str) : Option BFault → Fate → Progress → Prop
  | refused {f : Option BFault} : strLess t s.prev → AddOut s t f .refused s
  | stuck {f : BFault} {s' : Progress} : ¬ strLess t s.prev → Stuck (commonLen t s.prev) s f s' →
      AddOut s t (some f) .threw { s' with last := t }
  | node {j : Nat} : ¬ strLess t s.prev → j < t.length - commonLen t s.prev →
      AddOut s t (some (.node j)) .threw { s with last := t, path := t.take (commonLen t s.prev + j) }
  | float {j : Nat} : ¬ strLess t s.prev → j < t.length - commonLen t s.prev →
      AddOut s t (some (.float j)) .threw
        { s with last := t, path := t.take (commonLen t s.prev + j), stray := s.stray + 1 }
  | emplace {j : Nat} : ¬ strLess t s.prev → j < t.length - commonLen t s.prev →
      AddOut s t (some (.emplace j)) .threw { s with last := t, path := t.take (commonLen t s.prev + j) }
  | prev : ¬ strLess t s.prev →
      AddOut s t (some .prev) .threw { s with last := t, path := t, words := s.words ++ [t] }
  | added {f : Option BFault} : ¬ strLess t s.prev →
      (∀ b, f = some b → Unmet (commonLen t s.prev) s b ∧ Beyond (t.length - commonLen t s.prev) b ∧ b ≠ .prev) →
      AddOut s t f .added { s with prev := t, last := t, path := t, words := s.words ++ [t], size := s.size + 1 }

/-- Calls of `add` one after the other. -/
inductive AddOuts : Progress → List (Str × Option BFault) → List Fate → Progress → Prop
  | nil {s : Progress} : AddOuts s [] [] s
  | cons {s s1 s2 : Progress} {t : Str} {f : Option BFault} {fate : Fate} {calls : List (Str × Option BFault)}
      {fates : List Fate} : AddOut s t f fate s1 → AddOuts s1 calls fates s2 →
      AddOuts s ((t, f) :: calls) (fate :: fates) s2

/-- Calls of `finish` until one of them returns. -/
inductive FinishOut : Progress → List BFault → Progress → Prop
  | last {s : Progress} : FinishOut s [] { s with path := [] }
  | threw {s s1 s2 : Progress} {f : BFault} {fs : List BFault} : Stuck 0 s f s1 → FinishOut s1 fs s2 → FinishOut s (f :: fs) s2
  | returned {s : Progress} {f : BFault} {fs : List BFault} : Unmet 0 s f → FinishOut s (f :: fs) { s with path := [] }

/-- `add` refuses the word, or the word is not smaller than the last one and it has no more letters in common with the
path than with the last word that was added. -/
def Safe (s : Progress) (t : Str) : Prop :=
  strLess t s.prev ∨ ¬ strLess t s.last ∧ commonLen t s.path ≤ commonLen t s.prev

/-- Whatever happens, all calls are safe. -/
def SafeCalls : Progress → List (Str × Option BFault) → Prop
  | _, [] => True
  | s, (t, f) :: calls => Safe s t ∧ ∀ fate s', AddOut s t f fate s' → SafeCalls s' calls

/-- An exception at this place does not leave a part of the term in the dictionary. -/
def Early : BFault → Prop
  | .node j => j = 0
  | .float j => j = 0
  | .emplace j => j = 0
  | .prev => False
  | _ => True

/-- Memory is as before, but there are `n` more nodes, which nothing leads to. -/
def StrayNodes (m m' : Mem) (n : Nat) : Prop :=
  ∃ l : List Nat, l.Nodup ∧ l.length = n ∧ (∀ a ∈ l, m a = none ∧ m' a ≠ none) ∧ ∀ a, a ∉ l → m' a = m a

/-- No node allocated since the allocation number `c` was freed, and nothing else was changed. -/
def NothingFreed (addr : Nat → Nat) (c : Nat) (m : Mem) (h : Heap) : Prop :=
  (∀ j, c ≤ j → j < h.count → h.mem (addr j) ≠ none) ∧
  ∀ a, (∀ j, c ≤ j → j < h.count → a ≠ addr j) → h.mem a = m a

end Lev.Spec
