import Verif.Spec.BuildFail
import Verif.Proofs.DictSem

/-!
# What calls of `add` and `finish` in any order do to the words of a dictionary

No nodes here, only words.  `finish` forgets the letters of the transitions that are not checked yet, but not the last
word.  A word that is added afterwards is cut where it differs from the last word, and what is left of it is put behind
the letters that are left.
-/

namespace Lev.Spec

/-- A call on a dictionary that is being built. -/
inductive BuildOp where
  | add (t : Str)
  | finish
deriving DecidableEq, Repr

/-- A dictionary that is being built. -/
structure Draft where
  /-- the last word that was added -/
  prev : Str := []
  /-- the letters of the transitions that are not checked yet -/
  path : Str := []
  words : List Str := []
  size : Nat := 0
deriving DecidableEq, Repr

/-- What is left of the path when `t` is added. -/
def Draft.kept (s : Draft) (t : Str) : Str := s.path.take (commonLen t s.prev)

/-- What is put behind it. -/
def Draft.rest (s : Draft) (t : Str) : Str := t.drop (commonLen t s.prev)

/-- The word that the dictionary gets when `t` is added. -/
def Draft.stored (s : Draft) (t : Str) : Str := s.kept t ++ s.rest t

/-- A word of the dictionary already goes along the first letter of what is put behind the path. -/
def Draft.taken (s : Draft) (t : Str) : Bool :=
  match s.rest t with
  | [] => false
  | c :: _ => s.words.any fun v => (s.kept t ++ [c]).isPrefixOf v

/-- The dictionary after one more word. -/
def Draft.push (s : Draft) (t : Str) : Draft := ⟨t, s.stored t, s.words ++ [s.stored t], s.size + 1⟩

/-- What the calls of `add` return and what the dictionary is then; none if some edge is overwritten. -/
def Draft.run (s : Draft) : List BuildOp → Option (List Bool × Draft)
  | [] => some ([], s)
  | .finish :: ops => { s with path := [] }.run ops
  | .add t :: ops =>
      if strLess t s.prev then (s.run ops).map fun r => (false :: r.1, r.2)
      else if s.taken t then none
      else ((s.push t).run ops).map fun r => (true :: r.1, r.2)

/-- The terms that are taken: those that are not smaller than the last one taken. -/
def takenTerms (prev : Str) : List BuildOp → List Str
  | [] => []
  | .finish :: ops => takenTerms prev ops
  | .add t :: ops => if strLess t prev then takenTerms prev ops else t :: takenTerms t ops

/-- What `add` returns: whether the term is taken. -/
def addResults (prev : Str) : List BuildOp → List Bool
  | [] => []
  | .finish :: ops => addResults prev ops
  | .add t :: ops => if strLess t prev then false :: addResults prev ops else true :: addResults t ops

/-- The first term taken after a call of `finish` (`closed`: there was one since the last term taken) begins with another
letter than the term taken before. -/
def Apart (closed : Bool) (prev : Str) : List BuildOp → Prop
  | [] => True
  | .finish :: ops => Apart true prev ops
  | .add t :: ops =>
      if strLess t prev then Apart closed prev ops
      else (closed = true → ∀ c, t.head? = some c → prev.head? ≠ some c) ∧ Apart false t ops

end Lev.Spec
