import Verif.Model.Transition

/-!
# What the operations of a state do, as operations on a sequence

Positions are known by the order in which they were made.  A configuration is a sequence (the state) and the positions
that exist outside of it.  The relation `SeqStep` says what an operation does and, by having no case for it, what
violates the conventions: to use a position that was deleted, to insert one twice, to remove with a wrong predecessor.
-/

namespace Lev.Spec

/-- Operations of a program on one state. -/
inductive ListOp where
  /-- `new Position(…)` -/
  | make (p : Pos)
  /-- `delete` of a position that is not in the state -/
  | drop (i : Nat)
  /-- `state.head(i)` -/
  | head (i : Nat)
  /-- `state.add(i)` -/
  | add (i : Nat)
  /-- `state.insert_after(c, i)`; `none` is a null pointer -/
  | insertAfter (c : Option Nat) (i : Nat)
  /-- `state.remove(prev, i)`; `none` is a null pointer -/
  | remove (prev : Option Nat) (i : Nat)
  /-- `state.sort(cmp)` -/
  | sort
deriving DecidableEq, Repr

/-- A configuration: what was made, the sequence, and the positions outside of it. -/
structure Config where
  made : List Pos
  seq : List Nat
  loose : List Nat

/-- The value of position `i`. -/
def Config.val (c : Config) (i : Nat) : Pos := c.made.getD i ⟨0, 0, false⟩

/-- Positions `i` and `j` compare equal. -/
def Config.tie (c : Config) (cmp : Pos → Pos → Int) (i j : Nat) : Bool :=
  decide (cmp (c.val i) (c.val j) ≤ 0) && decide (cmp (c.val j) (c.val i) ≤ 0)

/-- What an operation does. -/
inductive SeqStep (cmp : Pos → Pos → Int) : ListOp → Config → Config → Prop where
  | make {c : Config} (p : Pos) :
      SeqStep cmp (.make p) c ⟨c.made ++ [p], c.seq, c.made.length :: c.loose⟩
  | drop {c : Config} {i : Nat} : i ∈ c.loose → SeqStep cmp (.drop i) c ⟨c.made, c.seq, c.loose.erase i⟩
  | head {c : Config} {i : Nat} : i ∈ c.loose → SeqStep cmp (.head i) c ⟨c.made, i :: c.seq, c.loose.erase i⟩
  | add {c : Config} {i : Nat} : i ∈ c.loose → SeqStep cmp (.add i) c ⟨c.made, c.seq ++ [i], c.loose.erase i⟩
  | insertLast {c : Config} {i : Nat} : i ∈ c.loose →
      SeqStep cmp (.insertAfter none i) c ⟨c.made, c.seq ++ [i], c.loose.erase i⟩
  | insertAfter {c : Config} {i j : Nat} {a b : List Nat} : i ∈ c.loose → c.seq = a ++ j :: b →
      SeqStep cmp (.insertAfter (some j) i) c ⟨c.made, a ++ j :: i :: b, c.loose.erase i⟩
  | removeFirst {c : Config} {i : Nat} {b : List Nat} : c.seq = i :: b →
      SeqStep cmp (.remove none i) c ⟨c.made, b, c.loose⟩
  | remove {c : Config} {i j : Nat} {a b : List Nat} : c.seq = a ++ j :: i :: b →
      SeqStep cmp (.remove (some j) i) c ⟨c.made, a ++ j :: b, c.loose⟩
  /-- a stable sort -/
  | sort {c : Config} {l : List Nat} : l.Perm c.seq → l.Pairwise (fun i j => cmp (c.val i) (c.val j) ≤ 0) →
      (∀ i ∈ c.seq, l.filter (c.tie cmp i) = c.seq.filter (c.tie cmp i)) →
      SeqStep cmp .sort c ⟨c.made, l, c.loose⟩

/-- A sequence of operations. -/
inductive SeqSteps (cmp : Pos → Pos → Int) : List ListOp → Config → Config → Prop where
  | nil {c : Config} : SeqSteps cmp [] c c
  | cons {op : ListOp} {ops : List ListOp} {c c' c'' : Config} : SeqStep cmp op c c' → SeqSteps cmp ops c' c'' →
      SeqSteps cmp (op :: ops) c c''

/-- The operations respect the conventions, in whatever order `sort` puts equal positions. -/
def Respects (cmp : Pos → Pos → Int) : List ListOp → Config → Prop
  | [], _ => True
  | op :: ops, c => (∃ c', SeqStep cmp op c c') ∧ ∀ c', SeqStep cmp op c c' → Respects cmp ops c'

end Lev.Spec

namespace Lev.Spec

/-- A cursor in a sequence: what is before it, what it is at (nothing, at the end or after a removal), what follows. -/
structure Cursor where
  pre : List Pos
  cur : Option Pos
  post : List Pos
deriving DecidableEq, Repr

/-- The sequence. -/
def Cursor.seq (c : Cursor) : List Pos := c.pre ++ (c.cur.toList ++ c.post)

/-- Operations of a `StateIterator`. -/
inductive CursorOp where
  /-- `++iter` -/
  | next
  /-- `iter.insert(new Position(…))` -/
  | insert (p : Pos)
  /-- `iter.remove()` -/
  | remove
deriving DecidableEq, Repr

/-- What an operation does; `none` where the documentation says nothing: to insert after the current position
when there is none. -/
def cursorStep (c : Cursor) : CursorOp → Option Cursor
  | .next => some ⟨c.pre ++ c.cur.toList, c.post.head?, c.post.tail⟩
  | .insert p => c.cur.map fun _ => ⟨c.pre, c.cur, p :: c.post⟩
  | .remove => some ⟨c.pre, none, c.post⟩

/-- A sequence of operations. -/
def cursorRun : List CursorOp → Cursor → Option Cursor
  | [], c => some c
  | op :: ops, c => (cursorStep c op).bind (cursorRun ops)

end Lev.Spec
