import Verif.Spec.Sequence

/-!
# A cursor that may insert when it is at no position

Inserting without a position puts the new position at the front and the cursor before it.  The cursor still takes the position
that it was behind for its predecessor, until it leaves a position.
-/

namespace Lev.Spec

/-- A cursor; `late` is the number of positions behind the wrong predecessor, if it has a wrong one. -/
structure LateCursor extends Cursor where
  late : Option Nat
deriving DecidableEq, Repr

/-- What an operation does; `none` for a removal while the predecessor is wrong. -/
def lateStep (c : LateCursor) : CursorOp → Option LateCursor
  | .next => some ⟨⟨c.pre ++ c.cur.toList, c.post.head?, c.post.tail⟩, if c.cur.isSome then none else c.late⟩
  | .insert p =>
      if c.cur.isSome then some ⟨⟨c.pre, c.cur, p :: c.post⟩, c.late⟩
      else some ⟨⟨[], none, p :: (c.pre ++ c.post)⟩, if c.pre = [] then c.late else some c.post.length⟩
  | .remove =>
      if c.cur.isSome && c.late.isSome then none
      else some ⟨⟨c.pre, none, c.post⟩, c.late⟩

/-- A sequence of operations. -/
def lateRun : List CursorOp → LateCursor → Option LateCursor
  | [], c => some c
  | op :: ops, c => (lateStep c op).bind (lateRun ops)

/-- An iterator that was made at a position in the middle takes it for the first one until it leaves a position: what it removes is
the first position of the state. -/
def midRun : List CursorOp → Cursor → Option LateCursor
  | [], c => some ⟨c, none⟩
  | .next :: ops, c =>
      if c.cur.isSome then lateRun ops ⟨⟨c.pre ++ c.cur.toList, c.post.head?, c.post.tail⟩, none⟩
      else midRun ops ⟨c.pre, c.post.head?, c.post.tail⟩
  | .insert p :: ops, c =>
      if c.cur.isSome then midRun ops ⟨c.pre, c.cur, p :: c.post⟩
      else lateRun ops ⟨⟨[], none, p :: (c.pre ++ c.post)⟩, none⟩
  | .remove :: ops, c =>
      if c.cur.isSome then midRun ops ⟨(c.pre ++ c.cur.toList).tail, none, c.post⟩
      else midRun ops c

end Lev.Spec
