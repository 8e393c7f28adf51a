import Verif.Spec.Sequence

/-!
# A cursor, and others behind it
-/

namespace Lev.Spec

/-- Operations of a program with an iterator and, one after another, inner iterators. -/
inductive NestOp where
  /-- an operation of the outer iterator -/
  | outer (op : CursorOp)
  /-- an inner iterator, at the position behind that of the outer one, does `ops` -/
  | inner (ops : List CursorOp)
deriving DecidableEq, Repr

/-- What an operation does.  The inner cursor works on what follows the outer one; without a current position of the outer cursor it
has nothing to work on. -/
def nestStep (c : Cursor) : NestOp → Option Cursor
  | .outer op => cursorStep c op
  | .inner ops =>
      if c.cur.isSome then (cursorRun ops ⟨[], c.post.head?, c.post.tail⟩).map fun d => ⟨c.pre, c.cur, d.seq⟩
      else if ops.all fun op => op == .next || op == .remove then some c else none

/-- A program. -/
def nestRun : List NestOp → Cursor → Option Cursor
  | [], c => some c
  | op :: ops, c => (nestStep c op).bind (nestRun ops)

end Lev.Spec
