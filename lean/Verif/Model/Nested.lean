import Verif.Model.ListProgram
import Verif.Spec.Nested

/-!
# Programs with a loop over a state inside another one

`unsubsume` has an iterator over a state and, for each position, makes a second one behind it that knows the first one
(src/liblevenshtein/transducer/unsubsume.cpp 10-38).  Here the loops do anything that their interface allows.
-/

namespace Lev

open Spec

/-- One operation of the inner iterator; `outer` is the iterator whose address it was given (`state_iterator.cpp:13-16`, `:26-43`). -/
def innerStep (paddr : SMem → Nat) (outer it : SIter) (m : SMem) : CursorOp → Except Err (SIter × SIter × SMem)
  | .next => do
      let it ← siterAdvance m it
      .ok (outer, it, m)
  | .insert p => do
      let (a, m) := newPos paddr p m
      let (it, m) ← iterInsert it a m
      .ok (outer, it, m)
  | .remove => do
      let (it, o, m) ← iterRemove it (some outer) m
      .ok (o.getD outer, it, m)

/-- A sequence of operations of the inner iterator; the inner iterator ends with them. -/
def innerRun (paddr : SMem → Nat) : List CursorOp → SIter → SIter → SMem → Except Err (SIter × SMem)
  | [], outer, _, m => .ok (outer, m)
  | op :: ops, outer, it, m => do
      let (outer, it, m) ← innerStep paddr outer it m op
      innerRun paddr ops outer it m

/-- One step of a program with two iterators: an operation of the outer one, or a new inner one at the position where the outer one is,
which is advanced and then does `ops` (`unsubsume.cpp:17-35`). -/
def nestedStep (paddr : SMem → Nat) (outer : SIter) (m : SMem) : NestOp → Except Err (SIter × SMem)
  | .outer op => iterStep paddr outer m op
  | .inner ops => do
      let it ← iterNew outer.state outer.curr m
      let it ← siterAdvance m it
      innerRun paddr ops outer it m

/-- A program. -/
def nestedRun (paddr : SMem → Nat) : List NestOp → SIter → SMem → Except Err (SIter × SMem)
  | [], outer, m => .ok (outer, m)
  | op :: ops, outer, m => do
      let (outer, m) ← nestedStep paddr outer m op
      nestedRun paddr ops outer m

end Lev
