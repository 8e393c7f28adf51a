import Verif.Model.ListProgram
import Verif.Model.Lifetime

/-!
# Copies of positions, states and intersections

The compiler provides copy constructors and assignments for `Position`, `State` and `Intersection`, which have destructors that delete
what they point to (src/liblevenshtein/transducer/position.h 11-79, state.h 23-153, intersection.h 16-75).  They copy the pointers.
-/

namespace Lev

/-- `new State(*s)`: the pointer to the first position is copied (`state.h:118-121`). -/
def copyState (saddr : SMem → Nat) (s : Nat) (m : SMem) : Except Err (Nat × SMem) := do
  let h ← getHead m s
  .ok (saddr m, { m with st := upd1 m.st (saddr m) (some h), count := m.count + 1 })

/-- `*t = *s` for states: the positions of `t` are not deleted. -/
def assignState (t s : Nat) (m : SMem) : Except Err SMem := do
  let h ← getHead m s
  setHead t h m

/-- `new Position(*a)`: the pointer to the next position is copied (`position.h:65-79`). -/
def copyPos (paddr : SMem → Nat) (a : Nat) (m : SMem) : Except Err (Nat × SMem) := do
  let c ← getCell m a
  .ok (paddr m, { m with pos := upd1 m.pos (paddr m) (some c), count := m.count + 1 })

/-- `*a = *b` for positions: what followed `a` is not deleted. -/
def assignPos (a b : Nat) (m : SMem) : Except Err SMem := do
  let c ← getCell m b
  let _ ← getCell m a
  .ok { m with pos := upd1 m.pos a (some c) }

/-- `new Intersection(*a)`: the pointers are copied (`intersection.h:62-75`). -/
def copyInter (iaddr : IMem Nat → Nat) (a : Nat) (im : IMem Nat) : Except Err (Nat × IMem Nat) := do
  let c ← getInter im a
  .ok (newInter iaddr c im)

/-- `*a = *b` for intersections: the state of `a` is not deleted. -/
def assignInter (a b : Nat) (im : IMem Nat) : Except Err (IMem Nat) := do
  let c ← getInter im b
  let _ ← getInter im a
  .ok { im with cell := upd1 im.cell a (some c) }

end Lev
