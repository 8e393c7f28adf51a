import Verif.Model.StateHeap
import Verif.Spec.Sequence

/-!
A program that performs the operations of `Verif/Spec/Sequence.lean` on a state in memory, with the functions of
`Verif/Model/StateHeap.lean`.
-/

namespace Lev

open Spec

/-- The pointer to position `i`. -/
def pointer (T : List Nat) (i : Nat) : Except Err Nat :=
  match T[i]? with
  | some a => .ok a
  | none => .error .ub

/-- A pointer that may be null. -/
def pointerOr (T : List Nat) : Option Nat → Except Err Nat
  | none => .ok 0
  | some i => pointer T i

section
variable (paddr : SMem → Nat) (first : Bool) (cmp : Pos → Pos → Int) (s : Nat)

/-- One operation; `T` are the addresses of the positions made so far. -/
def listStep (T : List Nat) (m : SMem) : ListOp → Except Err (List Nat × SMem)
  | .make p => let (a, m) := newPos paddr p m; .ok (T ++ [a], m)
  | .drop i => do
      let a ← pointer T i
      let m ← deletePos a m
      .ok (T, m)
  | .head i => do
      let a ← pointer T i
      let m ← stateHead s a m
      .ok (T, m)
  | .add i => do
      let a ← pointer T i
      let m ← stateAdd s a m
      .ok (T, m)
  | .insertAfter c i => do
      let c ← pointerOr T c
      let a ← pointer T i
      let m ← stateInsertAfter s c a m
      .ok (T, m)
  | .remove prev i => do
      let prev ← pointerOr T prev
      let a ← pointer T i
      let m ← stateRemove s prev a m
      .ok (T, m)
  | .sort => do
      let m ← stateSort first cmp s m
      .ok (T, m)

/-- A sequence of operations. -/
def listRun : List ListOp → List Nat → SMem → Except Err (List Nat × SMem)
  | [], T, m => .ok (T, m)
  | op :: ops, T, m => do
      let (T, m) ← listStep paddr first cmp s T m op
      listRun ops T m

end

/-- `for (Position *p : *state)`: the addresses seen. -/
def traverse (s : Nat) (m : SMem) : Except Err (List Nat) := do
  let it ← siterBegin s m
  iterCollect m m.steps it

/-- An operation of the program on a `StateIterator` without an outer iterator. -/
def iterStep (paddr : SMem → Nat) (it : SIter) (m : SMem) : CursorOp → Except Err (SIter × SMem)
  | .next => do
      let it ← siterAdvance m it
      .ok (it, m)
  | .insert p =>
      let (a, m) := newPos paddr p m
      iterInsert it a m
  | .remove => do
      let (it, _, m) ← iterRemove it none m
      .ok (it, m)

/-- A sequence of operations. -/
def iterRun (paddr : SMem → Nat) : List CursorOp → SIter → SMem → Except Err (SIter × SMem)
  | [], it, m => .ok (it, m)
  | op :: ops, it, m => do
      let (it, m) ← iterStep paddr it m op
      iterRun paddr ops it m

/-- `new State({new Position(…), …})`. -/
def buildState (paddr saddr : SMem → Nat) (ps : List Pos) (m : SMem) : Except Err (Nat × SMem) :=
  let (as, m) := newPositions paddr ps m
  newStateOf saddr as m

end Lev
