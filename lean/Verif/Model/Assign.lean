import Verif.Model.Lifetime
import Verif.Model.Iter

/-!
# Assignments between queries, transducers, dictionaries and iterators

`LazyQuery` and `Transducer` declare destructors but neither copy nor move operations
(`/repo/src/liblevenshtein/transducer/lazy_query.h:30-173`, `transducer.h:25-62`).  The compiler therefore provides copy
construction and copy assignment, which copy every member, pointers included, and no move operations: `q = std::move(p)` and
`q = transducer(…).begin()` are copy assignments too.  The same holds for `SortedDawg` (`sorted_dawg.h:20-99`) and
`DawgIterator` (`dawg_iterator.h:15-87`).
-/

namespace Lev

/-- A copy or an assignment.  Objects are numbered as in `LOp`. -/
inductive AOp where
  /-- `LazyQuery p = queries[i];` -/
  | copy (i : Nat)
  /-- `queries[i] = queries[j];` -/
  | assign (i j : Nat)
  /-- `Transducer p = transducers[t];` -/
  | copyTransducer (t : Nat)
  /-- `transducers[s] = transducers[t];` -/
  | assignTransducer (s t : Nat)
deriving DecidableEq, Repr

variable {R : Type}

/-- One copy or assignment.  The functions `transition` and `min_distance` (`lazy_query.h:114-120`), which depend on the
algorithm, are copied with the other members of a query; the algorithm of a transducer is part of its type, so that
assignments between transducers of different algorithms do not compile.  Objects that were destroyed must not be used. -/
def assignStep (op : AOp) (w : World R) : Except Err (World R) :=
  match op with
  | .copy i =>
      match w.qs[i]? with
      | some (some (A, Q)) => .ok { w with qs := w.qs ++ [some (A, Q)] }
      | _ => .error .ub
  | .assign i j =>
      match w.qs[i]?, w.qs[j]? with
      | some (some _), some (some (A, Q)) => .ok { w with qs := w.qs.set i (some (A, Q)) }
      | _, _ => .error .ub
  | .copyTransducer t =>
      match w.ts[t]? with
      | some (some (A, a)) => .ok { w with ts := w.ts ++ [some (A, a)] }
      | _ => .error .ub
  | .assignTransducer s t =>
      match w.ts[s]?, w.ts[t]? with
      | some (some (A', _)), some (some (A, a)) =>
          if A' = A then .ok { w with ts := w.ts.set s (some (A, a)) } else .error .ub
      | _, _ => .error .ub

/-- A sequence of them. -/
def assignRun : List AOp → World R → Except Err (World R)
  | [], w => .ok w
  | op :: ops, w => do
      let w ← assignStep op w
      assignRun ops w

/-- `std::swap(queries[i], queries[j])`: `LazyQuery tmp = std::move(queries[i]); queries[i] = std::move(queries[j]);
queries[j] = std::move(tmp);` when there are `n` queries before. -/
def swapOps (n i j : Nat) : List AOp := [.copy i, .assign i j, .assign j n]

/-- `SortedDawg::operator=`, which the compiler provides: all members are copied (`dawg.h:126-129`,
`sorted_dawg.h:89-98`). -/
def assignDawg (_old new : SDawg) : SDawg := new

/-- `Dawg::operator=`, which the compiler provides and which is called when both sides are of type `Dawg &`: the members of
`Dawg` are copied (`dawg.h:126-129`), those of `SortedDawg` are not. -/
def assignBase (old new : SDawg) : SDawg := { old with root := new.root, size := new.size }

/-- `DawgIterator::operator=`, which the compiler provides: all members are copied (`dawg_iterator.h:70-81`). -/
def assignIter (_old new : DIter) : DIter := new

end Lev
