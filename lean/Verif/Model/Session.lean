import Verif.Model.StateHeap

/-!
# Several queries on one transducer

A program that uses one transducer (`/repo/src/liblevenshtein/transducer/transducer.{h,cpp}`) starts queries, advances
them and destroys them in any order.  The memory holds the positions and states of all of them; the dictionary is only
read (`is_final` and `for_each_edge`, `dawg_node.cpp:23-31`, are the `const` functions used) and so is a parameter.
-/

namespace Lev

/-- What a program can do with the queries of a transducer.  Queries are numbered in the order of their start. -/
inductive QOp where
  /-- `transducer(q, n).begin()` (`transducer.cpp:25-35`, `lazy_query.cpp:145-148`) -/
  | start (q : Str) (n : Nat)
  /-- `++` (`lazy_query.cpp:88-92`) -/
  | next (i : Nat)
  /-- `~LazyQuery` (`lazy_query.cpp:26-30`) -/
  | destroy (i : Nat)
deriving DecidableEq, Repr

section
variable {R : Type} (paddr saddr : SMem → Nat) (first : Bool) (A : Algorithm) (upd : Str → Nat → R) (dflt : R)
  (mem : Mem) (root s0 fuel : Nat)

/-- One step.  `T` are the queries, `none` in place of those that were destroyed. -/
def sessionStep (op : QOp) (m : SMem) (T : List (Option (Query Nat R))) :
    Except Err (SMem × List (Option (Query Nat R))) :=
  match op with
  | .start q n => do
      let (m, Q) ← queryBegin (heapBackend paddr saddr first A n q.length) mem upd fuel dflt m root s0 q n
      .ok (m, T ++ [some Q])
  | .next i =>
      match T[i]? with
      | some (some Q) => do
          let (m, Q) ← queryAdvance (heapBackend paddr saddr first A Q.maxD Q.term.length) mem upd fuel m Q
          .ok (m, T.set i (some Q))
      | _ => .error .ub
  | .destroy i =>
      match T[i]? with
      | some (some Q) => do
          let m ← destroyQuery Q.owned m
          .ok (m, T.set i none)
      | _ => .error .ub

/-- A sequence of steps. -/
def session : List QOp → SMem → List (Option (Query Nat R)) → Except Err (SMem × List (Option (Query Nat R)))
  | [], m, T => .ok (m, T)
  | op :: ops, m, T => do
      let (m, T) ← sessionStep paddr saddr first A upd dflt mem root s0 fuel op m T
      session ops m T

end

end Lev
