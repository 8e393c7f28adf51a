import Verif.Model.Query

/-!
# The iterations of a query, one by one

`queryLoop` runs the loop of `LazyQuery::advance` to its end.  Here the same iterations are counted: `QueryRun k Q` says
that `Q` is what a query may look like after `k` of them, over all calls of `advance` together.
-/

namespace Lev

section
variable {R : Type} (A : Algorithm) (n : Nat) (q : Str) (mem : Mem) (root : Nat) (upd : Str → Nat → R)

/-- What the constructor starts with (`lazy_query.cpp:8-24`). -/
def queryStart (r : R) : Query (List Pos) R :=
  { pending := [Inter.root root initialState], edges := [], owned := [], complete := false, cur := none, cand := r,
    term := q, maxD := n, a := windowMax n, k := 0, i := 0 }

/-- `Q` is reached by `k` iterations of the loop of `advance` (`lazy_query.cpp:36-73`); `mark` is the assignment
`_is_complete = true` before the loop (`:34`). -/
inductive QueryRun : Nat → Query (List Pos) R → Prop
  | start (r : R) : QueryRun 0 (queryStart n q root r)
  | mark {k : Nat} {Q : Query (List Pos) R} : QueryRun k Q → QueryRun k { Q with complete := true }
  | iter {k : Nat} {Q Q' : Query (List Pos) R} {stop : Bool} : QueryRun k Q → (Q.edges ≠ [] ∨ Q.pending ≠ []) →
      queryIter (listBackend A n q.length) mem upd () Q = .ok ((), Q', stop) → QueryRun (k + 1) Q'

end

end Lev
