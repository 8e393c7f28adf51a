import Verif.Model.Assign

/-!
# Which intersections the destructors delete
-/

namespace Lev.Spec

variable {R : Type}

/-- The intersections that the destructors of the transducers and queries that are there will delete, one entry for each
time. -/
def owners (w : World R) : List Nat :=
  (w.ts.flatMap fun o => match o with
    | some (_, a) => [a]
    | none => []) ++
  w.qs.flatMap fun o => match o with
    | some (_, Q) => Q.owned
    | none => []

/-- `ds` destroys each query and each transducer that is there once, in some order, and does nothing else. -/
def DestroysAll (w : World R) (ds : List LOp) : Prop :=
  ds.Nodup ∧ ∀ op, op ∈ ds ↔
    (∃ i x, w.qs[i]? = some (some x) ∧ op = .dropQuery i) ∨ ∃ t x, w.ts[t]? = some (some x) ∧ op = .dropTransducer t

end Lev.Spec
