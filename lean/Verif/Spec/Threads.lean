import Verif.Spec.Lifetime

/-!
# Which programs may run in threads
-/

namespace Lev.Spec

/-- The operation does not destroy one of the first `nt` transducers, does not advance or destroy one of the first `nq`
queries, copies nothing and does not destroy the dictionary. -/
def OwnOp (nt nq : Nat) : LOp → Prop
  | .transducer _ | .start .. => True
  | .next i | .dropQuery i => nq ≤ i
  | .dropTransducer t => nt ≤ t
  | .copy _ | .copyTransducer _ | .dropDictionary => False

/-- After `pre` one thread is started for each list of operations.  A thread may start queries on transducers made in `pre`;
it advances and destroys only objects that it has made itself.  Each thread numbers its objects from those of `pre` on. -/
structure ThreadsOk (pre : List LOp) (opss : List (List LOp)) : Prop where
  life : LifeOk pre
  dict : LOp.dropDictionary ∉ pre
  ops : ∀ ops ∈ opss, LifeOk (pre ++ ops) ∧ ∀ op ∈ ops, OwnOp (made pre).length (started pre).length op

/-- The thread has destroyed all that it has made. -/
def OwnDropped (pre ops : List LOp) : Prop :=
  (∀ i, (started pre).length ≤ i → i < (started (pre ++ ops)).length → LOp.dropQuery i ∈ ops) ∧
  ∀ t, (made pre).length ≤ t → t < (made (pre ++ ops)).length → LOp.dropTransducer t ∈ ops

end Lev.Spec
