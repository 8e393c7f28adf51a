import Verif.Model.IterFail
import Verif.Spec.Dict

/-!
# Specification: what an exception costs an iterator

Small definitions used to state C93.
-/

namespace Lev.Spec

/-- An exception: where memory ran out, the string that leads to the node at hand, and the labels of the edges of this node
that were not followed. -/
structure Gone where
  fault : IFault
  path : Str
  after : List UInt8
deriving DecidableEq, Repr

/-- The exception concerns a node of the dictionary, and if it was thrown at the edge number `j`, this one and the following
edges were not followed. -/
def Gone.At (mem : Mem) (root : Nat) (e : Gone) : Prop :=
  ∃ a nd, Leads mem root e.path a ∧ mem a = some nd ∧
    match e.fault with
    | .text => nd.final = true ∧ e.after = []
    | .edge j _ => j < nd.edges.length ∧ e.after = (nd.edges.drop j).map (·.1)

/-- The exception makes the iterator miss the term `t`: that of the node at hand, and those beyond the edges that were not
followed. -/
def Gone.Misses (e : Gone) (t : Str) : Prop := t = e.path ∨ ∃ c ∈ e.after, e.path ++ [c] <+: t

instance instDecidableGoneMisses (e : Gone) (t : Str) : Decidable (e.Misses t) := by unfold Gone.Misses; infer_instance

/-- The terms of `all` that no exception made the iterator miss. -/
def notGone (log : List Gone) (all : List Str) : List Str := all.filter fun t => decide (∀ e ∈ log, ¬ e.Misses t)

/-- The exceptions that leave a prefix behind which nobody can delete. -/
def strays (es : List IFault) : Nat := (es.filter fun f => match f with | .edge _ .store => true | _ => false).length

/-- The element number `r`, or the last one if there are not as many. -/
def atOrLast (l : List Str) (r : Nat) : Str := l[r]?.getD (l.getLast?.getD [])

/-- Memory `m` is `m0` and `n` prefixes more. -/
def MorePrefixes (m0 m : PMem) (n : Nat) : Prop :=
  (∀ a p, m0 a = some p → m a = some p) ∧
  ∃ L : List Nat, L.Nodup ∧ L.length = n ∧ ∀ a, a ∈ L ↔ m0 a = none ∧ m a ≠ none

end Lev.Spec
