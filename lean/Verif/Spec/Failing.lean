import Verif.Model.Failing

/-!
# Specification: what an exception costs

Small definitions used to state C90.
-/

namespace Lev.Spec

/-- The exception makes the query miss the term `t`: the term itself was to be reported, or a node on the way to it was
not looked at. -/
def Misses (e : Thrown) (t : Str) : Prop := if e.fault = .text then t = e.path else e.path <+: t

instance (e : Thrown) (t : Str) : Decidable (Misses e t) := by unfold Misses; infer_instance

/-- The exception leaves objects behind that nobody can delete. -/
def Leaves : Fault → Prop
  | .trans j => 0 < j
  | .inter => True
  | .push => True
  | _ => False

instance (f : Fault) : Decidable (Leaves f) := by unfold Leaves; cases f <;> infer_instance

/-- Memory `g` is `m0` with what the exceptions left behind: all that was in `m0` is as it was; there is one more state for
each exception that leaves one; and if there is no such exception, nothing has changed. -/
structure LeftBehind (m0 g : SMem) (log : List Thrown) : Prop where
  pos : ∀ {a c}, m0.pos a = some c → g.pos a = some c
  st : ∀ {s h}, m0.st s = some h → g.st s = some h
  states : ∃ L : List Nat, L.Nodup ∧ L.length = (log.filter fun e => decide (Leaves e.fault)).length ∧
    ∀ s, s ∈ L ↔ m0.st s = none ∧ g.st s ≠ none
  clean : (∀ e ∈ log, ¬ Leaves e.fault) → g.pos = m0.pos ∧ g.st = m0.st

end Lev.Spec
