import Verif.Model.SerialFail

/-!
What a failing call of `deserialize_protobuf` loses, for a message with `V` nodes, `F` final nodes and `E` edges in which
everything referred to is listed and nothing is listed twice.
-/

namespace Lev

namespace Spec

/-- The call comes past the place: it throws. -/
def Strikes (V F E : Nat) : LFault → Prop
  | .parse => True
  | .final k => k < F
  | .node k => k < V
  | .entry k => k < V
  | .source _ => False
  | .target _ => False
  | .edge k => k < E
  | .root => False
  | .object => True

instance instDecidableStrikes (V F E : Nat) (f : LFault) : Decidable (Strikes V F E f) := by
  cases f <;> simp only [Strikes] <;> infer_instance

/-- How many nodes have been made by then. -/
def lost (V : Nat) : LFault → Nat
  | .parse => 0
  | .final _ => 0
  | .node k => k
  | .entry k => k + 1
  | _ => V

/-- How many nodes are lost by a caller who tries again until a call does not throw. -/
def lostAll (V F E : Nat) : List LFault → Nat
  | [] => 0
  | f :: fs => if Strikes V F E f then lost V f + lostAll V F E fs else 0

/-- The memory is that of before, and `n` new nodes. -/
structure Litter (addr : Nat → Nat) (h h' : Heap) (n : Nat) : Prop where
  old : ∀ a, h.mem a ≠ none → h'.mem a = h.mem a
  new : ∀ a, h'.mem a ≠ none ↔ h.mem a ≠ none ∨ ∃ k, k < n ∧ a = addr (h.count + k)

end Spec

end Lev
