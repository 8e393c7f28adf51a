import Verif.Model.Serial

/-!
# What a serialized dictionary means

A message describes a graph by itself: nodes are numbers, the character of an edge is its label modulo 256.
-/

namespace Lev

namespace Spec

/-- The string `t` leads from the node `x` of the message to a final one. -/
inductive MsgAccepts (msg : Msg) : Nat → Str → Prop
  | here {x : Nat} : x ∈ msg.finalIds → MsgAccepts msg x []
  | step {e : MsgEdge} {c : UInt8} {t : Str} : e ∈ msg.edges → c.toNat = e.label.toNat % 256 →
      MsgAccepts msg e.target t → MsgAccepts msg e.source (c :: t)

/-- A path of edges leads from one node of the message to the other. -/
inductive MsgReaches (msg : Msg) : Nat → Nat → Prop
  | refl {x : Nat} : MsgReaches msg x x
  | step {e : MsgEdge} {y : Nat} : e ∈ msg.edges → MsgReaches msg e.target y → MsgReaches msg e.source y

/-- Root and ends of edges are listed, and no two edges of a node have the same character. -/
structure WellFormed (msg : Msg) : Prop where
  root : msg.rootId ∈ msg.nodeIds
  source : ∀ e ∈ msg.edges, e.source ∈ msg.nodeIds
  target : ∀ e ∈ msg.edges, e.target ∈ msg.nodeIds
  keys : msg.edges.Pairwise (fun e f => e.source ≠ f.source ∨ e.label.toNat % 256 ≠ f.label.toNat % 256)

/-- No cycle: nodes can be ranked so that edges lead downwards. -/
def Acyclic (msg : Msg) : Prop := ∃ rank : Nat → Nat, ∀ e ∈ msg.edges, rank e.target < rank e.source

end Spec

end Lev
