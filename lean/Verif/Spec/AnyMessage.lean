import Verif.Spec.Message

/-!
# What an arbitrary message means

Messages that no program of the project wrote: edges may start or end at nodes that are not listed, and several edges may
have the same source and character.  In that case each edge takes the place of the one before, and the node that the old
one leads to is deleted.
-/

namespace Lev

namespace Spec

/-- Same source, same character. -/
def SameSlot (e f : MsgEdge) : Prop := e.source = f.source ∧ e.label.toNat % 256 = f.label.toNat % 256

/-- `e` is one of the edges `es`, and no later one takes its place. -/
def LastEdge (es : List MsgEdge) (e : MsgEdge) : Prop := ∃ l1 l2, es = l1 ++ e :: l2 ∧ ∀ g ∈ l2, ¬ SameSlot g e

/-- Added after the edges `pre`, the edge `e` takes the place of one that leads to the listed node `x`. -/
def Replaces (msg : Msg) (pre : List MsgEdge) (e : MsgEdge) (x : Nat) : Prop :=
  ∃ f, LastEdge pre f ∧ SameSlot f e ∧ f.target = x ∧ x ∈ msg.nodeIds

/-- The edges `es` delete the node `x`: one of them takes the place of an edge that leads to `x`. -/
def Deletes (msg : Msg) (es : List MsgEdge) (x : Nat) : Prop :=
  ∃ l1 e l2, es = l1 ++ e :: l2 ∧ Replaces msg l1 e x

/-- Some edge starts at a node that is not listed or has been deleted (at last by that edge itself), or deletes a node that
has been deleted before. -/
def Unreadable (msg : Msg) : Prop :=
  ∃ l1 e l2, msg.edges = l1 ++ e :: l2 ∧
    (e.source ∉ msg.nodeIds ∨ Deletes msg (l1 ++ [e]) e.source ∨ ∃ x, Replaces msg l1 e x ∧ Deletes msg l1 x)

/-- After reading the message, there is no node `x`. -/
def Missing (msg : Msg) (x : Nat) : Prop := x ∉ msg.nodeIds ∨ Deletes msg msg.edges x

/-- Reading `t` along the edges that are left leads from the node `x` to the node `y`. -/
inductive Walk (msg : Msg) : Nat → Str → Nat → Prop
  | here {x : Nat} : Walk msg x [] x
  | step {e : MsgEdge} {c : UInt8} {t : Str} {y : Nat} : LastEdge msg.edges e → c.toNat = e.label.toNat % 256 →
      Walk msg e.target t y → Walk msg e.source (c :: t) y

/-- Looking up `t` leads to a deleted node, or to a node with 2^31 - 1 characters read and some left. -/
def Stumbles (msg : Msg) (t : Str) : Prop :=
  (∃ p y, p <+: t ∧ Walk msg msg.rootId p y ∧ Deletes msg msg.edges y) ∨
  (2 ^ 31 ≤ t.length ∧ ∃ y, Walk msg msg.rootId (t.take (2 ^ 31 - 1)) y ∧ y ∈ msg.nodeIds)

/-- A node that is not there can be reached from the root. -/
def Dangling (msg : Msg) : Prop := ∃ t x, Walk msg msg.rootId t x ∧ Missing msg x

/-- A cycle can be reached from the root. -/
def Cyclic (msg : Msg) : Prop := ∃ s t x, Walk msg msg.rootId s x ∧ Walk msg x t x ∧ t ≠ []

end Spec

end Lev
