import Verif.Model.Serial

/-!
# Two messages one after the other

Protocol Buffers takes the bytes of two messages, one after the other, for one message: lists are put together, and of the
single numbers the last one that was written counts; the number 0 is not written.
-/

namespace Lev.Spec

/-- The second number, if it is written. -/
def lastWritten (a b : Nat) : Nat := if b = 0 then a else b

/-- `m2` after `m1`. -/
def joined (m1 m2 : Msg) : Msg :=
  { nodeIds := m1.nodeIds ++ m2.nodeIds, finalIds := m1.finalIds ++ m2.finalIds, edges := m1.edges ++ m2.edges,
    rootId := lastWritten m1.rootId m2.rootId, size := lastWritten m1.size m2.size }

end Lev.Spec
