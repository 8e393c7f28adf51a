import Verif.Spec.AnyMessage
import Verif.Spec.Demo
import Verif.Spec.Edit

/-!
# The demo program with a serialization file from elsewhere
-/

namespace Lev.Spec

/-- The program reads the queries `qs` from its input.  If `stuck`, the last of them is an unterminated line, and is read
for ever; otherwise an empty line or the end of the input follows. -/
def Asks (stdin : List UInt8) (qs : List Str) (stuck : Bool) : Prop :=
  (∀ q ∈ qs, NoNewline q ∧ q ≠ []) ∧
  ((stuck = false ∧ ∃ rest, stdin = textOf qs rest ∧ ((∃ r, rest = 10 :: r) ∨ rest = [])) ∨
    (stuck = true ∧ ∃ ls last, qs = ls ++ [last] ∧ stdin = textOf ls last))

/-- A prefix that can be continued to a string within cost `n` of `q` leads to a node that is not there. -/
def Falls (A : Algorithm) (n : Nat) (msg : Msg) (q : Str) : Prop :=
  ∃ w y, Viable A q n w ∧ Walk msg msg.rootId w y ∧ Missing msg y

/-- The string `t` leads from the root to a final node. -/
def MsgSpells (msg : Msg) (t : Str) : Prop := ∃ y, Walk msg msg.rootId t y ∧ y ∈ msg.finalIds

/-- The answers to the queries `qs` from the message. -/
def Answers (sgn : Bool) (A : Algorithm) (n : Nat) (msg : Msg) (qs : List Str) (out : List (Str × List (Str × Nat))) : Prop :=
  out.map (·.1) = qs ∧ ∀ x ∈ out, (∀ t e, (t, e) ∈ x.2 ↔ MsgSpells msg t ∧ IsMinCost A x.1 t e ∧ e ≤ n) ∧
    x.2.Pairwise fun a b => shortLex sgn a.1 b.1

/-- The bytes are a tidy message for the same graph: no dangling ids, no edge that takes the place of another, no node that
can not be reached. -/
def Tidied (msg : Msg) (bs : List UInt8) : Prop :=
  ∃ msg', decodeMsg bs = some msg' ∧ WellFormed msg' ∧ (∀ x ∈ msg'.nodeIds, MsgReaches msg' msg'.rootId x) ∧
    msg'.size = msg.size ∧ (∀ t, MsgSpells msg' t ↔ MsgSpells msg t) ∧ (Cyclic msg' ↔ Cyclic msg)

/-- What the program leaves in its serialization file after reading `msg` from it: a tidy message, or nothing at all if that
is too large. -/
def Saved (msg : Msg) (bs : List UInt8) : Prop :=
  Tidied msg bs ∨ (bs = [] ∧ 2 ^ 31 - 1 < 20 * msg.nodeIds.length + 35 * msg.edges.length + 44)

end Lev.Spec
