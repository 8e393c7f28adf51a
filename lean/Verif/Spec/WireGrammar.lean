import Verif.Model.Wire

/-!
# Which bytes hold which message

A description of the format of `liblevenshtein.proto`'s messages that does not say how they are read: sequences of fields,
each a tag and what the wire type demands.
-/

namespace Lev.Spec

/-- Seven bits of each byte, the lowest first. -/
def base128 : List UInt8 → Nat
  | [] => 0
  | b :: bs => b.toNat % 128 + 128 * base128 bs

/-- A number of at most `k` bytes: the last byte is below 128, the others are not. -/
structure Number (k : Nat) (bs : List UInt8) (v : Nat) : Prop where
  short : bs.length ≤ k
  shape : ∃ init last, bs = init ++ [last] ∧ (∀ b ∈ init, 128 ≤ b.toNat) ∧ last.toNat < 128
  value : v = base128 bs

/-- A tag: the number of a field and a wire type.  Of the five bytes, 32 bits count. -/
structure Tag (bs : List UInt8) (num wire : Nat) : Prop where
  bits : ∃ v, Number 5 bs v ∧ v % 2 ^ 32 = 8 * num + wire
  wire : wire < 8
  num : num ≠ 0

/-- What follows the tag for the wire types 0 (a number of 64 bits), 1 (eight bytes), 2 (a length and so many bytes) and 5
(four bytes). -/
inductive Plain : Nat → List UInt8 → Payload → Prop
  | varint {bs : List UInt8} {v : Nat} : Number 10 bs v → Plain 0 bs (.varint (v % 2 ^ 64))
  | eight {bs : List UInt8} : bs.length = 8 → Plain 1 bs (.fixed bs)
  | bytes {ls bs : List UInt8} : Number 5 ls bs.length → Plain 2 (ls ++ bs) (.bytes bs)
  | four {bs : List UInt8} : bs.length = 4 → Plain 5 bs (.fixed bs)

/-- A sequence of fields.  A group (wire type 3) is a sequence of fields that the wire type 4 with the same number ends;
groups are nested at most `d` deep. -/
inductive Fields : Nat → List UInt8 → List (Nat × Payload) → Prop
  | nil {d : Nat} : Fields d [] []
  | plain {d num wire : Nat} {ts ps rest : List UInt8} {p : Payload} {fs : List (Nat × Payload)} :
      Tag ts num wire → Plain wire ps p → Fields d rest fs → Fields d (ts ++ ps ++ rest) ((num, p) :: fs)
  | group {d num : Nat} {ts inner us rest : List UInt8} {gs fs : List (Nat × Payload)} :
      Tag ts num 3 → Fields d inner gs → Tag us num 4 → Fields (d + 1) rest fs →
      Fields (d + 1) (ts ++ inner ++ us ++ rest) ((num, .group) :: fs)

/-- Numbers one after the other. -/
inductive Packed : List UInt8 → List Nat → Prop
  | nil : Packed [] []
  | cons {ns rest : List UInt8} {v : Nat} {vs : List Nat} : Number 10 ns v → Packed rest vs →
      Packed (ns ++ rest) (v % 2 ^ 64 :: vs)

/-- The numbers in the fields `k`, single or packed; such fields of another type do not count. -/
inductive Repeated (k : Nat) : List (Nat × Payload) → List Nat → Prop
  | nil : Repeated k [] []
  | one {v : Nat} {fs : List (Nat × Payload)} {vs : List Nat} : Repeated k fs vs → Repeated k ((k, .varint v) :: fs) (v :: vs)
  | many {bs : List UInt8} {fs : List (Nat × Payload)} {us vs : List Nat} : Packed bs us → Repeated k fs vs →
      Repeated k ((k, .bytes bs) :: fs) (us ++ vs)
  | other {num : Nat} {p : Payload} {fs : List (Nat × Payload)} {vs : List Nat} :
      (num = k → p = .group ∨ ∃ bs, p = .fixed bs) → Repeated k fs vs → Repeated k ((num, p) :: fs) vs

/-- The number in the last field `k`, 0 without one. -/
def lastNumber (k : Nat) (fs : List (Nat × Payload)) : Nat :=
  ((fs.filterMap fun f => match f.2 with
    | .varint v => if f.1 = k then some v else none
    | _ => none).getLast?).getD 0

/-- The bytes of an edge; groups in it are nested at most 99 deep. -/
structure EdgeBytes (bs : List UInt8) (e : MsgEdge) : Prop where
  fields : ∃ fs, Fields 99 bs fs ∧ e.source = lastNumber 1 fs ∧ e.label = UInt32.ofNat (lastNumber 2 fs) ∧
    e.target = lastNumber 3 fs

/-- The edges in the fields 3. -/
inductive EdgeFields : List (Nat × Payload) → List MsgEdge → Prop
  | nil : EdgeFields [] []
  | edge {bs : List UInt8} {e : MsgEdge} {fs : List (Nat × Payload)} {es : List MsgEdge} : EdgeBytes bs e →
      EdgeFields fs es → EdgeFields ((3, .bytes bs) :: fs) (e :: es)
  | other {num : Nat} {p : Payload} {fs : List (Nat × Payload)} {es : List MsgEdge} :
      (num = 3 → ∀ bs, p ≠ .bytes bs) → EdgeFields fs es → EdgeFields ((num, p) :: fs) es

/-- The bytes of a `Dictionary`. -/
structure DictBytes (bs : List UInt8) (m : Msg) : Prop where
  size : bs.length < 2 ^ 31
  fields : ∃ fs, Fields 100 bs fs ∧ Repeated 1 fs m.nodeIds ∧ Repeated 2 fs m.finalIds ∧ EdgeFields fs m.edges ∧
    m.rootId = lastNumber 4 fs ∧ m.size = lastNumber 5 fs

end Lev.Spec
