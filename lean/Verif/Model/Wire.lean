import Verif.Model.Serial

/-!
# Bytes of a serialized dictionary

`serialize_protobuf` and `deserialize_protobuf` (`/repo/src/liblevenshtein/serialization/serializer.cpp:21-66`) on
streams, and the byte format of the messages of `/repo/proto/liblevenshtein.proto`.

The format is the one documented for `proto3`; the protobuf library itself is not part of `/repo`.  What is assumed of
it:

* `SerializeToOstream` writes the fields in the order of their numbers, leaves out scalars that are 0 and repeated fields
  that are empty, writes repeated numbers packed, and fails if the message is larger than `INT_MAX` bytes.
* `ParseFromIstream` reads fields until the end of the stream, in any order and number; scalars read again replace,
  repeated fields are extended; unknown fields, and known ones with another wire type, are skipped, a group (wire types 3
  and 4, deprecated and never written) with all it contains; input that ends inside a field is rejected, as is a group
  that is not closed, the end of one that is not open, a length of more than five bytes, messages and groups nested more
  than 100 deep (the default of the library) below the `Dictionary`, and more than `INT_MAX` bytes.
* Simplification: the library also rejects a field whose length is one of the last 16 below `INT_MAX`.
-/

namespace Lev

/-- A base-128 number. -/
def varint (n : Nat) : List UInt8 :=
  if n < 128 then [UInt8.ofNat n] else UInt8.ofNat (n % 128 + 128) :: varint (n / 128)
termination_by n
decreasing_by omega

/-- Reads a base-128 number of at most `k` bytes. -/
def readVarintN : Nat → List UInt8 → Option (Nat × List UInt8)
  | 0, _ => none
  | _ + 1, [] => none
  | k + 1, b :: bs =>
      if b.toNat < 128 then some (b.toNat, bs)
      else match readVarintN k bs with
        | none => none
        | some (v, rest) => some (b.toNat - 128 + 128 * v, rest)

/-- A `uint64`: ten bytes at most, excess bits being dropped. -/
def readVarint (bs : List UInt8) : Option (Nat × List UInt8) :=
  (readVarintN 10 bs).map (fun r => (r.1 % 2 ^ 64, r.2))

/-- What follows a tag. -/
inductive Payload where
  | varint (v : Nat)
  | bytes (bs : List UInt8)
  | fixed (bs : List UInt8)
  | group
deriving DecidableEq, Repr

/-- The first `n` bytes, if there are so many. -/
def takeN (n : Nat) (bs : List UInt8) : Option (List UInt8 × List UInt8) :=
  if n ≤ bs.length then some (bs.take n, bs.drop n) else none

/-- Reads a tag: at most five bytes, excess bits being dropped. -/
def readTag (bs : List UInt8) : Option (Nat × List UInt8) :=
  (readVarintN 5 bs).map (fun r => (r.1 % 2 ^ 32, r.2))

/-- Reads what follows a tag of wire type 0, 1, 2 or 5. -/
def readPlain (wire : Nat) (bs : List UInt8) : Option (Payload × List UInt8) :=
  match wire with
  | 0 => (readVarint bs).map (fun r => (.varint r.1, r.2))
  | 1 => (takeN 8 bs).map (fun r => (.fixed r.1, r.2))
  | 2 => match readVarintN 5 bs with
      | none => none
      | some (len, rest) => (takeN len rest).map (fun r => (.bytes r.1, r.2))
  | 5 => (takeN 4 bs).map (fun r => (.fixed r.1, r.2))
  | _ => none

/-- Skips the fields of the group `num` and its end; the first argument bounds the number of tags, the second is how many
groups may be nested in it. -/
def skipGroup : Nat → Nat → Nat → List UInt8 → Option (List UInt8)
  | 0, _, _, _ => none
  | fuel + 1, depth, num, bs =>
      match readTag bs with
      | none => none
      | some (tag, rest) =>
          if tag / 8 = 0 then none
          else if tag % 8 = 4 then (if tag / 8 = num then some rest else none)
          else if tag % 8 = 3 then
            match depth with
            | 0 => none
            | depth' + 1 =>
              match skipGroup fuel depth' (tag / 8) rest with
              | none => none
              | some rest => skipGroup fuel depth num rest
          else
            match readPlain (tag % 8) rest with
            | none => none
            | some (_, rest) => skipGroup fuel depth num rest

/-- Reads one field: its number, what it holds, and the rest; `depth` is how many groups may be nested. -/
def readField (depth : Nat) (bs : List UInt8) : Option (Nat × Payload × List UInt8) :=
  match readTag bs with
  | none => none
  | some (tag, rest) =>
      if tag / 8 = 0 then none
      else if tag % 8 = 3 then
        match depth with
        | 0 => none
        | depth' + 1 => (skipGroup rest.length depth' (tag / 8) rest).map (fun r => (tag / 8, .group, r))
      else (readPlain (tag % 8) rest).map (fun r => (tag / 8, r.1, r.2))

/-- All fields of a message; the second argument bounds their number. -/
def readFields (depth : Nat) : Nat → List UInt8 → Option (List (Nat × Payload))
  | _, [] => some []
  | 0, _ :: _ => none
  | fuel + 1, bs@(_ :: _) =>
      match readField depth bs with
      | none => none
      | some (num, p, rest) => (readFields depth fuel rest).map (fun fs => (num, p) :: fs)

/-- The numbers of a packed repeated field; the first argument bounds how many they are. -/
def readPacked : Nat → List UInt8 → Option (List Nat)
  | _, [] => some []
  | 0, _ :: _ => none
  | fuel + 1, bs@(_ :: _) =>
      match readVarint bs with
      | none => none
      | some (v, rest) => (readPacked fuel rest).map (fun vs => v :: vs)

/-- One field of `Dictionary.Edge`. -/
def applyEdge (e : MsgEdge) : Nat × Payload → MsgEdge
  | (1, .varint v) => { e with source := v }
  | (2, .varint v) => { e with label := UInt32.ofNat v }
  | (3, .varint v) => { e with target := v }
  | _ => e

/-- How deep messages and groups may be nested below the `Dictionary`. -/
def nesting : Nat := 100

/-- `Dictionary.Edge`. -/
def decodeEdge (bs : List UInt8) : Option MsgEdge :=
  (readFields (nesting - 1) bs.length bs).map (fun fs => fs.foldl applyEdge ⟨0, 0, 0⟩)

/-- One field of `Dictionary`. -/
def applyField (m : Msg) : Nat × Payload → Option Msg
  | (1, .varint v) => some { m with nodeIds := m.nodeIds ++ [v] }
  | (1, .bytes bs) => (readPacked bs.length bs).map (fun vs => { m with nodeIds := m.nodeIds ++ vs })
  | (2, .varint v) => some { m with finalIds := m.finalIds ++ [v] }
  | (2, .bytes bs) => (readPacked bs.length bs).map (fun vs => { m with finalIds := m.finalIds ++ vs })
  | (3, .bytes bs) => (decodeEdge bs).map (fun e => { m with edges := m.edges ++ [e] })
  | (4, .varint v) => some { m with rootId := v }
  | (5, .varint v) => some { m with size := v }
  | _ => some m

/-- `Dictionary` with the fields read so far. -/
def applyFields : Msg → List (Nat × Payload) → Option Msg
  | m, [] => some m
  | m, f :: fs => match applyField m f with
      | none => none
      | some m' => applyFields m' fs

/-- The default value of a message. -/
def Msg.empty : Msg := { nodeIds := [], finalIds := [], edges := [], rootId := 0, size := 0 }

/-- `INT_MAX`, the largest size of a message. -/
def maxBytes : Nat := 2147483647

/-- `dict_proto.ParseFromIstream(&input)` (`serializer.cpp:62`) for a stream holding `bs`. -/
def decodeMsg (bs : List UInt8) : Option Msg :=
  if bs.length ≤ maxBytes then
    match readFields nesting bs.length bs with
    | none => none
    | some fs => applyFields Msg.empty fs
  else none

/-- A scalar field. -/
def putScalar (num v : Nat) : List UInt8 := if v = 0 then [] else varint (num * 8) ++ varint v

/-- A field that has a length. -/
def putBytes (num : Nat) (bs : List UInt8) : List UInt8 := varint (num * 8 + 2) ++ varint bs.length ++ bs

/-- A packed repeated field. -/
def putPacked (num : Nat) (vs : List Nat) : List UInt8 :=
  if vs = [] then [] else putBytes num (vs.flatMap varint)

/-- `Dictionary.Edge`. -/
def encodeEdge (e : MsgEdge) : List UInt8 :=
  putScalar 1 e.source ++ putScalar 2 e.label.toNat ++ putScalar 3 e.target

/-- The bytes of a message. -/
def encodeBytes (m : Msg) : List UInt8 :=
  putPacked 1 m.nodeIds ++ putPacked 2 m.finalIds ++ m.edges.flatMap (fun e => putBytes 3 (encodeEdge e)) ++
    putScalar 4 m.rootId ++ putScalar 5 m.size

/-- `dict_proto->SerializeToOstream(&output)` (`serializer.cpp:39`) to a stream in working order: the bytes written, or
`none` for failure. -/
def encodeMsg (m : Msg) : Option (List UInt8) :=
  if (encodeBytes m).length ≤ maxBytes then some (encodeBytes m) else none

/-- `serialize_protobuf(dawg, output)` (`serializer.cpp:37-42`); `none` is the result `false`. -/
def serializeStream (sgn : Bool) (mem : Mem) (fuel root size : Nat) : Except Err (Option (List UInt8)) := do
  let msg ← toProto sgn mem fuel root size
  return encodeMsg msg

/-- `deserialize_protobuf(input)` (`serializer.cpp:59-66`); `none` is the null pointer. -/
def deserializeStream (sgn : Bool) (addr : Nat → Nat) (bs : List UInt8) (h : Heap) :
    Except Err (Heap × Option SDawg) :=
  match decodeMsg bs with
  | none => .ok (h, none)
  | some msg => do
      let (h', d) ← fromProto sgn addr msg h
      return (h', some d)

end Lev
