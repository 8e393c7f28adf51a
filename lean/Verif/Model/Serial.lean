import Verif.Model.Dawg

/-!
# Serialization

Model of `to_protobuf` and `from_protobuf` with their helpers
(`/repo/src/liblevenshtein/serialization/serializer.cpp:68-158`).

* A message is the value of the generated class `Dictionary` (`proto/liblevenshtein.proto`); its bytes
  are the subject of `Verif/Model/Wire.lean`.
* A node id is the node's address (`reinterpret_cast<uint64_t>`), a `Nat` here.
* `std::set<uint64_t>` and `std::map<std::pair<uint64_t, char>, uint64_t>` are lists in key order.
* The counters `int index` do not overflow: a repeated field has at most `INT_MAX` entries.
-/

namespace Lev

open Spec

/-- `Dictionary::Edge` (`liblevenshtein.proto`). -/
structure MsgEdge where
  source : Nat
  label : UInt32
  target : Nat
deriving DecidableEq, Repr

/-- `Dictionary` (`liblevenshtein.proto`). -/
structure Msg where
  nodeIds : List Nat
  finalIds : List Nat
  edges : List MsgEdge
  rootId : Nat
  size : Nat
deriving DecidableEq, Repr

/-- `set_label(label)` of a `char` (`serializer.cpp:117`): conversion to `uint32_t`, with sign extension if `char`
is signed. -/
def labelOfChar (sgn : Bool) (c : UInt8) : UInt32 :=
  if sgn ∧ 128 ≤ c.toNat then c.toUInt32 ||| 0xFFFFFF00 else c.toUInt32

/-- `(char) edge_proto.label()` (`serializer.cpp:148`). -/
def charOfLabel (l : UInt32) : UInt8 := l.toUInt8

/-- `std::set<uint64_t>::insert`. -/
def setInsert (x : Nat) : List Nat → List Nat
  | [] => [x]
  | y :: l => if x < y then x :: y :: l else if x = y then y :: l else y :: setInsert x l

/-- `collect_nodes` (`serializer.cpp:68-80`): ids of the nodes met, and of the final ones among them. -/
def collectNodes (mem : Mem) : Nat → Nat → List Nat × List Nat → Except Err (List Nat × List Nat)
  | 0, _, _ => .error .diverge
  | fuel + 1, a, (ids, finals) =>
      if a ∈ ids then .ok (ids, finals)
      else do
        let nd ← deref mem a
        let finals := if nd.final then setInsert a finals else finals
        nd.edges.foldlM (fun st e => collectNodes mem fuel e.2 st) (setInsert a ids, finals)

/-- Order of the keys `std::pair<uint64_t, char>`. -/
def edgeKeyLt (sgn : Bool) (k k' : Nat × UInt8) : Bool :=
  k.1 < k'.1 || (k.1 == k'.1 && charKey sgn k.2 < charKey sgn k'.2)

/-- `edges[key] = target_id` for a new key (`serializer.cpp:89`). -/
def edgeInsert (sgn : Bool) (key : Nat × UInt8) (target : Nat) :
    List ((Nat × UInt8) × Nat) → List ((Nat × UInt8) × Nat)
  | [] => [(key, target)]
  | e :: l => if edgeKeyLt sgn key e.1 then (key, target) :: e :: l else e :: edgeInsert sgn key target l

/-- `collect_edges` (`serializer.cpp:82-93`). -/
def collectEdges (sgn : Bool) (mem : Mem) : Nat → Nat → List ((Nat × UInt8) × Nat) →
    Except Err (List ((Nat × UInt8) × Nat))
  | 0, _, _ => .error .diverge
  | fuel + 1, a, edges => do
      let nd ← deref mem a
      nd.edges.foldlM (fun edges e =>
        if edges.any (fun x => x.1 == (a, e.1)) then .ok edges
        else collectEdges sgn mem fuel e.2 (edgeInsert sgn (a, e.1) e.2 edges)) edges

/-- `to_protobuf` (`serializer.cpp:95-126`). -/
def toProto (sgn : Bool) (mem : Mem) (fuel : Nat) (root size : Nat) : Except Err Msg := do
  let (ids, finals) ← collectNodes mem fuel root ([], [])
  let edges ← collectEdges sgn mem fuel root []
  .ok { nodeIds := ids, finalIds := finals,
        edges := edges.map (fun e => { source := e.1.1, label := labelOfChar sgn e.1.2, target := e.2 }),
        rootId := root, size := size }

/-- `nodes[id]` of a `std::map<uint64_t, DawgNode *>` (`serializer.cpp:150,151,155`): a null pointer is inserted if
there is no entry, which has the effect of reading one. -/
def nodeOf (nodes : List (Nat × Nat)) (id : Nat) : Nat :=
  match nodes.find? (fun e => e.1 == id) with
  | some e => e.2
  | none => 0

/-- The loop that allocates the nodes (`serializer.cpp:136-143`). -/
def makeNodes (addr : Nat → Nat) (finals : List Nat) : List Nat → List (Nat × Nat) → Heap → List (Nat × Nat) × Heap
  | [], nodes, h => (nodes, h)
  | id :: ids, nodes, h =>
      if nodes.any (fun e => e.1 == id) then makeNodes addr finals ids nodes h
      else
        let h' : Heap :=
          { mem := h.mem.set (addr h.count) (some { final := decide (id ∈ finals), edges := [] }), count := h.count + 1 }
        makeNodes addr finals ids (nodes ++ [(id, addr h.count)]) h'

/-- The loop that adds the edges (`serializer.cpp:145-153`). -/
def makeEdges (sgn : Bool) (nodes : List (Nat × Nat)) : List MsgEdge → Heap → Except Err Heap
  | [], h => .ok h
  | e :: es, h => do
      let h ← addEdge sgn (nodeOf nodes e.source) (charOfLabel e.label) (nodeOf nodes e.target) h
      makeEdges sgn nodes es h

/-- `from_protobuf` (`serializer.cpp:128-158`); the result is a `SortedDawg` whose pointers are null. -/
def fromProto (sgn : Bool) (addr : Nat → Nat) (msg : Msg) (h : Heap) : Except Err (Heap × SDawg) := do
  let (nodes, h) := makeNodes addr msg.finalIds msg.nodeIds [] h
  let h ← makeEdges sgn nodes msg.edges h
  .ok (h, { root := nodeOf nodes msg.rootId, size := msg.size, unchecked := none, minimized := none, floating := none,
            prev := [] })

end Lev
