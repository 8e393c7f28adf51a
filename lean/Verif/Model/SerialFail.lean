import Verif.Model.BuildFail
import Verif.Model.Demo

/-!
# Saving and loading that fail

`serialize_protobuf` and `deserialize_protobuf`
(`/repo/src/liblevenshtein/serialization/serializer.cpp:21-66`, `:95-158`) when memory or the disk runs out.

* Loading: which allocation fails is not up to the library.  A call is given an `LFault`, the place where it throws
  `std::bad_alloc` if it comes past that place, or none.  Nothing is caught, and the only clean-up is that of containers
  and of the message, which lie on the stack: nodes are owned by nobody before the `SortedDawg` exists.
* A container whose insertion fails is as before.
* `nodes[id]` needs memory if there is no entry for `id`.  Simplification: an entry for an unlisted id, made by an earlier
  edge, is not remembered, so the model also allows a failure when such an id is looked up again.
* Saving: `to_protobuf` does not write to nodes, so wherever it throws the dictionary is unchanged; the places are not
  told apart.  The message, which is on the heap (`:96`), is lost then; only nodes are in the heap of the model.
* A file: opening it for writing with `trunc` empties it.  The disk takes a number of bytes of what is written
  (`Disk.room`) and no more after that.  Writing to a `std::fstream` puts bytes into its buffer; the last of them
  (`Disk.pending`) get to the disk when it is closed (`:33`), and whether that succeeds is not asked for.
* `SerializeToOstream` (of the protobuf library, not in `/repo`) is assumed to write the bytes of the message in order, and
  to be true if all of the writes to the stream succeeded.
-/

namespace Lev

open Spec

/-! ## Loading -/

/-- Where an allocation fails during a call of `deserialize_protobuf`. -/
inductive LFault where
  /-- the stream or `ParseFromIstream` (`serializer.cpp:53`, `:62`) -/
  | parse
  /-- `final_node_ids.insert` number `k` (`:132`) -/
  | final (k : Nat)
  /-- `new DawgNode` for the entry number `k` of `node_id` (`:140`) -/
  | node (k : Nat)
  /-- `nodes[node_id]` for that entry (`:141`) -/
  | entry (k : Nat)
  /-- `nodes[source_id]` for the edge number `k` (`:150`) -/
  | source (k : Nat)
  /-- `nodes[target_id]` for that edge (`:151`) -/
  | target (k : Nat)
  /-- `_edges[label]` for that edge (`:152`, `dawg_node.cpp:44`) -/
  | edge (k : Nat)
  /-- `nodes[dict_proto.root_id()]` (`:155`) -/
  | root
  /-- `new SortedDawg` (`:156`) -/
  | object
deriving DecidableEq, Repr

/-- The loop over the final nodes (`serializer.cpp:129-133`), from number `k` on: whether it throws.  An id that is there
already needs no memory. -/
def finalsFail (f : Option LFault) : Nat → List Nat → List Nat → Bool
  | _, _, [] => false
  | k, seen, id :: ids => (decide (f = some (.final k)) && !decide (id ∈ seen)) || finalsFail f (k + 1) (id :: seen) ids

/-- The loop that allocates the nodes (`serializer.cpp:136-143`), from number `k` on.  Also returns whether it throws. -/
def makeNodesF (addr : Nat → Nat) (f : Option LFault) (finals : List Nat) : Nat → List Nat → List (Nat × Nat) → Heap →
    List (Nat × Nat) × Heap × Bool
  | _, [], nodes, h => (nodes, h, false)
  | k, id :: ids, nodes, h =>
      if nodes.any (fun e => e.1 == id) then makeNodesF addr f finals (k + 1) ids nodes h
      else if f = some (.node k) then (nodes, h, true)
      else
        let h' : Heap :=
          { mem := h.mem.set (addr h.count) (some { final := decide (id ∈ finals), edges := [] }), count := h.count + 1 }
        if f = some (.entry k) then (nodes, h', true)
        else makeNodesF addr f finals (k + 1) ids (nodes ++ [(id, addr h.count)]) h'

/-- `nodes[id]` needs memory. -/
def needsEntry (nodes : List (Nat × Nat)) (id : Nat) : Bool := !(nodes.any fun e => e.1 == id)

/-- The loop that adds the edges (`serializer.cpp:145-153`), from number `k` on.  Also returns whether it throws. -/
def makeEdgesF (sgn : Bool) (f : Option LFault) (nodes : List (Nat × Nat)) : Nat → List MsgEdge → Heap →
    Except Err (Heap × Bool)
  | _, [], h => .ok (h, false)
  | k, e :: es, h =>
      if f = some (.source k) ∧ needsEntry nodes e.source then .ok (h, true)
      else if f = some (.target k) ∧ needsEntry nodes e.target then .ok (h, true)
      else do
        let (h, threw) ← addEdgeF sgn (decide (f = some (.edge k))) (nodeOf nodes e.source) (charOfLabel e.label)
          (nodeOf nodes e.target) h
        if threw then .ok (h, true) else makeEdgesF sgn f nodes (k + 1) es h

/-- `from_protobuf` (`serializer.cpp:128-158`); none: it throws. -/
def fromProtoF (sgn : Bool) (addr : Nat → Nat) (f : Option LFault) (msg : Msg) (h : Heap) :
    Except Err (Heap × Option SDawg) :=
  if finalsFail f 0 [] msg.finalIds then .ok (h, none)
  else
    let (nodes, h, threw) := makeNodesF addr f msg.finalIds 0 msg.nodeIds [] h
    if threw then .ok (h, none)
    else do
      let (h, threw) ← makeEdgesF sgn f nodes 0 msg.edges h
      if threw then .ok (h, none)
      else if f = some .root ∧ needsEntry nodes msg.rootId then .ok (h, none)
      else if f = some .object then .ok (h, none)
      else .ok (h, some { root := nodeOf nodes msg.rootId, size := msg.size, unchecked := none, minimized := none,
                          floating := none, prev := [] })

/-- How a call of `deserialize_protobuf` ends. -/
inductive LoadEnd where
  | dawg (d : SDawg)
  | null
  | threw

/-- `deserialize_protobuf(input)` (`serializer.cpp:59-66`). -/
def deserializeStreamF (sgn : Bool) (addr : Nat → Nat) (f : Option LFault) (bs : List UInt8) (h : Heap) :
    Except Err (Heap × LoadEnd) :=
  if f = some .parse then .ok (h, .threw)
  else match decodeMsg bs with
    | none => .ok (h, .null)
    | some msg => do
        let (h, r) ← fromProtoF sgn addr f msg h
        match r with
        | none => return (h, .threw)
        | some d => return (h, .dawg d)

/-- A caller who calls `deserialize_protobuf` again whenever it throws. -/
def loadCallsF (sgn : Bool) (addr : Nat → Nat) (bs : List UInt8) : List LFault → Heap → Except Err (Heap × LoadEnd)
  | [], h => deserializeStreamF sgn addr none bs h
  | f :: fs, h => do
      let (h, r) ← deserializeStreamF sgn addr (some f) bs h
      match r with
      | .threw => loadCallsF sgn addr bs fs h
      | r => return (h, r)

/-! ## Saving -/

/-- Where an allocation fails during a call of `serialize_protobuf` with a path. -/
inductive SFault where
  /-- before the file is opened (`path.generic_string()`, `serializer.cpp:22`) -/
  | path
  /-- when it has been opened (`:30`) -/
  | open
  /-- in `to_protobuf` (`:38`) -/
  | message
  /-- in `SerializeToOstream` (`:39`), `n` bytes of the message having been written -/
  | writing (n : Nat)
deriving DecidableEq, Repr

/-- What becomes of the bytes written to a file. -/
structure Disk where
  /-- how many the disk takes -/
  room : Nat
  /-- how many of the last ones are still in the buffer of the stream when it is closed -/
  pending : Nat
deriving DecidableEq, Repr

/-- How a call of `serialize_protobuf` ends. -/
inductive SaveEnd where
  | returned (ok : Bool)
  | threw
deriving DecidableEq, Repr

/-- A file gets a content. -/
def Files.put (fs : Files) (path : Str) (bs : List UInt8) : Files :=
  { fs with read := fun p => if p = path then some bs else fs.read p }

/-- `serialize_protobuf(dawg, path)` (`serializer.cpp:21-42`).  If the file cannot be opened the message is made all the
same. -/
def serializeFileF (sgn : Bool) (mem : Mem) (fuel : Nat) (f : Option SFault) (disk : Disk) (root size : Nat) (fs : Files)
    (path : Str) : Except Err (Files × SaveEnd) :=
  if f = some .path then .ok (fs, .threw)
  else
    let opened := if fs.writable path then fs.put path [] else fs
    if f = some .open ∨ f = some .message then .ok (opened, .threw)
    else do
      let msg ← toProto sgn mem fuel root size
      match f with
      | some (.writing n) =>
          .ok (if fs.writable path then fs.put path ((((encodeMsg msg).getD []).take n).take disk.room) else fs, .threw)
      | _ =>
        if !fs.writable path then .ok (fs, .returned false)
        else match encodeMsg msg with
          | none => .ok (opened, .returned false)
          | some bs => .ok (fs.put path (bs.take disk.room), .returned (decide (bs.length - disk.pending ≤ disk.room)))

end Lev
