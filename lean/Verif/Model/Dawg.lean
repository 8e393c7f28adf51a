import Verif.Model.Node
import Verif.Spec.Dict

/-!
# Dictionary graphs: nodes, construction, destruction, membership

Model of `/repo/src/liblevenshtein/collection/dawg_node.cpp`, `dawg.cpp`, `sorted_dawg.cpp` and
`transition.{h,cpp}`.

* Memory is `Heap`: what lives at each address, and how many nodes were ever allocated.  `addr k` is the
  address which the `k`-th `new DawgNode()` returns; theorems assume that these are non-null and that no
  address is handed out twice (the code under study allocates no node after it has freed one).
* Recursions over the graph and the queue loop of `all_nodes` carry fuel; running out of it is `Err.diverge`.
* `sgn`: is the platform's `char` signed (it decides the order of `std::map<char, _>`).
* `_size` is a `Nat`: a count of terms that does not reach 2^64.
-/

namespace Lev

open Spec

/-! ### `DawgNode` -/

/-- `DawgNode::transition` (`dawg_node.cpp:33-39`); 0 is `nullptr`. -/
def nodeTransition (nd : DNode) (label : UInt8) : Nat :=
  match nd.edges.find? (fun e => e.1 == label) with
  | some e => e.2
  | none => 0

/-- `_edges[label] = target` on a `std::map<char, DawgNode *>` (used in `dawg_node.cpp:44`): overwrite the
entry of an equal key or insert a new one in key order. -/
def mapSet (sgn : Bool) (label : UInt8) (target : Nat) : List (UInt8 × Nat) → List (UInt8 × Nat)
  | [] => [(label, target)]
  | (l, t) :: es =>
      if label = l then (l, target) :: es
      else if charKey sgn label < charKey sgn l then (label, target) :: (l, t) :: es
      else (l, t) :: mapSet sgn label target es

/-- The loop of `DawgNode::operator==` (`dawg_node.cpp:63-68`) over the edges of the left node; `eq` compares
two nodes. -/
def edgesEq (mem : Mem) (eq : DNode → DNode → Except Err Bool) (other : DNode) :
    List (UInt8 × Nat) → Except Err Bool
  | [] => .ok true
  | (label, expected) :: es =>
      let actual := nodeTransition other label
      if actual = 0 then .ok false
      else do
        let x ← deref mem expected
        let y ← deref mem actual
        let r ← eq x y
        if r then edgesEq mem eq other es else .ok false

/-- `DawgNode::operator==` (`dawg_node.cpp:53-71`). -/
def nodeEq (mem : Mem) : Nat → DNode → DNode → Except Err Bool
  | 0, _, _ => .error .diverge
  | fuel + 1, x, y =>
      if x.final ≠ y.final then .ok false
      else if x.edges.length ≠ y.edges.length then .ok false
      else edgesEq mem (nodeEq mem fuel) y x.edges

/-- The low byte of a `uint64_t`: what `MurmurHash64A(key.data(), 1, seed)` reads of `key[0]` on a
little-endian machine. -/
def lowByte (x : UInt64) : UInt8 := x.toUInt8

/-- The initial hash code (`dawg_node.cpp:96`, `dawg.cpp:84`). -/
def hashSeed : UInt64 := 0xDEADBEEF

/-- The loop of the node hash over the edges (`dawg_node.cpp:99-105`); `hash` hashes the target. -/
def edgesHash (mem : Mem) (hash : DNode → Except Err UInt64) : List (UInt8 × Nat) → UInt64 → Except Err UInt64
  | [], h => .ok h
  | (label, target) :: es, h => do
      let h := murmur64A [label] h
      let x ← deref mem target
      let k ← hash x
      edgesHash mem hash es (murmur64A [lowByte k] h)

/-- `std::hash<DawgNode>` (`dawg_node.cpp:93-109`). -/
def nodeHash (mem : Mem) : Nat → DNode → Except Err UInt64
  | 0, _ => .error .diverge
  | fuel + 1, x => do
      let h ← edgesHash mem (nodeHash mem fuel) x.edges hashSeed
      .ok (murmur64A [if x.final then 1 else 0] h)

/-! ### Memory -/

/-- The heap of nodes: contents, and how many nodes were allocated so far. -/
structure Heap where
  mem : Mem
  count : Nat

/-- What a heap must be like before a construction: null is no node, and the allocator will hand out non-null
addresses, each once, at which nothing lives. -/
structure Allocator (addr : Nat → Nat) (h : Heap) : Prop where
  nonnull : ∀ k, addr k ≠ 0
  inj : ∀ j k, addr j = addr k → j = k
  null : h.mem 0 = none
  fresh : ∀ k, h.count ≤ k → h.mem (addr k) = none

/-- Writing memory. -/
def Mem.set (mem : Mem) (a : Nat) (v : Option DNode) : Mem := fun b => if b = a then v else mem b

/-- `new DawgNode()` (`dawg_node.cpp:15-17`). -/
def newNode (addr : Nat → Nat) (h : Heap) : Nat × Heap :=
  (addr h.count, { mem := h.mem.set (addr h.count) (some { final := false, edges := [] }), count := h.count + 1 })

/-- `delete node`: nothing for `nullptr`, undefined unless the node is alive. -/
def deleteNode (a : Nat) (h : Heap) : Except Err Heap :=
  if a = 0 then .ok h
  else match h.mem a with
    | some _ => .ok { h with mem := h.mem.set a none }
    | none => .error .ub

/-- `node->is_final(true)` (`dawg_node.cpp:19-21`). -/
def setFinal (a : Nat) (h : Heap) : Except Err Heap := do
  let nd ← deref h.mem a
  .ok { h with mem := h.mem.set a (some { nd with final := true }) }

/-- `source->add_edge(label, target)` (`dawg_node.cpp:41-46`): deletes the node an existing edge of the same
label leads to. -/
def addEdge (sgn : Bool) (source : Nat) (label : UInt8) (target : Nat) (h : Heap) : Except Err Heap := do
  let nd ← deref h.mem source
  let h ← deleteNode (nodeTransition nd label) h
  let nd ← deref h.mem source
  .ok { h with mem := h.mem.set source (some { nd with edges := mapSet sgn label target nd.edges }) }

/-! ### `SortedDawg` -/

/-- `Transition` (`transition.h:13-81`). -/
structure Trans where
  label : UInt8
  source : Nat
  target : Nat
deriving DecidableEq, Repr

/-- An entry of `std::unordered_map<DawgNode, DawgNode *>`: the hash code stored at insertion, the key (a copy
of a node; the copy's edges are pointers to the same targets), the value. -/
structure RegEntry where
  hash : UInt64
  key : DNode
  val : Nat
deriving DecidableEq, Repr

/-- `SortedDawg` (`dawg.h:126-129`, `sorted_dawg.h:89-98`).  The stack has its top first.  `none` is a null
pointer. -/
structure SDawg where
  root : Nat
  size : Nat
  unchecked : Option (List Trans)
  minimized : Option (List RegEntry)
  floating : Option (List Nat)
  prev : Str

/-- `SortedDawg()` inherited from `Dawg()` (`dawg.cpp:17-20`, `sorted_dawg.h:22`). -/
def newDawg (addr : Nat → Nat) (h : Heap) : Heap × SDawg :=
  let r := newNode addr h
  (r.2, { root := r.1, size := 0, unchecked := none, minimized := none, floating := none, prev := [] })

/-- `SortedDawg::init` (`sorted_dawg.cpp:92-96`). -/
def initDawg (d : SDawg) : SDawg :=
  { d with unchecked := some [], minimized := some [], floating := some [] }

/-- `a < b` for `std::string`: lexicographic by unsigned bytes (used in `sorted_dawg.cpp:16`). -/
def strLt (a b : Str) : Bool :=
  match b with
  | [] => false
  | y :: b => match a with
    | [] => true
    | x :: a => if x.toNat < y.toNat then true else if y.toNat < x.toNat then false else strLt a b

/-- The loop for the longest common prefix (`sorted_dawg.cpp:27-33`). -/
def commonPrefix (a b : Str) : Nat :=
  match a with
  | [] => 0
  | x :: a => match b with
    | [] => 0
    | y :: b => if x = y then commonPrefix a b + 1 else 0

/-- Looking up a node in the map: the first entry with the same hash code whose key is equal. -/
def regFind (mem : Mem) (fuel : Nat) (hash : UInt64) (key : DNode) : List RegEntry → Except Err (Option Nat)
  | [] => .ok none
  | e :: es =>
      if e.hash = hash then do
        let r ← nodeEq mem fuel key e.key
        if r then .ok (some e.val) else regFind mem fuel hash key es
      else regFind mem fuel hash key es

/-- `SortedDawg::minimized_node` (`sorted_dawg.cpp:61-67`). -/
def minimizedNode (fuel : Nat) (key : Nat) (h : Heap) (d : SDawg) : Except Err (Option Nat) := do
  let nd ← deref h.mem key
  match d.minimized with
  | none => .error .ub
  | some reg => do
      let hash ← nodeHash h.mem fuel nd
      regFind h.mem fuel hash nd reg

/-- Assigning to the entry of an equal key, or inserting a new one. -/
def regSet (mem : Mem) (fuel : Nat) (hash : UInt64) (key : DNode) (val : Nat) :
    List RegEntry → Except Err (List RegEntry)
  | [] => .ok [{ hash := hash, key := key, val := val }]
  | e :: es =>
      if e.hash = hash then do
        let r ← nodeEq mem fuel key e.key
        if r then .ok ({ e with val := val } :: es)
        else do
          let es' ← regSet mem fuel hash key val es
          .ok (e :: es')
      else do
        let es' ← regSet mem fuel hash key val es
        .ok (e :: es')

/-- `(*minimized_nodes)[*target] = target` (`sorted_dawg.cpp:83`). -/
def register (fuel : Nat) (target : Nat) (h : Heap) (d : SDawg) : Except Err SDawg := do
  let nd ← deref h.mem target
  match d.minimized with
  | none => .error .ub
  | some reg => do
      let hash ← nodeHash h.mem fuel nd
      let reg' ← regSet h.mem fuel hash nd target reg
      .ok { d with minimized := some reg' }

/-- One iteration of the loop of `SortedDawg::minimize` (`sorted_dawg.cpp:72-84`). -/
def minimizeStep (sgn : Bool) (fuel : Nat) (h : Heap) (d : SDawg) : Except Err (Heap × SDawg) :=
  match d.unchecked with
  | none => .error .ub
  | some [] => .error .ub
  | some (t :: rest) => do
      let d := { d with unchecked := some rest }
      match ← minimizedNode fuel t.target h d with
      | some existing => do
          let h ← addEdge sgn t.source t.label existing h
          .ok (h, d)
      | none => do
          let h ← addEdge sgn t.source t.label t.target h
          let d ← register fuel t.target h d
          .ok (h, d)

/-- The loop of `SortedDawg::minimize`, `k` iterations. -/
def minimizeLoop (sgn : Bool) (fuel : Nat) : Nat → Heap → SDawg → Except Err (Heap × SDawg)
  | 0, h, d => .ok (h, d)
  | k + 1, h, d => do
      let (h, d) ← minimizeStep sgn fuel h d
      minimizeLoop sgn fuel k h d

/-- `SortedDawg::minimize` (`sorted_dawg.cpp:69-86`). -/
def minimize (sgn : Bool) (fuel : Nat) (lower : Nat) (h : Heap) (d : SDawg) : Except Err (Heap × SDawg) :=
  match d.unchecked with
  | none => .error .ub
  | some st => minimizeLoop sgn fuel (st.length - lower) h d

/-- The loop that pushes the rest of the term (`sorted_dawg.cpp:44-49`); also returns the last node. -/
def pushSuffix (addr : Nat → Nat) (source : Nat) (rest : Str) (h : Heap) (d : SDawg) :
    Except Err (Nat × Heap × SDawg) :=
  match rest with
  | [] => .ok (source, h, d)
  | c :: rest =>
      match d.floating, d.unchecked with
      | some fl, some st =>
          let r := newNode addr h
          pushSuffix addr r.1 rest r.2
            { d with floating := some (r.1 :: fl), unchecked := some ({ label := c, source := source, target := r.1 } :: st) }
      | _, _ => .error .ub

/-- Where the suffix is attached (`sorted_dawg.cpp:40-42`). -/
def suffixSource (d : SDawg) : Except Err Nat :=
  match d.unchecked with
  | none => .error .ub
  | some [] => .ok d.root
  | some (t :: _) => .ok t.target

/-- `SortedDawg::add` (`sorted_dawg.cpp:15-55`). -/
def addTerm (sgn : Bool) (addr : Nat → Nat) (fuel : Nat) (term : Str) (h : Heap) (d : SDawg) :
    Except Err (Bool × Heap × SDawg) :=
  if strLt term d.prev then .ok (false, h, d)
  else if term = [] then do
    let h ← setFinal d.root h
    .ok (true, h, { d with prev := term, size := d.size + 1 })
  else do
    let i := commonPrefix term d.prev
    let (h, d) ← minimize sgn fuel i h d
    let source ← suffixSource d
    let (source, h, d) ← pushSuffix addr source (term.drop i) h d
    let h ← setFinal source h
    .ok (true, h, { d with prev := term, size := d.size + 1 })

/-- `SortedDawg::remove` (`sorted_dawg.cpp:88-90`). -/
def removeTerm (_term : Str) (h : Heap) (d : SDawg) : Bool × Heap × SDawg := (false, h, d)

/-- `SortedDawg::finish` (`sorted_dawg.cpp:57-59`). -/
def finishDawg (sgn : Bool) (fuel : Nat) (h : Heap) (d : SDawg) : Except Err (Heap × SDawg) :=
  minimize sgn fuel 0 h d

/-- The loop of `Dawg::all_nodes` (`dawg.cpp:32-39`): queue and set.  The queue may hold a node many times. -/
def allNodesLoop (mem : Mem) : Nat → List Nat → List Nat → Except Err (List Nat)
  | _, [], nodes => .ok nodes
  | 0, _ :: _, _ => .error .diverge
  | fuel + 1, a :: pending, nodes => do
      let nodes := if a ∈ nodes then nodes else a :: nodes
      let nd ← deref mem a
      allNodesLoop mem fuel (pending ++ nd.edges.map (·.2)) nodes

/-- `Dawg::all_nodes` (`dawg.cpp:28-41`). -/
def allNodes (mem : Mem) (fuel : Nat) (root : Nat) : Except Err (List Nat) := allNodesLoop mem fuel [root] []

/-- Deleting the nodes of a set one after the other (`sorted_dawg.cpp:114-116`, `dawg.cpp:23-25`). -/
def deleteAll : List Nat → Heap → Except Err Heap
  | [], h => .ok h
  | a :: as, h => do
      let h ← deleteNode a h
      deleteAll as h

/-- `SortedDawg::clean_up` (`sorted_dawg.cpp:98-121`). -/
def cleanUp (fuel : Nat) (h : Heap) (d : SDawg) : Except Err (Heap × SDawg) :=
  let d' := { d with unchecked := none, minimized := none }
  match d.floating with
  | none => .ok (h, d')
  | some fl => do
      let nodes ← allNodes h.mem fuel d.root
      let h ← deleteAll (fl.filter (fun a => decide (a ∉ nodes))) h
      .ok (h, { d' with floating := none })

/-- `delete dawg`: `~SortedDawg` (`sorted_dawg.cpp:11-13`), then `~Dawg` (`dawg.cpp:22-26`). -/
def destroyDawg (fuel : Nat) (h : Heap) (d : SDawg) : Except Err Heap := do
  let (h, d) ← cleanUp fuel h d
  let nodes ← allNodes h.mem fuel d.root
  deleteAll nodes h

/-- The loop of the factory (`sorted_dawg.cpp:128-135`); `none` is the early `return nullptr`. -/
def buildLoop (sgn : Bool) (addr : Nat → Nat) (fuel : Nat) : List Str → Heap → SDawg →
    Except Err (Heap × Option SDawg)
  | [], h, d => .ok (h, some d)
  | term :: rest, h, d => do
      let (ok, h, d) ← addTerm sgn addr fuel term h d
      if ok then buildLoop sgn addr fuel rest h d
      else do
        let h ← destroyDawg fuel h d
        .ok (h, none)

/-- `sorted_dawg` (`sorted_dawg.cpp:123-140`). -/
def sortedDawg (sgn : Bool) (addr : Nat → Nat) (fuel : Nat) (terms : List Str) (h : Heap) :
    Except Err (Heap × Option SDawg) := do
  let (h, d) := newDawg addr h
  let (h, r) ← buildLoop sgn addr fuel terms h (initDawg d)
  match r with
  | none => .ok (h, none)
  | some d => do
      let (h, d) ← finishDawg sgn fuel h d
      let (h, d) ← cleanUp fuel h d
      .ok (h, some d)

/-! ### Membership, equality, hash of a dictionary -/

/-- The loop of `Dawg::contains` (`dawg.cpp:45-47`).  `i` is an `int`: incrementing it beyond `INT_MAX` is
undefined. -/
def containsLoop (mem : Mem) : Str → Nat → Nat → Except Err Nat
  | [], _, a => .ok a
  | c :: rest, i, a =>
      if a = 0 then .ok 0
      else do
        let nd ← deref mem a
        if i + 1 > 2147483647 then .error .ub
        else containsLoop mem rest (i + 1) (nodeTransition nd c)

/-- `Dawg::contains` (`dawg.cpp:43-49`). -/
def containsTerm (mem : Mem) (root : Nat) (term : Str) : Except Err Bool := do
  let a ← containsLoop mem term 0 root
  if a = 0 then .ok false
  else do
    let nd ← deref mem a
    .ok nd.final

/-- `Dawg::operator==` (`dawg.cpp:72-74`). -/
def dawgEq (mem : Mem) (fuel : Nat) (size root size' root' : Nat) : Except Err Bool :=
  if size ≠ size' then .ok false
  else do
    let x ← deref mem root
    let y ← deref mem root'
    nodeEq mem fuel x y

/-- `std::hash<Dawg>` (`dawg.cpp:81-91`): both times only the low byte of the key is hashed. -/
def dawgHash (mem : Mem) (fuel : Nat) (size root : Nat) : Except Err UInt64 := do
  let h := murmur64A [lowByte (UInt64.ofNat size)] hashSeed
  let x ← deref mem root
  let k ← nodeHash mem fuel x
  .ok (murmur64A [lowByte k] h)

end Lev
