import Verif.Model.Dawg

/-!
# Counting hash codes and comparisons

The functions of `Verif/Model/Dawg.lean` that hash or compare nodes, or call one that does, once more with a count: how many
times `std::hash<DawgNode>::operator()` and `DawgNode::operator==` are evaluated.  Erasing the count gives the functions
there (`Verif/Proofs/BuildCost.lean`).

A map computes the hash code of a key once per call of `find` and of `operator[]`, and compares the key with the keys of the
same hash code until one is equal.  That hash codes are stored with the entries, so that growing the map computes none and
keys of different codes are not compared, is what libstdc++ does for such keys (the hash function is not `noexcept`).  A
`find` in a map that is still empty may leave out the hash code (newer versions of libstdc++ do): then the very first one is
not computed, the hash code of a node without edges, one evaluation.  The standard does not fix the order in which keys of the same code are tried; here it is the order of their insertion.  The bounds
proved in `Verif/Props/BuildCost.lean` do not rest on it: a key that is not found is compared with all of them, and a key that
is found with at most all of them.
-/

namespace Lev

/-- Evaluations of the hash function and of `operator==`. -/
structure Work where
  hashes : Nat
  compares : Nat
deriving DecidableEq, Repr

/-- The sum. -/
def Work.add (a b : Work) : Work := ⟨a.hashes + b.hashes, a.compares + b.compares⟩

/-- Nothing done. -/
def Work.none : Work := ⟨0, 0⟩

/-- `edgesEq` (`dawg_node.cpp:63-68`). -/
def edgesEqN (mem : Mem) (eq : DNode → DNode → Except Err (Bool × Nat)) (other : DNode) :
    List (UInt8 × Nat) → Except Err (Bool × Nat)
  | [] => .ok (true, 0)
  | (label, expected) :: es =>
      let actual := nodeTransition other label
      if actual = 0 then .ok (false, 0)
      else do
        let x ← deref mem expected
        let y ← deref mem actual
        let (r, n) ← eq x y
        if r then do
          let (r', n') ← edgesEqN mem eq other es
          .ok (r', n + n')
        else .ok (false, n)

/-- `DawgNode::operator==` (`dawg_node.cpp:53-71`), with the number of its evaluations. -/
def nodeEqN (mem : Mem) : Nat → DNode → DNode → Except Err (Bool × Nat)
  | 0, _, _ => .error .diverge
  | fuel + 1, x, y =>
      if x.final ≠ y.final then .ok (false, 1)
      else if x.edges.length ≠ y.edges.length then .ok (false, 1)
      else do
        let (r, n) ← edgesEqN mem (nodeEqN mem fuel) y x.edges
        .ok (r, 1 + n)

/-- The loop of the node hash (`dawg_node.cpp:99-105`). -/
def edgesHashN (mem : Mem) (hash : DNode → Except Err (UInt64 × Nat)) : List (UInt8 × Nat) → UInt64 →
    Except Err (UInt64 × Nat)
  | [], h => .ok (h, 0)
  | (label, target) :: es, h => do
      let h := murmur64A [label] h
      let x ← deref mem target
      let (k, n) ← hash x
      let (h, n') ← edgesHashN mem hash es (murmur64A [lowByte k] h)
      .ok (h, n + n')

/-- `std::hash<DawgNode>` (`dawg_node.cpp:93-109`), with the number of its evaluations. -/
def nodeHashN (mem : Mem) : Nat → DNode → Except Err (UInt64 × Nat)
  | 0, _ => .error .diverge
  | fuel + 1, x => do
      let (h, n) ← edgesHashN mem (nodeHashN mem fuel) x.edges hashSeed
      .ok (murmur64A [if x.final then 1 else 0] h, 1 + n)

/-- `regFind`, with the number of comparisons. -/
def regFindN (mem : Mem) (fuel : Nat) (hash : UInt64) (key : DNode) : List RegEntry → Except Err (Option Nat × Nat)
  | [] => .ok (none, 0)
  | e :: es =>
      if e.hash = hash then do
        let (r, n) ← nodeEqN mem fuel key e.key
        if r then .ok (some e.val, n)
        else do
          let (o, n') ← regFindN mem fuel hash key es
          .ok (o, n + n')
      else regFindN mem fuel hash key es

/-- `SortedDawg::minimized_node` (`sorted_dawg.cpp:61-67`). -/
def minimizedNodeN (fuel : Nat) (key : Nat) (h : Heap) (d : SDawg) : Except Err (Option Nat × Work) := do
  let nd ← deref h.mem key
  match d.minimized with
  | none => .error .ub
  | some reg => do
      let (hash, n) ← nodeHashN h.mem fuel nd
      let (o, k) ← regFindN h.mem fuel hash nd reg
      .ok (o, ⟨n, k⟩)

/-- `regSet`, with the number of comparisons. -/
def regSetN (mem : Mem) (fuel : Nat) (hash : UInt64) (key : DNode) (val : Nat) :
    List RegEntry → Except Err (List RegEntry × Nat)
  | [] => .ok ([{ hash := hash, key := key, val := val }], 0)
  | e :: es =>
      if e.hash = hash then do
        let (r, n) ← nodeEqN mem fuel key e.key
        if r then .ok ({ e with val := val } :: es, n)
        else do
          let (es', n') ← regSetN mem fuel hash key val es
          .ok (e :: es', n + n')
      else do
        let (es', n') ← regSetN mem fuel hash key val es
        .ok (e :: es', n')

/-- `(*minimized_nodes)[*target] = target` (`sorted_dawg.cpp:83`). -/
def registerN (fuel : Nat) (target : Nat) (h : Heap) (d : SDawg) : Except Err (SDawg × Work) := do
  let nd ← deref h.mem target
  match d.minimized with
  | none => .error .ub
  | some reg => do
      let (hash, n) ← nodeHashN h.mem fuel nd
      let (reg', k) ← regSetN h.mem fuel hash nd target reg
      .ok ({ d with minimized := some reg' }, ⟨n, k⟩)

/-- One iteration of the loop of `SortedDawg::minimize` (`sorted_dawg.cpp:72-84`). -/
def minimizeStepN (sgn : Bool) (fuel : Nat) (h : Heap) (d : SDawg) : Except Err ((Heap × SDawg) × Work) :=
  match d.unchecked with
  | none => .error .ub
  | some [] => .error .ub
  | some (t :: rest) => do
      let d := { d with unchecked := some rest }
      let (o, w) ← minimizedNodeN fuel t.target h d
      match o with
      | some existing => do
          let h ← addEdge sgn t.source t.label existing h
          .ok ((h, d), w)
      | none => do
          let h ← addEdge sgn t.source t.label t.target h
          let (d, w') ← registerN fuel t.target h d
          .ok ((h, d), w.add w')

/-- The loop of `SortedDawg::minimize`, `k` iterations. -/
def minimizeLoopN (sgn : Bool) (fuel : Nat) : Nat → Heap → SDawg → Except Err ((Heap × SDawg) × Work)
  | 0, h, d => .ok ((h, d), .none)
  | k + 1, h, d => do
      let (r, w) ← minimizeStepN sgn fuel h d
      let (r, w') ← minimizeLoopN sgn fuel k r.1 r.2
      .ok (r, w.add w')

/-- `SortedDawg::minimize` (`sorted_dawg.cpp:69-86`). -/
def minimizeN (sgn : Bool) (fuel : Nat) (lower : Nat) (h : Heap) (d : SDawg) : Except Err ((Heap × SDawg) × Work) :=
  match d.unchecked with
  | none => .error .ub
  | some st => minimizeLoopN sgn fuel (st.length - lower) h d

/-- `SortedDawg::add` (`sorted_dawg.cpp:15-55`). -/
def addTermN (sgn : Bool) (addr : Nat → Nat) (fuel : Nat) (term : Str) (h : Heap) (d : SDawg) :
    Except Err ((Bool × Heap × SDawg) × Work) :=
  if strLt term d.prev then .ok ((false, h, d), .none)
  else if term = [] then do
    let h ← setFinal d.root h
    .ok ((true, h, { d with prev := term, size := d.size + 1 }), .none)
  else do
    let i := commonPrefix term d.prev
    let ((h, d), w) ← minimizeN sgn fuel i h d
    let source ← suffixSource d
    let (source, h, d) ← pushSuffix addr source (term.drop i) h d
    let h ← setFinal source h
    .ok ((true, h, { d with prev := term, size := d.size + 1 }), w)

/-- The loop of the factory (`sorted_dawg.cpp:128-135`). -/
def buildLoopN (sgn : Bool) (addr : Nat → Nat) (fuel : Nat) : List Str → Heap → SDawg →
    Except Err ((Heap × Option SDawg) × Work)
  | [], h, d => .ok ((h, some d), .none)
  | term :: rest, h, d => do
      let ((ok, h, d), w) ← addTermN sgn addr fuel term h d
      if ok then do
        let (r, w') ← buildLoopN sgn addr fuel rest h d
        .ok (r, w.add w')
      else do
        let h ← destroyDawg fuel h d
        .ok ((h, none), w)

/-- `sorted_dawg` (`sorted_dawg.cpp:123-140`). -/
def sortedDawgN (sgn : Bool) (addr : Nat → Nat) (fuel : Nat) (terms : List Str) (h : Heap) :
    Except Err ((Heap × Option SDawg) × Work) := do
  let (h, d) := newDawg addr h
  let ((h, r), w) ← buildLoopN sgn addr fuel terms h (initDawg d)
  match r with
  | none => .ok ((h, none), w)
  | some d => do
      let ((h, d), w') ← minimizeN sgn fuel 0 h d
      let (h, d) ← cleanUp fuel h d
      .ok ((h, some d), w.add w')

end Lev
