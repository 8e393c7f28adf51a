import Verif.Model.Dawg

/-!
# Building a dictionary that runs out of memory

`std::bad_alloc` thrown while a `SortedDawg` is built or destroyed
(`/repo/src/liblevenshtein/collection/sorted_dawg.cpp:11-140`, `dawg.cpp:17-41`, `dawg_node.cpp:41-46`, `:93-109`).  The
library catches nothing, so the exception leaves `add`, `finish`, `clean_up` or `sorted_dawg`; a caller may catch it and
go on.

* Which allocation fails is not up to the library: each call of `add` or `finish` is given a `BFault`, the place where it
  fails if it comes past that place, or none.
* A container whose insertion fails is as before (`std::map::operator[]`, `std::unordered_map::operator[]`,
  `std::unordered_set::insert`, `std::stack::emplace`).  `pop`, `find` and `erase` do not allocate themselves, but hashing
  a node does: the closure at `dawg_node.cpp:99` has three references and does not fit into a `std::function`.
* Only nodes are in the heap of the model.  Whether the memory of the containers and of the object itself is freed is not
  modelled.
* An exception that leaves a destructor ends the program (`std::terminate`).
-/

namespace Lev

/-- Where an allocation fails during one call of `add` or `finish`. -/
inductive BFault where
  /-- looking up the node in iteration `k` of `minimize` (`sorted_dawg.cpp:77`) -/
  | find (k : Nat)
  /-- `_edges[label]` in iteration `k` of `minimize` (`:79`, `:82`, `dawg_node.cpp:44`) -/
  | edge (k : Nat)
  /-- `(*minimized_nodes)[*target]` in iteration `k` of `minimize` (`:83`) -/
  | register (k : Nat)
  /-- `new DawgNode()` for the letter number `j` after the common prefix (`:45`) -/
  | node (j : Nat)
  /-- `floating_nodes->insert` for that letter (`:46`) -/
  | float (j : Nat)
  /-- `unchecked_transitions->emplace` for that letter (`:47`) -/
  | emplace (j : Nat)
  /-- `_prev_term = term` (`:22`, `:52`) -/
  | prev
deriving DecidableEq, Repr

/-- How a call of `add` ends: it returns true, it returns false, it throws. -/
inductive Fate where
  | added
  | refused
  | threw
deriving DecidableEq, Repr

/-- `source->add_edge(label, target)` (`dawg_node.cpp:41-46`); `fail`: a new entry of the map cannot be allocated.  Also
returns whether it throws. -/
def addEdgeF (sgn : Bool) (fail : Bool) (source : Nat) (label : UInt8) (target : Nat) (h : Heap) :
    Except Err (Heap × Bool) := do
  let nd ← deref h.mem source
  let h ← deleteNode (nodeTransition nd label) h
  let nd ← deref h.mem source
  if fail && !(nd.edges.any fun e => e.1 == label) then return (h, true)
  else return ({ h with mem := h.mem.set source (some { nd with edges := mapSet sgn label target nd.edges }) }, false)

/-- Iteration `k` of the loop of `SortedDawg::minimize` (`sorted_dawg.cpp:72-84`).  Also returns whether it throws. -/
def minimizeStepF (sgn : Bool) (fuel : Nat) (f : Option BFault) (k : Nat) (h : Heap) (d : SDawg) :
    Except Err (Heap × SDawg × Bool) :=
  match d.unchecked with
  | none => .error .ub
  | some [] => .error .ub
  | some (t :: rest) => do
      let d := { d with unchecked := some rest }
      if f = some (.find k) then return (h, d, true)
      match ← minimizedNode fuel t.target h d with
      | some existing => do
          let (h, threw) ← addEdgeF sgn (decide (f = some (.edge k))) t.source t.label existing h
          return (h, d, threw)
      | none => do
          let (h, threw) ← addEdgeF sgn (decide (f = some (.edge k))) t.source t.label t.target h
          if threw then return (h, d, true)
          else if f = some (.register k) then return (h, d, true)
          else do
            let d ← register fuel t.target h d
            return (h, d, false)

/-- The loop of `SortedDawg::minimize`, `n` iterations, the first of which has the number `k`. -/
def minimizeLoopF (sgn : Bool) (fuel : Nat) (f : Option BFault) : Nat → Nat → Heap → SDawg → Except Err (Heap × SDawg × Bool)
  | 0, _, h, d => .ok (h, d, false)
  | n + 1, k, h, d => do
      let (h, d, threw) ← minimizeStepF sgn fuel f k h d
      if threw then return (h, d, true) else minimizeLoopF sgn fuel f n (k + 1) h d

/-- `SortedDawg::minimize` (`sorted_dawg.cpp:69-86`). -/
def minimizeF (sgn : Bool) (fuel : Nat) (f : Option BFault) (lower : Nat) (h : Heap) (d : SDawg) :
    Except Err (Heap × SDawg × Bool) :=
  match d.unchecked with
  | none => .error .ub
  | some st => minimizeLoopF sgn fuel f (st.length - lower) 0 h d

/-- The loop that pushes the rest of the term (`sorted_dawg.cpp:44-49`), from the letter number `j` on.  Also returns the
last node, or none if it throws. -/
def pushSuffixF (addr : Nat → Nat) (f : Option BFault) (j : Nat) (source : Nat) (rest : Str) (h : Heap) (d : SDawg) :
    Except Err (Option Nat × Heap × SDawg) :=
  match rest with
  | [] => .ok (some source, h, d)
  | c :: rest =>
      match d.floating, d.unchecked with
      | some fl, some st =>
          if f = some (.node j) then .ok (none, h, d)
          else
            let r := newNode addr h
            if f = some (.float j) then .ok (none, r.2, d)
            else if f = some (.emplace j) then .ok (none, r.2, { d with floating := some (r.1 :: fl) })
            else pushSuffixF addr f (j + 1) r.1 rest r.2
              { d with
                floating := some (r.1 :: fl)
                unchecked := some ({ label := c, source := source, target := r.1 } :: st) }
      | _, _ => .error .ub

/-- `SortedDawg::add` (`sorted_dawg.cpp:15-55`). -/
def addTermF (sgn : Bool) (addr : Nat → Nat) (fuel : Nat) (f : Option BFault) (term : Str) (h : Heap) (d : SDawg) :
    Except Err (Fate × Heap × SDawg) :=
  if strLt term d.prev then .ok (.refused, h, d)
  else if term = [] then do
    let h ← setFinal d.root h
    if f = some .prev then return (.threw, h, d)
    else return (.added, h, { d with prev := term, size := d.size + 1 })
  else do
    let i := commonPrefix term d.prev
    let (h, d, threw) ← minimizeF sgn fuel f i h d
    if threw then return (.threw, h, d)
    let source ← suffixSource d
    let (source, h, d) ← pushSuffixF addr f 0 source (term.drop i) h d
    match source with
    | none => return (.threw, h, d)
    | some source => do
        let h ← setFinal source h
        if f = some .prev then return (.threw, h, d)
        else return (.added, h, { d with prev := term, size := d.size + 1 })

/-- A caller of `add` who catches its exceptions. -/
def addCallsF (sgn : Bool) (addr : Nat → Nat) (fuel : Nat) : List (Str × Option BFault) → Heap → SDawg →
    Except Err (List Fate × Heap × SDawg)
  | [], h, d => .ok ([], h, d)
  | (t, f) :: calls, h, d => do
      let (fate, h, d) ← addTermF sgn addr fuel f t h d
      let (fates, h, d) ← addCallsF sgn addr fuel calls h d
      return (fate :: fates, h, d)

/-- `SortedDawg::finish` (`sorted_dawg.cpp:57-59`).  Also returns whether it throws. -/
def finishF (sgn : Bool) (fuel : Nat) (f : Option BFault) (h : Heap) (d : SDawg) : Except Err (Heap × SDawg × Bool) :=
  minimizeF sgn fuel f 0 h d

/-- A caller who calls `finish` again whenever it throws. -/
def finishCallsF (sgn : Bool) (fuel : Nat) : List BFault → Heap → SDawg → Except Err (Heap × SDawg)
  | [], h, d => do
      let (h, d, _) ← finishF sgn fuel none h d
      return (h, d)
  | f :: fs, h, d => do
      let (h, d, threw) ← finishF sgn fuel (some f) h d
      if threw then finishCallsF sgn fuel fs h d else return (h, d)

/-- `SortedDawg::clean_up` (`sorted_dawg.cpp:98-121`); `fail`: an allocation of `all_nodes` fails (`dawg.cpp:29-37`).  Also
returns whether it throws. -/
def cleanUpF (fuel : Nat) (fail : Bool) (h : Heap) (d : SDawg) : Except Err (Heap × SDawg × Bool) :=
  if fail && d.floating.isSome then .ok (h, { d with unchecked := none, minimized := none }, true)
  else do
    let (h, d) ← cleanUp fuel h d
    return (h, d, false)

/-- `n` calls of `clean_up` throw, the next one does not. -/
def cleanCallsF (fuel : Nat) : Nat → Heap → SDawg → Except Err (Heap × SDawg)
  | 0, h, d => cleanUp fuel h d
  | n + 1, h, d => do
      let (h, d, threw) ← cleanUpF fuel true h d
      if threw then cleanCallsF fuel n h d else return (h, d)

/-- `delete dawg` (`sorted_dawg.cpp:11-13`, `dawg.cpp:22-26`).  If an allocation of `all_nodes` fails the program ends:
none. -/
def destroyDawgF (fuel : Nat) (fail : Bool) (h : Heap) (d : SDawg) : Except Err (Option Heap) :=
  if fail then .ok none
  else do
    let h ← destroyDawg fuel h d
    return some h

/-- How a call of `sorted_dawg` ends. -/
inductive FactoryEnd where
  | dawg (d : SDawg)
  | null
  | threw
  | terminated

/-- Where an allocation fails during a call of `sorted_dawg`. -/
structure FactoryFault where
  /-- `new SortedDawg()` (`sorted_dawg.cpp:125`) -/
  object : Bool := false
  /-- `dawg->init()` (`:126`) -/
  init : Bool := false
  /-- the call number `k` of `add` (`:130`) -/
  add : Nat → Option BFault := fun _ => none
  /-- `delete dawg` (`:131`) -/
  destroy : Bool := false
  /-- `dawg->finish()` (`:137`) -/
  finish : Option BFault := none
  /-- `dawg->clean_up()` (`:138`) -/
  clean : Bool := false

/-- The loop of the factory (`sorted_dawg.cpp:128-135`), from the call number `k` on. -/
def buildLoopF (sgn : Bool) (addr : Nat → Nat) (fuel : Nat) (f : FactoryFault) : Nat → List Str → Heap → SDawg →
    Except Err (Heap × FactoryEnd)
  | _, [], h, d => .ok (h, .dawg d)
  | k, term :: rest, h, d => do
      let (fate, h, d) ← addTermF sgn addr fuel (f.add k) term h d
      match fate with
      | .threw => return (h, .threw)
      | .added => buildLoopF sgn addr fuel f (k + 1) rest h d
      | .refused => do
          match ← destroyDawgF fuel f.destroy h d with
          | none => return (h, .terminated)
          | some h => return (h, .null)

/-- `sorted_dawg` (`sorted_dawg.cpp:123-140`). -/
def sortedDawgF (sgn : Bool) (addr : Nat → Nat) (fuel : Nat) (f : FactoryFault) (terms : List Str) (h : Heap) :
    Except Err (Heap × FactoryEnd) :=
  if f.object then .ok (h, .threw)
  else
    let (h, d) := newDawg addr h
    if f.init then .ok (h, .threw)
    else do
      let (h, r) ← buildLoopF sgn addr fuel f 0 terms h (initDawg d)
      match r with
      | .dawg d => do
          let (h, d, threw) ← finishF sgn fuel f.finish h d
          if threw then return (h, .threw)
          let (h, d, threw) ← cleanUpF fuel f.clean h d
          if threw then return (h, .threw) else return (h, .dawg d)
      | r => return (h, r)

end Lev
