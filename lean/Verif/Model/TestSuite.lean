import Verif.Model.Distance
import Verif.Model.ListProgram
import Verif.Model.Iter
import Verif.Model.Demo

/-!
# The project's own tests

Models the bodies of the tests in `/repo/test/liblevenshtein`: what one run of a test does for given values of its
parameters.  RapidCheck, which generates those values, is not modelled; the theorems are about all values.

* A `std::set`, `std::unordered_set` is the list of its elements in the order in which it is iterated over.
* Counters of type `int` and `std::size_t` of the tests are `Nat` (no container has 2^31 elements).
* The three statements of a test that matter: `RC_ASSERT`, `RC_PRE`, and the use of the library.  GoogleTest's `EXPECT_EQ`,
  `EXPECT_NE` go on after a failure; here they stop, so the test fails in either case.
* Objects on the stack (in the tests of `Transition`) are objects in memory.
-/

namespace Lev

/-- How a test ends other than by reaching its last line. -/
inductive Stop where
  /-- undefined behaviour, or no end, in the library -/
  | err (e : Err)
  /-- an `RC_ASSERT` does not hold -/
  | failed
  /-- an `RC_PRE` does not hold: the case does not count -/
  | discarded
deriving DecidableEq, Repr

/-- The use of the library in a test. -/
def use {α : Type} : Except Err α → Except Stop α
  | .ok a => .ok a
  | .error e => .error (.err e)

/-- `RC_ASSERT(b)`. -/
def rcAssert (b : Bool) : Except Stop Unit := if b then .ok () else .error .failed

/-- `RC_PRE(b)`. -/
def rcPre (b : Bool) : Except Stop Unit := if b then .ok () else .error .discarded

/-! ### `test/liblevenshtein/distance` -/

/-- `d(x, y)` on an object with the memo `m`. -/
def callD (A : Algorithm) (x y : Str) (m : Memo) : Nat × Memo := (between A x y).run m

/-- `satisfies_non_negativity` (`test_standard_distance.cpp:11-14`; the same in the other two files). -/
def testNonNegativity (A : Algorithm) (x y : Str) (m : Memo) : Except Stop Memo := do
  let (r, m) := callD A x y m
  rcAssert (decide (r ≥ 0))
  .ok m

/-- `satisfies_indiscernible_identity` (`test_standard_distance.cpp:16-21`). -/
def testIdentity (A : Algorithm) (x y : Str) (m : Memo) : Except Stop Memo := do
  let (r, m) := callD A x y m
  if r = 0 then
    rcAssert (x == y)
    .ok m
  else .ok m

/-- `satisfies_symmetry` (`test_standard_distance.cpp:23-26`).  The order in which the two operands are evaluated is
unspecified: `first` says which. -/
def testSymmetry (A : Algorithm) (first : Bool) (x y : Str) (m : Memo) : Except Stop Memo := do
  if first then
    let (r, m) := callD A x y m
    let (r', m) := callD A y x m
    rcAssert (r == r')
    .ok m
  else
    let (r', m) := callD A y x m
    let (r, m) := callD A x y m
    rcAssert (r == r')
    .ok m

/-- `satisfies_triangle_inequality` (`test_standard_distance.cpp:28-32`), evaluated from left to right. -/
def testTriangle (A : Algorithm) (x y z : Str) (m : Memo) : Except Stop Memo := do
  let (r, m) := callD A x y m
  let (r1, m) := callD A x z m
  let (r2, m) := callD A z y m
  rcAssert (decide (r ≤ r1 + r2))
  .ok m

/-- `satisfies_left_and_right_invariance` (`test_standard_distance.cpp:34-39`). -/
def testInvariance (A : Algorithm) (x y z : Str) (m : Memo) : Except Stop Memo := do
  let (r, m) := callD A (z ++ x) (z ++ y) m
  let (r', m) := callD A x y m
  rcAssert (r == r')
  let (r, m) := callD A (x ++ z) (y ++ z) m
  let (r', m) := callD A x y m
  rcAssert (r == r')
  .ok m

/-- One case of one of the five tests of a distance. -/
inductive DCase where
  | nonNegativity (x y : Str)
  | identity (x y : Str)
  | symmetry (first : Bool) (x y : Str)
  | triangle (x y z : Str)
  | invariance (x y z : Str)
deriving DecidableEq, Repr

/-- The body of the test. -/
def DCase.run (A : Algorithm) : DCase → Memo → Except Stop Memo
  | .nonNegativity x y => testNonNegativity A x y
  | .identity x y => testIdentity A x y
  | .symmetry first x y => testSymmetry A first x y
  | .triangle x y z => testTriangle A x y z
  | .invariance x y z => testInvariance A x y z

/-- The cases one after the other on one object, the variable `d` of the file (`test_standard_distance.cpp:9`).  The first failure ends the
run. -/
def runCases (A : Algorithm) : List DCase → Memo → Except Stop Memo
  | [], m => .ok m
  | c :: rest, m => do
      let m ← c.run A m
      runCases A rest m

/-- The assertions of the test below (`test_symmetric_pair.cpp:16-42`); `differ` is `bar != baz`, and `hashes` says whether
the two assertions that hash codes differ (`:40-41`) are made. -/
def symmetricPairChecks (hashes differ : Bool) (pair1 pair2 pair3 : SymPair) : Except Stop Unit := do
  rcAssert (pair1.eq pair1)
  rcAssert (pair2.eq pair2)
  rcAssert (pair3.eq pair3)
  rcAssert (pair1.eq pair2)
  rcAssert (pair2.eq pair1)
  rcAssert (pair1.hash == pair1.hash)
  rcAssert (pair2.hash == pair2.hash)
  rcAssert (pair3.hash == pair3.hash)
  rcAssert (pair1.hash == pair2.hash)
  if differ then
    rcAssert (!pair1.eq pair3)
    rcAssert (!pair3.eq pair1)
    rcAssert (!pair2.eq pair3)
    rcAssert (!pair3.eq pair2)
    if hashes then
      rcAssert (pair1.hash != pair3.hash)
      rcAssert (pair2.hash != pair3.hash)
    else .ok ()
  else .ok ()

/-- `SymmetricPair`, `is_comparable` (`test_symmetric_pair.cpp:11-43`). -/
def testSymmetricPair (hashes : Bool) (foo bar baz : Str) : Except Stop Unit :=
  symmetricPairChecks hashes (decide (bar ≠ baz)) (SymPair.make foo bar) (SymPair.make bar foo) (SymPair.make foo baz)

/-! ### `test/liblevenshtein/collection` -/

/-- `new DawgNode(is_final)` (`dawg_node.cpp:15-17`). -/
def newNodeB (addr : Nat → Nat) (final : Bool) (h : Heap) : Nat × Heap :=
  (addr h.count, { mem := h.mem.set (addr h.count) (some { final := final, edges := [] }), count := h.count + 1 })

/-- `new DawgNode(edges, is_final)` (`dawg_node.cpp:10-13`): the map is copied. -/
def newNodeE (addr : Nat → Nat) (edges : List (UInt8 × Nat)) (final : Bool) (h : Heap) : Nat × Heap :=
  (addr h.count, { mem := h.mem.set (addr h.count) (some { final := final, edges := edges }), count := h.count + 1 })

/-- `for (const char label : labels) { node->add_edge(label, new DawgNode(final)); }`
(`test_dawg_node.cpp:21-23,27-29,60-62`). -/
def addLeaves (sgn : Bool) (addr : Nat → Nat) (node : Nat) (final : Bool) : List UInt8 → Heap → Except Err Heap
  | [], h => .ok h
  | label :: labels, h => do
      let (target, h) := newNodeB addr final h
      let h ← addEdge sgn node label target h
      addLeaves sgn addr node final labels h

/-- `for (const char label : labels) { edges[label] = new DawgNode(); }` (`test_dawg_node.cpp:48-50`). -/
def mapLeaves (sgn : Bool) (addr : Nat → Nat) : List UInt8 → List (UInt8 × Nat) → Heap → List (UInt8 × Nat) × Heap
  | [], edges, h => (edges, h)
  | label :: labels, edges, h =>
      let (target, h) := newNodeB addr false h
      mapLeaves sgn addr labels (mapSet sgn label target edges) h

/-- `xs == ys` of two `std::unordered_set<char>`. -/
def sameSet (xs ys : List UInt8) : Bool := xs.length == ys.length && xs.all fun x => ys.contains x

/-- `DawgNode`, `is_comparable` (`test_dawg_node.cpp:13-40`). -/
def testNodeComparable (sgn : Bool) (addr : Nat → Nat) (fuel : Nat) (xs : List UInt8) (xsFinal xsLeaf : Bool)
    (ys : List UInt8) (ysFinal ysLeaf : Bool) (h : Heap) : Except Stop Heap := do
  let (x, h) := newNodeB addr xsFinal h
  let h ← use (addLeaves sgn addr x xsLeaf xs h)
  let (y, h) := newNodeB addr ysFinal h
  let h ← use (addLeaves sgn addr y ysLeaf ys h)
  let xs_node ← use (deref h.mem x)
  let ys_node ← use (deref h.mem y)
  let r ← use (nodeEq h.mem fuel xs_node ys_node)
  if sameSet xs ys && xsFinal == ysFinal && (xsLeaf == ysLeaf || xs.isEmpty) then rcAssert r
  else rcAssert (!r)
  let h ← use (deleteNode x h)
  use (deleteNode y h)

/-- `DawgNode`, `has_equivalent_constructors` (`test_dawg_node.cpp:42-76`). -/
def testNodeConstructors (sgn : Bool) (addr : Nat → Nat) (fuel : Nat) (labels : List UInt8) (isFinal : Bool) (h : Heap) :
    Except Stop Heap := do
  let (edges, h) := mapLeaves sgn addr labels [] h
  let (l, h) := newNodeB addr isFinal h
  let (r, h) := newNodeE addr edges isFinal h
  let h ← use (addLeaves sgn addr l false labels h)
  let lhs ← use (deref h.mem l)
  let rhs ← use (deref h.mem r)
  let eq ← use (nodeEq h.mem fuel lhs rhs)
  rcAssert eq
  if isFinal then
    rcAssert lhs.final
    rcAssert rhs.final
  else
    rcAssert (!lhs.final)
    rcAssert (!rhs.final)
  let h ← use (deleteNode l h)
  use (deleteNode r h)

/-- The first loop of `can_have_edges_added` (`test_dawg_node.cpp:85-89`). -/
def addAndNote (sgn : Bool) (addr : Nat → Nat) (node : Nat) :
    List UInt8 → List (UInt8 × Nat) → Heap → Except Err (List (UInt8 × Nat) × Heap)
  | [], edges, h => .ok (edges, h)
  | label :: labels, edges, h => do
      let (target, h) := newNodeB addr false h
      let h ← addEdge sgn node label target h
      addAndNote sgn addr node labels (mapSet sgn label target edges) h

/-- The second loop of `can_have_edges_added` (`test_dawg_node.cpp:99-103`). -/
def checkTargets (nd : DNode) (edges : List (UInt8 × Nat)) : List UInt8 → Except Stop Unit
  | [] => .ok ()
  | label :: labels => do
      let target := nodeTransition nd label
      rcAssert (target != 0)
      rcAssert (target == nodeTransition { final := false, edges := edges } label)
      checkTargets nd edges labels

/-- `DawgNode`, `can_have_edges_added` (`test_dawg_node.cpp:78-106`).  The constructor of `std::unordered_set` drops
repeated elements. -/
def testNodeEdges (sgn : Bool) (addr : Nat → Nat) (labels : List UInt8) (isFinal : Bool) (h : Heap) : Except Stop Heap := do
  let (node, h) := newNodeB addr isFinal h
  let (edges, h) ← use (addAndNote sgn addr node labels [] h)
  let nd ← use (deref h.mem node)
  let outgoing := nd.edges.map Prod.fst
  rcAssert (sameSet labels (outgoing.foldl (fun l c => if l.contains c then l else l ++ [c]) []))
  checkTargets nd edges labels
  use (deleteNode node h)

/-- `Transition::operator==` (`transition.cpp:29-33`). -/
def transEq (mem : Mem) (fuel : Nat) (t u : Trans) : Except Err Bool :=
  if t.label = u.label then do
    let s ← deref mem t.source
    let s' ← deref mem u.source
    if ← nodeEq mem fuel s s' then do
      let x ← deref mem t.target
      let x' ← deref mem u.target
      nodeEq mem fuel x x'
    else .ok false
  else .ok false

/-- `Transition(Transition &&)` and the copy constructor (`transition.cpp:12-16`, `transition.h:31-38`): both copy. -/
def transCopy (t : Trans) : Trans := { label := t.label, source := t.source, target := t.target }

/-- `Transition`, `has_proper_copy_and_move_constructors` (`test_transition.cpp:6-17`). -/
def testTransitionCopy (addr : Nat → Nat) (fuel : Nat) (h : Heap) : Except Stop Heap := do
  let (source, h) := newNodeB addr false h
  let (target1, h) := newNodeB addr false h
  let (target2, h) := newNodeB addr true h
  let trans1 : Trans := { label := 0, source := source, target := target1 }
  let trans2 := transCopy trans1
  let trans3 : Trans := { label := 0, source := source, target := target2 }
  let trans4 : Trans := { label := 97, source := source, target := target1 }
  rcAssert (← use (transEq h.mem fuel trans1 trans2))
  rcAssert (!(← use (transEq h.mem fuel trans1 trans3)))
  rcAssert (!(← use (transEq h.mem fuel trans1 trans4)))
  let h ← use (deleteNode target2 h)
  let h ← use (deleteNode target1 h)
  use (deleteNode source h)

/-- `Transition`, `has_correct_getters` (`test_transition.cpp:19-26`). -/
def testTransitionGetters (addr : Nat → Nat) (fuel : Nat) (h : Heap) : Except Stop Heap := do
  let (source, h) := newNodeB addr false h
  let (target, h) := newNodeB addr true h
  let transition : Trans := { label := 0, source := source, target := target }
  rcAssert (transition.label == 0)
  let s ← use (deref h.mem source)
  let s' ← use (deref h.mem transition.source)
  rcAssert (← use (nodeEq h.mem fuel s s'))
  let t ← use (deref h.mem target)
  let t' ← use (deref h.mem transition.target)
  rcAssert (← use (nodeEq h.mem fuel t t'))
  let h ← use (deleteNode target h)
  use (deleteNode source h)

/-- Reading a prefix through a pointer. -/
def getPrefix (ph : PHeap) (a : Nat) : Except Err Prefix :=
  match ph.mem a with
  | some p => .ok p
  | none => .error .ub

/-- One more prefix (`test_prefix.cpp:25-30` and `:34-39`): a new node and a new prefix with its two assertions.  `made` are the
nodes and the prefixes made so far. -/
def prefixStep (addr paddr : Nat → Nat) (fuel : Nat) (final : Bool) (c : UInt8) (parent : Nat) (h : Heap) (ph : PHeap)
    (made : List Nat × List Nat) : Except Stop (Nat × Heap × PHeap × List Nat × List Nat) := do
  let (node, h) := newNodeB addr final h
  let (a, ph) := newPrefix paddr { node := node, parent := parent, label := c } ph
  let p ← use (getPrefix ph a)
  let x ← use (deref h.mem node)
  let y ← use (deref h.mem p.node)
  rcAssert (← use (nodeEq h.mem fuel x y))
  rcAssert (c == p.label)
  .ok (a, h, ph, made.1 ++ [node], made.2 ++ [a])

/-- The loop of `returns_original_string` over all characters but the last (`test_prefix.cpp:24-31`). -/
def prefixLoop (addr paddr : Nat → Nat) (fuel : Nat) : Str → Nat → Heap → PHeap → List Nat × List Nat →
    Except Stop (Nat × Heap × PHeap × List Nat × List Nat)
  | [], a, h, ph, made => .ok (a, h, ph, made.1, made.2)
  | c :: rest, a, h, ph, made => do
      let (a, h, ph, ns, ps) ← prefixStep addr paddr fuel false c a h ph made
      prefixLoop addr paddr fuel rest a h ph (ns, ps)

/-- The last character (`test_prefix.cpp:33-40`). -/
def prefixLast (addr paddr : Nat → Nat) (fuel : Nat) (term : Str) (a : Nat) (h : Heap) (ph : PHeap)
    (made : List Nat × List Nat) : Except Stop (Nat × Heap × PHeap × List Nat × List Nat) :=
  match term.getLast? with
  | some c => prefixStep addr paddr fuel true c a h ph made
  | none => .ok (a, h, ph, made.1, made.2)

/-- `Prefix`, `returns_original_string` (`test_prefix.cpp:13-51`). -/
def testPrefix (addr paddr : Nat → Nat) (fuel : Nat) (term : Str) (h : Heap) (ph : PHeap) :
    Except Stop (Heap × PHeap) := do
  let (node, h) := newNodeB addr term.isEmpty h
  let (a, ph) := newPrefix paddr { node := node, parent := 0, label := 0 } ph
  let p ← use (getPrefix ph a)
  let x ← use (deref h.mem node)
  let y ← use (deref h.mem p.node)
  rcAssert (← use (nodeEq h.mem fuel x y))
  let (a, h, ph, ns, ps) ← prefixLoop addr paddr fuel term.dropLast a h ph ([node], [a])
  let (a, h, ph, ns, ps) ← prefixLast addr paddr fuel term a h ph (ns, ps)
  rcAssert (term == (← use (prefixStr ph.mem fuel a)))
  let ph ← use (deletePrefixes ps ph)
  let h ← use (deleteAll ns h)
  .ok (h, ph)

/-- `is_sorted` of the tests (`test_sorted_dawg.cpp:21-30`); `terms[0]` of an empty vector is undefined. -/
def isSortedT : List Str → Except Err Bool
  | [] => .error .ub
  | prev :: rest => .ok (go prev rest)
where
  /-- The loop. -/
  go : Str → List Str → Bool
    | _, [] => true
    | prev, t :: rest => if strLt t prev then false else go t rest

/-- The loop that shuffles until the terms are not sorted (`test_sorted_dawg.cpp:37-39`); `shuffles` are what successive
shuffles of the vector give. -/
def shuffleLoop (shuffles : Nat → List Str) : Nat → Nat → List Str → Except Err (List Str)
  | 0, _, _ => .error .diverge
  | fuel + 1, k, terms => do
      if ← isSortedT terms then shuffleLoop shuffles fuel (k + 1) (shuffles k)
      else .ok terms

/-- `SortedDawg`, `rejects_unsorted_terms` (`test_sorted_dawg.cpp:32-42`). -/
def testRejects (sgn : Bool) (addr : Nat → Nat) (fuel : Nat) (terms : List Str) (shuffles : Nat → List Str) (h : Heap) :
    Except Stop Heap := do
  rcPre (decide (terms.length > 1))
  let unsorted ← use (shuffleLoop shuffles fuel 0 terms)
  let (h, dawg) ← use (sortedDawg sgn addr fuel unsorted h)
  rcAssert dawg.isNone
  .ok h

/-- The assertions on `contains` of a list of strings (`test_sorted_dawg.cpp:59-65`). -/
def checkContains (mem : Mem) (root : Nat) (expected : Bool) : List Str → Except Stop Unit
  | [] => .ok ()
  | t :: rest => do
      let r ← use (containsTerm mem root t)
      rcAssert (r == expected)
      checkContains mem root expected rest

/-- The body of `for (std::string term : *dawg)` (`test_sorted_dawg.cpp:67-70`) for the strings the loop takes; gives back what is left of
the set. -/
def checkErase : List Str → List Str → Except Stop (List Str)
  | [], left => .ok left
  | t :: rest, left => do
      rcAssert (left.contains t)
      checkErase rest (left.filter (· != t))

/-- `SortedDawg`, `contains_expected_terms` (`test_sorted_dawg.cpp:44-74`).  The loop over the dictionary is made to its end
before its assertions. -/
def testContains (sgn : Bool) (addr paddr : Nat → Nat) (fuel : Nat) (toAdd toIgnore : List Str) (h : Heap) (ph : PHeap) :
    Except Stop (Heap × PHeap) := do
  let toAdd := toIgnore.foldl (fun s t => s.filter (· != t)) toAdd
  let (h, dawg) ← use (sortedDawg sgn addr fuel toAdd h)
  match dawg with
  | none => .error .failed
  | some d =>
      if toAdd.contains [] then .ok ()
      else rcAssert (!(← use (containsTerm h.mem d.root [])))
      checkContains h.mem d.root true toAdd
      checkContains h.mem d.root false toIgnore
      let (out, ph) ← use (rangeFor h.mem paddr fuel d.root d.size ph)
      let left ← checkErase out toAdd
      rcAssert left.isEmpty
      let h ← use (destroyDawg fuel h d)
      .ok (h, ph)

/-! ### `test/liblevenshtein/transducer` -/

/-- `for (Position *expected : positions) { RC_ASSERT(expected == actual); actual = actual->next(); }`
(`test_state.cpp:25-28,100-103`, `test_merge.cpp:29-32`). -/
def walkCheck (m : SMem) : List Nat → Nat → Except Stop Unit
  | [], _ => .ok ()
  | expected :: rest, actual => do
      rcAssert (expected == actual)
      let c ← use (getCell m actual)
      walkCheck m rest c.next

section
variable (paddr saddr : SMem → Nat)

/-- `insert_after`, `inserts_positions_in_the_expected_location` (`test_merge.cpp:18-34`): the loop. -/
def insertAfterLoop (s : Nat) : List Nat → Nat → SMem → Except Err SMem
  | [], _, m => .ok m
  | next :: rest, curr, m => do
      let m ← insertAfter s curr next m
      insertAfterLoop s rest next m

/-- `insert_after`, `inserts_positions_in_the_expected_location` (`test_merge.cpp:18-34`). -/
def testInsertAfter (triples : List Pos) (m : SMem) : Except Stop SMem := do
  let (positions, m) := newPositions paddr triples m
  let (state, m) := newState saddr m
  let h ← use (getHead m state)
  rcAssert (h == 0)
  let m ← use (insertAfterLoop state positions 0 m)
  let actual ← use (getHead m state)
  walkCheck m positions actual
  use (deleteState state m)

/-- `State`, `initializes_positions_correctly` (`test_state.cpp:19-31`). -/
def testStateInit (triples : List Pos) (m : SMem) : Except Stop SMem := do
  let (positions, m) := newPositions paddr triples m
  let (state, m) ← use (newStateOf saddr positions m)
  let actual ← use (getHead m state)
  walkCheck m positions actual
  use (deleteState state m)

/-- The loop that compares neighbours (`test_state.cpp:44-48,54-58,64-68`). -/
def orderLoop (A : Algorithm) (m : SMem) : Nat → Nat → Nat → Except Stop Unit
  | 0, _, _ => .error (.err .diverge)
  | fuel + 1, prev, curr =>
      if curr ≠ 0 then do
        let p ← use (getCell m prev)
        let c ← use (getCell m curr)
        rcAssert (decide (comparePos A p.pos c.pos < 1))
        orderLoop A m fuel curr c.next
      else .ok ()

/-- One of the three parts of `sorts_positions_correctly` (`test_state.cpp:40-48`, `:50-58`, `:60-68`). -/
def sortAndCheck (first : Bool) (A : Algorithm) (state : Nat) (m : SMem) : Except Stop SMem := do
  let m ← use (stateSort first (comparePos A) state m)
  let h ← use (getHead m state)
  rcAssert (h != 0)
  let c ← use (getCell m h)
  orderLoop A m m.steps h c.next
  .ok m

/-- `State`, `sorts_positions_correctly` (`test_state.cpp:33-71`). -/
def testStateSort (first : Bool) (triples : List Pos) (m : SMem) : Except Stop SMem := do
  rcPre (!triples.isEmpty)
  let (positions, m) := newPositions paddr triples m
  let (state, m) ← use (newStateOf saddr positions m)
  let m ← sortAndCheck first .standard state m
  let m ← sortAndCheck first .transposition state m
  let m ← sortAndCheck first .mergeAndSplit state m
  use (deleteState state m)

/-- The loop of `adds_to_tail_of_positions` (`test_state.cpp:77-86`); `done` are the positions added. -/
def addCheckLoop (state : Nat) : List Nat → List Nat → SMem → Except Stop SMem
  | _, [], m => .ok m
  | done, position :: rest, m => do
      let m ← use (stateAdd state position m)
      let curr ← use (getHead m state)
      walkCheck m (done ++ [position]) curr
      addCheckLoop state (done ++ [position]) rest m

/-- `State`, `adds_to_tail_of_positions` (`test_state.cpp:73-88`). -/
def testStateAdd (triples : List Pos) (m : SMem) : Except Stop SMem := do
  let (positions, m) := newPositions paddr triples m
  let (state, m) := newState saddr m
  let m ← addCheckLoop state [] positions m
  use (deleteState state m)

/-- `State`, `correctly_inserts_positions_after_others` (`test_state.cpp:90-105`). -/
def testStateInsert (triples : List Pos) (m : SMem) : Except Stop SMem := do
  let (positions, m) := newPositions paddr triples m
  let (state, m) := newState saddr m
  let m ← use (fillState state positions 0 m)
  let actual ← use (getHead m state)
  walkCheck m positions actual
  use (deleteState state m)

/-- `positions[i]` of a vector. -/
def vecAt (positions : List Nat) (i : Nat) : Except Err Nat :=
  match positions[i]? with
  | some a => .ok a
  | none => .error .ub

/-- `State`, `correctly_removes_positions` (`test_state.cpp:107-130`). -/
def testStateRemove (triples : List Pos) (m : SMem) : Except Stop SMem := do
  rcPre (decide (triples.length > 2))
  let (positions, m) := newPositions paddr triples m
  let (state, m) ← use (newStateOf saddr positions m)
  let curr ← use (getHead m state)
  let m ← use (stateRemove state 0 curr m)
  rcAssert ((← use (vecAt positions 1)) == (← use (getHead m state)))
  let prev ← use (getHead m state)
  let p ← use (getCell m prev)
  let m ← use (stateRemove state prev p.next m)
  rcAssert ((← use (vecAt positions 1)) == (← use (getHead m state)))
  let h ← use (getHead m state)
  let c ← use (getCell m h)
  if positions.length > 3 then rcAssert ((← use (vecAt positions 3)) == c.next)
  else rcAssert (c.next == 0)
  use (deleteState state m)

/-- `a == b` of two iterators (`state_iterator.cpp:22-24`). -/
def SIter.same (a b : SIter) : Bool := a.curr == b.curr && a.next == b.next

/-- `State::end` (`state.cpp:138-140`). -/
def siterEnd (s : Nat) : SIter := { state := s, next := 0, curr := 0, prev := 0 }

/-- The loop over the rest of the positions (`test_state.cpp:171-174`). -/
def iterRest (m : SMem) : List Nat → SIter → Except Stop SIter
  | [], iter => .ok iter
  | a :: rest, iter => do
      rcAssert (a == iter.curr)
      let iter ← use (siterAdvance m iter)
      iterRest m rest iter

/-- `State`, `iterates_over_positions` from the third position on (`test_state.cpp:161-174`). -/
def iterTail (positions : List Nat) (iter : SIter) (m : SMem) : Except Stop (SIter × SMem) := do
  rcAssert ((← use (vecAt positions 2)) == iter.curr)
  let (position, m) := newPos paddr ⟨0, 0, false⟩ m
  let (iter, m) ← use (iterInsert iter position m)
  rcAssert ((← use (vecAt positions 2)) == iter.curr)
  let iter ← use (siterAdvance m iter)
  rcAssert (position == iter.curr)
  let iter ← use (siterAdvance m iter)
  let iter ← iterRest m (positions.drop 3) iter
  .ok (iter, m)

/-- `State`, `iterates_over_positions` from the second position on (`test_state.cpp:152-176`). -/
def iterSecond (positions : List Nat) (iter iterEnd : SIter) (m : SMem) : Except Stop (SIter × SMem) := do
  rcAssert (!iter.same iterEnd)
  let iter ← use (siterAdvance m iter)
  rcAssert ((← use (vecAt positions 1)) == iter.curr)
  let iter ← use (siterAdvance m iter)
  if positions.length = 2 then
    rcAssert (iter.same iterEnd)
    .ok (iter, m)
  else iterTail paddr positions iter m

/-- `State`, `iterates_over_positions` when there is a position (`test_state.cpp:143-177`). -/
def iterFirst (positions : List Nat) (iter iterEnd : SIter) (m : SMem) : Except Stop (SIter × SMem) := do
  rcAssert (!iter.same iterEnd)
  rcAssert ((← use (vecAt positions 0)) == iter.curr)
  let (iter, _, m) ← use (iterRemove iter none m)
  rcAssert (iter.curr == 0)
  if positions.length = 1 then
    rcAssert (iter.same iterEnd)
    .ok (iter, m)
  else iterSecond paddr positions iter iterEnd m

/-- `State`, `iterates_over_positions` (`test_state.cpp:132-182`). -/
def testStateIterate (triples : List Pos) (m : SMem) : Except Stop SMem := do
  let (positions, m) := newPositions paddr triples m
  let (state, m) ← use (newStateOf saddr positions m)
  let iter ← use (siterBegin state m)
  let iterEnd := siterEnd state
  let (iter, m) ←
    (if triples.isEmpty then do
      rcAssert (iter.same iterEnd)
      .ok (iter, m)
    else iterFirst paddr positions iter iterEnd m)
  rcAssert (iter.curr == 0)
  rcAssert (iter.same iterEnd)
  use (deleteState state m)

/-- The assertions on two positions (`test_comparators.cpp:26-56`). -/
def compareCheck (p c : Pos) : Except Stop Unit := do
  if p.index < c.index then
    rcAssert (decide (comparePos .standard p c < 0))
    rcAssert (decide (comparePos .transposition p c < 0))
    rcAssert (decide (comparePos .mergeAndSplit p c < 0))
  else if p.index > c.index then
    rcAssert (decide (comparePos .standard p c > 0))
    rcAssert (decide (comparePos .transposition p c > 0))
    rcAssert (decide (comparePos .mergeAndSplit p c > 0))
  else if p.errors < c.errors then
    rcAssert (decide (comparePos .standard p c < 0))
    rcAssert (decide (comparePos .transposition p c < 0))
    rcAssert (decide (comparePos .mergeAndSplit p c < 0))
  else if p.errors > c.errors then
    rcAssert (decide (comparePos .standard p c > 0))
    rcAssert (decide (comparePos .transposition p c > 0))
    rcAssert (decide (comparePos .mergeAndSplit p c > 0))
  else
    rcAssert (decide (comparePos .standard p c = 0))
    if p.special && !c.special then
      rcAssert (decide (comparePos .transposition p c > 0))
      rcAssert (decide (comparePos .mergeAndSplit p c > 0))
    else if !p.special && c.special then
      rcAssert (decide (comparePos .transposition p c < 0))
      rcAssert (decide (comparePos .mergeAndSplit p c < 0))
    else
      rcAssert (decide (comparePos .transposition p c = 0))
      rcAssert (decide (comparePos .mergeAndSplit p c = 0))

/-- The loop of `correctly_compares_positions` (`test_comparators.cpp:22-60`). -/
def compareLoop (m : SMem) : Nat → List Nat → Except Stop Unit
  | _, [] => .ok ()
  | prev, curr :: rest => do
      let p ← use (getCell m prev)
      let c ← use (getCell m curr)
      compareCheck p.pos c.pos
      compareLoop m curr rest

/-- `for (Position *position : positions) { delete position; }` (`test_comparators.cpp:63-65`). -/
def deletePositions : List Nat → SMem → Except Err SMem
  | [], m => .ok m
  | a :: rest, m => do
      let m ← deletePos a m
      deletePositions rest m

/-- `Compare`, `correctly_compares_positions` (`test/liblevenshtein/test/utils/test_comparators.cpp:17-66`). -/
def testCompare (triples : List Pos) (m : SMem) : Except Stop SMem := do
  let (positions, m) := newPositions paddr triples m
  (match positions with
    | [] => .ok ()
    | prev :: rest => compareLoop m prev rest)
  use (deletePositions positions m)

end

/-- The terms within the distance of one query term (`test_transducer.cpp:36-42`). -/
def expectedFor (A : Algorithm) (n : Nat) (q : Str) : List Str → List Str → Memo → List Str × Memo
  | [], acc, m => (acc, m)
  | t :: rest, acc, m =>
      let (d, m) := callD A t q m
      expectedFor A n q rest (if d ≤ n then acc ++ [t] else acc) m

/-- `expected_candidates` (`test_transducer.cpp:33-44`), keyed by query term. -/
def expectedAll (A : Algorithm) (n : Nat) (dict : List Str) : List Str → Memo → List (Str × List Str) × Memo
  | [], m => ([], m)
  | q :: rest, m =>
      let (e, m) := expectedFor A n q dict [] m
      let (es, m) := expectedAll A n dict rest m
      ((q, e) :: es, m)

/-- The loop over the candidates of one query (`test_transducer.cpp:51-57`); gives back what is left. -/
def checkCandidates (A : Algorithm) (q : Str) : List (Str × Nat) → List Str → Memo → Except Stop (List Str × Memo)
  | [], left, m => .ok (left, m)
  | (term, distance) :: rest, left, m => do
      rcAssert (left.contains term)
      let (d, m) := callD A term q m
      rcAssert (distance == d)
      checkCandidates A q rest (left.filter (· != term)) m

/-- The loop over the query terms with candidates as results (`test_transducer.cpp:49-59`). -/
def candidateLoop (A : Algorithm) (n fuel : Nat) (mem : Mem) (root : Nat) : List (Str × List Str) → Memo → Except Stop Memo
  | [], m => .ok m
  | (q, expected) :: rest, m => do
      let rs ← use (transduce A updCandidate ([], 0) mem root q n fuel)
      let (left, m) ← checkCandidates A q rs expected m
      rcAssert left.isEmpty
      candidateLoop A n fuel mem root rest m

/-- The loop over the query terms with strings as results (`test_transducer.cpp:62-69`). -/
def stringLoop (A : Algorithm) (n fuel : Nat) (mem : Mem) (root : Nat) : List (Str × List Str) → Except Stop Unit
  | [] => .ok ()
  | (q, expected) :: rest => do
      let rs ← use (transduce A updString [] mem root q n fuel)
      let left ← checkErase rs expected
      rcAssert left.isEmpty
      stringLoop A n fuel mem root rest

/-- `test_transducer<Type>` (`test_transducer.cpp:28-72`), called by the three tests (`:74-96`).  The loop over the results
of a query is made to its end before its assertions.  Without the dictionary `dawg->root()` would be undefined. -/
def testTransducer (sgn : Bool) (addr : Nat → Nat) (A : Algorithm) (fuel : Nat) (dict queries : List Str) (n : Nat) (h : Heap)
    (m : Memo) : Except Stop (Heap × Memo) := do
  let (expected, m) := expectedAll A n dict queries m
  let (h, dawg) ← use (sortedDawg sgn addr fuel dict h)
  match dawg with
  | none => .error (.err .ub)
  | some d =>
      let m ← candidateLoop A n fuel h.mem d.root expected m
      stringLoop A n fuel h.mem d.root expected
      let h ← use (destroyDawg fuel h d)
      .ok (h, m)

/-! ### `test/liblevenshtein/serialization` -/

/-- `ProtobufSerializer`, `restores_dawg` (`test_protobuf_serializer.cpp:21-35`); `path` is the name of the temporary file. -/
def testSerializer (sgn : Bool) (addr : Nat → Nat) (fuel : Nat) (terms : List Str) (path : Str) (fs : Files) (h : Heap) :
    Except Stop (Files × Heap) := do
  let (h, dawg) ← use (sortedDawg sgn addr fuel terms h)
  match dawg with
  | none => .error .failed
  | some expected =>
      let (fs, ok) ← use (serializeFile sgn h.mem fuel expected.root expected.size fs path)
      rcAssert ok
      let (h, r) ← use (deserializeFile sgn addr fs path h)
      match r with
      | none => .error .failed
      | some actual =>
          rcAssert (← use (dawgEq h.mem fuel expected.size expected.root actual.size actual.root))
          let h ← use (destroyDawg fuel h expected)
          let h ← use (destroyDawg fuel h actual)
          .ok (fs, h)

end Lev
