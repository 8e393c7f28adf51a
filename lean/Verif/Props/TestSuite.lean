import Verif.Proofs.TestRun
import Verif.Proofs.Alloc

/-!
# Properties C71–C74: the project's own tests

The tests in `/repo/test/liblevenshtein` are properties with parameters that RapidCheck fills with random values.  Here they are
taken as programs (`Verif/Model/TestSuite.lean`); the theorems say for which values of the parameters they pass.
`Passes f r`: for every large enough bound on the number of steps, the test gets to its last line, with the result `r`.
`Stop.failed` is an assertion that does not hold, `Stop.err` undefined behaviour or no end.
-/

namespace Lev.Props

open Lev Spec

/-! ### C71: the tests of the collections -/

/-- C71, `DawgNode`: the three tests pass for all sets of labels.  They do not give back the nodes they hang below the node
under test (a node does not own its successors): each case loses one node per label added. -/
theorem c71_dawg_node {sgn : Bool} {addr : Nat → Nat} {h : Heap} (ha : Allocator addr h) {fuel : Nat} (hf : 2 ≤ fuel)
    {xs ys : List UInt8} (hx : xs.Nodup) (hy : ys.Nodup) (xf xl yf yl : Bool) :
    (∃ h', testNodeComparable sgn addr fuel xs xf xl ys yf yl h = .ok h' ∧ Lost h h' (xs.length + ys.length)) ∧
    (∃ h', testNodeConstructors sgn addr fuel xs xf h = .ok h' ∧ Lost h h' (2 * xs.length)) ∧
    ∃ h', testNodeEdges sgn addr xs xf h = .ok h' ∧ Lost h h' xs.length := by
  refine ⟨testNodeComparable_ok ha hx hy xf xl yf yl hf, ?_, testNodeEdges_ok ha hx xf⟩
  rw [Nat.two_mul]
  exact testNodeConstructors_ok ha hx xf hf

/-- The addresses below 10 that are alive. -/
def aliveIn (h : Heap) : List Nat := (List.range 10).filter fun a => (h.mem a).isSome

-- labels "ba" against "ab" with other leaves; the nodes at 2, 3, 5, 6 are lost
example : (testNodeComparable true (fun k => k + 1) 2 [98, 97] true true [97, 98] true false exHeap).map aliveIn =
    .ok [2, 3, 5, 6] := by decide +kernel

example : (testNodeConstructors true (fun k => k + 1) 2 [98, 200] false exHeap).map aliveIn = .ok [1, 2, 5, 6] ∧
    (testNodeEdges false (fun k => k + 1) [98, 200, 1] true exHeap).map aliveIn = .ok [2, 3, 4] := by decide +kernel

/-- C71, `Transition`, `Prefix`: the tests pass, for all terms, and leave the memory as it was. -/
theorem c71_transition_prefix {addr paddr : Nat → Nat} {h : Heap} {ph : PHeap} (ha : Allocator addr h)
    (hp : PAllocator paddr ph) (term : Str) {fuel : Nat} (hf : term.length < fuel) :
    (∃ h', testTransitionCopy addr fuel h = .ok h' ∧ h'.mem = h.mem) ∧
    (∃ h', testTransitionGetters addr fuel h = .ok h' ∧ h'.mem = h.mem) ∧
    ∃ h' ph', testPrefix addr paddr fuel term h ph = .ok (h', ph') ∧ h'.mem = h.mem ∧ ph'.mem = ph.mem :=
  ⟨testTransitionCopy_ok ha (by omega), testTransitionGetters_ok ha (by omega), testPrefix_ok ha hp term hf⟩

/-- No prefix is alive. -/
def exPHeap : PHeap := { mem := fun _ => none, count := 0 }

example : (testPrefix (fun k => k + 1) (fun k => k + 1) 4 [97, 98, 99] exHeap exPHeap).map (fun r => aliveIn r.1) = .ok [] := by
  decide +kernel

/-- C71, `SortedDawg`, `contains_expected_terms`: passes for all sets of terms to add (a `std::set`: sorted, no term twice) and
to leave out, and gives back all memory. -/
theorem c71_contains_expected_terms {sgn : Bool} {addr paddr : Nat → Nat} {h : Heap} {ph : PHeap} (ha : Allocator addr h)
    (hp : PAllocator paddr ph) {add ignore : List Str} (hs : SortedTerms add) (hnd : add.Nodup)
    (hl : ∀ t ∈ add ++ ignore, t.length < 2 ^ 31) :
    ∃ h' ph', Passes (fun fuel => testContains sgn addr paddr fuel add ignore h ph) (h', ph') ∧ h'.mem = h.mem ∧
      ph'.mem = ph.mem :=
  testContains_ok ha hp hs hnd hl

set_option synthInstance.maxSize 1000 in
example : (testContains true (fun k => k + 1) (fun k => k + 1) 50 [[], [97], [97, 98], [98]] [[97], [99]] exHeap exPHeap).map
    (fun r => aliveIn r.1) = .ok [] := by decide +kernel

/-- C71, `SortedDawg`, `rejects_unsorted_terms`: passes, whatever the order of the terms at first, once some shuffle puts them
in an order that is not sorted; if none ever does, the loop of the test does not end.  With fewer than two terms the case is
discarded. -/
theorem c71_rejects_unsorted_terms {sgn : Bool} {addr : Nat → Nat} {h : Heap} (ha : Allocator addr h) {terms : List Str}
    {shuffles : Nat → List Str} (hp : ∀ i, (shuffles i).Perm terms) :
    (1 < terms.length → (∃ j, ¬ SortedTerms (shuffles j)) →
      ∃ h', Passes (fun fuel => testRejects sgn addr fuel terms shuffles h) h' ∧ h'.mem = h.mem) ∧
    (1 < terms.length → SortedTerms terms → (∀ j, SortedTerms (shuffles j)) →
      ∀ fuel, testRejects sgn addr fuel terms shuffles h = .error (.err .diverge)) ∧
    (terms.length ≤ 1 → ∀ fuel, testRejects sgn addr fuel terms shuffles h = .error .discarded) := by
  refine ⟨fun hl ⟨j, hj⟩ => testRejects_ok ha hl hp hj, fun hl hs hs' fuel => testRejects_forever hl hp hs hs' fuel, fun hl fuel => ?_⟩
  have : ¬ terms.length > 1 := by omega
  simp [testRejects, rcPre, this, bind, Except.bind]

example : (testRejects true (fun k => k + 1) 20 [[97], [98]] (fun k => if k = 0 then [[97], [98]] else [[98], [97]]) exHeap).map
    aliveIn = .ok [] := by decide +kernel

/-! ### C72: the tests of states and comparators -/

/-- C72: the six tests of `State`, the test of `insert_after` and the test of the comparators pass for all positions, and leave
all positions and states as they were. -/
theorem c72_states {paddr saddr : SMem → Nat} (hA : SAlloc paddr saddr) {m : SMem} (hm : m.Finite) (ps : List Pos) :
    PutBack m (testStateInit paddr saddr ps m) ∧
    (ps ≠ [] → ∀ first, PutBack m (testStateSort paddr saddr first ps m)) ∧
    PutBack m (testStateAdd paddr saddr ps m) ∧
    PutBack m (testStateInsert paddr saddr ps m) ∧
    (2 < ps.length → PutBack m (testStateRemove paddr saddr ps m)) ∧
    PutBack m (testStateIterate paddr saddr ps m) ∧
    PutBack m (testInsertAfter paddr saddr ps m) ∧
    PutBack m (testCompare paddr ps m) :=
  ⟨testStateInit_ok hA hm ps, fun h first => testStateSort_ok hA hm first ps h, testStateAdd_ok hA hm ps,
    testStateInsert_ok hA hm ps, fun h => testStateRemove_ok hA hm ps h, testStateIterate_ok hA hm ps,
    testInsertAfter_ok hA hm ps, testCompare_ok hA hm ps⟩

/-- C72: the cases excluded above are discarded by the tests themselves. -/
theorem c72_discarded {paddr saddr : SMem → Nat} {m : SMem} (ps : List Pos) :
    (ps = [] → ∀ first, testStateSort paddr saddr first ps m = .error .discarded) ∧
    (ps.length ≤ 2 → testStateRemove paddr saddr ps m = .error .discarded) := by
  constructor
  · rintro rfl first; rfl
  · intro h
    have : ¬ ps.length > 2 := by omega
    simp [testStateRemove, rcPre, this, bind, Except.bind]

example : SAlloc lowPos lowSt := low_alloc

example : (testStateSort lowPos lowSt true [⟨3, 1, true⟩, ⟨1, 2, false⟩, ⟨3, 1, false⟩] .empty).map (fun m => (m.pos 1).isSome) =
    .ok false := by decide +kernel

example : (testStateIterate lowPos lowSt [⟨3, 1, true⟩, ⟨1, 2, false⟩, ⟨3, 1, false⟩, ⟨0, 0, false⟩] .empty).map
    (fun m => (m.pos 1).isSome) = .ok false := by decide +kernel

/-! ### C73: the tests of distances, transducers, and of the serializer -/

/-- C73, distances: any number of cases of the tests, in any order, on one object on which anything has been asked before, pass.
The one exception is the triangle inequality of the distance with transpositions (C74). -/
theorem c73_distances {A : Algorithm} {cases : List DCase}
    (hc : A = .transposition → ∀ c ∈ cases, ∀ x y z, c ≠ .triangle x y z) (history : List (Str × Str)) :
    ∃ m, runCases A cases (memoAfter A history) = .ok m :=
  let ⟨m, e, _⟩ := runCases_ok hc (memoAfter_good A history)
  ⟨m, e⟩

example : (runCases .mergeAndSplit [.triangle sRn sM sCA, .symmetry false sRn sM, .invariance sRn sM [114], .identity sM sM] []).map
    (fun _ => ()) = .ok () := by
  obtain ⟨m, h⟩ := c73_distances (A := .mergeAndSplit)
    (cases := [.triangle sRn sM sCA, .symmetry false sRn sM, .invariance sRn sM [114], .identity sM sM]) (by simp) []
  rw [show memoAfter .mergeAndSplit [] = [] from rfl] at h
  rw [h]; rfl

/-- C73, `SymmetricPair`: the test passes unless the strings `bar`, `baz` differ and the hash codes collide. -/
theorem c73_symmetric_pair (foo bar baz : Str) :
    (bar = baz ∨ (SymPair.make foo bar).hash ≠ (SymPair.make foo baz).hash → testSymmetricPair true foo bar baz = .ok ()) ∧
    testSymmetricPair false foo bar baz = .ok () := by
  constructor
  · intro h
    rw [testSymmetricPair_eq, if_neg]
    rintro ⟨_, h1, h2⟩
    exact h.elim h1 fun h => h h2
  · rw [testSymmetricPair_eq, if_neg (by simp)]

example : testSymmetricPair true sCA sAC sABC = .ok () := by decide +kernel

/-- C73, transducers: the test passes for all dictionaries (a `std::set`), sets of query terms and distances: each query gives
exactly the terms expected, each with the distance the distance object gives.  All memory is given back. -/
theorem c73_transducers {sgn : Bool} {addr : Nat → Nat} (A : Algorithm) {h : Heap} (ha : Allocator addr h)
    {dict queries : List Str} (hs : SortedTerms dict) (hnd : dict.Nodup) (hl : ∀ t ∈ dict ++ queries, t.length < 2 ^ 31)
    {n : Nat} (hn : n < 2 ^ 64) (history : List (Str × Str)) :
    ∃ h' m', Passes (fun fuel => testTransducer sgn addr A fuel dict queries n h (memoAfter A history)) (h', m') ∧
      h'.mem = h.mem :=
  let ⟨h', m', e, hm, _⟩ := testTransducer_ok ha hs hnd hl hn (memoAfter_good A history)
  ⟨h', m', e, hm⟩

example : SortedTerms [sABC, sAC, sCA] ∧ [sABC, sAC, sCA].Nodup := by unfold SortedTerms; decide

/-- C73, the serializer: the test passes if the temporary file can be written and the terms have at most 39 000 000 characters
together.  All memory is given back. -/
theorem c73_serializer {sgn : Bool} {addr : Nat → Nat} {h : Heap} (ha : Allocator addr h)
    (h64 : ∀ k, k < h.count + 2 ^ 31 → addr k < 2 ^ 64) {terms : List Str} (hs : SortedTerms terms)
    (hlen : terms.length < 2 ^ 64) (hsum : (terms.map List.length).sum ≤ 39000000) {path : Str} {fs : Files}
    (hw : fs.writable path = true) :
    ∃ fs' h', Passes (fun fuel => testSerializer sgn addr fuel terms path fs h) (fs', h') ∧ h'.mem = h.mem :=
  testSerializer_ok ha h64 hs hlen hsum hw

/-- C73, the serializer, when it fails: an assertion of the test fails if the file cannot be written. -/
theorem c73_serializer_unwritable {sgn : Bool} {addr : Nat → Nat} {h : Heap} (ha : Allocator addr h)
    (h64 : ∀ k, k < h.count + 2 ^ 31 → addr k < 2 ^ 64) {terms : List Str} (hs : SortedTerms terms)
    (hlen : terms.length < 2 ^ 64) (hsum : (terms.map List.length).sum ≤ 39000000) {path : Str} {fs : Files}
    (hw : fs.writable path = false) :
    ∃ N, ∀ fuel, N ≤ fuel → testSerializer sgn addr fuel terms path fs h = .error .failed := by
  obtain ⟨_, _, _, _, _, _, h⟩ := testSerializer_spec (sgn := sgn) ha hs hlen path fs fun h1 d hr a hra => by
    obtain ⟨_, hf⟩ := finished_of_run ha hr
    obtain ⟨N, hN⟩ := hr
    have := sortedDawg_count (hN N (Nat.le_refl _))
    obtain ⟨j, _, _, rfl⟩ := hf.range a hra
    exact h64 j (by omega)
  exact h (.inl hw)

example : ∀ k, k < exHeap.count + 2 ^ 31 → k + 1 < 2 ^ 64 := by
  intro k hk
  have : exHeap.count = 0 := rfl
  omega

/-! ### C74: two tests assert something that is not always true -/

/-- C74: the test of the triangle inequality of `TranspositionDistance` (`test_transposition_distance.cpp:28-32`) fails for
x = "CA", y = "ABC", z = "AC", whatever was asked before. -/
theorem c74_transposition_triangle_fails (history : List (Str × Str)) :
    testTriangle .transposition sCA sABC sAC (memoAfter .transposition history) = .error .failed := by
  obtain ⟨d, d1, d2, m', h1, h2, h3, _, e⟩ := testTriangle_iff (memoAfter_good .transposition history) sCA sABC sAC
  have e1 := h1.unique (evalCost_spec .transposition (sCA.length + sABC.length) sCA sABC (Nat.le_refl _))
  have e2 := h2.unique (evalCost_spec .transposition (sCA.length + sAC.length) sCA sAC (Nat.le_refl _))
  have e3 := h3.unique (evalCost_spec .transposition (sAC.length + sABC.length) sAC sABC (Nat.le_refl _))
  rw [e, if_neg]
  rw [e1, e2, e3]
  decide

/-- C74: exactly when that test fails. -/
theorem c74_transposition_triangle_iff (history : List (Str × Str)) (x y z : Str) :
    testTriangle .transposition x y z (memoAfter .transposition history) = .error .failed ↔
      answer .transposition [] x z + answer .transposition [] z y < answer .transposition [] x y := by
  obtain ⟨d, d1, d2, m', h1, h2, h3, _, e⟩ := testTriangle_iff (memoAfter_good .transposition history) x y z
  rw [h1.unique (answer_isMinCost _ [] x y), h2.unique (answer_isMinCost _ [] x z),
    h3.unique (answer_isMinCost _ [] z y)] at e
  rw [e]
  split
  · next h => simp only [reduceCtorEq, false_iff]; omega
  · next h => simp only [true_iff]; omega

/-- "levenshtein-dist" -/
def sBar : Str := [108, 101, 118, 101, 110, 115, 104, 116, 101, 105, 110, 45, 100, 105, 115, 116]
/-- "distance" and eight more bytes -/
def sBaz : Str := [100, 105, 115, 116, 97, 110, 99, 101, 158, 96, 138, 146, 43, 112, 197, 159]

/-- C74: the test of `SymmetricPair` asserts that different pairs have different hash codes (`test_symmetric_pair.cpp:40-41`).
It fails for foo = "", bar, baz as above. -/
theorem c74_hash_assertion_fails : testSymmetricPair true [] sBar sBaz = .error .failed := by
  have h : (SymPair.make [] sBar).hash = (SymPair.make [] sBaz).hash := by decide +kernel
  rw [testSymmetricPair_eq, if_pos ⟨rfl, by decide, h⟩]

end Lev.Props
