import Verif.Proofs.DistDepth
import Verif.Proofs.NodeDepth
import Verif.Proofs.SortDepth
import Verif.Proofs.ListProgram
import Verif.Proofs.Alloc
import Verif.Props.BuildCost
import Verif.Props.Cost

/-!
# C85: how deep the recursions go

The library recurses in nine places: `between`, `std::hash<DawgNode>`, `DawgNode::operator==`, `collect_nodes`,
`collect_edges`, the texts of a `Prefix` and of an `Intersection`, `merge_sort` and the destructor of `Position`.  The
models of all but the first take the number of calls that may be on the stack at the same time as their argument `fuel`, and
end with `diverge` if it does not suffice.
-/

namespace Lev.Props

open Spec

/-! ### Along the edges -/

/-- C85: the hash code of a node takes exactly as many nested calls as the longest string that can be read from the node
has characters, and one more. -/
theorem c85_hash {sgn : Bool} {mem : Mem} {k a L : Nat} {x : DNode} (hd : DictNode sgn mem k a) (hm : mem a = some x)
    (hL : Longest mem a L) :
    ∃ code, ∀ fuel, nodeHash mem fuel x = if L < fuel then .ok code else .error .diverge := by
  obtain ⟨F, hu, _⟩ := dict_unf hd hm
  rw [longest_height hm hu hL]
  refine ⟨treeHash x.final F, fun fuel => ?_⟩
  split
  · next h => exact nodeHash_spec hu h
  · next h => exact nodeHash_short hu (by omega)

/-- C85: the comparison of two nodes never takes more nested calls than either of their hash codes, and takes as many if
the nodes are equal. -/
theorem c85_eq {sgn : Bool} {mem : Mem} (h0 : mem 0 = none) {k a L k' a' L' : Nat} {x y : DNode}
    (hd : DictNode sgn mem k a) (hm : mem a = some x) (hL : Longest mem a L)
    (hd' : DictNode sgn mem k' a') (hm' : mem a' = some y) (hL' : Longest mem a' L') :
    ∃ r, (∀ fuel, L < fuel ∨ L' < fuel → nodeEq mem fuel x y = .ok r) ∧
      (r = true → L = L' ∧ ∀ fuel ≤ L, nodeEq mem fuel x y = .error .diverge) := by
  obtain ⟨F, hu, hs⟩ := dict_unf hd hm
  obtain ⟨G, hu', hs'⟩ := dict_unf hd' hm'
  rw [longest_height hm hu hL, longest_height hm' hu' hL']
  refine ⟨decide (x.final = y.final ∧ F = G), fun fuel h => ?_, fun h => ?_⟩
  · rcases h with h | h
    · exact nodeEq_spec h0 hu hu' hs hs' h
    · exact nodeEq_spec' h0 hu hu' hs hs' h
  · obtain ⟨h1, rfl⟩ := of_decide_eq_true h
    exact ⟨rfl, fun fuel hf => nodeEq_short h0 hu hu' hs h1 hf⟩

/-- C85: serializing a dictionary takes no more nested calls than its hash code. -/
theorem c85_serialize {sgn : Bool} {mem : Mem} {k root L : Nat} (hd : DictNode sgn mem k root) (hL : Longest mem root L)
    (size : Nat) :
    ∃ msg, Ends (fun fuel => toProto sgn mem fuel root size) msg ∧ ∀ fuel, L < fuel → toProto sgn mem fuel root size = .ok msg := by
  obtain ⟨nd, F, hm, hu, _⟩ := DictNode.unf hd
  obtain ⟨msg, h, _⟩ := toProto_height hd size hm hu
  rw [longest_height hm hu hL]
  exact ⟨msg, ⟨F.height + 1, fun fuel hf => h fuel hf⟩, h⟩

/-- C85: the longest string that can be read from a dictionary built from terms is the longest term. -/
theorem c85_built {sgn : Bool} {addr : Nat → Nat} {h h' : Heap} {terms : List Str} {d : SDawg} (ha : Allocator addr h)
    (hr : Ends (fun fuel => sortedDawg sgn addr fuel terms h) (h', some d)) {L : Nat}
    (hL : ∃ t ∈ terms, t.length = L) (hmax : ∀ t ∈ terms, t.length ≤ L) : Longest h'.mem d.root L := by
  obtain ⟨_, hf⟩ := finished_of_run ha hr
  obtain ⟨t, ht, rfl⟩ := hL
  refine ⟨?_, fun w b hw => ?_⟩
  · obtain ⟨b, hb⟩ := (hf.leads_iff t).2 (.inr ⟨t, ht, List.prefix_refl t⟩)
    exact ⟨t, b, hb, rfl⟩
  · rcases (hf.leads_iff w).1 ⟨b, hw⟩ with rfl | ⟨u, hu, hp⟩
    · exact Nat.zero_le _
    · exact Nat.le_trans hp.length_le (hmax u hu)

/-- C85: with a single term of N characters, the hash code, the comparison with itself, `collect_nodes` and
`collect_edges` all take exactly N + 1 nested calls. -/
theorem c85_word {sgn : Bool} {addr : Nat → Nat} {h h' : Heap} {t : Str} {d : SDawg} (ha : Allocator addr h)
    (hr : Ends (fun fuel => sortedDawg sgn addr fuel [t] h) (h', some d)) (size : Nat) :
    ∃ x code ns es msg, h'.mem d.root = some x ∧ ∀ fuel,
      nodeHash h'.mem fuel x = (if t.length < fuel then .ok code else .error .diverge) ∧
      nodeEq h'.mem fuel x x = (if t.length < fuel then .ok true else .error .diverge) ∧
      collectNodes h'.mem fuel d.root ([], []) = (if t.length < fuel then .ok ns else .error .diverge) ∧
      collectEdges sgn h'.mem fuel d.root [] = (if t.length < fuel then .ok es else .error .diverge) ∧
      toProto sgn h'.mem fuel d.root size = (if t.length < fuel then .ok msg else .error .diverge) := by
  have hL := c85_built ha hr (L := t.length) ⟨t, by simp, rfl⟩ (by simp)
  obtain ⟨_, hf⟩ := finished_of_run ha hr
  obtain ⟨b, hw⟩ := hf.wordNodes
  obtain ⟨x, F, hm, hu, _, hs, hd⟩ := hf.dict
  have h0 : h'.mem 0 = none := hf.null
  obtain ⟨code, hc⟩ := c85_hash hd hm hL
  obtain ⟨ids, fins, hN, _⟩ := collectNodes_spec hm hu
  obtain ⟨E, hE, _⟩ := collectEdges_spec hm hu (DictNode.closed hd) fun a n ha hn => DictNode.edges_sorted hd ha hn
  obtain ⟨msg, _, hp⟩ := c85_serialize hd hL size
  have hH := longest_height hm hu hL
  have n1 : ∀ fuel ≤ t.length, collectNodes h'.mem fuel d.root ([], []) = .error .diverge := fun fuel hfu => by
    rw [← hw.start]; exact collectNodes_word hw (by omega) (by omega) (by simp)
  have n2 : ∀ fuel ≤ t.length, collectEdges sgn h'.mem fuel d.root [] = .error .diverge := fun fuel hfu => by
    rw [← hw.start]; exact collectEdges_word hw (by omega) (by omega) (by simp)
  refine ⟨x, code, (ids, fins), E, msg, hm, fun fuel => ⟨hc fuel, ?_, ?_, ?_, ?_⟩⟩
  · split
    · next h => rw [nodeEq_spec h0 hu hu hs hs (by omega)]; simp
    · next h => exact nodeEq_short h0 hu hu hs rfl (by omega)
  · split
    · next h => exact hN fuel (by omega)
    · next h => exact n1 fuel (by omega)
  · split
    · next h => exact hE fuel (by omega)
    · next h => exact n2 fuel (by omega)
  · split
    · next h => exact hp fuel h
    · next h => simp only [toProto, n1 fuel (by omega), bind, Except.bind]

/-! ### Along the parents -/

/-- C85: the text of a `Prefix` takes exactly one nested call per character, and one more. -/
theorem c85_prefix {mem : PMem} {a : Nat} {s : Str} (h : ∃ fuel, prefixStr mem fuel a = .ok s) (fuel : Nat) :
    prefixStr mem fuel a = if s.length < fuel then .ok s else .error .diverge := by
  obtain ⟨N, h⟩ := h
  obtain ⟨h1, h2⟩ := prefixStr_depth h fuel
  split
  · next h => exact h2 h
  · next h => exact h1 (by omega)

/-- C85: the text of an `Intersection` likewise. -/
theorem c85_intersection {S : Type} {im : IMem S} {a : Nat} {s : Str} (h : ∃ fuel, interStr im fuel a = .ok s) (fuel : Nat) :
    interStr im fuel a = if s.length < fuel then .ok s else .error .diverge := by
  obtain ⟨N, h⟩ := h
  obtain ⟨h1, h2⟩ := interStr_depth h fuel
  split
  · next h => exact h2 h
  · next h => exact h1 (by omega)

/-! ### Along the positions -/

/-- C85: deleting a state nests one destructor per position (the model counts one more, for `delete nullptr`), and sorting
it takes the fewest nested calls `c` with `2^(c-1)` at least the number of positions. -/
theorem c85_state {paddr saddr : SMem → Nat} (hA : SAlloc paddr saddr) {m : SMem} (hf : m.Finite) (ps : List Pos) :
    ∃ m' s head, buildState paddr saddr ps m = .ok (s, m') ∧ m'.st s = some head ∧
      (∃ m'', ∀ fuel, deletePosLoop fuel head m' = if ps.length < fuel then .ok m'' else .error .diverge) ∧
      ∀ first cmp fuel, if 0 < fuel ∧ ps.length ≤ 2 ^ (fuel - 1)
        then ∃ r, mergeSortLoop first cmp fuel head m' = .ok r
        else mergeSortLoop first cmp fuel head m' = .error .diverge := by
  obtain ⟨m', s, l, h1, h2, h3⟩ := buildState_ok hA hf ps
  have hl : ps.length = l.length := by rw [← h3]; simp [poss]
  refine ⟨m', s, hd l 0, h1, h2.isState.st, ⟨without m' (addrs l), fun fuel => ?_⟩, fun first cmp fuel => ?_⟩
  · split
    · next h => exact deletePosLoop_ok h2.isState.linked h2.isState.nodup (by omega)
    · next h => exact deletePosLoop_short h2.isState.linked (by omega)
  · split
    · next h =>
      obtain ⟨m1, R, e, _⟩ := mergeSortLoop_ok (first := first) (cmp := cmp) (s := s) (fuel := fuel) h2.finite
        h2.isState.linked h2.isState.nodup (by omega)
      exact ⟨_, e⟩
    · next h => exact mergeSortLoop_short h2.finite h2.isState.linked h2.isState.nodup (by omega)

/-- C85: deleting a state that occurs in a query nests at most (n + 1)² destructors, or (n + 1)² + n² if there are
transpositions or merges and splits. -/
theorem c85_query_state {A : Algorithm} {n : Nat} {q w : Str} {ps : List Pos} (h : ReachState A n q w ps) (hn : n < 2 ^ 64)
    (hq : QueryFits n q) (hw : w.length < 2 ^ 62) {paddr saddr : SMem → Nat} (hA : SAlloc paddr saddr) {m : SMem}
    (hf : m.Finite) :
    ∃ m' s head m'', buildState paddr saddr ps m = .ok (s, m') ∧ m'.st s = some head ∧
      ∀ fuel, (n + 1) ^ 2 + (if A = .standard then 0 else n ^ 2) < fuel → deletePosLoop fuel head m' = .ok m'' := by
  have := c64_state_size h hn hq hw
  obtain ⟨m', s, head, h1, h2, ⟨m'', h3⟩, _⟩ := c85_state hA hf ps
  refine ⟨m', s, head, m'', h1, h2, fun fuel hfu => ?_⟩
  rw [h3, if_pos (by omega)]

/-! ### `between` -/

/-- C85: the distance of `v` and `w` never takes more nested calls than `v` and `w` have characters together (or one),
whatever is in the memo. -/
theorem c85_between (A : Algorithm) (v w : Str) (m : Memo) :
    (betweenC A v w).flat = between A v w ∧ (betweenC A v w).depth m ≤ max 1 (v.length + w.length) :=
  ⟨betweenC_flat A v w, betweenC_depth A v w m⟩

/-- C85: and there are words of all lengths for which it takes that many. -/
theorem c85_between_attained (A : Algorithm) {n k : Nat} (hn : 0 < n) (hk : 0 < k) :
    ∃ v w, v.length = n ∧ w.length = k ∧ (betweenC A v w).depth [] = v.length + w.length := by
  refine ⟨List.replicate n 97, List.replicate k 98, by simp, by simp, Nat.le_antisymm ?_ ?_⟩
  · have := betweenC_depth A (List.replicate n 97) (List.replicate k 98) []
    simp only [List.length_replicate] at this ⊢
    omega
  · obtain ⟨n, rfl⟩ : ∃ m, n = m + 1 := ⟨n - 1, by omega⟩
    obtain ⟨k, rfl⟩ : ∃ m, k = m + 1 := ⟨k - 1, by omega⟩
    have := betweenC_deep A (a := 97) (b := 98) (by decide) n k
    simp only [List.length_replicate]
    omega

/-! ### Examples -/

-- A state of 256 positions takes 256 nested destructors (and `delete nullptr`), and is sorted with nine nested calls.
example : ∃ m' s head m'' r, buildState lowPos lowSt (List.replicate 256 ⟨1, 2, false⟩) .empty = .ok (s, m') ∧
    m'.st s = some head ∧ deletePosLoop 257 head m' = .ok m'' ∧ deletePosLoop 256 head m' = .error .diverge ∧
    mergeSortLoop true (comparePos .standard) 9 head m' = .ok r ∧
    mergeSortLoop true (comparePos .standard) 8 head m' = .error .diverge := by
  have hl : (List.replicate 256 (⟨1, 2, false⟩ : Pos)).length = 256 := List.length_replicate
  generalize List.replicate 256 (⟨1, 2, false⟩ : Pos) = ps at hl
  obtain ⟨m', s, head, h1, h2, ⟨m'', h3⟩, h4⟩ := c85_state low_alloc SMem.empty_finite ps
  have a := h4 true (comparePos .standard) 9
  have b := h4 true (comparePos .standard) 8
  rw [hl, if_pos (by decide)] at a
  rw [hl, if_neg (by decide)] at b
  obtain ⟨r, a⟩ := a
  refine ⟨m', s, head, m'', r, h1, h2, ?_, ?_, a, b⟩
  · rw [h3, hl]; rfl
  · rw [h3, hl]; rfl

/-- A word of a hundred thousand characters: hashing, comparing and serializing the dictionary nests 100001 calls. -/
example : ∃ h' d x code msg, Ends (fun fuel => sortedDawg true (fun i => i + 1) fuel [List.replicate 100000 120] exHeap)
    (h', some d) ∧ h'.mem d.root = some x ∧ nodeHash h'.mem 100000 x = .error .diverge ∧
    nodeHash h'.mem 100001 x = .ok code ∧ toProto true h'.mem 100000 d.root 1 = .error .diverge ∧
    toProto true h'.mem 100001 d.root 1 = .ok msg := by
  obtain ⟨h', d, _, h1, _⟩ := c84_word true exAllocator (List.replicate 100000 120)
  obtain ⟨x, code, _, _, msg, hm, h2⟩ := c85_word exAllocator h1 1
  simp only [List.length_replicate] at h2
  obtain ⟨a1, _, _, _, a2⟩ := h2 100000
  obtain ⟨b1, _, _, _, b2⟩ := h2 100001
  exact ⟨h', d, x, code, msg, h1, hm, a1, b1, a2, b2⟩

-- The bound on the serialization is not always attained: in this dictionary of the words "aa" and "baa", the longer way leads
-- to nodes that have been met before.
example :
    let mem : Mem := fun a => if a = 1 then some ⟨false, [(97, 2), (98, 3)]⟩ else if a = 2 then some ⟨false, [(97, 4)]⟩ else
      if a = 3 then some ⟨false, [(97, 2)]⟩ else if a = 4 then some ⟨true, []⟩ else none
    nodeHash mem 3 ⟨false, [(97, 2), (98, 3)]⟩ = .error .diverge ∧ collectNodes mem 3 1 ([], []) = .ok ([1, 2, 3, 4], [4]) := by
  decide +kernel

-- A prefix of two characters.
example :
    let mem : PMem := fun a => if a = 1 then some ⟨5, 0, 0⟩ else if a = 2 then some ⟨6, 1, 97⟩ else
      if a = 3 then some ⟨7, 2, 98⟩ else none
    prefixStr mem 3 3 = .ok [97, 98] ∧ prefixStr mem 2 3 = .error .diverge := by decide +kernel

-- An intersection of two characters.
example :
    let im : IMem Nat := ⟨fun a => if a = 1 then some ⟨0, 5, 0, 0⟩ else if a = 2 then some ⟨97, 6, 0, 1⟩ else
      if a = 3 then some ⟨98, 7, 0, 2⟩ else none, 3⟩
    interStr im 3 3 = .ok [97, 98] ∧ interStr im 2 3 = .error .diverge := by decide +kernel

/-- The distance of two words of a million characters may nest two million calls. -/
example : ∃ v w, v.length = 1000000 ∧ w.length = 1000000 ∧ (betweenC .standard v w).depth [] = 2000000 := by
  obtain ⟨v, w, h1, h2, h3⟩ := c85_between_attained .standard (n := 1000000) (k := 1000000) (by decide) (by decide)
  exact ⟨v, w, h1, h2, by omega⟩

end Lev.Props
