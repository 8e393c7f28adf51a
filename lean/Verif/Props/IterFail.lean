import Verif.Proofs.IterFail
import Verif.Props.Iter
import Verif.Props.Query

/-!
# Property C93: iterators that run out of memory

`fs` says where memory runs out, iteration by iteration of the loop of `advance`; `keep t` is the number of letters of the
term `t` for which the string stream has memory.
-/

namespace Lev.Props

open Lev Spec

/-- All terms of the dictionary in the order of iteration. -/
structure IsList (sgn : Bool) (mem : Mem) (root : Nat) (all : List Str) : Prop where
  order : all.Pairwise (shortLex sgn)
  mem : ∀ t, t ∈ all ↔ Accepts mem root t

/-- As `Tree`, of any height. -/
structure Grown (sgn : Bool) (mem : Mem) (root : Nat) (nd : DNode) (F : Forest) : Prop where
  node : mem root = some nd
  unf : Unf mem nd.edges F
  sorted : F.Sorted sgn

theorem grown_of_dictionary {sgn : Bool} {mem : Mem} {root : Nat} (hd : Dictionary sgn mem root) :
    ∃ nd F, Grown sgn mem root nd F := by
  obtain ⟨nd, F, ht⟩ := hd.tree
  exact ⟨nd, F, ht.node, ht.unf, ht.sorted⟩

theorem notGone_nil (all : List Str) : notGone [] all = all := by
  unfold notGone
  exact List.filter_eq_self.2 fun t _ => by simp

theorem strays_nil : strays [] = 0 := rfl

/-- The iterator before the first call of `advance`. -/
theorem walked_start {sgn : Bool} {mem : Mem} {root : Nat} {nd : DNode} {F : Forest} (ht : Grown sgn mem root nd F)
    {paddr : Nat → Nat} {h : PHeap} (ha : PAllocator paddr h) :
    Walked sgn mem root paddr h.count h.mem F.height (finals [rootItem nd F]) (newPrefix paddr ⟨root, 0, 0⟩ h).2
      { prefixes := [(newPrefix paddr ⟨root, 0, 0⟩ h).1], pending := [(newPrefix paddr ⟨root, 0, 0⟩ h).1], value := [],
        index := 0 } [rootItem nd F] [] [] := by
  have ho := (PHeapF.start ha).new ⟨root, 0, 0⟩
  have hself : (newPrefix paddr ⟨root, 0, 0⟩ h).2.mem (newPrefix paddr ⟨root, 0, 0⟩ h).1 = some ⟨root, 0, 0⟩ := by
    simp [newPrefix]
  refine ⟨⟨[], ho, rfl⟩, .cons ⟨⟨root, 0, 0⟩, nd, hself, ht.node, rfl, ht.unf, .root hself rfl, .here⟩ .nil,
    ⟨List.pairwise_singleton _ _, fun it hit => ?_⟩, by simp [rootItem], by rw [notGone_nil]; rfl, by simp, by simp, by simp⟩
  simp only [List.mem_singleton] at hit
  subst hit
  exact ht.sorted

theorem isList_finals {sgn : Bool} {mem : Mem} {root : Nat} {nd : DNode} {F : Forest} (ht : Grown sgn mem root nd F) :
    IsList sgn mem root (finals [rootItem nd F]) :=
  ⟨finals_order ht.sorted, finals_mem ht.node ht.unf⟩

theorem iterBeginF_spec {sgn : Bool} {mem : Mem} {root : Nat} {nd : DNode} {F : Forest} (ht : Grown sgn mem root nd F)
    {paddr : Nat → Nat} {h : PHeap} (ha : PAllocator paddr h) (keep : Str → Nat) (fs : List (Option IFault)) :
    ∃ fs1 h1 it1 threw L T log, (∀ fuel, itemsWt [rootItem nd F] ≤ fuel → F.height < fuel →
        iterBeginF mem paddr keep fuel none fs root h = .ok (fs1, h1, it1, threw)) ∧
      Walked sgn mem root paddr h.count h.mem F.height (finals [rootItem nd F]) h1 it1 L T log ∧
      itemsWt L ≤ itemsWt [rootItem nd F] ∧ (threw = false → log = [] ∧ it1.index = 0 ∧ Shown keep it1 L T) := by
  have hall := nodup_of_shortLex (finals_order (nd := nd) ht.sorted)
  obtain ⟨fs1, h1, it1, x, L1, r1, r2, r3⟩ := iterAdvanceF_spec keep hall fs (walked_start ht ha)
  have hrun : ∀ fuel, itemsWt [rootItem nd F] ≤ fuel → F.height < fuel →
      iterBeginF mem paddr keep fuel none fs root h = .ok (fs1, h1, it1, x.isSome) := by
    intro fuel hf hfH
    simp only [iterBeginF, r1 fuel hf hfH, bind, Except.bind]
  rcases r3 with ⟨e, rfl, t2, t3, t4⟩ | ⟨s, rfl, t2, t3, t4, t5⟩ | ⟨rfl, t2, rfl, t4, t5⟩
  · exact ⟨fs1, h1, it1, true, L1, [], [e], hrun, t2, by omega, by simp⟩
  · refine ⟨fs1, h1, it1, false, L1, [s], [], hrun, t4, t5, fun _ => ⟨rfl, r2, by simpa using t3, by simp, fun _ => by
      simp [r2]⟩⟩
  · exact ⟨fs1, h1, it1, false, [], [], [], hrun, t5, by simp [itemsWt], fun _ => ⟨rfl, r2, by rw [t4]; simp, by simp,
      fun hc => absurd finals_nil hc⟩⟩

section
variable {sgn : Bool} {mem : Mem} {root : Nat} {paddr : Nat → Nat} {h : PHeap} {keep : Str → Nat}
  {fs : List (Option IFault)}

/-- C93, any caller: an iterator is made, and `operator++` is called `k` times; its exceptions are caught.  Whichever allocations
fail in whatever order: nothing is undefined behaviour.  If the constructor did not throw, the index counts the calls that
returned; and if this is `r`, the iterator shows the term number `r` of those that no exception made it miss, or the last of
them if there are not as many (or a beginning of the term, if the stream had no memory for all of it).  It can be destroyed,
and then there is one prefix more in memory for each exception of the kind counted by `strays`; all else is as it was. -/
theorem c93_any_caller (hd : Dictionary sgn mem root) (ha : PAllocator paddr h) :
    ∃ all fs1 h1 it1 threw, IsList sgn mem root all ∧
      Ends (fun fuel => iterBeginF mem paddr keep fuel none fs root h) (fs1, h1, it1, threw) ∧
      (threw = false → ∀ k, ∃ fs2 h2 it2 log h3,
        Ends (fun fuel => iterCallsF mem paddr keep fuel k fs1 h1 it1) (fs2, h2, it2, log.map (·.fault)) ∧
        (∀ e ∈ log, e.At mem root) ∧ it2.index + log.length = k ∧
        it2.value = (atOrLast (notGone log all) it2.index).take (keep (atOrLast (notGone log all) it2.index)) ∧
        iterDestroy h2 it2 = .ok h3 ∧ MorePrefixes h.mem h3.mem (strays (log.map (·.fault)))) := by
  obtain ⟨nd, F, ht⟩ := grown_of_dictionary hd
  have hall := nodup_of_shortLex (finals_order (nd := nd) ht.sorted)
  obtain ⟨fs1, h1, it1, threw, L, T, log, r1, r2, r3, r4⟩ := iterBeginF_spec ht ha keep fs
  refine ⟨_, fs1, h1, it1, threw, isList_finals ht, ⟨itemsWt [rootItem nd F] + F.height + 1, fun fuel hf =>
    r1 fuel (by omega) (by omega)⟩, fun h0 k => ?_⟩
  obtain ⟨rfl, h0i, hs⟩ := r4 h0
  obtain ⟨fs2, h2, it2, es, L2, T2, log2, s1, s2, s3, s4, s5, s6⟩ := iterCallsF_spec hall k fs1 r2 hs
  rw [List.nil_append] at s2
  obtain ⟨stray, b1, b2⟩ := s2.heap
  obtain ⟨h3, d1, d2⟩ := b1.destroy ha.fresh
  subst s4
  refine ⟨fs2, h2, it2, log2, h3, ⟨itemsWt [rootItem nd F] + F.height + 1, fun fuel hf => s1 fuel (by omega) (by omega)⟩,
    s2.at', by simp only [List.length_map] at s5; omega, s3.atOrLast _ s2.kept, d1, by rw [← b2]; exact d2⟩

theorem retry_grown {nd : DNode} {F : Forest} (ht : Grown sgn mem root nd F) (ha : PAllocator paddr h) (size : Nat) :
    ∃ all fs1 h1 it1 threw, IsList sgn mem root all ∧
      Ends (fun fuel => iterBeginF mem paddr keep fuel none fs root h) (fs1, h1, it1, threw) ∧
      (threw = false → ∃ h2 it2 log h3,
        Ends (fun fuel => rangeLoopF mem paddr keep fuel fuel fs1 h1 it1 (iterEnd size)) ((List.range size).map (fun r =>
          (atOrLast (notGone log all) r).take (keep (atOrLast (notGone log all) r))), h2, it2, log.map (·.fault)) ∧
        (∀ e ∈ log, e.At mem root) ∧
        iterDestroy h2 it2 = .ok h3 ∧ MorePrefixes h.mem h3.mem (strays (log.map (·.fault)))) := by
  have hall := nodup_of_shortLex (finals_order (nd := nd) ht.sorted)
  obtain ⟨fs1, h1, it1, threw, L, T, log, r1, r2, r3, r4⟩ := iterBeginF_spec ht ha keep fs
  refine ⟨_, fs1, h1, it1, threw, isList_finals ht, ⟨itemsWt [rootItem nd F] + F.height + 1, fun fuel hf =>
    r1 fuel (by omega) (by omega)⟩, fun h0 => ?_⟩
  obtain ⟨rfl, h0i, hs⟩ := r4 h0
  obtain ⟨h2, it2, es, L2, T2, log2, s1, s2, s3, s4⟩ := rangeLoopF_spec hall size fs1 r2 hs size (by omega)
  rw [List.nil_append] at s2
  simp only [List.nil_append] at s1
  obtain ⟨stray, b1, b2⟩ := s2.heap
  obtain ⟨h3, d1, d2⟩ := b1.destroy ha.fresh
  subst s4
  refine ⟨h2, it2, log2, h3, ⟨itemsWt [rootItem nd F] + F.height + size + 1, fun fuel hf => ?_⟩, s2.at', d1,
    by rw [← b2]; exact d2⟩
  simp only
  rw [s1 fuel fuel (by omega) (by omega) (by omega), h0i, List.range_eq_range']

/-- C93, the caller who tries again: a loop over the terms in which `operator++` is called again whenever it throws ends, for
any claimed size, and shows one term after the other of those no exception made it miss, then the last one again and again. -/
theorem c93_retry (hd : Dictionary sgn mem root) (ha : PAllocator paddr h) (size : Nat) :
    ∃ all fs1 h1 it1 threw, IsList sgn mem root all ∧
      Ends (fun fuel => iterBeginF mem paddr keep fuel none fs root h) (fs1, h1, it1, threw) ∧
      (threw = false → ∃ h2 it2 log h3,
        Ends (fun fuel => rangeLoopF mem paddr keep fuel fuel fs1 h1 it1 (iterEnd size)) ((List.range size).map (fun r =>
          (atOrLast (notGone log all) r).take (keep (atOrLast (notGone log all) r))), h2, it2, log.map (·.fault)) ∧
        (∀ e ∈ log, e.At mem root) ∧
        iterDestroy h2 it2 = .ok h3 ∧ MorePrefixes h.mem h3.mem (strays (log.map (·.fault)))) := by
  obtain ⟨nd, F, ht⟩ := grown_of_dictionary hd
  exact retry_grown ht ha size

/-- The terms one after the other, then the last one again and again. -/
theorem range_atOrLast (L : List Str) (n : Nat) (h : L.length ≤ n) :
    (List.range n).map (fun r => atOrLast L r) = L ++ List.replicate (n - L.length) (L.getLast?.getD []) := by
  refine List.ext_getElem? fun i => ?_
  rw [List.getElem?_map]
  by_cases hi : i < n
  · rw [List.getElem?_range hi, Option.map_some]
    unfold atOrLast
    by_cases hl : i < L.length
    · rw [List.getElem?_append_left hl, List.getElem?_eq_getElem hl]; rfl
    · rw [List.getElem?_append_right (by omega), List.getElem?_replicate, if_pos (by omega),
        List.getElem?_eq_none (by omega)]; rfl
  · rw [List.getElem?_eq_none (by simpa using Nat.le_of_not_lt hi), List.getElem?_eq_none (by simp; omega)]; rfl

/-- C93, what is missed is not noticed: a dictionary built from terms is gone through by a caller who tries again, and the stream
never fails.  The caller sees as many terms as were added: those that were not missed, and for each one missed the last
term once more. -/
theorem c93_repeats {addr : Nat → Nat} {hp hp' : Heap} {terms : List Str} {d : SDawg} (hal : Allocator addr hp)
    (hr : Ends (fun fuel => sortedDawg sgn addr fuel terms hp) (hp', some d))
    (ha : PAllocator paddr h) (hk : ∀ t, t.length ≤ keep t) :
    ∃ all fs1 h1 it1 threw, all.Nodup ∧ (∀ t, t ∈ all ↔ t ∈ terms) ∧
      Ends (fun fuel => iterBeginF hp'.mem paddr keep fuel none fs d.root h) (fs1, h1, it1, threw) ∧
      (threw = false → ∃ h2 it2 log,
        Ends (fun fuel => rangeLoopF hp'.mem paddr keep fuel fuel fs1 h1 it1 (iterEnd d.size)) (notGone log all ++
          List.replicate (terms.length - (notGone log all).length) ((notGone log all).getLast?.getD []), h2, it2,
          log.map (·.fault))) := by
  obtain ⟨_, hf⟩ := finished_of_run hal hr
  obtain ⟨nd, F, m, u, _, hso, _⟩ := hf.dict
  obtain ⟨all, fs1, h1, it1, threw, r1, r2, r3⟩ := retry_grown (keep := keep) (fs := fs) ⟨m, u, hso⟩ ha d.size
  have hmem : ∀ t, t ∈ all ↔ t ∈ terms := fun t => by rw [r1.mem, hf.accepts]
  have hnd := nodup_of_shortLex r1.order
  refine ⟨all, fs1, h1, it1, threw, hnd, hmem, r2, fun h0 => ?_⟩
  obtain ⟨h2, it2, log, h3, s1, _⟩ := r3 h0
  refine ⟨h2, it2, log, ?_⟩
  have hle : (notGone log all).length ≤ terms.length :=
    Nat.le_trans (List.length_filter_le _ _) (List.subperm_of_subset hnd fun t ht => (hmem t).1 ht).length_le
  rw [← range_atOrLast _ _ hle, ← hf.size]
  have : (List.range d.size).map (fun r => (atOrLast (notGone log all) r).take (keep (atOrLast (notGone log all) r))) =
      (List.range d.size).map (fun r => atOrLast (notGone log all) r) :=
    List.map_congr_left fun r _ => List.take_of_length_le (hk _)
  rw [← this]
  exact s1

/-- C93, an exception of the constructor: nobody destroys the prefixes that were made.  All of them stay in memory; what was
there is as it was. -/
theorem c93_constructor (hd : Dictionary sgn mem root) (ha : PAllocator paddr h) (b : Option IPlace) :
    ∃ fs1 h1 it1 threw, Ends (fun fuel => iterBeginF mem paddr keep fuel b fs root h) (fs1, h1, it1, threw) ∧
      (b ≠ none → threw = true ∧ h1.count = h.count + (if b = some .make then 0 else 1)) ∧
      (b = none → h.count < h1.count) ∧
      (∀ a p, h.mem a = some p → h1.mem a = some p) ∧
      ∀ a, (h.mem a = none ∧ h1.mem a ≠ none) ↔ ∃ k, h.count ≤ k ∧ k < h1.count ∧ a = paddr k := by
  have key : ∀ {h1 : PHeap} {l stray : List Nat}, PHeapF paddr h.count h.mem h1 l stray →
      (∀ a p, h.mem a = some p → h1.mem a = some p) ∧
      ∀ a, (h.mem a = none ∧ h1.mem a ≠ none) ↔ ∃ k, h.count ≤ k ∧ k < h1.count ∧ a = paddr k := by
    intro h1 l stray ho
    refine ⟨fun a p hp => ?_, fun a => ⟨fun hc => Classical.byContradiction fun hn => ?_, ?_⟩⟩
    · rw [ho.old a fun k k1 k2 k3 => ?_]
      · exact hp
      · rw [k3, ha.fresh k k1] at hp; cases hp
    · exact hc.2 ((ho.old a fun k k1 k2 k3 => hn ⟨k, k1, k2, k3⟩).trans hc.1)
    · rintro ⟨k, k1, k2, rfl⟩
      exact ⟨ha.fresh k k1, ho.live k k1 k2⟩
  cases b with
  | some p =>
    refine ⟨fs, (failPrefix paddr ⟨root, 0, 0⟩ h ⟨[], [], [], 0⟩ p).1, (failPrefix paddr ⟨root, 0, 0⟩ h ⟨[], [], [], 0⟩ p).2,
      true, ⟨0, fun _ _ => rfl⟩, fun _ => ⟨rfl, by cases p <;> rfl⟩, (by simp), ?_⟩
    cases p with
    | make => exact key (PHeapF.start ha)
    | store => exact key ((PHeapF.start ha).leak _)
    | queue => exact key ((PHeapF.start ha).leak _)
  | none =>
    obtain ⟨nd, F, ht⟩ := grown_of_dictionary hd
    obtain ⟨fs1, h1, it1, threw, L, T, log, r1, r2, r3, r4⟩ := iterBeginF_spec ht ha keep fs
    obtain ⟨stray, b1, _⟩ := r2.heap
    refine ⟨fs1, h1, it1, threw, ⟨itemsWt [rootItem nd F] + F.height + 1, fun fuel hf => r1 fuel (by omega) (by omega)⟩,
      by simp, fun _ => ?_, key b1⟩
    have hl := b1.owned.length_eq
    have hb := b1.base
    have := List.length_pos_iff.2 r2.own
    simp only [List.length_append, List.length_map, List.length_range'] at hl
    omega

end

/-- C93, no failure: when no allocation fails, the constructor and `operator++` are those of the other properties. -/
theorem c93_no_failure (mem : Mem) (paddr : Nat → Nat) (keep : Str → Nat) (hk : ∀ t, t.length ≤ keep t) (fuel root : Nat)
    (h : PHeap) : iterBeginF mem paddr keep fuel none [] root h =
      (iterBegin mem paddr fuel root h).map (fun r => ([], r.1, r.2, false)) ∧
    ∀ it, iterNextF mem paddr keep fuel [] h it =
      (iterNext mem paddr fuel h it).map fun r => ([], r.1, r.2, none) := by
  have hl : ∀ fuel h it, iterLoopF mem paddr fuel [] h it =
      (iterLoop mem paddr fuel h it).map fun r => ([], r.1, r.2.1, .node r.2.2.1 r.2.2.2) := by
    intro fuel
    induction fuel with
    | zero => intros; rfl
    | succ fuel ih =>
      intro h it
      simp only [iterLoopF, iterLoop]
      cases it.pending with
      | nil => rfl
      | cons a rest =>
        simp only
        cases h.mem a with
        | none => rfl
        | some p =>
          simp only
          cases deref mem p.node with
          | error e => rfl
          | ok nd =>
            simp only [bind, Except.bind, List.headD_nil, IFault.atEdge, pushEdgesF_none, Bool.false_eq_true, if_false,
              List.tail_nil, reduceCtorEq, and_false]
            by_cases hc : nd.final = false ∧ (pushEdges paddr a nd.edges h
                { prefixes := it.prefixes, pending := rest, value := it.value, index := it.index }).2.pending ≠ []
            · rw [if_pos hc, if_pos hc]; exact ih _ _
            · rw [if_neg hc, if_neg hc]; rfl
  have hadv : ∀ h it, iterAdvanceF mem paddr keep fuel [] h it =
      (iterAdvance mem paddr fuel h it).map fun r => ([], r.1, r.2, none) := by
    intro h it
    simp only [iterAdvanceF, iterAdvance]
    split
    · rfl
    · rw [hl]
      cases iterLoop mem paddr fuel h it with
      | error e => rfl
      | ok r =>
        obtain ⟨h', it', a, fin⟩ := r
        simp only [Except.map, bind, Except.bind]
        cases fin with
        | false => rfl
        | true =>
          simp only [if_true]
          cases prefixStr h'.mem fuel a with
          | error e => rfl
          | ok s => simp only [List.take_of_length_le (hk s)]
  refine ⟨?_, fun it => ?_⟩
  · simp only [iterBeginF, iterBegin, hadv]
    cases iterAdvance mem paddr fuel _ _ with
    | error e => rfl
    | ok r => rfl
  · simp only [iterNextF, iterNext, hadv]
    cases iterAdvance mem paddr fuel h it with
    | error e => rfl
    | ok r => rfl

/-! ### The dictionary {"", "ab", "abc", "cb", "cbc"} -/

/-- A loop over the terms by a caller who tries again: the terms, the exceptions, and the number of prefixes in memory in the
end. -/
def exRangeF (keep : Str → Nat) (fs : List (Option IFault)) : Except Err (List Str × List IFault × Nat) := do
  let (fs, h1, it1, _) ← iterBeginF exMem (fun k => k + 1) keep 100 none fs 0 { mem := fun _ => none, count := 0 }
  let (rs, h2, it2, es) ← rangeLoopF exMem (fun k => k + 1) keep 100 100 fs h1 it1 (iterEnd 5)
  let h3 ← iterDestroy h2 it2
  .ok (rs, es, ((List.range 50).filter fun a => (h3.mem a).isSome).length)

set_option synthInstance.maxSize 1000 in
/-- C93, trying again does not help: the second iteration looks at the node of "a".  When its edge can not be followed, "ab" and
"abc" are lost, and "cbc" is shown three times instead.  When the string "ab" can not be made, only this term is lost.  When
the new prefix can not be stored, it stays in memory as well.  When the stream has memory for one letter only, no
exception is thrown. -/
theorem c93_loses : exRangeF (fun _ => 9) [] = .ok ([[], [97, 98], [99, 98], [97, 98, 99], [99, 98, 99]], [], 0) ∧
    exRangeF (fun _ => 9) [none, some (.edge 0 .make)] =
      .ok ([[], [99, 98], [99, 98, 99], [99, 98, 99], [99, 98, 99]], [.edge 0 .make], 0) ∧
    exRangeF (fun _ => 9) [none, some (.edge 0 .store)] =
      .ok ([[], [99, 98], [99, 98, 99], [99, 98, 99], [99, 98, 99]], [.edge 0 .store], 1) ∧
    exRangeF (fun _ => 9) [none, some (.edge 0 .queue)] =
      .ok ([[], [99, 98], [99, 98, 99], [99, 98, 99], [99, 98, 99]], [.edge 0 .queue], 0) ∧
    exRangeF (fun _ => 9) [none, none, none, some .text] =
      .ok ([[], [99, 98], [97, 98, 99], [99, 98, 99], [99, 98, 99]], [.text], 0) ∧
    exRangeF (fun _ => 1) [] = .ok ([[], [97], [99], [97], [99]], [], 0) := by decide +kernel

set_option synthInstance.maxSize 1000 in
/-- An exception in the constructor, and the number of prefixes that stay in memory. -/
example : (do
    let (_, h1, _, threw) ← iterBeginF exMem (fun k => k + 1) (fun _ => 9) 100 none [some (.edge 1 .make)] 0
      { mem := fun _ => none, count := 0 }
    .ok (threw, ((List.range 50).filter fun a => (h1.mem a).isSome).length)) = (.ok (true, 2) : Except Err (Bool × Nat)) := by
  decide +kernel

end Lev.Props
