import Verif.Proofs.DictSem
import Verif.Props.Query
import Batteries.Data.List.Perm

/-!
# Properties C15–C17, C20–C26, C58, C59: construction of dictionaries

`Allocator addr h` is what is assumed of memory: null is no node, and the addresses `addr h.count`,
`addr (h.count + 1)`, … that `new` will return are non-null, different, and nothing lives there.  `Ends f r` says
that the fuelled run `f` ends with `r`, without undefined behaviour and without running for ever.
-/

namespace Lev.Props

open Lev Spec

/-! ### Examples: an empty memory, and what a construction leaves -/

/-- An empty memory. -/
def exHeap : Heap := { mem := fun _ => none, count := 0 }

theorem exAllocator : Allocator (fun k => k + 1) exHeap := ⟨by simp, by simp, rfl, fun _ _ => rfl⟩

/-- Summary of a run of `sorted_dawg` on the empty memory: `size()` (`none` if `nullptr` is returned), how many of the
first 10 addresses are alive, and the answers of `contains`. -/
def exRun (sgn : Bool) (terms probes : List Str) : Except Err (Option Nat × Nat × List Bool) := do
  let (h, r) ← sortedDawg sgn (fun k => k + 1) 100 terms exHeap
  let alive := ((List.range 10).filter (fun a => (h.mem a).isSome)).length
  match r with
  | none => .ok (none, alive, [])
  | some d => do
      let answers ← probes.mapM (containsTerm h.mem d.root)
      .ok (some d.size, alive, answers)

/-- Six nodes are allocated for "ab", "b", "cb" (with the root), three stay. -/
example : exRun true [[97, 98], [98], [99, 98]] [[97, 98], [98], [99], [97]] =
    .ok (some 3, 3, [true, true, false, false]) := by decide +kernel

example : exRun true [[98], [97]] [] = .ok (none, 0, []) := by decide +kernel

/-! ### C15 -/

/-- C15: sorted input gives a dictionary, and `contains` is true exactly for the terms.  Strings of 2^31 or more
characters may be probed if no term is that long (the index of the loop is an `int`). -/
theorem c15_contains_exactly_terms (sgn : Bool) {addr : Nat → Nat} {h : Heap} {terms : List Str}
    (ha : Allocator addr h) (hs : SortedTerms terms) :
    ∃ h' d, Ends (fun fuel => sortedDawg sgn addr fuel terms h) (h', some d) ∧
      (∀ t, t.length ≤ 2 ^ 31 - 1 ∨ (∀ s ∈ terms, s.length < 2 ^ 31 - 1) →
        containsTerm h'.mem d.root t = .ok (decide (t ∈ terms))) ∧
      ∀ t, Accepts h'.mem d.root t ↔ t ∈ terms := by
  obtain ⟨h', d, h1, h2⟩ := sortedDawg_asc (sgn := sgn) ⟨ha.nonnull, ha.inj⟩ ha.null ha.fresh ((asc_nil_iff _).2 hs)
  exact ⟨h', d, h1, fun t ht => h2.contains t (by simpa using ht), h2.accepts⟩

example : SortedTerms [[], [97], [97], [97, 200], [98, 1], [200]] := by
  unfold SortedTerms; decide

/-! ### C16 -/

/-- C16: `sorted_dawg` returns `nullptr` exactly when some term is smaller than its predecessor. -/
theorem c16_rejects_exactly_unsorted (sgn : Bool) {addr : Nat → Nat} {h : Heap} (terms : List Str)
    (ha : Allocator addr h) :
    ∃ h' r, Ends (fun fuel => sortedDawg sgn addr fuel terms h) (h', r) ∧ (r = none ↔ HasDescent terms) := by
  by_cases hs : SortedTerms terms
  · obtain ⟨h', d, h1, _⟩ := sortedDawg_asc (sgn := sgn) ⟨ha.nonnull, ha.inj⟩ ha.null ha.fresh ((asc_nil_iff _).2 hs)
    exact ⟨h', _, h1, by rw [← not_sorted_iff]; simp [hs]⟩
  · obtain ⟨h', h1, _⟩ := sortedDawg_desc (sgn := sgn) ⟨ha.nonnull, ha.inj⟩ ha.null ha.fresh
      (fun h' => hs ((asc_nil_iff _).1 h'))
    exact ⟨h', _, h1, by rw [← not_sorted_iff]; simp [hs]⟩

example : HasDescent [[97], [200], [127, 255]] := ⟨[[97]], [200], [127, 255], [], rfl, .rel (by decide)⟩

/-! ### C17 -/

/-- C17: `size()` is the length of the input.  It is the number of terms in the dictionary (the length of a list of
all of them without repetition) exactly when no term was repeated. -/
theorem c17_size {sgn : Bool} {addr : Nat → Nat} {h h' : Heap} {terms : List Str} {d : SDawg}
    (ha : Allocator addr h) (hr : Ends (fun fuel => sortedDawg sgn addr fuel terms h) (h', some d)) :
    d.size = terms.length ∧
      ∀ all : List Str, all.Nodup → (∀ t, t ∈ all ↔ Accepts h'.mem d.root t) →
        (d.size = all.length ↔ terms.Nodup) := by
  by_cases hs : SortedTerms terms
  · obtain ⟨h2, d2, h3, hf⟩ := sortedDawg_asc (sgn := sgn) ⟨ha.nonnull, ha.inj⟩ ha.null ha.fresh ((asc_nil_iff _).2 hs)
    cases hr.unique h3
    refine ⟨hf.size, fun all hnd hall => ?_⟩
    simp only [hf.accepts] at hall
    rw [hf.size]
    have hsub : all ⊆ terms := fun t ht => (hall t).1 ht
    have hsub' : terms ⊆ all := fun t ht => (hall t).2 ht
    constructor
    · intro hl
      have := (List.subperm_of_subset hnd hsub).perm_of_length_le (by omega)
      exact this.nodup_iff.1 hnd
    · intro hnd'
      exact ((List.perm_ext_iff_of_nodup hnd' hnd).2 fun t => (hall t).symm).length_eq
  · obtain ⟨h2, h3, _⟩ := sortedDawg_desc (sgn := sgn) ⟨ha.nonnull, ha.inj⟩ ha.null ha.fresh
      (fun h' => hs ((asc_nil_iff _).1 h'))
    cases hr.unique h3

/-- C17, the claim without the condition is false: after "a", "a" the size is 2, and "a" is the only term. -/
theorem c17_size_counts_repetitions :
    ¬ ∀ (sgn : Bool) (addr : Nat → Nat) (h h' : Heap) (terms : List Str) (d : SDawg), Allocator addr h →
      Ends (fun fuel => sortedDawg sgn addr fuel terms h) (h', some d) →
      ∀ all : List Str, all.Nodup → (∀ t, t ∈ all ↔ Accepts h'.mem d.root t) → d.size = all.length := by
  intro hall
  obtain ⟨h', d, h1, _, h2⟩ := c15_contains_exactly_terms true exAllocator (terms := [[97], [97]])
    (by unfold SortedTerms; decide)
  have h3 := hall true _ exHeap h' _ d exAllocator h1 [[97]] (by simp) (by simp [h2])
  rw [(c17_size exAllocator h1).1] at h3
  simp at h3

/-! ### C20 -/

/-- C20: the graph is minimal. -/
theorem c20_minimal {sgn : Bool} {addr : Nat → Nat} {h h' : Heap} {terms : List Str} {d : SDawg}
    (ha : Allocator addr h) (hr : Ends (fun fuel => sortedDawg sgn addr fuel terms h) (h', some d)) (a b : Nat)
    (hra : Reaches h'.mem d.root a) (hrb : Reaches h'.mem d.root b)
    (hab : ∀ t, Accepts h'.mem a t ↔ Accepts h'.mem b t) : a = b := by
  by_cases hs : SortedTerms terms
  · obtain ⟨h2, d2, h3, hf⟩ := sortedDawg_asc (sgn := sgn) ⟨ha.nonnull, ha.inj⟩ ha.null ha.fresh ((asc_nil_iff _).2 hs)
    cases hr.unique h3
    exact hf.minimal a b hra hrb hab
  · obtain ⟨h2, h3, _⟩ := sortedDawg_desc (sgn := sgn) ⟨ha.nonnull, ha.inj⟩ ha.null ha.fresh
      (fun h' => hs ((asc_nil_iff _).1 h'))
    cases hr.unique h3

/-! ### C21, C22 -/

/-- A finished run comes from sorted terms. -/
theorem finished_of_run {sgn : Bool} {addr : Nat → Nat} {h h' : Heap} {terms : List Str} {d : SDawg}
    (ha : Allocator addr h) (hr : Ends (fun fuel => sortedDawg sgn addr fuel terms h) (h', some d)) :
    SortedTerms terms ∧ Finished sgn addr h.count h.mem terms h' d := by
  by_cases hs : SortedTerms terms
  · obtain ⟨h2, d2, h3, hf⟩ := sortedDawg_asc (sgn := sgn) ⟨ha.nonnull, ha.inj⟩ ha.null ha.fresh ((asc_nil_iff _).2 hs)
    cases hr.unique h3
    exact ⟨hs, hf⟩
  · obtain ⟨h2, h3, _⟩ := sortedDawg_desc (sgn := sgn) ⟨ha.nonnull, ha.inj⟩ ha.null ha.fresh
      (fun h' => hs ((asc_nil_iff _).1 h'))
    cases hr.unique h3

/-- C21: two dictionaries, built one after the other, are equal exactly when they have the same size and the same
terms.  Building the second does not change the first. -/
theorem c21_equality {sgn : Bool} {addr : Nat → Nat} {h h1 h2 : Heap} {terms1 terms2 : List Str} {d1 d2 : SDawg}
    (ha : Allocator addr h)
    (hr1 : Ends (fun fuel => sortedDawg sgn addr fuel terms1 h) (h1, some d1))
    (hr2 : Ends (fun fuel => sortedDawg sgn addr fuel terms2 h1) (h2, some d2)) :
    (∀ t, Accepts h2.mem d1.root t ↔ t ∈ terms1) ∧
    ∃ b, Ends (fun fuel => dawgEq h2.mem fuel d1.size d1.root d2.size d2.root) b ∧
      Ends (fun fuel => dawgEq h2.mem fuel d2.size d2.root d1.size d1.root) b ∧
      (b = true ↔ d1.size = d2.size ∧ ∀ t, t ∈ terms1 ↔ t ∈ terms2) := by
  obtain ⟨_, hf1⟩ := finished_of_run ha hr1
  obtain ⟨_, hf2⟩ := finished_of_run (hf1.allocator ha) hr2
  have hfr := hf1.frame hf2 ha.inj
  have hcl := hf1.closed
  have hacc1 : ∀ t, Accepts h2.mem d1.root t ↔ t ∈ terms1 := fun t => by
    rw [accepts_frame_iff hcl hfr .refl, hf1.accepts]
  refine ⟨hacc1, ?_⟩
  obtain ⟨n1, F1, m1, u1, t1, s1, _⟩ := hf1.dict
  obtain ⟨n2, F2, m2, u2, t2, s2, _⟩ := hf2.dict
  have u1' := u1.frame hcl hfr fun c b hb => .step m1 hb .refl
  have m1' : h2.mem d1.root = some n1 := by rw [hfr _ .refl]; exact m1
  have hlang : (n1.final = n2.final ∧ F1 = F2) ↔ ∀ t, t ∈ terms1 ↔ t ∈ terms2 := by
    simp only [← hacc1, ← hf2.accepts, accepts_iff m1' u1', accepts_iff m2 u2]
    constructor
    · rintro ⟨hf, rfl⟩ t; rw [hf]
    · intro hl
      refine ⟨?_, forest_ext s1 s2 t1 t2 fun t => ?_⟩
      · have := hl []
        simp only [AccT, true_and, Forest.acc_nil, or_false] at this
        exact Bool.eq_iff_iff.2 this
      · cases t with
        | nil => simp [Forest.acc_nil]
        | cons c u => simpa [AccT] using hl (c :: u)
  refine ⟨decide (d1.size = d2.size ∧ n1.final = n2.final ∧ F1 = F2), ⟨F1.height + 1, fun fuel hfuel => ?_⟩,
    ⟨F2.height + 1, fun fuel hfuel => ?_⟩, by rw [decide_eq_true_eq, hlang]⟩
  · unfold dawgEq
    by_cases hsz : d1.size = d2.size
    · simp only [hsz, ne_eq, not_true_eq_false, if_false, deref, m1', m2, bind, Except.bind]
      rw [nodeEq_spec hf2.null u1' u2 s1 s2 (by omega)]
      simp
    · simp [hsz]
  · unfold dawgEq
    by_cases hsz : d1.size = d2.size
    · simp only [hsz, ne_eq, not_true_eq_false, if_false, deref, m1', m2, bind, Except.bind]
      rw [nodeEq_spec hf2.null u2 u1' s2 s1 (by omega)]
      simp [eq_comm]
    · simp [hsz, Ne.symm hsz]

/-- C22: comparing two nodes of acyclic graphs ends, hashing them ends, and if they are equal the hash codes are;
likewise for dictionaries. -/
theorem c22_hash_respects_equality {sgn : Bool} {mem : Mem} (h0 : mem 0 = none) {da db a b : Nat}
    (ha : DictNode sgn mem da a) (hb : DictNode sgn mem db b) :
    ∃ x y, mem a = some x ∧ mem b = some y ∧ ∃ r hx hy,
      Ends (fun fuel => nodeEq mem fuel x y) r ∧ Ends (fun fuel => nodeHash mem fuel x) hx ∧
      Ends (fun fuel => nodeHash mem fuel y) hy ∧ (r = true → hx = hy) ∧
      ∀ size size', ∃ r' hd hd', Ends (fun fuel => dawgEq mem fuel size a size' b) r' ∧
        Ends (fun fuel => dawgHash mem fuel size a) hd ∧ Ends (fun fuel => dawgHash mem fuel size' b) hd' ∧
        (r' = true → hd = hd') := by
  obtain ⟨x, F, m1, u1, _⟩ := DictNode.unf ha
  obtain ⟨y, G, m2, u2, _⟩ := DictNode.unf hb
  have s1 := DictNode.sorted ha m1 u1
  have s2 := DictNode.sorted hb m2 u2
  refine ⟨x, y, m1, m2, decide (x.final = y.final ∧ F = G), treeHash x.final F, treeHash y.final G,
    ⟨F.height + 1, fun fuel hf => nodeEq_spec h0 u1 u2 s1 s2 (by omega)⟩,
    ⟨F.height + 1, fun fuel hf => nodeHash_spec u1 (by omega)⟩,
    ⟨G.height + 1, fun fuel hf => nodeHash_spec u2 (by omega)⟩, ?_, fun size size' => ?_⟩
  · rw [decide_eq_true_eq]
    rintro ⟨h1, rfl⟩; rw [h1]
  · refine ⟨decide (size = size' ∧ x.final = y.final ∧ F = G),
      mixByte (lowByte (treeHash x.final F)) (mixByte (lowByte (UInt64.ofNat size)) hashSeed),
      mixByte (lowByte (treeHash y.final G)) (mixByte (lowByte (UInt64.ofNat size')) hashSeed),
      ⟨F.height + 1, fun fuel hf => ?_⟩, ⟨F.height + 1, fun fuel hf => ?_⟩, ⟨G.height + 1, fun fuel hf => ?_⟩, ?_⟩
    · unfold dawgEq
      by_cases hsz : size = size'
      · simp only [hsz, ne_eq, not_true_eq_false, if_false, deref, m1, m2, bind, Except.bind]
        rw [nodeEq_spec h0 u1 u2 s1 s2 (by omega)]
        simp
      · simp [hsz]
    · simp only [dawgHash, deref, m1, bind, Except.bind, nodeHash_spec u1 (by omega : F.height < fuel), mixByte]
    · simp only [dawgHash, deref, m2, bind, Except.bind, nodeHash_spec u2 (by omega : G.height < fuel), mixByte]
    · rw [decide_eq_true_eq]
      rintro ⟨h1, h2, rfl⟩; rw [h1, h2]

/-- The two graphs may be different: here `[2]` and `[4]` have equal trees at different addresses, in one of which a
node is shared. -/
def exMem2 : Mem := fun a => match a with
  | 1 => some ⟨true, []⟩
  | 2 => some ⟨false, [(97, 1), (98, 1)]⟩
  | 3 => some ⟨true, []⟩
  | 4 => some ⟨false, [(97, 3), (98, 1)]⟩
  | _ => none

example : nodeEq exMem2 5 ⟨false, [(97, 1), (98, 1)]⟩ ⟨false, [(97, 3), (98, 1)]⟩ = .ok true := by decide +kernel

example (sgn : Bool) : DictNode sgn exMem2 2 4 := by
  refine .mk (nd := ⟨false, [(97, 3), (98, 1)]⟩) rfl (by cases sgn <;> simp [charLt, charKey]) ?_
  intro c b h
  simp at h
  rcases h with h | h <;> (rw [h.2]; exact .mk (nd := ⟨true, []⟩) rfl (by simp) (by simp))

/-! ### C23 -/

/-- C23: whatever the terms, the run ends without undefined behaviour (no access to or deletion of a dead node).
On rejection memory is as before: all nodes allocated meanwhile are deleted.  On success the nodes alive among those
allocated are exactly those reachable from the root, nothing else in memory has changed, and deleting the dictionary
ends without undefined behaviour with memory as it was before the construction. -/
theorem c23_no_leak_no_double_free (sgn : Bool) {addr : Nat → Nat} {h : Heap} (terms : List Str)
    (ha : Allocator addr h) :
    ∃ h' r, Ends (fun fuel => sortedDawg sgn addr fuel terms h) (h', r) ∧
      (r = none → ∀ a, h'.mem a = h.mem a) ∧
      ∀ d, r = some d →
        (∀ k, h.count ≤ k → k < h'.count → (h'.mem (addr k) ≠ none ↔ Reaches h'.mem d.root (addr k))) ∧
        (∀ a, (∀ k, h.count ≤ k → k < h'.count → a ≠ addr k) → h'.mem a = h.mem a) ∧
        (∀ a, Reaches h'.mem d.root a → ∃ k, h.count ≤ k ∧ k < h'.count ∧ a = addr k) ∧
        ∃ h'', Ends (fun fuel => destroyDawg fuel h' d) h'' ∧ ∀ a, h''.mem a = h.mem a := by
  by_cases hs : SortedTerms terms
  · obtain ⟨h', d, h1, hf⟩ := sortedDawg_asc (sgn := sgn) ⟨ha.nonnull, ha.inj⟩ ha.null ha.fresh ((asc_nil_iff _).2 hs)
    refine ⟨h', some d, h1, by simp, ?_⟩
    rintro _ ⟨rfl⟩
    exact ⟨fun k h2 h3 => hf.alive _ ⟨k, h2, h3, rfl⟩,
      fun a h2 => hf.old a fun ⟨k, h3, h4, h5⟩ => h2 k h3 h4 h5, hf.range, hf.destroy ha.fresh⟩
  · obtain ⟨h', h1, h2, _⟩ := sortedDawg_desc (sgn := sgn) ⟨ha.nonnull, ha.inj⟩ ha.null ha.fresh
      (fun h' => hs ((asc_nil_iff _).1 h'))
    exact ⟨h', none, h1, fun _ => h2, by simp⟩

/-! ### C24, C25 -/

/-- A call on a dictionary under construction. -/
inductive Call
  | add (term : Str)
  | remove (term : Str)

/-- A sequence of calls, with the results. -/
def runCalls (sgn : Bool) (addr : Nat → Nat) (fuel : Nat) : List Call → Heap → SDawg →
    Except Err (List Bool × Heap × SDawg)
  | [], h, d => .ok ([], h, d)
  | .add t :: cs, h, d => do
      let (r, h, d) ← addTerm sgn addr fuel t h d
      let (rs, h, d) ← runCalls sgn addr fuel cs h d
      .ok (r :: rs, h, d)
  | .remove t :: cs, h, d => do
      let (r, h, d) := removeTerm t h d
      let (rs, h, d) ← runCalls sgn addr fuel cs h d
      .ok (r :: rs, h, d)

/-- Specification: what the calls should return and which terms are taken; `last` is the last term taken. -/
def verdicts (last : Str) : List Call → List Bool × List Str
  | [] => ([], [])
  | .add t :: cs =>
      if strLess t last then (false :: (verdicts last cs).1, (verdicts last cs).2)
      else (true :: (verdicts t cs).1, t :: (verdicts t cs).2)
  | .remove _ :: cs => (false :: (verdicts last cs).1, (verdicts last cs).2)

theorem runCalls_spec {sgn : Bool} {addr : Nat → Nat} {c0 : Nat} {m0 : Mem} (ha : AddrOk addr) (calls : List Call)
    {terms : List Str} {h : Heap} {d : SDawg} (hb : Built sgn addr c0 m0 terms h d) :
    ∃ h' d', Ends (fun fuel => runCalls sgn addr fuel calls h d) ((verdicts d.prev calls).1, h', d') ∧
      Built sgn addr c0 m0 (terms ++ (verdicts d.prev calls).2) h' d' := by
  induction calls generalizing terms h d with
  | nil => exact ⟨h, d, .of_eq fun _ => rfl, by simpa [verdicts] using hb⟩
  | cons c cs ih =>
    cases c with
    | add t =>
      by_cases hlt : strLess t d.prev
      · obtain ⟨h', d', ⟨N, hN⟩, h2⟩ := ih hb
        refine ⟨h', d', ⟨N, fun fuel hf => ?_⟩, by simpa [verdicts, hlt] using h2⟩
        simp only [runCalls, addTerm, (strLt_iff _ _).2 hlt, if_true, bind, Except.bind, hN fuel hf, verdicts, hlt]
      · obtain ⟨h1, d1, ⟨N1, hN1⟩, hb1⟩ := addTerm_spec ha hb t ((strLt_false_iff _ _).2 hlt)
        have hprev : d1.prev = t := by rw [hb1.prev]; simp
        obtain ⟨h', d', ⟨N, hN⟩, h2⟩ := ih hb1
        rw [hprev] at hN h2
        refine ⟨h', d', ⟨max N N1, fun fuel hf => ?_⟩, by simpa [verdicts, hlt] using h2⟩
        simp only [runCalls, hN1 fuel (by omega), bind, Except.bind, hN fuel (by omega), verdicts, hlt, if_false]
    | remove t =>
      obtain ⟨h', d', ⟨N, hN⟩, h2⟩ := ih hb
      refine ⟨h', d', ⟨N, fun fuel hf => ?_⟩, by simpa [verdicts] using h2⟩
      simp only [runCalls, removeTerm, bind, Except.bind, hN fuel hf, verdicts]

/-- C24: after `init` and any calls of `add` and `remove`, each call has returned what it should (an `add` false
exactly when its term is smaller than the last one taken), a further `add` of a smaller term returns false and
leaves everything as it is, one of another term returns true, and finishing gives a dictionary of exactly the terms
taken. -/
theorem c24_rejected_add_changes_nothing (sgn : Bool) {addr : Nat → Nat} {h : Heap} (ha : Allocator addr h)
    (calls : List Call) :
    ∃ h' d', Ends (fun fuel => runCalls sgn addr fuel calls (newDawg addr h).1 (initDawg (newDawg addr h).2))
        ((verdicts [] calls).1, h', d') ∧
      d'.size = (verdicts [] calls).2.length ∧
      (∀ t, strLess t ((verdicts [] calls).2.getLast?.getD []) →
        ∀ fuel, addTerm sgn addr fuel t h' d' = .ok (false, h', d')) ∧
      (∀ t, ¬ strLess t ((verdicts [] calls).2.getLast?.getD []) →
        ∃ h'' d'', Ends (fun fuel => addTerm sgn addr fuel t h' d') (true, h'', d'')) ∧
      ∃ h1 d1 h2 d2, Ends (fun fuel => finishDawg sgn fuel h' d') (h1, d1) ∧
        Ends (fun fuel => cleanUp fuel h1 d1) (h2, d2) ∧
        ∀ t, Accepts h2.mem d2.root t ↔ t ∈ (verdicts [] calls).2 := by
  have haddr : AddrOk addr := ⟨ha.nonnull, ha.inj⟩
  obtain ⟨h', d', h1, hb⟩ := runCalls_spec haddr calls (newDawg_built (sgn := sgn) haddr ha.null ha.fresh)
  have hp : (initDawg (newDawg addr h).2).prev = [] := rfl
  rw [hp] at h1 hb
  simp only [List.nil_append] at hb
  refine ⟨h', d', h1, hb.size, fun t ht fuel => ?_, fun t ht => ?_, ?_⟩
  · rw [← hb.prev] at ht
    simp only [addTerm, (strLt_iff _ _).2 ht, if_true]
  · rw [← hb.prev] at ht
    obtain ⟨h2, d2, h3, _⟩ := addTerm_spec haddr hb t ((strLt_false_iff _ _).2 ht)
    exact ⟨h2, d2, h3⟩
  · obtain ⟨h1, d1, h2, d2, hr1, hr2, hf⟩ := finish_spec haddr hb
    exact ⟨h1, d1, h2, d2, hr1, hr2, hf.accepts⟩

example : verdicts [] [.add [98], .add [97], .remove [98], .add [98, 97], .add [98]] =
    ([true, false, false, true, false], [[98], [98, 97]]) := by decide

/-- C25: `remove` returns false and changes nothing; so any calls of it may be left out of a history of calls. -/
theorem c25_remove_does_nothing (sgn : Bool) (addr : Nat → Nat) (fuel : Nat) (h : Heap) (d : SDawg) :
    (∀ t, removeTerm t h d = (false, h, d)) ∧
    ∀ calls rs h' d', runCalls sgn addr fuel calls h d = .ok (rs, h', d') →
      ∃ rs', runCalls sgn addr fuel (calls.filter fun c => match c with | .add _ => true | .remove _ => false) h d =
        .ok (rs', h', d') := by
  refine ⟨fun _ => rfl, fun calls => ?_⟩
  induction calls generalizing h d with
  | nil => intro rs h' d' hr; exact ⟨rs, hr⟩
  | cons c cs ih =>
    intro rs h' d' hr
    cases c with
    | add t =>
      simp only [runCalls, bind, Except.bind] at hr
      simp only [List.filter, runCalls, bind, Except.bind]
      cases h1 : addTerm sgn addr fuel t h d with
      | error e => rw [h1] at hr; cases hr
      | ok x =>
        obtain ⟨b, h2, d2⟩ := x
        rw [h1] at hr
        simp only at hr ⊢
        cases h3 : runCalls sgn addr fuel cs h2 d2 with
        | error e => rw [h3] at hr; cases hr
        | ok y =>
          obtain ⟨bs, h4, d4⟩ := y
          rw [h3] at hr
          simp only [Except.ok.injEq, Prod.mk.injEq] at hr
          obtain ⟨_, rfl, rfl⟩ := hr
          obtain ⟨rs', h5⟩ := ih h2 d2 _ _ _ h3
          exact ⟨b :: rs', by rw [h5]⟩
    | remove t =>
      simp only [runCalls, removeTerm, bind, Except.bind] at hr
      simp only [List.filter]
      cases h3 : runCalls sgn addr fuel cs h d with
      | error e => rw [h3] at hr; cases hr
      | ok y =>
        obtain ⟨bs, h4, d4⟩ := y
        rw [h3] at hr
        simp only [Except.ok.injEq, Prod.mk.injEq] at hr
        obtain ⟨_, rfl, rfl⟩ := hr
        exact ih h d _ _ _ h3

/-! ### C26 -/

/-- C26, what is wrong: on a dictionary returned by `sorted_dawg` every `add` of a non-empty term that is not smaller
than the last one is undefined behaviour (`unchecked_transitions` is null). -/
theorem c26_add_after_build_undefined {sgn : Bool} {addr : Nat → Nat} {h h' : Heap} {terms : List Str} {d : SDawg}
    (ha : Allocator addr h) (hr : Ends (fun fuel => sortedDawg sgn addr fuel terms h) (h', some d)) (t : Str)
    (hne : t ≠ []) (ht : ¬ strLess t (terms.getLast?.getD [])) (fuel : Nat) :
    addTerm sgn addr fuel t h' d = .error .ub := by
  obtain ⟨_, hf⟩ := finished_of_run ha hr
  rw [← hf.prev] at ht
  simp only [addTerm, (strLt_false_iff _ _).2 ht, Bool.false_eq_true, if_false, hne, minimize, hf.ptrs.1, bind,
    Except.bind]

/-- C26, the claim that `add` is safe on a dictionary returned by `sorted_dawg` is false. -/
theorem c26_add_after_build_unsafe :
    ¬ ∀ (sgn : Bool) (addr : Nat → Nat) (h h' : Heap) (terms : List Str) (d : SDawg), Allocator addr h →
      Ends (fun fuel => sortedDawg sgn addr fuel terms h) (h', some d) →
      ∀ t, ∃ r, Ends (fun fuel => addTerm sgn addr fuel t h' d) r := by
  intro hall
  obtain ⟨h', d, h1, _⟩ := c15_contains_exactly_terms true exAllocator (terms := [[97]]) (by unfold SortedTerms; decide)
  obtain ⟨r, N, hN⟩ := hall true _ exHeap h' _ d exAllocator h1 [98]
  have : addTerm true (fun k => k + 1) N [98] h' d = .ok r := hN N (Nat.le_refl _)
  rw [c26_add_after_build_undefined exAllocator h1 [98] (by simp) (by decide) N] at this
  cases this

/-- C26, what holds: a smaller term is rejected without effect; the empty term is taken when the last term is empty,
and then the dictionary is that of the terms with the empty one. -/
theorem c26_add_after_build_partial {sgn : Bool} {addr : Nat → Nat} {h h' : Heap} {terms : List Str} {d : SDawg}
    (ha : Allocator addr h) (hr : Ends (fun fuel => sortedDawg sgn addr fuel terms h) (h', some d)) :
    (∀ t, strLess t (terms.getLast?.getD []) → ∀ fuel, addTerm sgn addr fuel t h' d = .ok (false, h', d)) ∧
    (terms.getLast?.getD [] = [] → ∃ h'' d'', (∀ fuel, addTerm sgn addr fuel [] h' d = .ok (true, h'', d'')) ∧
      d''.size = d.size + 1 ∧ ∀ t, Accepts h''.mem d''.root t ↔ t = [] ∨ t ∈ terms) := by
  obtain ⟨hs, hf⟩ := finished_of_run ha hr
  constructor
  · intro t ht fuel
    rw [← hf.prev] at ht
    simp only [addTerm, (strLt_iff _ _).2 ht, if_true]
  · intro hl
    obtain ⟨nd, F, m1, u1, t1, s1, _⟩ := hf.dict
    have hprev : strLt [] d.prev = false := by rw [hf.prev, hl]; rfl
    refine ⟨⟨h'.mem.set d.root (some { nd with final := true }), h'.count⟩,
      { d with prev := [], size := d.size + 1 }, fun fuel => ?_, rfl, fun t => ?_⟩
    · simp only [addTerm, hprev, Bool.false_eq_true, if_false, if_true, setFinal, deref, m1, bind, Except.bind]
    · have hempty : F = .nil := by
        by_cases hF : F = .nil
        · exact hF
        · obtain ⟨t, ht⟩ := t1.exists_acc hF
          have hmem := (hf.accepts t).1 ((accepts_iff m1 u1 t).2 (.inr ht))
          have hlast : ∃ l, terms.getLast? = some l := by
            cases hg : terms.getLast? with
            | none => rw [List.getLast?_eq_none_iff.1 hg] at hmem; simp at hmem
            | some l => exact ⟨l, rfl⟩
          obtain ⟨l, hl'⟩ := hlast
          rw [hl'] at hl
          simp only [Option.getD_some] at hl
          subst hl
          obtain ⟨pre, hpre⟩ := List.getLast?_eq_some_iff.1 hl'
          rw [hpre] at hmem hs
          rcases List.mem_append.1 hmem with hm | hm
          · have := (List.pairwise_append.1 hs).2.2 t hm [] (by simp)
            cases t with
            | nil => exact absurd ht Forest.acc_nil
            | cons c u => exact absurd (List.Lex.nil) this
          · simp at hm; subst hm; exact absurd ht Forest.acc_nil
      subst hempty
      have hes : nd.edges = [] := by
        generalize nd.edges = es at u1
        cases u1; rfl
      rw [← hf.accepts t, accepts_iff m1 u1,
        accepts_iff (nd := { nd with final := true }) (F := .nil) (by simp [Mem.set]) (by simp only [hes]; exact .nil)]
      simp only [AccT, Forest.Acc, or_false, and_true]
      constructor
      · exact .inl
      · rintro (h | h)
        · exact h
        · exact h.1

/-! ### C58 -/

/-- C58, end to end: building a dictionary from sorted terms and querying it yields exactly the terms within the
maximum distance of the query, each once, with the distance which `between` reports. -/
theorem c58_build_and_query (sgn : Bool) {addr : Nat → Nat} {h : Heap} {terms : List Str} (ha : Allocator addr h)
    (hs : SortedTerms terms) (hlen : ∀ t ∈ terms, t.length < 2 ^ 62) (A : Algorithm) {q : Str} {n : Nat}
    (hq : QueryFits n q) (hn : n < 2 ^ 64) :
    ∃ h' d rs, Ends (fun fuel => sortedDawg sgn addr fuel terms h) (h', some d) ∧
      Yields A updCandidate h'.mem d.root q n rs ∧
      (∀ t k, (t, k) ∈ rs ↔ t ∈ terms ∧ answer A [] q t = k ∧ k ≤ n) ∧
      rs.Pairwise (fun a b => shortLex sgn a.1 b.1) := by
  obtain ⟨h', d, h1, hf⟩ := sortedDawg_asc (sgn := sgn) ⟨ha.nonnull, ha.inj⟩ ha.null ha.fresh ((asc_nil_iff _).2 hs)
  have hd := hf.dictionary (by simpa using hlen)
  obtain ⟨rs, h2, h3⟩ := query_exact A hd hq hn
  refine ⟨h', d, rs, h1, h2, fun t k => ?_, c37_order hd hq hn h2⟩
  rw [h3, hf.accepts]
  have hc := answer_isMinCost A [] q t
  constructor
  · rintro ⟨a, b, c⟩; exact ⟨a, hc.unique b, c⟩
  · rintro ⟨a, b, c⟩; exact ⟨a, b ▸ hc, c⟩

/-! ### C59 -/

/-- The calls `SortedDawg(); init(); add(…)…; finish(); add(…)…; finish(); clean_up()` of public functions. -/
def lateRun (sgn : Bool) (addr : Nat → Nat) (fuel : Nat) (calls late : List Call) (h : Heap) :
    Except Err (List Bool × Heap × SDawg) := do
  let (h, d) := newDawg addr h
  let (_, h, d) ← runCalls sgn addr fuel calls h (initDawg d)
  let (h, d) ← finishDawg sgn fuel h d
  let (rs, h, d) ← runCalls sgn addr fuel late h d
  let (h, d) ← finishDawg sgn fuel h d
  let (h, d) ← cleanUp fuel h d
  .ok (rs, h, d)

/-- C59: the claim that a term which `add` accepts between `finish` and `clean_up` is in the dictionary is false, as
is the claim that no other term gets in: after "ab", `finish`, "ac" the dictionary contains "c" but not "ac". -/
theorem c59_add_after_finish_adds_wrong_term :
    ¬ (∀ (sgn : Bool) (addr : Nat → Nat) (h : Heap) (s t : Str), Allocator addr h → ∀ fuel rs h' d',
      lateRun sgn addr fuel [.add s] [.add t] h = .ok (rs, h', d') → rs = [true] →
      containsTerm h'.mem d'.root t = .ok true) ∧
    ¬ (∀ (sgn : Bool) (addr : Nat → Nat) (h : Heap) (s t u : Str), Allocator addr h → ∀ fuel rs h' d',
      lateRun sgn addr fuel [.add s] [.add t] h = .ok (rs, h', d') → rs = [true] →
      containsTerm h'.mem d'.root u = .ok true → u = s ∨ u = t) := by
  have hrun : ((lateRun true (fun k => k + 1) 100 [.add [97, 98]] [.add [97, 99]] exHeap).map fun r =>
      (r.1, [[97, 99], [99]].map (containsTerm r.2.1.mem r.2.2.root))) = .ok ([true], [.ok false, .ok true]) := by
    decide +kernel
  cases h1 : lateRun true (fun k => k + 1) 100 [.add [97, 98]] [.add [97, 99]] exHeap with
  | error e => rw [h1] at hrun; cases hrun
  | ok r =>
    obtain ⟨rs, h', d'⟩ := r
    rw [h1] at hrun
    simp only [Except.map, List.map_cons, List.map_nil, Except.ok.injEq, Prod.mk.injEq, List.cons.injEq,
      and_true] at hrun
    obtain ⟨h2, h3, h4⟩ := hrun
    constructor
    · intro hall
      rw [hall true _ exHeap _ _ exAllocator _ _ _ _ h1 h2] at h3
      cases h3
    · intro hall
      have := hall true _ exHeap _ _ [99] exAllocator _ _ _ _ h1 h2 h4
      simp at this

end Lev.Props
