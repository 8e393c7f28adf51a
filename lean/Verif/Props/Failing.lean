import Verif.Proofs.Failing
import Verif.Proofs.Alloc
import Verif.Props.Query

/-!
# C90: queries that run out of memory
-/

namespace Lev.Props

open Lev Spec

/-- The candidates of a query: the accepted terms within the distance, by length and then lexicographically. -/
structure IsAnswer (A : Algorithm) (sgn : Bool) (mem : Mem) (root : Nat) (q : Str) (n : Nat) (out : List (Str × Nat)) :
    Prop where
  mem : ∀ t d, (t, d) ∈ out ↔ Accepts mem root t ∧ IsMinCost A q t d ∧ d ≤ n
  order : out.Pairwise fun a b => shortLex sgn a.1 b.1

theorem isAnswer_allOut {A : Algorithm} {sgn : Bool} {mem : Mem} {root : Nat} {nd : DNode} {F : Forest}
    (ht : Tree sgn mem root nd F) (q : Str) (n : Nat) : IsAnswer A sgn mem root q n (allOut A n q nd F) :=
  ⟨ht.mem_allOut, ht.allOut_order⟩

theorem keptOf_eq (log : List Thrown) (l : List (Str × Nat)) :
    keptOf log l = l.filter fun r => decide (∀ e ∈ log, ¬ Misses e r.1) := by
  unfold keptOf
  congr 1
  funext r
  rw [Bool.eq_iff_iff]
  simp [missed]

/-- C90, the caller who tries again: a transducer is built on any dictionary in any memory, a query is started, and the
caller goes through the candidates, calling `operator++` again whenever it throws.  Whichever allocations fail in whatever
order: nothing is undefined behaviour and the loop ends.  If the constructor did not throw, the caller sees exactly the
candidates that no exception made the query miss, in the right order.  Then the query and the transducer are destroyed
without undefined behaviour, and there is one more state in memory for each exception of the kinds listed in `Leaves`; without
any of these, memory is as it was. -/
theorem c90_retry {paddr saddr : SMem → Nat} (hA : SAlloc paddr saddr) (first : Bool) {sgn : Bool}
    {mem : Mem} {root : Nat} (hd : Dictionary sgn mem root) (A : Algorithm) {R : Type} (upd : Str → Nat → R)
    {m : SMem} (hm : m.Finite) :
    ∃ s0 m0 N, newTransducer paddr saddr m = .ok (s0, m0) ∧ ∀ fuel, N ≤ fuel → ∀ (dflt : R) (q : Str) (n : Nat)
      (fs : List (Option Fault)), QueryFits n q → n < 2 ^ 64 →
      ∃ fs' m1 Q log0, queryBeginF (heapBackendF paddr saddr first A n q.length) mem upd fuel fs dflt m0 root s0 q n =
          .ok (fs', m1, Q, log0) ∧
        (log0 = [] → ∃ m2 Q2 log out m3 m4,
          queryCollectF (heapBackendF paddr saddr first A n q.length) mem upd fuel fs' m1 Q = .ok (m2, Q2,
            (out.filter fun r => decide (∀ e ∈ log, ¬ Misses e r.1)).map (fun r => upd r.1 r.2), log) ∧
          IsAnswer A sgn mem root q n out ∧ destroyQuery Q2.owned m2 = .ok m3 ∧ deleteState s0 m3 = .ok m4 ∧
          LeftBehind m m4 log) := by
  obtain ⟨m0, s0, e, hrep, hacc0⟩ := newTransducer_ok hA hm
  obtain ⟨nd, F, ht⟩ := hd.tree
  refine ⟨s0, m0, F.wt + 3, e, fun fuel hf dflt q n fs hq hn => ?_⟩
  have hn' : n ≤ sizeMax := by have := sizeMax_val; omega
  have hB := heapBackendF_ok hA first A n q.length
  obtain ⟨fs', m1, Q, log0, e1, hg, hok⟩ := queryBeginF_spec (upd := upd) hB hn' (by omega) fuel fs dflt ht hrep (by omega)
  refine ⟨fs', m1, Q, log0, e1, fun h0 => ?_⟩
  obtain ⟨P, ch, hinv, hap, hw, hcase⟩ := hok h0
  subst h0
  obtain ⟨m2, Q2, log, e2, hlog, hah, hcm, hg2⟩ := queryCollectF_spec (upd := upd) hB hn' (by omega) ht.height fuel fs' hinv hap
    (by omega) (fun _ => by omega)
  have hI := garbage_stable hA first A n q.length m [s0]
  obtain ⟨g, hb, hacc⟩ := (hg.trans hg2).inv _ hI [] ⟨m, LeftBehind.refl m, by simpa using hacc0⟩
  simp only [List.nil_append] at hb
  obtain ⟨m3, e3, hacc3, _⟩ := (hacc.perm List.perm_append_comm).destroy
  obtain ⟨m4, e4, hacc4, _⟩ := hacc3.delete
  obtain ⟨h1, h2⟩ := hacc4.all
  refine ⟨m2, Q2, log, allOut A n q nd F, m3, m4, ?_, isAnswer_allOut ht q n, e3, e4, ?_⟩
  · rw [e2, ← keptOf_eq]
    rcases hcase with ⟨c1, t, d, _, c3, c4⟩ | ⟨c1, c2, _⟩
    · rw [if_neg (by simp [c1]), c4 log hah, c3]; rfl
    · rw [if_pos c1, c2]; rfl
  · obtain ⟨b1, b2, b3, b4⟩ := hb
    refine ⟨fun hc => by rw [h1]; exact b1 hc, fun hc => by rw [h2]; exact b2 hc, ?_, fun hc => by rw [h1, h2]; exact b4 hc⟩
    rw [h2]; exact b3

/-- C90, failures nobody hears of: memory may also run out inside the stream that makes the string of a candidate, which
throws nothing.  Of each term `t` any number `keep t` of letters may have been written then.  All is as before, but the
caller sees beginnings of the terms, each with the distance of the whole term. -/
theorem c90_cut_text {paddr saddr : SMem → Nat} (hA : SAlloc paddr saddr) (first : Bool) {sgn : Bool}
    {mem : Mem} {root : Nat} (hd : Dictionary sgn mem root) (A : Algorithm) {R : Type} (upd : Str → Nat → R)
    (keep : Str → Nat) {m : SMem} (hm : m.Finite) :
    ∃ s0 m0 N, newTransducer paddr saddr m = .ok (s0, m0) ∧ ∀ fuel, N ≤ fuel → ∀ (dflt : R) (q : Str) (n : Nat)
      (fs : List (Option Fault)), QueryFits n q → n < 2 ^ 64 →
      ∃ fs' m1 Q log0, queryBeginF (heapBackendF paddr saddr first A n q.length) mem (cutUpd keep upd) fuel fs dflt m0 root
          s0 q n = .ok (fs', m1, Q, log0) ∧
        (log0 = [] → ∃ m2 Q2 log out m3 m4,
          queryCollectF (heapBackendF paddr saddr first A n q.length) mem (cutUpd keep upd) fuel fs' m1 Q = .ok (m2, Q2,
            (out.filter fun r => decide (∀ e ∈ log, ¬ Misses e r.1)).map (fun r => upd (r.1.take (keep r.1)) r.2), log) ∧
          IsAnswer A sgn mem root q n out ∧ destroyQuery Q2.owned m2 = .ok m3 ∧ deleteState s0 m3 = .ok m4 ∧
          LeftBehind m m4 log) :=
  c90_retry hA first hd A (cutUpd keep upd) hm

/-- C90, the caller who takes the exception for the end: after an exception `operator==` says that the query is at its end.
A caller who catches the exception and goes on with the test of the loop sees the first candidates of the right answer
and stops, or all of it if there was no exception; memory is as for the caller who tries again. -/
theorem c90_goes_on {paddr saddr : SMem → Nat} (hA : SAlloc paddr saddr) (first : Bool) {sgn : Bool}
    {mem : Mem} {root : Nat} (hd : Dictionary sgn mem root) (A : Algorithm) {R : Type} (upd : Str → Nat → R)
    {m : SMem} (hm : m.Finite) :
    ∃ s0 m0 N, newTransducer paddr saddr m = .ok (s0, m0) ∧ ∀ fuel, N ≤ fuel → ∀ (dflt : R) (q : Str) (n : Nat)
      (fs : List (Option Fault)), QueryFits n q → n < 2 ^ 64 →
      ∃ fs' m1 Q log0, queryBeginF (heapBackendF paddr saddr first A n q.length) mem upd fuel fs dflt m0 root s0 q n =
          .ok (fs', m1, Q, log0) ∧
        (log0 = [] → ∃ m2 Q2 rs log out m3 m4,
          queryCollectStop (heapBackendF paddr saddr first A n q.length) mem upd fuel fs' m1 Q = .ok (m2, Q2, rs, log) ∧
          IsAnswer A sgn mem root q n out ∧ rs <+: out.map (fun r => upd r.1 r.2) ∧ (out ≠ [] → rs ≠ []) ∧
          (log = [] → rs = out.map fun r => upd r.1 r.2) ∧
          destroyQuery Q2.owned m2 = .ok m3 ∧ deleteState s0 m3 = .ok m4 ∧ LeftBehind m m4 log) := by
  obtain ⟨m0, s0, e, hrep, hacc0⟩ := newTransducer_ok hA hm
  obtain ⟨nd, F, ht⟩ := hd.tree
  refine ⟨s0, m0, F.wt + 3, e, fun fuel hf dflt q n fs hq hn => ?_⟩
  have hn' : n ≤ sizeMax := by have := sizeMax_val; omega
  have hB := heapBackendF_ok hA first A n q.length
  obtain ⟨fs', m1, Q, log0, e1, hg, hok⟩ := queryBeginF_spec (upd := upd) hB hn' (by omega) fuel fs dflt ht hrep (by omega)
  refine ⟨fs', m1, Q, log0, e1, fun h0 => ?_⟩
  obtain ⟨P, ch, hinv, hap, hw, hcase⟩ := hok h0
  subst h0
  obtain ⟨m2, Q2, rs, log, e2, hcm, hpre, hne, hg2, _, hall⟩ := queryCollectStop_spec (upd := upd) hB hn' (by omega) ht.height fuel fs'
    hinv hap (by omega) (fun _ => by omega)
  have hI := garbage_stable hA first A n q.length m [s0]
  obtain ⟨g, hb, hacc⟩ := (hg.trans hg2).inv _ hI [] ⟨m, LeftBehind.refl m, by simpa using hacc0⟩
  simp only [List.nil_append] at hb
  obtain ⟨m3, e3, hacc3, _⟩ := (hacc.perm List.perm_append_comm).destroy
  obtain ⟨m4, e4, hacc4, _⟩ := hacc3.delete
  obtain ⟨h1, h2⟩ := hacc4.all
  refine ⟨m2, Q2, rs, log, allOut A n q nd F, m3, m4, e2, isAnswer_allOut ht q n, ?_, ?_, fun hl => ?_, e3, e4, ?_⟩
  · rcases hcase with ⟨c1, t, d, c2, c3, _⟩ | ⟨c1, c2, _⟩
    · rw [if_neg (by simp [c1]), c3] at hpre
      rw [c2]; exact hpre
    · rw [if_pos c1] at hpre
      rw [c2]; exact hpre
  · intro ho
    rcases hcase with ⟨c1, _⟩ | ⟨_, c2, _⟩
    · exact hne c1
    · exact absurd c2 ho
  · rcases hcase with ⟨c1, t, d, c2, c3, _⟩ | ⟨c1, c2, _⟩
    · rw [hall hl, if_neg (by simp [c1]), c2, c3]; rfl
    · rw [hall hl, if_pos c1, c2]; rfl
  · obtain ⟨b1, b2, b3, b4⟩ := hb
    refine ⟨fun hc => by rw [h1]; exact b1 hc, fun hc => by rw [h2]; exact b2 hc, ?_, fun hc => by rw [h1, h2]; exact b4 hc⟩
    rw [h2]; exact b3

/-- C90, an exception of the constructor: nobody destroys the states that were made for the query.  When the transducer
has been destroyed, too, memory has these states (all those the query had listed) and those of the exception itself in
addition to what it had; what it had is as it was. -/
theorem c90_constructor {paddr saddr : SMem → Nat} (hA : SAlloc paddr saddr) (first : Bool) {sgn : Bool}
    {mem : Mem} {root : Nat} (hd : Dictionary sgn mem root) (A : Algorithm) {R : Type} (upd : Str → Nat → R)
    {m : SMem} (hm : m.Finite) :
    ∃ s0 m0 N, newTransducer paddr saddr m = .ok (s0, m0) ∧ ∀ fuel, N ≤ fuel → ∀ (dflt : R) (q : Str) (n : Nat)
      (fs : List (Option Fault)), QueryFits n q → n < 2 ^ 64 →
      ∃ fs' m1 Q log0 m2, queryBeginF (heapBackendF paddr saddr first A n q.length) mem upd fuel fs dflt m0 root s0 q n =
          .ok (fs', m1, Q, log0) ∧ deleteState s0 m1 = .ok m2 ∧
        (∀ a c, m.pos a = some c → m2.pos a = some c) ∧ (∀ s h, m.st s = some h → m2.st s = some h) ∧
        ∃ L : List Nat, L.Nodup ∧
          L.length = Q.owned.length + (log0.filter fun e => decide (Leaves e.fault)).length ∧
          ∀ s, s ∈ L ↔ m.st s = none ∧ m2.st s ≠ none := by
  obtain ⟨m0, s0, e, hrep, hacc0⟩ := newTransducer_ok hA hm
  obtain ⟨nd, F, ht⟩ := hd.tree
  refine ⟨s0, m0, F.wt + 3, e, fun fuel hf dflt q n fs hq hn => ?_⟩
  have hn' : n ≤ sizeMax := by have := sizeMax_val; omega
  have hB := heapBackendF_ok hA first A n q.length
  obtain ⟨fs', m1, Q, log0, e1, hg, _⟩ := queryBeginF_spec (upd := upd) hB hn' (by omega) fuel fs dflt ht hrep (by omega)
  have hI := garbage_stable hA first A n q.length m [s0]
  obtain ⟨g, hb, hacc⟩ := hg.inv _ hI [] ⟨m, LeftBehind.refl m, by simpa using hacc0⟩
  simp only [List.nil_append] at hb
  obtain ⟨m2, e2, hacc2, _⟩ := Accounted.delete (s := s0) (o := Q.owned) hacc
  obtain ⟨L, h1, h2, h3⟩ := hb.states
  have hgs : ∀ s, g.st s ≠ none → s ∉ Q.owned := fun s hs hc => hs (hacc2.states s hc).2.1
  refine ⟨fs', m1, Q, log0, m2, e1, e2, fun a c hc => ?_, fun s h hs => ?_, Q.owned ++ L, ?_, by simp [h2], fun s => ?_⟩
  · have hc' := hb.pos hc
    rw [hacc2.pos a fun s hs l hl hal => ?_]
    · exact hc'
    · obtain ⟨_, _, l', i1, i2⟩ := hacc2.states s hs
      rw [hl.unique i1] at hal
      rw [i2 a hal] at hc'
      cases hc'
  · have hs' := hb.st hs
    rw [hacc2.st s (hgs s (by rw [hs']; simp))]
    exact hs'
  · refine List.nodup_append.2 ⟨hacc2.nodup, h1, ?_⟩
    rintro a ha b hb' rfl
    exact hgs a ((h3 a).1 hb').2 ha
  · rw [List.mem_append, h3]
    constructor
    · rintro (hs | ⟨a, b⟩)
      · obtain ⟨_, i1, l, i2, _⟩ := hacc2.states s hs
        refine ⟨?_, by rw [i2.st]; simp⟩
        cases e : m.st s with
        | none => rfl
        | some x => rw [hb.st e] at i1; cases i1
      · exact ⟨a, by rw [hacc2.st s (hgs s b)]; exact b⟩
    · rintro ⟨a, b⟩
      by_cases hs : s ∈ Q.owned
      · exact .inl hs
      · exact .inr ⟨a, by rw [← hacc2.st s hs]; exact b⟩

/-- C90, what the caller sees after an exception: the query says it is at its end, and still holds the candidate it held
before.  This is so after any number of calls, thrown or not. -/
theorem c90_after_throw {sgn : Bool} {mem : Mem} {root : Nat} (hd : Dictionary sgn mem root) (A : Algorithm) {R : Type}
    (upd : Str → Nat → R) : ∃ N, ∀ fuel, N ≤ fuel → ∀ (dflt : R) (q : Str) (n k : Nat) (fs : List (Option Fault)),
      QueryFits n q → n < 2 ^ 64 →
      ∃ fs1 Q1 log1, queryBeginF (listBackendF A n q.length) mem upd fuel fs dflt () root initialState q n =
          .ok (fs1, (), Q1, log1) ∧
        (log1 = [] → ∃ fs2 Q2 fs3 Q3 log, queryCallsF (listBackendF A n q.length) mem upd fuel k fs1 () Q1 =
            .ok (fs2, (), Q2) ∧
          queryAdvanceF (listBackendF A n q.length) mem upd fuel fs2 () Q2 = .ok (fs3, (), Q3, log) ∧
          (log ≠ [] → Q3.complete = true ∧ Q3.cand = Q2.cand)) := by
  obtain ⟨nd, F, ht⟩ := hd.tree
  refine ⟨F.wt + 3, fun fuel hf dflt q n k fs hq hn => ?_⟩
  have hn' : n ≤ sizeMax := by have := sizeMax_val; omega
  have hB := listBackendF_ok A n q.length
  obtain ⟨fs1, m1, Q1, log1, e1, hg, hok⟩ := queryBeginF_spec (upd := upd) (s0 := initialState) (m := ()) hB hn' (by omega)
    fuel fs dflt ht rfl (by omega)
  refine ⟨fs1, Q1, log1, e1, fun h0 => ?_⟩
  obtain ⟨P, ch, hinv, hap, hw, hcase⟩ := hok h0
  clear hok e1 h0 hg hcase
  induction k generalizing fs1 Q1 P ch m1 with
  | zero =>
    obtain ⟨fs3, m3, Q3, P3, ch3, log, pre, e3, _, hend⟩ :=
      queryAdvanceF_spec (upd := upd) hB hn' (by omega) ht.height fuel fs1 hinv hap (by omega)
    refine ⟨fs1, Q1, fs3, Q3, log, rfl, e3, fun hl => ?_⟩
    rcases hend with ⟨_, _, c, d, _⟩ | ⟨a, _⟩ | ⟨a, _⟩
    · exact ⟨c, d⟩
    · exact absurd a hl
    · exact absurd a hl
  | succ k ih =>
    obtain ⟨fs3, m3, Q3, P3, ch3, log, pre, e3, hcall, hend⟩ :=
      queryAdvanceF_spec (upd := upd) hB hn' (by omega) ht.height fuel fs1 hinv hap (by omega)
    have hw' : workOf P3 ch3 ≤ F.wt + 1 := by
      rcases hend with ⟨_, _, _, _, e⟩ | ⟨_, _, e, _⟩ | ⟨_, _, _, _, rfl, rfl⟩
      · omega
      · omega
      · simp [workOf, itemsWt]
    obtain ⟨fs4, Q4, fs5, Q5, log', e4, e5, h⟩ := ih fs3 m3 Q3 P3 ch3 hcall.inv hcall.apart hw'
    refine ⟨fs4, Q4, fs5, Q5, log', ?_, e5, h⟩
    have e3' : queryAdvanceF (listBackendF A n q.length) mem upd fuel fs1 () Q1 = .ok (fs3, m3, Q3, log) := e3
    simp only [queryCallsF, e3', bind, Except.bind]
    exact e4

/-- C90, no failure: when no allocation fails, the constructor and `operator++` are those of the other properties. -/
theorem c90_no_failure {σ S R : Type} (B : FBackend σ S) (mem : Mem) (upd : Str → Nat → R) (fuel : Nat) (m : σ) :
    (∀ (dflt : R) root s0 q n, queryBeginF B mem upd fuel [] dflt m root s0 q n =
      (queryBegin B.toBackend mem upd fuel dflt m root s0 q n).map fun r => ([], r.1, r.2, [])) ∧
    ∀ Q : Query S R, queryAdvanceF B mem upd fuel [] m Q =
      (queryAdvance B.toBackend mem upd fuel m Q).map fun r => ([], r.1, r.2, []) :=
  ⟨fun dflt root s0 q n => queryBeginF_none B mem upd fuel dflt m root s0 q n, queryAdvanceF_none B mem upd fuel m⟩

/-! ### The dictionary {"", "ab", "abc", "cb", "cbc"} -/

/-- The query "ab" within 1, by a caller who tries again: the candidates, what was thrown, and the numbers of positions and
states in memory in the end. -/
def exRetry (fs : List (Option Fault)) : Except Err (List (Str × Nat) × List Thrown × List Thrown × Nat × Nat) := do
  let (s0, m0) ← newTransducer lowPos lowSt SMem.empty
  let B := heapBackendF lowPos lowSt true .standard 1 2
  let (fs, m1, Q, log0) ← queryBeginF B exMem updCandidate 100 fs ([], 0) m0 0 s0 [97, 98] 1
  let (m2, Q2, rs, log) ← queryCollectF B exMem updCandidate 100 fs m1 Q
  let m3 ← destroyQuery Q2.owned m2
  let m4 ← deleteState s0 m3
  .ok (rs, log0, log, ((List.range 100).filter fun a => (m4.pos a).isSome).length,
    ((List.range 100).filter fun a => (m4.st a).isSome).length)

set_option synthInstance.maxSize 1000 in
/-- C90, trying again does not help: of the three candidates of this query one is lost for good when a single allocation
fails once, be it the one of the vector, of the queue, of the list of edges, or of the string.  When the pointer to the new
intersection cannot be stored, or memory runs out during the transition, the new state is leaked as well. -/
theorem c90_loses : exRetry [] = .ok ([([97, 98], 0), ([99, 98], 1), ([97, 98, 99], 1)], [], [], 0, 0) ∧
    exRetry (List.replicate 6 none ++ [some .vector]) =
      .ok ([([97, 98], 0), ([97, 98, 99], 1)], [], [⟨.vector, [99, 98]⟩], 0, 0) ∧
    exRetry (List.replicate 6 none ++ [some .queue]) =
      .ok ([([97, 98], 0), ([97, 98, 99], 1)], [], [⟨.queue, [99, 98]⟩], 0, 0) ∧
    exRetry (List.replicate 5 none ++ [some (.edges 0)]) =
      .ok ([([97, 98], 0), ([97, 98, 99], 1)], [], [⟨.edges 0, [99, 98]⟩], 0, 0) ∧
    exRetry (List.replicate 6 none ++ [some .text]) =
      .ok ([([97, 98], 0), ([97, 98, 99], 1)], [], [⟨.text, [99, 98]⟩], 0, 0) ∧
    exRetry (List.replicate 6 none ++ [some .push]) =
      .ok ([([97, 98], 0), ([97, 98, 99], 1)], [], [⟨.push, [99, 98]⟩], 1, 1) ∧
    exRetry (List.replicate 6 none ++ [some (.trans 2)]) =
      .ok ([([97, 98], 0), ([97, 98, 99], 1)], [], [⟨.trans 2, [99, 98]⟩], 1, 1) := by decide +kernel

/-- The same query when the constructor throws: the exception, and the numbers of positions and states in memory when the
transducer has been destroyed. -/
def exConstructor (fs : List (Option Fault)) : Except Err (List Thrown × Nat × Nat) := do
  let (s0, m0) ← newTransducer lowPos lowSt SMem.empty
  let B := heapBackendF lowPos lowSt true .standard 1 2
  let (_, m1, _, log0) ← queryBeginF B exMem updCandidate 100 fs ([], 0) m0 0 s0 [97, 98] 1
  let m2 ← deleteState s0 m1
  .ok (log0, ((List.range 100).filter fun a => (m2.pos a).isSome).length,
    ((List.range 100).filter fun a => (m2.st a).isSome).length)

set_option synthInstance.maxSize 1000 in
/-- An exception in the first, the second and the fifth iteration of the constructor. -/
example : exConstructor [some (.edges 1)] = .ok ([⟨.edges 1, [99]⟩], 0, 0) ∧
    exConstructor [none, some .queue] = .ok ([⟨.queue, [97]⟩], 1, 1) ∧
    exConstructor [none, none, none, none, some .text] = .ok ([⟨.text, [97, 98]⟩], 4, 3) := by decide +kernel

/-- The caller who takes the exception for the end. -/
def exGoesOn (fs : List (Option Fault)) : Except Err (List (Str × Nat)) := do
  let B := listBackendF .standard 1 2
  let (fs, m1, Q, _) ← queryBeginF B exMem updCandidate 100 fs ([], 0) () 0 initialState [97, 98] 1
  let (_, _, rs, _) ← queryCollectStop B exMem updCandidate 100 fs m1 Q
  .ok rs

set_option synthInstance.maxSize 1000 in
/-- The query "ab" within 1 when the stream has no memory for the third letter of a term: "abc" is reported as "ab", a second
time and with the distance of "abc". -/
example : (do
    let B := listBackendF .standard 1 2
    let (fs, m1, Q, _) ← queryBeginF B exMem (cutUpd (fun _ => 2) updCandidate) 100 [] ([], 0) () 0 initialState [97, 98] 1
    let (_, _, rs, log) ← queryCollectF B exMem (cutUpd (fun _ => 2) updCandidate) 100 fs m1 Q
    .ok (rs, log)) = (.ok ([([97, 98], 0), ([99, 98], 1), ([97, 98], 1)], []) : Except Err _) := by decide +kernel

set_option synthInstance.maxSize 1000 in
example : exGoesOn [] = .ok [([97, 98], 0), ([99, 98], 1), ([97, 98, 99], 1)] ∧
    exGoesOn (List.replicate 6 none ++ [some .vector]) = .ok [([97, 98], 0)] := by decide +kernel

end Lev.Props
