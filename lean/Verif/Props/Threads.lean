import Verif.Proofs.ThreadsLife
import Verif.Props.Library

/-!
# Property C69: queries in several threads

A program builds a dictionary, makes transducers and perhaps queries, and then starts threads.  Each thread makes
transducers and queries of its own and may query the transducers that are there.  Threads are interrupted by each other
between any two accesses to memory; the allocator hands out any address that is not in use at that moment.
-/

namespace Lev.Props

open Lev Spec

section
variable {paddr saddr : SMem → Nat} {iaddr : IMem Nat → Nat} {sgn : Bool} {addr : Nat → Nat} {h h1 : Heap}
  {terms : List Str} {d : SDawg} {m : SMem} {im : IMem Nat}

/-- C69: there is no undefined behaviour and no data race in any execution, and a thread that has not finished can always go
on.  When a thread has finished, its queries show what they show when it runs alone: after `k` increments the `k`-th
candidate.  When all threads have finished and each has destroyed what it has made, the memory is what it was when they
started. -/
theorem c69_threads (hA : SAlloc paddr saddr) (hI : IAlloc iaddr) (ha : Allocator addr h)
    (hr : Ends (fun fuel => sortedDawg sgn addr fuel terms h) (h1, some d)) (hlen : ∀ t ∈ terms, t.length < 2 ^ 62)
    (hm : m.Finite) (hi : im.Finite) (hn : NoNull m im) :
    ∃ N, ∀ fuel, N ≤ fuel → ∀ (first : Bool) (R : Type) (upd : Str → Nat → R) (dflt : R) (pre : List LOp)
      (opss : List (List LOp)), ThreadsOk pre opss →
      ∃ w, lifeRun paddr saddr iaddr first upd dflt d.root fuel pre ⟨h1, m, im, some d, [], []⟩ = .ok w ∧
        ∀ s, HSteps h1.mem (HSys.start first upd dflt d.root fuel w opss) s →
          ¬ s.Fault h1.mem ∧ ¬ s.Race ∧
          (∀ (i : Nat) (t : HThread (Thr.Objects R)), s.threads[i]? = some t → (∃ x, t.prog = .ret x) ∨
            ∃ s', HStep h1.mem s s' ∧ ∀ j, j ≠ i → s'.threads[j]? = s.threads[j]?) ∧
          (∀ (i : Nat) (t : HThread (Thr.Objects R)) x, s.threads[i]? = some t → t.prog = .ret x → ∃ ops, opss[i]? = some ops ∧
            ∀ j u q n, (started (pre ++ ops))[j]? = some (u, q, n) → .dropQuery j ∉ pre ++ ops →
              ∃ A Q rs, (made (pre ++ ops))[u]? = some A ∧ x.qs[j]? = some (some (A, Q)) ∧
                Yields A upd h1.mem d.root q n rs ∧ (Q.complete = true ↔ rs.length ≤ (pre ++ ops).count (.next j)) ∧
                ∀ r, rs[(pre ++ ops).count (.next j)]? = some r → Q.cand = r) ∧
          (s.Done → (∀ ops ∈ opss, OwnDropped pre ops) → s.mem = ⟨w.sm.pos, w.sm.st, w.im.cell⟩) := by
  obtain ⟨h2, nd, F, N, ht, hZ, hdead, hmem, hN⟩ := life_run hA hI ha hr hlen hm hi
  refine ⟨N, fun fuel hf first R upd dflt pre opss hok => ?_⟩
  obtain ⟨w, e, hinv⟩ := (hN fuel hf).2.2 first R upd dflt pre hok.life
  have hT := hinv.threads (first := first) (dflt := dflt) hA hI ht hZ (hN fuel hf).2.1 (hN fuel hf).1 hn hok
  have hB : (HSys.start first upd dflt d.root fuel w opss).mem.Bounded :=
    bounded_of_finite hinv.acc.states.finite hinv.acc.finite
  refine ⟨w, e, fun s hs => ?_⟩
  obtain ⟨l, o, hS⟩ := TInv.steps ⟨_, _, hT⟩ hs
  have hb := hs.bounded hB
  have hend : ∀ (i : Nat) (t : HThread (Thr.Objects R)) x, s.threads[i]? = some t → t.prog = .ret x →
      EndsWith upd d.root nd F m im h1 h2 d pre opss w i x (l i) := by
    intro i t x hi hx
    have := hS.sure i t hi
    rw [hx] at this
    exact this
  refine ⟨hS.no_fault, hS.no_race fun x => hb.free x, fun i t hi => hS.progress hb hi, fun i t x hi hx => ?_, fun hD hdr => ?_⟩
  · obtain ⟨ops, w', h3, rfl, _, hinv', _⟩ := hend i t x hi hx
    refine ⟨ops, h3, fun j u q n hst hdq => ?_⟩
    obtain ⟨A, Q, g1, g2, g3, _⟩ := hinv'.qlive j u q n hst hdq
    have hqn : QueryFits n q ∧ n < 2 ^ 64 := by
      obtain ⟨p, r, hp⟩ := List.append_of_mem (started_mem (List.mem_of_getElem? hst))
      exact ((hok.ops ops (List.mem_of_getElem? h3)).1 p _ r hp).2.2.2
    exact ⟨A, Q, _, g1, g2, ht.yields (by have := sizeMax_val; omega) hqn.1 upd, shows_candidate g3⟩
  · have hat : ∀ p, s.at p = LMem.at ⟨w.sm, w.im⟩ p := by
      intro p
      rcases Nat.eq_zero_or_pos s.threads.length with h0 | h0
      · have hopss : opss = [] := by
          have := hs.length
          rw [h0] at this
          simpa [HSys.start] using this.symm
        subst hopss
        have : s = HSys.start first upd dflt d.root fuel w [] := by
          clear hend hS hb hD
          induction hs with
          | refl => rfl
          | tail h3 h4 ih =>
            rename_i s1 s2
            have h5 : s2.threads.length = s1.threads.length := h4.length
            rw [h0] at h5
            cases h4
            simp at h5
        subst this
        cases p <;> rfl
      · cases hv : LMem.at ⟨w.sm, w.im⟩ p with
        | some v => exact hS.sub 0 p v h0 (hS.base 0 p v h0 hv).1
        | none =>
          cases hg : s.at p with
          | none => rfl
          | some v =>
            exfalso
            rcases hS.all p (by rw [hg]; simp) with h3 | ⟨i, hi', h3⟩
            · exact h3 hv
            · obtain ⟨x, hx⟩ := hD _ (List.getElem_mem hi')
              obtain ⟨ops, w', h4, _, h5, hinv', hk⟩ := hend i _ x (List.getElem?_eq_getElem hi') hx
              rw [h5] at h3
              refine hinv.left_nothing hinv' hk (hdr ops (List.mem_of_getElem? h4)) (fun p v hv => ?_) p h3 hv
              rw [← h5]
              exact (hS.base i p v hi' hv).1
    obtain ⟨⟨gp, gs, gc⟩, th⟩ := s
    simp only [GMem.mk.injEq]
    refine ⟨?_, ?_, ?_⟩
    · funext a
      have := hat (.pos a)
      simp only [HSys.at, LMem.at, GMem.view] at this
      exact Option.map_injective (fun _ _ h => by cases h; rfl) this
    · funext a
      have := hat (.st a)
      simp only [HSys.at, LMem.at, GMem.view] at this
      exact Option.map_injective (fun _ _ h => by cases h; rfl) this
    · funext a
      have := hat (.inter a)
      simp only [HSys.at, LMem.at, GMem.view] at this
      exact Option.map_injective (fun _ _ h => by cases h; rfl) this

/-- C69, termination: no execution goes on for ever, and every execution can be continued until all threads have finished. -/
theorem c69_terminates (hA : SAlloc paddr saddr) (hI : IAlloc iaddr) (ha : Allocator addr h)
    (hr : Ends (fun fuel => sortedDawg sgn addr fuel terms h) (h1, some d)) (hlen : ∀ t ∈ terms, t.length < 2 ^ 62)
    (hm : m.Finite) (hi : im.Finite) (hn : NoNull m im) :
    ∃ N, ∀ fuel, N ≤ fuel → ∀ (first : Bool) (R : Type) (upd : Str → Nat → R) (dflt : R) (pre : List LOp)
      (opss : List (List LOp)), ThreadsOk pre opss →
      ∃ w, lifeRun paddr saddr iaddr first upd dflt d.root fuel pre ⟨h1, m, im, some d, [], []⟩ = .ok w ∧
        (∀ f : Nat → HSys (Thr.Objects R), f 0 = HSys.start first upd dflt d.root fuel w opss →
          ¬ ∀ k, HStep h1.mem (f k) (f (k + 1))) ∧
        ∀ s, HSteps h1.mem (HSys.start first upd dflt d.root fuel w opss) s → ∃ s', HSteps h1.mem s s' ∧ s'.Done := by
  obtain ⟨h2, nd, F, N, ht, hZ, hdead, hmem, hN⟩ := life_run hA hI ha hr hlen hm hi
  refine ⟨N, fun fuel hf first R upd dflt pre opss hok => ?_⟩
  obtain ⟨w, e, hinv⟩ := (hN fuel hf).2.2 first R upd dflt pre hok.life
  have hT := hinv.threads (first := first) (dflt := dflt) hA hI ht hZ (hN fuel hf).2.1 (hN fuel hf).1 hn hok
  have hB : (HSys.start first upd dflt d.root fuel w opss).mem.Bounded :=
    bounded_of_finite hinv.acc.states.finite hinv.acc.finite
  refine ⟨w, e, fun f _ hf' => ?_, fun s hs => TInv.finish (TInv.steps ⟨_, _, hT⟩ hs) (hs.bounded hB)⟩
  have key : ∀ s, Acc (fun s' s => HStep h1.mem s s') s → ∀ k, f k ≠ s := by
    intro s hs
    induction hs with
    | intro s _ ih =>
      rintro k rfl
      exact ih _ (hf' k) (k + 1) rfl
  exact key _ (HStep.acc (f 0)) 0 rfl

end

/-- C69 with C68: whatever the other threads do, the candidates of a query in a thread are exactly the terms whose distance
from the query is at most the maximum distance, with their distances, by length and then in the order of `char`, none twice. -/
theorem c69_candidates {paddr saddr : SMem → Nat} {iaddr : IMem Nat → Nat} {addr : Nat → Nat} {h : Heap}
    {terms : List Str} {m : SMem} {im : IMem Nat} (sgn first : Bool) (hA : SAlloc paddr saddr) (hI : IAlloc iaddr)
    (ha : Allocator addr h) (hs : SortedTerms terms) (hlen : ∀ t ∈ terms, t.length < 2 ^ 62) (hm : m.Finite)
    (hi : im.Finite) (hn : NoNull m im) (dflt : Str × Nat) :
    ∃ h1 d N, Ends (fun fuel => sortedDawg sgn addr fuel terms h) (h1, some d) ∧ ∀ fuel, N ≤ fuel → ∀ pre opss,
      ThreadsOk pre opss →
      ∃ w, lifeRun paddr saddr iaddr first updCandidate dflt d.root fuel pre ⟨h1, m, im, some d, [], []⟩ = .ok w ∧
        ∀ s, HSteps h1.mem (HSys.start first updCandidate dflt d.root fuel w opss) s →
          ∀ (i : Nat) (t : HThread (Thr.Objects (Str × Nat))) x, s.threads[i]? = some t → t.prog = .ret x →
            ∃ ops, opss[i]? = some ops ∧
              ∀ j u q n, (started (pre ++ ops))[j]? = some (u, q, n) → .dropQuery j ∉ pre ++ ops →
                ∃ A Q, ∃ rs : List (Str × Nat), (made (pre ++ ops))[u]? = some A ∧ x.qs[j]? = some (some (A, Q)) ∧
                  (Q.complete = true ↔ rs.length ≤ (pre ++ ops).count (.next j)) ∧
                  (∀ r, rs[(pre ++ ops).count (.next j)]? = some r → Q.cand = r) ∧
                  (∀ v c, (v, c) ∈ rs ↔ v ∈ terms ∧ IsMinCost A q v c ∧ c ≤ n) ∧
                  rs.Pairwise (fun a b => shortLex sgn a.1 b.1) ∧ (rs.map Prod.fst).Nodup := by
  obtain ⟨h1, d, hr, hf⟩ := sortedDawg_asc (sgn := sgn) ⟨ha.nonnull, ha.inj⟩ ha.null ha.fresh ((asc_nil_iff _).2 hs)
  have hd : Dictionary sgn h1.mem d.root := hf.dictionary (by simpa using hlen)
  obtain ⟨N, hN⟩ := c69_threads hA hI ha hr hlen hm hi hn
  refine ⟨h1, d, N, hr, fun fuel hf' pre opss hok => ?_⟩
  obtain ⟨w, e, hT⟩ := hN fuel hf' first _ updCandidate dflt pre opss hok
  refine ⟨w, e, fun s hst i t x hi hx => ?_⟩
  obtain ⟨ops, h3, hq⟩ := (hT s hst).2.2.2.1 i t x hi hx
  refine ⟨ops, h3, fun j u q n hs' hdq => ?_⟩
  obtain ⟨A, Q, rs, g1, g2, g3, g4, g5⟩ := hq j u q n hs' hdq
  have hst : QueryFits n q ∧ n < 2 ^ 64 := by
    obtain ⟨p, r, hp⟩ := List.append_of_mem (started_mem (List.mem_of_getElem? hs'))
    exact ((hok.ops ops (List.mem_of_getElem? h3)).1 p _ r hp).2.2.2
  obtain ⟨rs', r1, r2⟩ := query_exact A hd hst.1 hst.2
  have := g3.unique r1
  subst this
  exact ⟨A, Q, rs, g1, g2, g4, g5, fun s c => by rw [r2, hf.accepts], c37_order hd hst.1 hst.2 g3,
    c35_no_duplicates hd hst.1 hst.2 g3⟩

/-! ### Examples -/

/-- The lowest free address. -/
def lowAddr (x : Access) (l : LMem) : Nat :=
  ((List.range 200).find? fun a => decide (a ≠ 0) && (x.loc a).all fun p => (l.at p).isNone).getD 0

/-- Thread `i` makes one access. -/
def stepThread {α : Type} (nodes : Mem) (i : Nat) (s : HSys α) : Option (HSys α) :=
  match s.threads[i]? with
  | some ⟨.act x k, c, ic⟩ =>
      let new := lowAddr x (s.mem.view c ic)
      if !x.isNew || (decide (new ≠ 0) && (x.loc new).all fun p => ((s.mem.view c ic).at p).isNone) then
        match x.perform nodes new (s.mem.view c ic) with
        | .ok (r, l) => some ⟨⟨l.sm.pos, l.sm.st, l.im.cell⟩,
            s.threads.take i ++ ⟨k r, l.sm.count, l.im.count⟩ :: s.threads.drop (i + 1)⟩
        | .error _ => none
      else none
  | _ => none

theorem stepThread_step {α : Type} {nodes : Mem} {i : Nat} {s s' : HSys α} (h : stepThread nodes i s = some s') :
    HStep nodes s s' := by
  unfold stepThread at h
  split at h
  · rename_i x k c ic ht
    dsimp only at h
    split at h
    · rename_i hc
      split at h
      · rename_i r l hp
        cases h
        obtain ⟨hi, he⟩ := List.getElem?_eq_some_iff.1 ht
        have hsplit : s.threads = s.threads.take i ++ ⟨.act x k, c, ic⟩ :: s.threads.drop (i + 1) := by
          rw [← he]; simp
        have hf : x.Fresh (lowAddr x (s.mem.view c ic)) (s.mem.view c ic) := by
          intro hx
          simp only [hx, Bool.not_true, Bool.false_or, Bool.and_eq_true, decide_eq_true_eq, Option.all_eq_true] at hc
          exact ⟨hc.1, fun p hp => by simpa using hc.2 p hp⟩
        have := HStep.step (nodes := nodes) s.mem (s.threads.take i) (s.threads.drop (i + 1)) x k c ic _ r l hf hp
        rwa [← hsplit] at this
      · cases h
    · cases h
  · cases h

/-- Threads make accesses in the given order; a thread that has finished is skipped. -/
def schedule {α : Type} (nodes : Mem) : List Nat → HSys α → HSys α
  | [], s => s
  | i :: is, s => schedule nodes is ((stepThread nodes i s).getD s)

theorem schedule_steps {α : Type} {nodes : Mem} : ∀ (is : List Nat) (s : HSys α), HSteps nodes s (schedule nodes is s)
  | [], s => .refl s
  | i :: is, s => by
    rw [schedule]
    cases h : stepThread nodes i s with
    | none => exact schedule_steps is s
    | some s' => exact .head (stepThread_step h) (schedule_steps is s')

/-- The dictionary {"ab", "b", "cb"}; the threads are started after `pre` and make accesses in the order `is`. -/
def exThreads (pre : List LOp) (opss : List (List LOp)) (is : List Nat) : Except Err (HSys (Thr.Objects (Str × Nat)) × Mem) := do
  let (h, r) ← sortedDawg true (fun k => k + 1) 100 [[97, 98], [98], [99, 98]] exHeap
  match r with
  | none => .error .ub
  | some d => do
      let w ← lifeRun lowPos lowSt lowInt true updCandidate ([], 0) d.root 100 pre ⟨h, SMem.empty, emptyInt, some d, [], []⟩
      .ok (schedule h.mem is (HSys.start true updCandidate ([], 0) d.root 100 w opss), h.mem)

/-- What the queries of the threads show, and how many of the first 100 addresses are in use; `none` for a thread that has
not finished. -/
def shownBy (e : Except Err (HSys (Thr.Objects (Str × Nat)) × Mem)) :
    Option (List (Option (List (Option (Option (Str × Nat))))) × List Nat) :=
  match e with
  | .error _ => none
  | .ok (s, _) => some
      (s.threads.map fun t => match t.prog with
        | .ret x => some (x.qs.map (Option.map fun Q => if Q.2.complete then none else some Q.2.cand))
        | _ => none,
       [((List.range 100).filter fun a => (s.mem.pos a).isSome).length, ((List.range 100).filter fun a => (s.mem.st a).isSome).length,
        ((List.range 100).filter fun a => (s.mem.cell a).isSome).length])

/-- Both threads query the transducer made before; the second also makes one of its own and destroys it. -/
def exPre : List LOp := [.transducer .standard]
def exOpss : List (List LOp) :=
  [[.start 0 [98] 1, .next 0], [.transducer .transposition, .start 1 [98, 97] 1, .start 0 [98] 1, .dropQuery 0, .dropTransducer 1]]

theorem exThreads_ok : ThreadsOk exPre exOpss := by
  refine ⟨lifeOk_of (by decide), by decide, fun ops ho => ?_⟩
  simp only [exOpss, List.mem_cons, List.not_mem_nil, or_false] at ho
  rcases ho with rfl | rfl
  · refine ⟨lifeOk_of (by decide), ?_⟩
    simp [OwnOp, exPre, started, made]
  · refine ⟨lifeOk_of (by decide), ?_⟩
    simp [OwnOp, exPre, started, made]

example : NoNull SMem.empty emptyInt ∧ SMem.empty.Finite ∧ emptyInt.Finite :=
  ⟨⟨rfl, rfl, rfl⟩, ⟨⟨[], by simp, by simp [SMem.empty]⟩, [], by simp, by simp [SMem.empty]⟩, emptyInt_finite⟩

set_option maxRecDepth 100000 in
set_option synthInstance.maxSize 10000 in
/-- The threads take turns, or the first is interrupted by the second after 100 accesses: both finish, the result is the same. -/
example :
    shownBy (exThreads exPre exOpss ((List.range 900).map (· % 2))) =
      some ([some [some (some ([97, 98], 1))], some [none, some (some ([98], 0))]], [10, 7, 7]) ∧
    shownBy (exThreads exPre exOpss (List.replicate 100 0 ++ List.replicate 500 1 ++ List.replicate 200 0)) =
      some ([some [some (some ([97, 98], 1))], some [none, some (some ([98], 0))]], [10, 7, 7]) := by decide +kernel

/-- Threads 0 and 1 are about to access the same object, one of them to change it. -/
def raceNow {α : Type} (s : HSys α) : Bool :=
  match s.threads with
  | [⟨.act x _, _, _⟩, ⟨.act x' _, _, _⟩] => x.touches.isSome && decide (x.touches = x'.touches) && (x.writes || x'.writes)
  | _ => false

theorem raceNow_race {α : Type} {s : HSys α} (h : raceNow s = true) : s.Race := by
  unfold raceNow at h
  split at h
  · rename_i x k c ic x' k' c' ic' ht
    simp only [Bool.and_eq_true, decide_eq_true_eq, Bool.or_eq_true] at h
    obtain ⟨⟨h1, h2⟩, h3⟩ := h
    obtain ⟨p, hp⟩ := Option.isSome_iff_exists.1 h1
    exact ⟨[], [], [], _, _, x, k, x', k', p, ht, rfl, rfl, hp, h2 ▸ hp, h3⟩
  · cases h

/-- Thread 0 is about to access an object that does not exist. -/
def faultNow {α : Type} (nodes : Mem) (s : HSys α) : Bool :=
  match s.threads with
  | ⟨.act x _, c, ic⟩ :: _ => !x.isNew && (match x.perform nodes 0 (s.mem.view c ic) with | .error _ => true | .ok _ => false)
  | _ => false

theorem faultNow_fault {α : Type} {nodes : Mem} {s : HSys α} (h : faultNow nodes s = true) : s.Fault nodes := by
  unfold faultNow at h
  split at h
  · rename_i x k c ic post ht
    simp only [Bool.and_eq_true, Bool.not_eq_true'] at h
    obtain ⟨h1, h2⟩ := h
    split at h2
    · rename_i e he
      refine ⟨⟨.act x k, c, ic⟩, by rw [ht]; simp, Or.inr ⟨x, k, 0, e, rfl, fun hx => ?_, he⟩⟩
      rw [h1] at hx; cases hx
    · cases h2
  · cases h

/-- Why threads must not destroy shared transducers: the second thread destroys the transducer that the first queries. -/
def exBad : List (List LOp) := [[.start 0 [98] 1], [.dropTransducer 0]]

/-- C69, the limits: if a thread destroys a transducer that another queries, there are executions with a data race and
executions in which the other thread reads a deleted object. -/
theorem c69_shared_transducer_destroyed :
    (∃ h d w, sortedDawg true (fun k => k + 1) 100 [[97, 98], [98], [99, 98]] exHeap = .ok (h, some d) ∧
      lifeRun lowPos lowSt lowInt true updCandidate ([], 0) d.root 100 exPre ⟨h, SMem.empty, emptyInt, some d, [], []⟩ = .ok w ∧
      (∃ s, HSteps h.mem (HSys.start true updCandidate ([], 0) d.root 100 w exBad) s ∧ s.Race) ∧
      ∃ s, HSteps h.mem (HSys.start true updCandidate ([], 0) d.root 100 w exBad) s ∧ s.Fault h.mem) := by
  have key : (match sortedDawg true (fun k => k + 1) 100 [[97, 98], [98], [99, 98]] exHeap with
      | .ok (h, some d) =>
        match lifeRun lowPos lowSt lowInt true updCandidate ([], 0) d.root 100 exPre ⟨h, SMem.empty, emptyInt, some d, [], []⟩ with
        | .ok w =>
          raceNow (schedule h.mem (List.replicate 6 1) (HSys.start true updCandidate ([], 0) d.root 100 w exBad)) &&
          faultNow h.mem (schedule h.mem (List.replicate 20 1) (HSys.start true updCandidate ([], 0) d.root 100 w exBad))
        | _ => false
      | _ => false) = true := by decide +kernel
  split at key
  · rename_i h d hd
    split at key
    · rename_i w hw
      simp only [Bool.and_eq_true] at key
      exact ⟨h, d, w, hd, hw, ⟨_, schedule_steps _ _, raceNow_race key.1⟩, _, schedule_steps _ _, faultNow_fault key.2⟩
    · cases key
  · cases key

end Lev.Props
