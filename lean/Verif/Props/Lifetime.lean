import Verif.Proofs.LifetimeUB
import Verif.Props.Iter
import Verif.Props.Session

/-!
# Properties C55, C56, C57: lifetimes, copies and comparison of objects

A dictionary `d` is built from sorted terms; a program makes transducers on it, starts, advances and destroys queries, and
destroys transducers and dictionary.  Intersections, states, positions and nodes are objects in memory; the allocators may
hand out addresses of objects that were deleted.
-/

namespace Lev.Props

open Lev Spec

section
variable {paddr saddr : SMem → Nat} {iaddr : IMem Nat → Nat} {sgn : Bool} {addr : Nat → Nat} {h h1 : Heap}
  {terms : List Str} {d : SDawg} {R : Type} {upd : Str → Nat → R} {dflt : R} {m : SMem} {im : IMem Nat}

theorem life_core (ha : Allocator addr h) (hr : Ends (fun fuel => sortedDawg sgn addr fuel terms h) (h1, some d))
    (hlen : ∀ t ∈ terms, t.length < 2 ^ 62) :
    ∃ h2 nd F N, Tree sgn h1.mem d.root nd F ∧ Closed h1.mem (Reaches h1.mem d.root) ∧
      (∀ x, Reaches h1.mem d.root x → h2.mem x = none) ∧ (∀ a, h2.mem a = h.mem a) ∧
      ∀ fuel, N ≤ fuel → F.wt + 3 ≤ fuel ∧ destroyDawg fuel h1 d = .ok h2 := by
  obtain ⟨_, hf⟩ := finished_of_run ha hr
  obtain ⟨nd, F, ht⟩ := (hf.dictionary (by simpa using hlen)).tree
  obtain ⟨h2, ⟨N, e⟩, e2⟩ := hf.destroy ha.fresh
  refine ⟨h2, nd, F, max N (F.wt + 3), ht, hf.closed, fun x hx => ?_, e2, fun fuel hfu => ⟨by omega, e fuel (by omega)⟩⟩
  obtain ⟨k, hk, _, rfl⟩ := hf.range x hx
  rw [e2]
  exact ha.fresh k hk

theorem shows_candidate {nd : DNode} {F : Forest} {A : Algorithm} {q : Str} {n k : Nat} {Q : PQuery R}
    (hs : Shows A upd nd F q n k Q) :
    (Q.complete = true ↔ ((allOut A n q nd F).map fun r => upd r.1 r.2).length ≤ k) ∧
      ∀ r, ((allOut A n q nd F).map fun r => upd r.1 r.2)[k]? = some r → Q.cand = r := by
  rw [List.length_map, ← List.drop_eq_nil_iff, List.getElem?_map, ← List.head?_drop]
  rcases hs with ⟨c1, _, t, d, r, c2, c3⟩ | ⟨c1, c2, _⟩
  · rw [c2]
    simp [c1, c3]
  · rw [c2]
    simp [c1]

/-- The bound on the number of steps in C55–C57: enough for the dictionary. -/
theorem life_run (hA : SAlloc paddr saddr) (hI : IAlloc iaddr) (ha : Allocator addr h)
    (hr : Ends (fun fuel => sortedDawg sgn addr fuel terms h) (h1, some d)) (hlen : ∀ t ∈ terms, t.length < 2 ^ 62)
    (hm : m.Finite) (hi : im.Finite) :
    ∃ h2 nd F N, Tree sgn h1.mem d.root nd F ∧ Closed h1.mem (Reaches h1.mem d.root) ∧
      (∀ x, Reaches h1.mem d.root x → h2.mem x = none) ∧ (∀ a, h2.mem a = h.mem a) ∧
      ∀ fuel, N ≤ fuel → F.wt + 3 ≤ fuel ∧ destroyDawg fuel h1 d = .ok h2 ∧
        ∀ (first : Bool) (R : Type) (upd : Str → Nat → R) (dflt : R) (ops : List LOp), LifeOk ops →
          ∃ w, lifeRun paddr saddr iaddr first upd dflt d.root fuel ops ⟨h1, m, im, some d, [], []⟩ = .ok w ∧
            LifeInv upd d.root nd F m im h1 h2 d (doneBy ops) w := by
  obtain ⟨h2, nd, F, N, ht, hZ, hdead, hmem, hN⟩ := life_core ha hr hlen
  refine ⟨h2, nd, F, N, ht, hZ, hdead, hmem, fun fuel hf => ⟨(hN fuel hf).1, (hN fuel hf).2, fun first R upd dflt ops hok => ?_⟩⟩
  have := lifeRun_ok (first := first) (upd := upd) (dflt := dflt) hA hI ht hZ (hN fuel hf).2 hm hi (hN fuel hf).1 ops.reverse
    (by simpa using hok)
  simpa using this

theorem started_mem {t : Nat} {q : Str} {n : Nat} : ∀ {ops : List LOp}, (t, q, n) ∈ started ops → LOp.start t q n ∈ ops
  | [], h => by simp [started] at h
  | op :: ops, h => by
    cases op
    case start =>
      simp only [started, List.mem_cons, Prod.mk.injEq] at h
      rcases h with ⟨rfl, rfl, rfl⟩ | h
      · simp
      · exact List.mem_cons_of_mem _ (started_mem h)
    all_goals exact List.mem_cons_of_mem _ (started_mem (by simpa only [started] using h))

/-! ### C55 -/

/-- C55: a program that starts and advances queries only while their transducer and the dictionary are there, and that
destroys each object at most once, in any order, runs without undefined behaviour.  A query that was not destroyed shows
after `k` increments the `k`-th candidate that it yields when run alone, and is complete when there is none; that remains so
when its transducer and the dictionary are gone.  The nodes of the dictionary are those that were there before it was
built as soon as the dictionary is destroyed. -/
theorem c55_lifetimes (hA : SAlloc paddr saddr) (hI : IAlloc iaddr) (ha : Allocator addr h)
    (hr : Ends (fun fuel => sortedDawg sgn addr fuel terms h) (h1, some d)) (hlen : ∀ t ∈ terms, t.length < 2 ^ 62)
    (hm : m.Finite) (hi : im.Finite) :
    ∃ N, ∀ fuel, N ≤ fuel → ∀ (first : Bool) (R : Type) (upd : Str → Nat → R) (dflt : R) (ops : List LOp), LifeOk ops →
      ∃ w, lifeRun paddr saddr iaddr first upd dflt d.root fuel ops ⟨h1, m, im, some d, [], []⟩ = .ok w ∧
        (∀ i t q n, (started ops)[i]? = some (t, q, n) → .dropQuery i ∉ ops → ∃ A Q rs, (made ops)[t]? = some A ∧
          w.qs[i]? = some (some (A, Q)) ∧ Yields A upd h1.mem d.root q n rs ∧
          (Q.complete = true ↔ rs.length ≤ ops.count (.next i)) ∧ ∀ r, rs[ops.count (.next i)]? = some r → Q.cand = r) ∧
        (.dropDictionary ∉ ops → w.heap = h1) ∧ (.dropDictionary ∈ ops → ∀ a, w.heap.mem a = h.mem a) := by
  obtain ⟨h2, nd, F, N, ht, hZ, hdead, hmem, hN⟩ := life_run hA hI ha hr hlen hm hi
  refine ⟨N, fun fuel hf first R upd dflt ops hok => ?_⟩
  obtain ⟨w, e, hinv⟩ := (hN fuel hf).2.2 first R upd dflt ops hok
  refine ⟨w, e, fun i t q n hs hd => ?_, fun hd => (hinv.dict hd).1, fun hd a => ?_⟩
  · obtain ⟨A, Q, g1, g2, g3, _⟩ := hinv.qlive i t q n hs hd
    have hqn : QueryFits n q ∧ n < 2 ^ 64 := by
      have hmem := started_mem (List.mem_of_getElem? hs)
      obtain ⟨p, r, rfl⟩ := List.append_of_mem hmem
      exact (hok p _ r rfl).2.2.2
    exact ⟨A, Q, _, g1, g2, ht.yields (by have := sizeMax_val; omega) hqn.1 upd, shows_candidate g3⟩
  · rw [(hinv.nodict hd).1]
    exact hmem a

/-- C55, memory: when all queries and transducers were destroyed, there are no other intersections, states and positions
than before, at whatever point the dictionary was destroyed.  Nothing is leaked and nothing deleted twice. -/
theorem c55_no_leak (hA : SAlloc paddr saddr) (hI : IAlloc iaddr) (ha : Allocator addr h)
    (hr : Ends (fun fuel => sortedDawg sgn addr fuel terms h) (h1, some d)) (hlen : ∀ t ∈ terms, t.length < 2 ^ 62)
    (hm : m.Finite) (hi : im.Finite) :
    ∃ N, ∀ fuel, N ≤ fuel → ∀ (first : Bool) (R : Type) (upd : Str → Nat → R) (dflt : R) (ops : List LOp), LifeOk ops →
      AllDropped ops →
      ∃ w, lifeRun paddr saddr iaddr first upd dflt d.root fuel ops ⟨h1, m, im, some d, [], []⟩ = .ok w ∧
        w.sm.pos = m.pos ∧ w.sm.st = m.st ∧ w.im.cell = im.cell := by
  obtain ⟨h2, nd, F, N, ht, hZ, hdead, hmem, hN⟩ := life_run hA hI ha hr hlen hm hi
  refine ⟨N, fun fuel hf first R upd dflt ops hok hall => ?_⟩
  obtain ⟨w, e, hinv⟩ := (hN fuel hf).2.2 first R upd dflt ops hok
  refine ⟨w, e, ?_⟩
  have hT : tOwned w.ts = [] := by
    unfold tOwned
    rw [List.flatMap_eq_nil_iff]
    intro o ho
    obtain ⟨i, hi, rfl⟩ := List.getElem_of_mem ho
    have := hinv.tdead i (hall.2 i (by have := hinv.tlen; simp only [doneBy] at this; omega))
    rw [List.getElem?_eq_getElem hi] at this
    rw [Option.some.inj this]; rfl
  have hQ : qOwned w.qs = [] := by
    unfold qOwned
    rw [List.flatMap_eq_nil_iff]
    intro o ho
    obtain ⟨i, hi, rfl⟩ := List.getElem_of_mem ho
    have := hinv.qdead i (hall.1 i (by have := hinv.qlen; simp only [doneBy] at this; omega))
    rw [List.getElem?_eq_getElem hi] at this
    rw [Option.some.inj this]; rfl
  have hacc := hinv.acc
  rw [hT, hQ] at hacc
  exact hacc.all

/-- C55, the limits: advancing a query that is complete changes nothing and needs neither transducer nor dictionary. -/
theorem c55_complete_needs_nothing (hA : SAlloc paddr saddr) (hI : IAlloc iaddr) (ha : Allocator addr h)
    (hr : Ends (fun fuel => sortedDawg sgn addr fuel terms h) (h1, some d)) (hlen : ∀ t ∈ terms, t.length < 2 ^ 62)
    (hm : m.Finite) (hi : im.Finite) :
    ∃ N, ∀ fuel, N ≤ fuel → ∀ (first : Bool) (R : Type) (upd : Str → Nat → R) (dflt : R) (ops : List LOp), LifeOk ops →
      ∀ w, lifeRun paddr saddr iaddr first upd dflt d.root fuel ops ⟨h1, m, im, some d, [], []⟩ = .ok w →
      ∀ i A Q, w.qs[i]? = some (some (A, Q)) → Q.complete = true →
      lifeRun paddr saddr iaddr first upd dflt d.root fuel (ops ++ [.next i]) ⟨h1, m, im, some d, [], []⟩ = .ok w := by
  obtain ⟨h2, nd, F, N, ht, hZ, hdead, hmem, hN⟩ := life_run hA hI ha hr hlen hm hi
  refine ⟨N, fun fuel hf first R upd dflt ops hok w e i A Q hQ hc => ?_⟩
  obtain ⟨w', e', hinv⟩ := (hN fuel hf).2.2 first R upd dflt ops hok
  rw [e] at e'
  cases e'
  have hlt : i < (started ops).length := by
    have := (List.getElem?_eq_some_iff.1 hQ).1
    rw [hinv.qlen] at this
    exact this
  have hdq : .dropQuery i ∉ ops := fun hd => by
    have := hinv.qdead i hd
    rw [hQ] at this; cases this
  obtain ⟨A', PQ, g1, g2, g3, _⟩ := hinv.qlive i _ _ _ (List.getElem?_eq_getElem hlt) hdq
  rw [hQ] at g2
  cases g2
  have hd : (allOut A (started ops)[i].2.2 (started ops)[i].2.1 nd F).drop ((doneBy ops).cnt i) = [] := by
    rcases g3 with ⟨g, _⟩ | ⟨_, g, _⟩
    · rw [hc] at g; cases g
    · exact g
  rw [lifeRun_append, e]
  simp only [Except.bind, lifeRun, bind, hinv.next_complete (List.getElem?_eq_getElem hlt) g1 hdq hd]

/-- C55, the limits: advancing a query that shows a candidate, even the last one, is undefined behaviour when the dictionary was
destroyed. -/
theorem c55_next_without_dictionary (hA : SAlloc paddr saddr) (hI : IAlloc iaddr) (ha : Allocator addr h)
    (hr : Ends (fun fuel => sortedDawg sgn addr fuel terms h) (h1, some d)) (hlen : ∀ t ∈ terms, t.length < 2 ^ 62)
    (hm : m.Finite) (hi : im.Finite) :
    ∃ N, ∀ fuel, N ≤ fuel → ∀ (first : Bool) (R : Type) (upd : Str → Nat → R) (dflt : R) (ops : List LOp), LifeOk ops →
      .dropDictionary ∈ ops → ∀ i t q n A rs, (started ops)[i]? = some (t, q, n) → (made ops)[t]? = some A →
      .dropQuery i ∉ ops → .dropTransducer t ∉ ops → Yields A upd h1.mem d.root q n rs → ops.count (.next i) < rs.length →
      lifeRun paddr saddr iaddr first upd dflt d.root fuel (ops ++ [.next i]) ⟨h1, m, im, some d, [], []⟩ = .error .ub := by
  obtain ⟨h2, nd, F, N, ht, hZ, hdead, hmem, hN⟩ := life_run hA hI ha hr hlen hm hi
  refine ⟨N, fun fuel hf first R upd dflt ops hok hdd i t q n A rs hs hmd hdq hdt hy hlt => ?_⟩
  obtain ⟨w, e, hinv⟩ := (hN fuel hf).2.2 first R upd dflt ops hok
  obtain ⟨A', PQ, g1, g2, g3, g4⟩ := hinv.qlive i t q n hs hdq
  obtain ⟨a, Q, k1, k2, P, ch, k3, _, hq, hn, _⟩ := g4 hdt
  haveI : Inhabited R := ⟨dflt⟩
  have hrs := hy.unique (ht.yields (by have := sizeMax_val; omega) hq upd)
  have hmore : (allOut A n q nd F).drop ((doneBy ops).cnt i) ≠ [] := by
    rw [Ne, List.drop_eq_nil_iff]
    rw [hrs, List.length_map] at hlt
    simp only [doneBy]
    omega
  rw [lifeRun_append, e]
  simp only [Except.bind, lifeRun, bind,
    hinv.next_noDictionary (first := first) (dflt := dflt) hA hI ht hZ hdead (hN fuel hf).1 hs hmd hdq hdt hdd hmore]

/-- C55, the limits: advancing a query that has a further candidate is undefined behaviour when its transducer was destroyed.
(Provided that the allocator does not hand out the address of the deleted intersection again; a dangling pointer is then
no pointer to a new object.) -/
theorem c55_next_without_transducer (hA : SAlloc paddr saddr) (hI : IAlloc iaddr) (ha : Allocator addr h)
    (hr : Ends (fun fuel => sortedDawg sgn addr fuel terms h) (h1, some d)) (hlen : ∀ t ∈ terms, t.length < 2 ^ 62)
    (hm : m.Finite) (hi : im.Finite) :
    ∃ N, ∀ fuel, N ≤ fuel → ∀ (first : Bool) (R : Type) (upd : Str → Nat → R) (dflt : R) (ops : List LOp), LifeOk ops →
      .dropDictionary ∉ ops → ∀ w, lifeRun paddr saddr iaddr first upd dflt d.root fuel ops ⟨h1, m, im, some d, [], []⟩ = .ok w →
      ∀ i t q n A a rs, (started ops)[i]? = some (t, q, n) → .dropQuery i ∉ ops → .dropTransducer t ∉ ops →
      w.ts[t]? = some (some (A, a)) → (∀ im', w.im.count ≤ im'.count → iaddr im' ≠ a) →
      Yields A upd h1.mem d.root q n rs → ops.count (.next i) + 1 < rs.length →
      lifeRun paddr saddr iaddr first upd dflt d.root fuel (ops ++ [.dropTransducer t, .next i]) ⟨h1, m, im, some d, [], []⟩ =
        .error .ub := by
  obtain ⟨h2, nd, F, N, ht, hZ, hdead, hmem, hN⟩ := life_run hA hI ha hr hlen hm hi
  refine ⟨N, fun fuel hf first R upd dflt ops hok hdd w e i t q n A a rs hs hdq hdt hts hne hy hlt => ?_⟩
  obtain ⟨w', e', hinv⟩ := (hN fuel hf).2.2 first R upd dflt ops hok
  rw [e] at e'
  cases e'
  obtain ⟨A', PQ, g1, g2, g3, g4⟩ := hinv.qlive i t q n hs hdq
  obtain ⟨a', Q, k1, k2, P, ch, k3, _, hq, hn, _⟩ := g4 hdt
  haveI : Inhabited R := ⟨dflt⟩
  have hrs := hy.unique (ht.yields (by have := sizeMax_val; omega) hq upd)
  have hmore : (allOut A n q nd F).drop ((doneBy ops).cnt i + 1) ≠ [] := by
    rw [Ne, List.drop_eq_nil_iff]
    rw [hrs, List.length_map] at hlt
    simp only [doneBy]
    omega
  obtain ⟨w1, s1, s2⟩ := hinv.next_noTransducer (first := first) (dflt := dflt) hA hI ht hZ (hN fuel hf).1 hs hdq hdt hdd hts hne
    hmore
  rw [lifeRun_append, e]
  simp only [Except.bind, lifeRun, bind, s1, s2]

/-! ### C56 -/

/-- C56: the copy constructors that the compiler provides are not safe.  Copying a query that shows a candidate after at
least one increment, then destroying original and copy, is undefined behaviour; generally so if and only if the query has
made an intersection. -/
theorem c56_copied_query (hA : SAlloc paddr saddr) (hI : IAlloc iaddr) (ha : Allocator addr h)
    (hr : Ends (fun fuel => sortedDawg sgn addr fuel terms h) (h1, some d)) (hlen : ∀ t ∈ terms, t.length < 2 ^ 62)
    (hm : m.Finite) (hi : im.Finite) :
    ∃ N, ∀ fuel, N ≤ fuel → ∀ (first : Bool) (R : Type) (upd : Str → Nat → R) (dflt : R) (ops : List LOp), LifeOk ops →
      ∀ w, lifeRun paddr saddr iaddr first upd dflt d.root fuel ops ⟨h1, m, im, some d, [], []⟩ = .ok w →
      ∀ i A Q, w.qs[i]? = some (some (A, Q)) →
        (Q.complete = false → 0 < ops.count (.next i) → Q.owned ≠ []) ∧
        (Q.owned ≠ [] → lifeRun paddr saddr iaddr first upd dflt d.root fuel
          (ops ++ [.copy i, .dropQuery i, .dropQuery w.qs.length]) ⟨h1, m, im, some d, [], []⟩ = .error .ub) ∧
        (Q.owned = [] → ∃ w', lifeRun paddr saddr iaddr first upd dflt d.root fuel
          (ops ++ [.copy i, .dropQuery i, .dropQuery w.qs.length]) ⟨h1, m, im, some d, [], []⟩ = .ok w') := by
  obtain ⟨h2, nd, F, N, ht, hZ, hdead, hmem, hN⟩ := life_run hA hI ha hr hlen hm hi
  refine ⟨N, fun fuel hf first R upd dflt ops hok w e i A Q hQ => ?_⟩
  obtain ⟨w', e', hinv⟩ := (hN fuel hf).2.2 first R upd dflt ops hok
  rw [e] at e'
  cases e'
  have hlt : i < (started ops).length := by
    have := (List.getElem?_eq_some_iff.1 hQ).1
    rw [hinv.qlen] at this
    exact this
  have hdq : .dropQuery i ∉ ops := fun hd => by
    have := hinv.qdead i hd
    rw [hQ] at this; cases this
  obtain ⟨A', PQ, g1, g2, g3, _⟩ := hinv.qlive i _ _ _ (List.getElem?_eq_getElem hlt) hdq
  rw [hQ] at g2
  cases g2
  obtain ⟨c1, c2⟩ := hinv.copyQuery (paddr := paddr) (saddr := saddr) (iaddr := iaddr) (first := first) (dflt := dflt)
    (fuel := fuel) hQ
  refine ⟨fun hc hk => ?_, fun hne => ?_, fun ho => ?_⟩
  · rcases g3 with ⟨_, g | g, _⟩ | ⟨g, _⟩
    · exact g
    · simp only [doneBy] at g; omega
    · rw [hc] at g; cases g
  · rw [lifeRun_append, e]; exact c1 hne
  · obtain ⟨w', j1, _⟩ := c2 ho
    exact ⟨w', by rw [lifeRun_append, e]; exact j1⟩

/-- C56: copying a transducer, then destroying original and copy, is undefined behaviour. -/
theorem c56_copied_transducer (hA : SAlloc paddr saddr) (hI : IAlloc iaddr) (ha : Allocator addr h)
    (hr : Ends (fun fuel => sortedDawg sgn addr fuel terms h) (h1, some d)) (hlen : ∀ t ∈ terms, t.length < 2 ^ 62)
    (hm : m.Finite) (hi : im.Finite) :
    ∃ N, ∀ fuel, N ≤ fuel → ∀ (first : Bool) (R : Type) (upd : Str → Nat → R) (dflt : R) (ops : List LOp), LifeOk ops →
      ∀ t, t < (made ops).length → .dropTransducer t ∉ ops →
      lifeRun paddr saddr iaddr first upd dflt d.root fuel
        (ops ++ [.copyTransducer t, .dropTransducer t, .dropTransducer (made ops).length]) ⟨h1, m, im, some d, [], []⟩ =
        .error .ub := by
  obtain ⟨h2, nd, F, N, ht, hZ, hdead, hmem, hN⟩ := life_run hA hI ha hr hlen hm hi
  refine ⟨N, fun fuel hf first R upd dflt ops hok t hlt hdt => ?_⟩
  obtain ⟨w, e, hinv⟩ := (hN fuel hf).2.2 first R upd dflt ops hok
  obtain ⟨a, s0, g1, _⟩ := hinv.tlive t _ (List.getElem?_eq_getElem hlt) hdt
  have := hinv.copyTransducer (paddr := paddr) (saddr := saddr) (iaddr := iaddr) (first := first) (dflt := dflt)
    (fuel := fuel) g1
  have hl : w.ts.length = (made ops).length := hinv.tlen
  rw [lifeRun_append, e, ← hl]
  exact this

end

/-- C56: copying a dictionary (`SortedDawg`, whose copy constructor copies pointers), then destroying original and copy, is
undefined behaviour. -/
theorem c56_copied_dictionary {sgn : Bool} {addr : Nat → Nat} {h h1 : Heap} {terms : List Str} {d : SDawg}
    (ha : Allocator addr h) (hr : Ends (fun fuel => sortedDawg sgn addr fuel terms h) (h1, some d)) :
    ∃ h2 N, ∀ fuel, N ≤ fuel → destroyDawg fuel h1 d = .ok h2 ∧ destroyDawg fuel h2 d = .error .ub := by
  obtain ⟨_, hf⟩ := finished_of_run ha hr
  obtain ⟨h2, ⟨N, e⟩, e2⟩ := hf.destroy ha.fresh
  refine ⟨h2, N + 1, fun fuel hfu => ⟨e fuel (by omega), ?_⟩⟩
  obtain ⟨k, hk, _, hroot⟩ := hf.range d.root .refl
  have hdead : h2.mem d.root = none := by rw [e2, hroot]; exact ha.fresh k hk
  obtain ⟨f, rfl⟩ : ∃ f, fuel = f + 1 := ⟨fuel - 1, by omega⟩
  simp only [destroyDawg, cleanUp, hf.ptrs.2.2, bind, Except.bind, allNodes, allNodesLoop, deref, hdead]

/-- C56: copying an iterator over a dictionary, then destroying original and copy, is undefined behaviour, however often it
was advanced. -/
theorem c56_copied_iterator {sgn : Bool} {addr paddr : Nat → Nat} {h h1 : Heap} {ph : PHeap} {terms : List Str} {d : SDawg}
    (ha : Allocator addr h) (hr : Ends (fun fuel => sortedDawg sgn addr fuel terms h) (h1, some d))
    (hp : PAllocator paddr ph) (k : Nat) :
    ∃ ph' it ph'', Ends (fun fuel => dictIterAt h1.mem paddr fuel d.root k ph) (ph', it) ∧
      iterDestroy ph' it = .ok ph'' ∧ iterDestroy ph'' it = .error .ub := by
  obtain ⟨_, hf⟩ := finished_of_run ha hr
  obtain ⟨nd, F, m, u, _, s, _⟩ := hf.dict
  obtain ⟨ph', it, L, r1, r2, _, _, _, _, r3, _⟩ := dictIterAt_spec hp m u k
  obtain ⟨ph'', e1, e2⟩ := r2.destroy hp.fresh
  refine ⟨ph', it, ph'', ⟨_, fun fuel hf => r1 fuel hf⟩, e1, ?_⟩
  obtain ⟨a, as, has⟩ := List.exists_cons_of_ne_nil r3
  have hmem : a ∈ it.prefixes := by simp [has]
  rw [r2.owned, List.mem_map] at hmem
  obtain ⟨j, hj, rfl⟩ := hmem
  rw [List.mem_range'_1] at hj
  have hd : ph''.mem (paddr j) = none := by rw [e2]; exact hp.fresh j hj.1
  simp only [iterDestroy, has, deletePrefixes, deletePrefix, hp.nonnull j, if_false, hd, bind, Except.bind]

/-! ### C57 -/

/-- C57, iterators over one dictionary: `all` being the terms in the order of iteration, an iterator shows after `k`
increments the `k`-th of them (the last one if there are fewer); two iterators are equal if and only if they were
incremented equally often, in which case they show the same term; and an iterator equals `end()` if and only if it was
incremented `size()` times. -/
theorem c57_dictionary_iterators {sgn : Bool} {addr : Nat → Nat} {h h1 : Heap} {terms : List Str} {d : SDawg}
    (ha : Allocator addr h) (hr : Ends (fun fuel => sortedDawg sgn addr fuel terms h) (h1, some d)) :
    ∃ all : List Str, all.Nodup ∧ (∀ t, t ∈ all ↔ t ∈ terms) ∧
      ∀ (paddr : Nat → Nat) (ph : PHeap), PAllocator paddr ph → ∀ k,
        ∃ ph' it, Ends (fun fuel => dictIterAt h1.mem paddr fuel d.root k ph) (ph', it) ∧
          it.value = all[k]?.getD (all.getLast?.getD []) ∧
          (iterEq it (iterEnd d.size) = true ↔ k = terms.length) ∧
          ∀ (paddr' : Nat → Nat) (qh : PHeap), PAllocator paddr' qh → ∀ j qh' jt,
            Ends (fun fuel => dictIterAt h1.mem paddr' fuel d.root j qh) (qh', jt) →
            (iterEq it jt = true ↔ k = j) ∧ (iterEq it jt = true → it.value = jt.value) := by
  obtain ⟨_, hf⟩ := finished_of_run ha hr
  obtain ⟨nd, F, m, u, _, s, _⟩ := hf.dict
  refine ⟨finals [rootItem nd F], nodup_of_shortLex (finals_order (nd := nd) s), fun t => by rw [finals_mem m u, hf.accepts],
    fun paddr ph hp k => ?_⟩
  obtain ⟨ph', it, L, r1, _, _, r4, _, _, _, _, r9⟩ := dictIterAt_spec hp m u k
  refine ⟨ph', it, ⟨_, fun fuel hf => r1 fuel hf⟩, r9, by simp [iterEq, iterEnd, r4, hf.size], fun paddr' qh hq j qh' jt hj => ?_⟩
  obtain ⟨qh2, jt2, L2, s1, _, _, s4, _, _, _, _, s9⟩ := dictIterAt_spec hq m u j
  have := hj.unique ⟨_, fun fuel hf => s1 fuel hf⟩
  cases this
  have hiff : iterEq it jt = true ↔ k = j := by simp [iterEq, r4, s4]
  exact ⟨hiff, fun he => by rw [r9, s9, hiff.1 he]⟩

/-- C57, the claim that equal iterators show the same term, is false for different dictionaries: the comparison ignores
the dictionary. -/
theorem c57_equal_iterators_show_equal_false :
    ¬ ∀ (addr : Nat → Nat) (h h1 h2 : Heap) (s t : List Str) (d e : SDawg), Allocator addr h →
      Ends (fun fuel => sortedDawg true addr fuel s h) (h1, some d) →
      Ends (fun fuel => sortedDawg true addr fuel t h1) (h2, some e) →
      ∀ (paddr : Nat → Nat) (ph ph1 ph2 : PHeap) (it jt : DIter), PAllocator paddr ph →
      Ends (fun fuel => dictIterAt h1.mem paddr fuel d.root 0 ph) (ph1, it) →
      Ends (fun fuel => dictIterAt h2.mem paddr fuel e.root 0 ph1) (ph2, jt) → iterEq it jt = true → it.value = jt.value := by
  intro hall
  have one : ∀ {l : List Str} {x : Str}, l.Nodup → (∀ t, t ∈ l ↔ t ∈ [x]) → l = [x] := fun h1 h2 =>
    List.perm_singleton.1 ((List.perm_ext_iff_of_nodup h1 (by simp)).2 h2)
  obtain ⟨h1, d, e1, _⟩ := c15_contains_exactly_terms true exAllocator (terms := [[97]]) (by unfold SortedTerms; decide)
  have hf1 := (finished_of_run exAllocator e1).2
  have ha1 := hf1.allocator exAllocator
  obtain ⟨h2, e, e2, _⟩ := c15_contains_exactly_terms true ha1 (terms := [[98]]) (by unfold SortedTerms; decide)
  have hf2 := (finished_of_run ha1 e2).2
  have hp : PAllocator (fun k => k + 1) { mem := fun _ => none, count := 0 } := ⟨by simp, by simp, rfl, fun _ _ => rfl⟩
  obtain ⟨nd1, F1, m1, u1, _, s1, _⟩ := hf1.dict
  obtain ⟨nd2, F2, m2, u2, _, s2, _⟩ := hf2.dict
  obtain ⟨ph1, it, L1, r1, r2, _, r3, _, _, _, _, r4⟩ := dictIterAt_spec hp m1 u1 0
  have hp1 : PAllocator (fun k => k + 1) ph1 := ⟨hp.nonnull, hp.inj, r2.null, r2.fresh⟩
  obtain ⟨ph2, jt, L2, q1, q2, _, q3, _, _, _, _, q4⟩ := dictIterAt_spec hp1 m2 u2 0
  have := hall _ _ _ _ _ _ _ _ exAllocator e1 e2 _ _ _ _ it jt hp ⟨_, fun fuel hf => r1 fuel hf⟩
    ⟨_, fun fuel hf => q1 fuel hf⟩ (by simp [iterEq, r3, q3])
  rw [r4, q4, one (nodup_of_shortLex (finals_order (nd := nd1) s1)) (x := [97]) fun t => by rw [finals_mem m1 u1, hf1.accepts],
    one (nodup_of_shortLex (finals_order (nd := nd2) s2)) (x := [98]) fun t => by rw [finals_mem m2 u2, hf2.accepts]] at this
  simp at this

section
variable {paddr saddr : SMem → Nat} {iaddr : IMem Nat → Nat} {sgn : Bool} {addr : Nat → Nat} {h h1 : Heap}
  {terms : List Str} {d : SDawg} {m : SMem} {im : IMem Nat}

/-- C57, queries: `it == end` is true exactly when the candidates are exhausted, whichever query stands on the right, so that
range-for stops there; but the comparison is neither reflexive nor symmetric: a query that shows a candidate does not
equal itself, and `end == it` is false always. -/
theorem c57_query_equality (hA : SAlloc paddr saddr) (hI : IAlloc iaddr) (ha : Allocator addr h)
    (hr : Ends (fun fuel => sortedDawg sgn addr fuel terms h) (h1, some d)) (hlen : ∀ t ∈ terms, t.length < 2 ^ 62)
    (hm : m.Finite) (hi : im.Finite) :
    ∃ N, ∀ fuel, N ≤ fuel → ∀ (first : Bool) (R : Type) (upd : Str → Nat → R) (dflt : R) (ops : List LOp), LifeOk ops →
      ∃ w, lifeRun paddr saddr iaddr first upd dflt d.root fuel ops ⟨h1, m, im, some d, [], []⟩ = .ok w ∧
        ∀ i t q n, (started ops)[i]? = some (t, q, n) → .dropQuery i ∉ ops → ∃ A Q rs, (made ops)[t]? = some A ∧
          w.qs[i]? = some (some (A, Q)) ∧ Yields A upd h1.mem d.root q n rs ∧
          (∀ other, ptrEq Q other = true ↔ rs.length ≤ ops.count (.next i)) ∧
          (ops.count (.next i) < rs.length → ptrEq Q Q = false) ∧
          ∀ c maxD a k i', ptrEq (ptrEnd c maxD a k i') Q = false := by
  obtain ⟨N, hN⟩ := c55_lifetimes hA hI ha hr hlen hm hi
  refine ⟨N, fun fuel hf first R upd dflt ops hok => ?_⟩
  obtain ⟨w, e, hq, _⟩ := hN fuel hf first R upd dflt ops hok
  refine ⟨w, e, fun i t q n hs hd => ?_⟩
  obtain ⟨A, Q, rs, g1, g2, g3, g4, _⟩ := hq i t q n hs hd
  refine ⟨A, Q, rs, g1, g2, g3, fun other => g4, fun hlt => ?_, fun _ _ _ _ _ => rfl⟩
  rw [← Bool.not_eq_true]
  intro hc
  have := g4.1 hc
  omega

end

/-! ### Examples -/

/-- An allocator that hands out the lowest free address, that of a deleted intersection if there is one. -/
def lowInt (im : IMem Nat) : Nat := firstFree im.cell im.count

/-- An allocator that does not hand out an address twice. -/
def newInt (im : IMem Nat) : Nat := im.count + firstFree (fun a => im.cell (im.count + a)) im.count

theorem lowInt_alloc : IAlloc lowInt := fun _ ⟨_, h1, h2⟩ => ⟨by simp [lowInt, firstFree], firstFree_free h1 h2⟩

theorem newInt_alloc : IAlloc newInt := fun im ⟨L, h1, h2⟩ =>
  ⟨by simp [newInt, firstFree], firstFree_free (f := fun a => im.cell (im.count + a)) (L := (L.map (· - im.count))) (by simpa using h1)
    fun a c hc => List.mem_map.2 ⟨_, h2 _ c hc, by omega⟩⟩

/-- The addresses from `count` on are new. -/
theorem newInt_fresh (im : IMem Nat) : im.count < newInt im := by simp [newInt, firstFree]

def emptyInt : IMem Nat := ⟨fun _ => none, 0⟩

theorem emptyInt_finite : emptyInt.Finite := ⟨[], by simp, by simp [emptyInt]⟩

instance (p : List LOp) (op : LOp) : Decidable (LifeOpOk p op) := by
  cases op <;> unfold LifeOpOk <;> infer_instance

theorem lifeOk_of {ops : List LOp} (h : ∀ i, (hi : i < ops.length) → LifeOpOk (ops.take i) ops[i]) : LifeOk ops := by
  rintro p op r rfl
  simpa using h p.length (by simp)

/-- A program on the dictionary {"ab", "b", "cb"}, building included: what the queries show (`none`: destroyed), how many of the
first 100 addresses of nodes, positions, states and intersections are in use. -/
def exLife (iaddr : IMem Nat → Nat) (ops : List LOp) :
    Except Err (List (Option (Option (Str × Nat))) × List Nat) := do
  let (h, r) ← sortedDawg true (fun k => k + 1) 100 [[97, 98], [98], [99, 98]] exHeap
  match r with
  | none => .error .ub
  | some d => do
      let w ← lifeRun lowPos lowSt iaddr true updCandidate ([], 0) d.root 100 ops ⟨h, SMem.empty, emptyInt, some d, [], []⟩
      .ok (w.qs.map (Option.map fun Q => if Q.2.complete then none else some Q.2.cand),
        [((List.range 100).filter fun a => (w.heap.mem a).isSome).length, (liveBelow w.sm).1, (liveBelow w.sm).2,
         ((List.range 100).filter fun a => (w.im.cell a).isSome).length])

/-- Two transducers, three queries; the dictionary and the first transducer are destroyed before the queries. -/
def exLifeOps : List LOp :=
  [.transducer .standard, .start 0 [98] 1, .transducer .transposition, .next 0, .start 1 [98, 97] 1, .start 0 [97] 0,
   .next 0, .dropDictionary, .dropTransducer 0, .dropQuery 1, .dropQuery 0, .dropTransducer 1, .dropQuery 2]

theorem exLifeOps_ok : LifeOk exLifeOps := lifeOk_of (by decide)

example : AllDropped exLifeOps := by
  constructor
  · intro i hi
    have : i < 3 := hi
    rcases i with _ | _ | _ | i
    · decide
    · decide
    · decide
    · omega
  · intro i hi
    have : i < 2 := hi
    rcases i with _ | _ | i
    · decide
    · decide
    · omega

set_option synthInstance.maxSize 1000 in
example :
    exLife lowInt (exLifeOps.take 6) =
      .ok ([some (some ([97, 98], 1)), some (some ([98], 1)), some none], [3, 14, 9, 9]) ∧
    exLife lowInt (exLifeOps.take 9) =
      .ok ([some (some ([99, 98], 1)), some (some ([98], 1)), some none], [0, 14, 9, 9]) ∧
    exLife lowInt exLifeOps = .ok ([none, none, none], [0, 0, 0, 0]) := by decide +kernel

set_option synthInstance.maxSize 1000 in
/-- Advancing after the transducer or the dictionary was destroyed: undefined behaviour, as the query has a third candidate. -/
example : LifeOk (exLifeOps.take 4) ∧ exLife newInt (exLifeOps.take 4 ++ [.dropTransducer 0, .next 0]) = .error .ub ∧
    exLife newInt (exLifeOps.take 4 ++ [.dropDictionary, .next 0]) = .error .ub :=
  ⟨lifeOk_of (by decide), by decide +kernel, by decide +kernel⟩

/-- The hypothesis on addresses in `c55_next_without_transducer`: with `newInt` the address of the first intersection, 1, is
not handed out again. -/
example (w : World (Str × Nat)) (h : 1 ≤ w.im.count) : ∀ im', w.im.count ≤ im'.count → newInt im' ≠ 1 :=
  fun im' h' => by have := newInt_fresh im'; omega

set_option synthInstance.maxSize 1000 in
/-- If the allocator does hand out the address of the deleted intersection again, the pointer leads to another object; what the
program does is undefined, and nothing need reveal it: here the query yields "aab", which is no term of the dictionary
{"ab", "b", "cb"}, in place of "ab". -/
theorem c55_dangling_pointer_misleads :
    exLife lowInt [.transducer .standard, .start 0 [98] 1, .transducer .standard, .dropTransducer 0, .start 1 [98] 1, .next 0] =
      .ok ([some (some ([97, 97, 98], 1)), some (some ([98], 0))], [3, 8, 6, 6]) ∧
    exLife lowInt [.transducer .standard, .start 0 [98] 1, .transducer .standard, .start 1 [98] 1, .next 0] =
      .ok ([some (some ([97, 98], 1)), some (some ([98], 0))], [3, 11, 8, 8]) := by decide +kernel

set_option synthInstance.maxSize 1000 in
/-- Copies. -/
example : exLife lowInt (exLifeOps.take 4 ++ [.copy 0, .dropQuery 0, .dropQuery 1]) = .error .ub ∧
    exLife lowInt (exLifeOps.take 4 ++ [.copyTransducer 0, .dropTransducer 0, .dropTransducer 2]) = .error .ub := by
  decide +kernel

set_option synthInstance.maxSize 1000 in
/-- A query without intersections of its own may be copied. -/
example : exLife lowInt [.transducer .standard, .start 0 [122] 0, .copy 0, .dropQuery 0, .dropQuery 1] =
    .ok ([none, none], [3, 1, 1, 1]) := by decide +kernel

end Lev.Props
