import Verif.Proofs.QueryMem
import Verif.Props.Lifetime
import Verif.Props.BuildMem

/-!
# C96: memory while queries run
-/

namespace Lev.Props

open Spec

theorem sum_map_bounds {α : Type} (l : List α) (f : α → Nat) (a b : Nat) (h : ∀ x ∈ l, a ≤ f x ∧ f x ≤ b) :
    l.length * a ≤ (l.map f).sum ∧ (l.map f).sum ≤ l.length * b := by
  induction l with
  | nil => simp
  | cons x l ih =>
    obtain ⟨h1, h2⟩ := ih fun y hy => h y (List.mem_cons_of_mem _ hy)
    obtain ⟨h3, h4⟩ := h x (by simp)
    simp only [List.length_cons, List.map_cons, List.sum_cons, Nat.succ_mul]
    omega

theorem sum_map_le {α : Type} (l : List α) (f g : α → Nat) (h : ∀ x ∈ l, f x ≤ g x) : (l.map f).sum ≤ (l.map g).sum := by
  induction l with
  | nil => simp
  | cons x l ih =>
    have := ih fun y hy => h y (List.mem_cons_of_mem _ hy)
    have := h x (by simp)
    simp only [List.map_cons, List.sum_cons]
    omega

theorem map_sum_flatMap {α β : Type} (l : List α) (g : α → List β) (f : β → Nat) :
    ((l.flatMap g).map f).sum = (l.map fun x => ((g x).map f).sum).sum := by
  induction l with
  | nil => rfl
  | cons x l ih => simp [ih]

theorem le_sum_of_mem' {l : List Nat} {x : Nat} (h : x ∈ l) : x ≤ l.sum := by
  induction l with
  | nil => cases h
  | cons y l ih =>
    rw [List.sum_cons]
    rcases List.mem_cons.1 h with rfl | h
    · omega
    · have := ih h; omega

/-! ### What a program holds -/

/-- C96: a program as in C55 that destroys no transducer, at any point.  There are strings `hold i` for each query such that
the intersections that were not there at the beginning are one for each transducer and one for each of these strings, each
with one state.  A query that was destroyed holds nothing.  A query that shows a candidate holds the non-empty beginnings of
terms that can be continued within the distance and come not after the candidate in the order of the results, one that is
complete holds all of them, whatever the number of results.  Each of its states has at least one position and at most
`(n + 1) ^ 2`, and `n ^ 2` more if the algorithm is not STANDARD. -/
theorem c96_memory {paddr saddr : SMem → Nat} {iaddr : IMem Nat → Nat} {addr : Nat → Nat} {h : Heap} {terms : List Str}
    {m : SMem} {im : IMem Nat} (sgn first : Bool) (hA : SAlloc paddr saddr) (hI : IAlloc iaddr) (ha : Allocator addr h)
    (hs : SortedTerms terms) (hlen : ∀ t ∈ terms, t.length < 2 ^ 62) (hm : m.Finite) (hi : im.Finite) {R : Type}
    (upd : Str → Nat → R) (dflt : R) :
    ∃ h1 d N, Ends (fun fuel => sortedDawg sgn addr fuel terms h) (h1, some d) ∧ ∀ fuel, N ≤ fuel → ∀ ops, LifeOk ops →
      (∀ t, .dropTransducer t ∉ ops) →
      ∃ w, lifeRun paddr saddr iaddr first upd dflt d.root fuel ops ⟨h1, m, im, some d, [], []⟩ = .ok w ∧
        ∃ (hold : Nat → List Str) (Li Ls Lp : List Nat),
          Gained im.cell w.im.cell Li ∧ Gained m.st w.sm.st Ls ∧ Gained m.pos w.sm.pos Lp ∧
          (∀ i, .dropQuery i ∈ ops → hold i = []) ∧
          (∀ i t q n, (started ops)[i]? = some (t, q, n) → .dropQuery i ∉ ops → ∃ A rs, (made ops)[t]? = some A ∧
            FoundBy sgn A terms q n rs ∧ Held sgn A terms q n ((rs[ops.count (.next i)]?).map Prod.fst) (hold i)) ∧
          Li.length = (made ops).length + ((List.range (started ops).length).map fun i => (hold i).length).sum ∧
          Ls.length = Li.length ∧ Li.length ≤ Lp.length ∧
          Lp.length ≤ (made ops).length +
            ((List.range (started ops).length).map fun i => (hold i).length * mostPositions ops i).sum := by
  obtain ⟨h1, d, hr, hf⟩ := sortedDawg_asc (sgn := sgn) ⟨ha.nonnull, ha.inj⟩ ha.null ha.fresh ((asc_nil_iff _).2 hs)
  obtain ⟨h2, nd, F, N, ht, hZ, hdead, hmem, hN⟩ := life_run hA hI ha hr hlen hm hi
  refine ⟨h1, d, N, hr, fun fuel hfu ops hok hdt => ?_⟩
  obtain ⟨w, e, hinv⟩ := (hN fuel hfu).2.2 first R upd dflt ops hok
  refine ⟨w, e, ?_⟩
  have htl : w.ts.length = (made ops).length := hinv.tlen
  have hql : w.qs.length = (started ops).length := hinv.qlen
  -- the transducers
  have hT : ∀ i, i < (made ops).length → ∃ a, (w.ts[i]?.map fun o => (o.map fun x => [x.2]).getD []).getD [] = [a] ∧
      (stateCells w.sm (stateOf w.im a)).length = 1 := by
    intro i hi
    obtain ⟨a, s0, e1, _, e3, _, c, hc, hl⟩ := hinv.tlive i _ (List.getElem?_eq_getElem hi) (hdt i)
    refine ⟨a, by rw [e1]; rfl, ?_⟩
    have : stateOf w.im a = s0 := by simp [stateOf, e3]
    rw [this, hc.stateCells]
    have := congrArg List.length hl
    simpa [poss, initialState] using this
  -- the queries
  have hQ : ∀ i, ∃ ws : List Str,
      (.dropQuery i ∈ ops → ws = []) ∧
      (∀ t q n, (started ops)[i]? = some (t, q, n) → .dropQuery i ∉ ops → ∃ A rs, (made ops)[t]? = some A ∧
        FoundBy sgn A terms q n rs ∧ Held sgn A terms q n ((rs[ops.count (.next i)]?).map Prod.fst) ws) ∧
      ((w.qs[i]?.map fun o => (o.map fun x => x.2.owned).getD []).getD []).length = ws.length ∧
      ∀ a ∈ (w.qs[i]?.map fun o => (o.map fun x => x.2.owned).getD []).getD [],
        1 ≤ (stateCells w.sm (stateOf w.im a)).length ∧ (stateCells w.sm (stateOf w.im a)).length ≤ mostPositions ops i := by
    intro i
    by_cases hdq : .dropQuery i ∈ ops
    · rw [hinv.qdead i hdq]
      exact ⟨[], fun _ => rfl, fun _ _ _ _ h => absurd hdq h, rfl, by simp⟩
    cases hst : (started ops)[i]? with
    | none =>
      have : w.qs[i]? = none := by
        rw [List.getElem?_eq_none_iff] at hst ⊢
        omega
      rw [this]
      exact ⟨[], fun _ => rfl, by simp, rfl, by simp⟩
    | some x =>
      obtain ⟨t, q, n⟩ := x
      obtain ⟨A, PQ, g1, g2, _, g4⟩ := hinv.qlive i t q n hst hdq
      obtain ⟨a, Q, _, g5, g6⟩ := g4 (hdt t)
      obtain ⟨ws, k1, k2, k3, k4⟩ := g6.held ht
      have g1' : (made ops)[t]? = some A := g1
      refine ⟨ws, fun h => absurd h hdq, ?_, ?_, ?_⟩
      · rintro t' q' n' ⟨⟩ _
        refine ⟨A, allOut A n q nd F, g1, ⟨fun s c => ?_, ht.allOut_order⟩, k2, fun x => ?_⟩
        · rw [ht.mem_allOut, hf.accepts]
        · rw [k3, hf.leads_iff]
          constructor
          · rintro ⟨j1, j2, j3⟩
            exact ⟨j1, j2.resolve_left j1, j3⟩
          · rintro ⟨j1, j2, j3⟩
            exact ⟨j1, .inr j2, j3⟩
      · rw [g2, ← k1, g5.owned]
        simp
      · intro x hx
        rw [g2] at hx
        have := k4 (stateOf w.im x) (by rw [g5.owned]; exact List.mem_map_of_mem (by simpa using hx))
        rw [mostPositions, hst]
        simpa [g1'] using this
  obtain ⟨hold, hh⟩ := Classical.axiomOfChoice hQ
  have hacc := hinv.acc
  obtain ⟨gi, gs⟩ := hacc.gained
  have htO : tOwned w.ts = (List.range (made ops).length).flatMap fun i =>
      (w.ts[i]?.map fun o => (o.map fun x => [x.2]).getD []).getD [] := by
    rw [← htl]; exact flatMap_indices _ _
  have hqO : qOwned w.qs = (List.range (started ops).length).flatMap fun i =>
      (w.qs[i]?.map fun o => (o.map fun x => x.2.owned).getD []).getD [] := by
    rw [← hql]; exact flatMap_indices _ _
  have hlen1 : (tOwned w.ts ++ qOwned w.qs).length =
      (made ops).length + ((List.range (started ops).length).map fun i => (hold i).length).sum := by
    rw [List.length_append, htO, hqO, List.length_flatMap, List.length_flatMap]
    congr 1
    · have := sum_map_bounds (List.range (made ops).length)
        (fun i => ((w.ts[i]?.map fun o => (o.map fun x => [x.2]).getD []).getD []).length) 1 1 (fun i hi => by
          obtain ⟨a, e1, _⟩ := hT i (List.mem_range.1 hi)
          rw [e1]; simp)
      simp only [List.length_range, Nat.mul_one] at this
      omega
    · congr 1
      exact List.map_congr_left fun i _ => (hh i).2.2.1
  have hval : ∀ f : Nat → Nat, ((tOwned w.ts ++ qOwned w.qs).map f).sum =
      ((List.range (made ops).length).map fun i =>
        (((w.ts[i]?.map fun o => (o.map fun x => [x.2]).getD []).getD []).map f).sum).sum +
      ((List.range (started ops).length).map fun i =>
        (((w.qs[i]?.map fun o => (o.map fun x => x.2.owned).getD []).getD []).map f).sum).sum := by
    intro f
    rw [List.map_append, List.sum_append, htO, hqO, map_sum_flatMap, map_sum_flatMap]
  have hLp : (((tOwned w.ts ++ qOwned w.qs).map (stateOf w.im)).flatMap fun s => addrs (stateCells w.sm s)).length =
      ((tOwned w.ts ++ qOwned w.qs).map fun a => (stateCells w.sm (stateOf w.im a)).length).sum := by
    rw [List.length_flatMap, List.map_map]
    congr 1
    exact List.map_congr_left fun a _ => by simp [addrs]
  refine ⟨hold, _, _, _, gi, gs, hacc.states.positions, fun i => (hh i).1, fun i => (hh i).2.1, hlen1, by simp, ?_, ?_⟩
  · rw [hLp]
    refine Nat.le_trans (Nat.le_of_eq (Nat.mul_one _).symm) (sum_map_bounds _ _ 1
      (((tOwned w.ts ++ qOwned w.qs).map fun a => (stateCells w.sm (stateOf w.im a)).length).sum) fun a ha => ⟨?_, ?_⟩).1
    · rcases List.mem_append.1 ha with ha | ha
      · rw [htO] at ha
        obtain ⟨i, hi, ha⟩ := List.mem_flatMap.1 ha
        obtain ⟨b, e1, e2⟩ := hT i (List.mem_range.1 hi)
        rw [e1] at ha
        cases List.mem_singleton.1 ha
        omega
      · rw [hqO] at ha
        obtain ⟨i, _, ha⟩ := List.mem_flatMap.1 ha
        exact ((hh i).2.2.2 a ha).1
    · exact le_sum_of_mem' (List.mem_map_of_mem (f := fun a => (stateCells w.sm (stateOf w.im a)).length) ha)
  · rw [hLp, hval]
    refine Nat.add_le_add ?_ (sum_map_le _ _ _ fun i _ => ?_)
    · refine Nat.le_trans (sum_map_bounds _ _ 0 1 fun i hi => ?_).2 (by simp)
      obtain ⟨a, e1, e2⟩ := hT i (List.mem_range.1 hi)
      rw [e1]
      simp [e2]
    · rw [← (hh i).2.2.1]
      exact (sum_map_bounds _ _ 1 _ (hh i).2.2.2).2

/-- The strings are determined, so their number is. -/
theorem c96_held_unique {sgn : Bool} {A : Algorithm} {terms : List Str} {q : Str} {n : Nat} {c : Option Str} {ws ws' : List Str}
    (h : Held sgn A terms q n c ws) (h' : Held sgn A terms q n c ws') : ws.Perm ws' :=
  (List.perm_ext_iff_of_nodup h.1 h'.1).2 fun w => by rw [h.2, h'.2]

/-! ### Exponentially more than the dictionary -/

theorem lifeOk_nexts (A : Algorithm) {q : Str} {n : Nat} (hq : QueryFits n q) (hn : n < 2 ^ 64) (j : Nat) :
    LifeOk ([.transducer A, .start 0 q n] ++ List.replicate j (.next 0)) := by
  refine lifeOk_of fun i hi => ?_
  rcases i with _ | _ | i
  · simp [LifeOpOk]
  · exact ⟨by simp [made], by simp, by simp, hq, hn⟩
  · simp only [List.cons_append, List.nil_append, List.length_cons, List.length_replicate] at hi
    simp only [List.cons_append, List.nil_append, List.take_succ_cons, List.take_replicate, List.getElem_cons_succ,
      List.getElem_replicate]
    refine ⟨by simp [List.mem_replicate], by simp [List.mem_replicate], (0, q, n), ?_, by simp [List.mem_replicate]⟩
    simp [started]

theorem made_nexts (j i : Nat) : made (List.replicate j (.next i)) = [] ∧ started (List.replicate j (.next i)) = [] := by
  induction j with
  | zero => exact ⟨rfl, rfl⟩
  | succ j ih => rw [List.replicate_succ]; exact ih

/-- C96: the dictionary of all strings of `k` letters `a` and `b` has `k + 1` nodes.  A query for the empty string within
distance `k` that has been run to its end holds `2 ^ (k + 1) - 2` intersections, and the transducer one. -/
theorem c96_waste {paddr saddr : SMem → Nat} {iaddr : IMem Nat → Nat} {addr : Nat → Nat} {h : Heap} {m : SMem}
    {im : IMem Nat} (sgn first : Bool) (hA : SAlloc paddr saddr) (hI : IAlloc iaddr) (ha : Allocator addr h) (hm : m.Finite)
    (hi : im.Finite) {R : Type} (upd : Str → Nat → R) (dflt : R) (A : Algorithm) {k : Nat} (hk : k < 2 ^ 62) :
    ∃ h1 d N L, Ends (fun fuel => sortedDawg sgn addr fuel (abWords k) h) (h1, some d) ∧ Gained h.mem h1.mem L ∧
      L.length = k + 1 ∧
      ∀ fuel, N ≤ fuel → ∀ j, 2 ^ k ≤ j → ∃ w Li,
        lifeRun paddr saddr iaddr first upd dflt d.root fuel
          ([.transducer A, .start 0 [] k] ++ List.replicate j (.next 0)) ⟨h1, m, im, some d, [], []⟩ = .ok w ∧
        Gained im.cell w.im.cell Li ∧ Li.length + 1 = 2 ^ (k + 1) := by
  obtain ⟨_, _, h3, d3, _, L3, _, _, g4, _, g7, _, g9⟩ := c95_waste sgn ha k
  obtain ⟨h1, d, N, hr, hN⟩ := c96_memory sgn first hA hI ha (abWords_sorted k)
    (fun t ht => by rw [((mem_abWords k t).1 ht).1]; exact hk) hm hi upd dflt
  cases g4.unique hr
  refine ⟨h3, d3, N, L3, hr, g7, g9, fun fuel hf j hj => ?_⟩
  have hnd : ∀ t : Nat, LOp.dropTransducer t ∉ [.transducer A, .start 0 [] k] ++ List.replicate j (LOp.next 0) := by
    simp [List.mem_replicate]
  obtain ⟨w, e, hold, Li, Ls, Lp, gi, _, _, _, hq, hl, _⟩ := hN fuel hf _ (lifeOk_nexts A (.of_short (by decide)) (by omega) j) hnd
  refine ⟨w, Li, e, gi, ?_⟩
  have hst : started ([.transducer A, .start 0 [] k] ++ List.replicate j (LOp.next 0)) = [(0, [], k)] := by
    simp [started, made_nexts]
  have hmd : made ([.transducer A, .start 0 [] k] ++ List.replicate j (LOp.next 0)) = [A] := by
    simp [made, made_nexts]
  have hcnt : ([LOp.transducer A, LOp.start 0 [] k] ++ List.replicate j (LOp.next 0)).count (.next 0) = j := by
    simp [List.count_cons]
  obtain ⟨A', rs, e1, ⟨e2, e3⟩, e4⟩ := hq 0 0 [] k (by rw [hst]; rfl) (by simp [List.mem_replicate])
  rw [hmd] at e1
  cases e1
  rw [hcnt] at e4
  have hrs : rs.length ≤ j := by
    have hnodup : (rs.map Prod.fst).Nodup :=
      (List.pairwise_map.2 e3).imp (S := (· ≠ ·)) fun hab heq => shortLex_irrefl (heq ▸ hab)
    have := hnodup.length_le_of_subset (l₂ := abWords k) fun t ht => by
      obtain ⟨⟨t, c⟩, hm, rfl⟩ := List.mem_map.1 ht
      exact ((e2 t c).1 hm).1
    rw [List.length_map, abWords_length] at this
    omega
  rw [List.getElem?_eq_none_iff.2 hrs] at e4
  have hheld : Held sgn A (abWords k) [] k none (abUpTo k) := by
    have hb := abUpTo_beginnings k
    refine ⟨hb.1, fun w => ?_⟩
    rw [hb.2]
    constructor
    · rintro ⟨h1, t, h2, h3⟩
      refine ⟨h1, ⟨t, h2, h3⟩, ⟨[], w.length, ?_, by rw [List.append_nil]; exact align_nil_left w⟩, by simp⟩
      rw [← ((mem_abWords k t).1 h2).1]
      exact h3.length_le
    · rintro ⟨h1, ⟨t, h2, h3⟩, _⟩
      exact ⟨h1, t, h2, h3⟩
  have := (c96_held_unique e4 hheld).length_eq
  have := abUpTo_length k
  rw [hmd, hst] at hl
  simp at hl
  omega

set_option synthInstance.maxSize 1000 in
/-- The query for "b" within distance 1 on {"ab", "b", "cb"}, at the start and after each increment: what it shows, and the
nodes, positions, states and intersections in memory.  The intersections are those for "a", "b" when it shows "b"; for "a",
"b", "c", "ab" when it shows "ab"; and also that for "cb" when it shows "cb" and when it is complete.  One more is that of the
transducer. -/
example : (List.range 4).map (fun k => exLife lowInt
      ([.transducer .standard, .start 0 [98] 1] ++ List.replicate k (.next 0))) =
    [.ok ([some (some ([98], 0))], [3, 4, 3, 3]), .ok ([some (some ([97, 98], 1))], [3, 7, 5, 5]),
     .ok ([some (some ([99, 98], 1))], [3, 8, 6, 6]), .ok ([some none], [3, 8, 6, 6])] ∧
    ∀ k, LifeOk ([.transducer .standard, .start 0 [98] 1] ++ List.replicate k (.next 0)) :=
  ⟨by decide +kernel, lifeOk_nexts .standard (by decide) (by decide)⟩

end Lev.Props
