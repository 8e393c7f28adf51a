import Verif.Props.Lifetime

/-!
# Property C68: the library as a whole

Everything at the level of objects in memory: building the dictionary, transducers, queries, destruction.
-/

namespace Lev.Props

open Lev Spec

/-- C68: sorted terms give a dictionary, and whatever transducers and queries a program makes on it, in whatever order it
advances and destroys them (within C55's rules), a query shows after `k` increments the `k`-th of its candidates, and is
complete when there is none.  The candidates are exactly the terms whose distance from the query is at most the maximum
distance, with their distances, by length and then in the order of `char`, none twice.  When everything is destroyed the
memory is what it was before. -/
theorem c68_library_exact {paddr saddr : SMem → Nat} {iaddr : IMem Nat → Nat} {addr : Nat → Nat} {h : Heap}
    {terms : List Str} {m : SMem} {im : IMem Nat} (sgn first : Bool) (hA : SAlloc paddr saddr) (hI : IAlloc iaddr)
    (ha : Allocator addr h) (hs : SortedTerms terms) (hlen : ∀ t ∈ terms, t.length < 2 ^ 62) (hm : m.Finite)
    (hi : im.Finite) (dflt : Str × Nat) :
    ∃ h1 d N, Ends (fun fuel => sortedDawg sgn addr fuel terms h) (h1, some d) ∧ ∀ fuel, N ≤ fuel → ∀ ops, LifeOk ops →
      ∃ w, lifeRun paddr saddr iaddr first updCandidate dflt d.root fuel ops ⟨h1, m, im, some d, [], []⟩ = .ok w ∧
        (∀ i t q n, (started ops)[i]? = some (t, q, n) → .dropQuery i ∉ ops → ∃ A Q, ∃ rs : List (Str × Nat), (made ops)[t]? = some A ∧
          w.qs[i]? = some (some (A, Q)) ∧
          (Q.complete = true ↔ rs.length ≤ ops.count (.next i)) ∧ (∀ r, rs[ops.count (.next i)]? = some r → Q.cand = r) ∧
          (∀ s c, (s, c) ∈ rs ↔ s ∈ terms ∧ IsMinCost A q s c ∧ c ≤ n) ∧
          rs.Pairwise (fun a b => shortLex sgn a.1 b.1) ∧ (rs.map Prod.fst).Nodup) ∧
        (AllDropped ops → .dropDictionary ∈ ops →
          (∀ a, w.heap.mem a = h.mem a) ∧ w.sm.pos = m.pos ∧ w.sm.st = m.st ∧ w.im.cell = im.cell) := by
  obtain ⟨h1, d, hr, hf⟩ := sortedDawg_asc (sgn := sgn) ⟨ha.nonnull, ha.inj⟩ ha.null ha.fresh ((asc_nil_iff _).2 hs)
  have hd : Dictionary sgn h1.mem d.root := hf.dictionary (by simpa using hlen)
  obtain ⟨N, hN⟩ := c55_lifetimes hA hI ha hr hlen hm hi
  obtain ⟨M, hM⟩ := c55_no_leak hA hI ha hr hlen hm hi
  refine ⟨h1, d, max N M, hr, fun fuel hf' ops hok => ?_⟩
  obtain ⟨w, e, hq, _, hmem⟩ := hN fuel (by omega) first _ updCandidate dflt ops hok
  refine ⟨w, e, fun i t q n hs hdq => ?_, fun hall hdd => ⟨hmem hdd, ?_⟩⟩
  · obtain ⟨A, Q, rs, g1, g2, g3, g4, g5⟩ := hq i t q n hs hdq
    have hst : QueryFits n q ∧ n < 2 ^ 64 := by
      obtain ⟨p, r, rfl⟩ := List.append_of_mem (started_mem (List.mem_of_getElem? hs))
      exact (hok p _ r rfl).2.2.2
    obtain ⟨rs', r1, r2⟩ := query_exact A hd hst.1 hst.2
    have := g3.unique r1
    subst this
    exact ⟨A, Q, rs, g1, g2, g4, g5, fun s c => by rw [r2, hf.accepts], c37_order hd hst.1 hst.2 g3,
      c35_no_duplicates hd hst.1 hst.2 g3⟩
  · obtain ⟨w', e', h2⟩ := hM fuel (by omega) first _ updCandidate dflt ops hok hall
    rw [e] at e'
    cases e'
    exact h2

/-- The program of the example: the dictionary is built, a query is run to its end, everything is destroyed. -/
example : SortedTerms [[97, 98], [98], [99, 98]] ∧
    LifeOk [.transducer .standard, .start 0 [98] 1, .next 0, .next 0, .next 0, .dropQuery 0, .dropTransducer 0, .dropDictionary] :=
  ⟨by unfold SortedTerms; decide, lifeOk_of (by decide)⟩

set_option synthInstance.maxSize 1000 in
example : (List.range 4).map (fun k => (exLife lowInt
      ([.transducer .standard, .start 0 [98] 1] ++ List.replicate k (.next 0))).map Prod.fst) =
    [.ok [some (some ([98], 0))], .ok [some (some ([97, 98], 1))], .ok [some (some ([99, 98], 1))], .ok [some none]] := by
  decide +kernel

end Lev.Props
