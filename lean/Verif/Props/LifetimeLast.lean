import Verif.Proofs.LifetimeLast
import Verif.Proofs.DeleteCost
import Verif.Props.Lifetime
import Verif.Props.SerialGraph

/-!
# Property C111: advancing a query whose transducer is gone

A query keeps pointers to the intersection that its transducer owns.  Whether it follows them when it is advanced depends on
the candidate that it shows.
-/

namespace Lev.Props

open Lev Spec

/-- A query that shows `v` has still to look at children of the root other than those that it has seen: `v` is the empty term, or it
has one letter and there are terms that begin with a letter after it. -/
def RootNeeded (sgn : Bool) (terms : List Str) (v : Str) : Prop :=
  v = [] ∨ ∃ c, v = [c] ∧ ∃ c' u, c' :: u ∈ terms ∧ charLt sgn c c'

section
variable {paddr saddr : SMem → Nat} {iaddr : IMem Nat → Nat} {sgn : Bool} {addr : Nat → Nat} {h h1 : Heap}
  {terms : List Str} {d : SDawg} {R : Type} {upd : Str → Nat → R} {dflt : R} {m : SMem} {im : IMem Nat}

theorem root_edges {c0 : Nat} {m0 : Mem} {nd : DNode} (hf : Finished sgn addr c0 m0 terms h1 d) (hm : h1.mem d.root = some nd)
    (c : UInt8) : (∃ f ∈ nd.edges, charLt sgn c f.1) ↔ ∃ c' u, c' :: u ∈ terms ∧ charLt sgn c c' := by
  constructor
  · rintro ⟨⟨c', b⟩, h2, h3⟩
    have hl : Leads h1.mem d.root [c'] b := Leads.snoc (w := []) .here hm h2
    rcases (hf.leads_iff [c']).1 ⟨b, hl⟩ with h4 | ⟨t, h4, u, rfl⟩
    · cases h4
    · exact ⟨c', u, h4, h3⟩
  · rintro ⟨c', u, h2, h3⟩
    obtain ⟨b, hb⟩ := (hf.leads_iff [c']).2 (.inr ⟨_, h2, u, rfl⟩)
    generalize hx : [c'] = x at hb
    cases hb with
    | here => cases hx
    | @snoc w b' nd' c2 _ g1 g2 g3 =>
      cases w with
      | nil =>
        cases hx
        have hb' : b' = d.root := by
          generalize hy : ([] : Str) = y at g1
          cases g1 with
          | here => rfl
          | snoc => simp at hy
        rw [hb', hm] at g2
        cases g2
        exact ⟨_, g3, h3⟩
      | cons y ys => simp at hx

/-- C111: a query shows the candidate `v`, and its transducer is destroyed.  Advancing the query is undefined behaviour exactly if
there is a further candidate, or `v` is the empty term, or `v` has one letter and some term begins with a later one; otherwise the
query is complete after it.  (Provided that the allocator does not hand out the address of the deleted intersection again.) -/
theorem c111_without_transducer (hA : SAlloc paddr saddr) (hI : IAlloc iaddr) (ha : Allocator addr h)
    (hr : Ends (fun fuel => sortedDawg sgn addr fuel terms h) (h1, some d)) (hlen : ∀ t ∈ terms, t.length < 2 ^ 62)
    (hm : m.Finite) (hi : im.Finite) :
    ∃ N, ∀ fuel, N ≤ fuel → ∀ (first : Bool) (R : Type) (upd : Str → Nat → R) (dflt : R) (ops : List LOp), LifeOk ops →
      .dropDictionary ∉ ops → ∀ w, lifeRun paddr saddr iaddr first upd dflt d.root fuel ops ⟨h1, m, im, some d, [], []⟩ = .ok w →
      ∀ i t q n A a rs, (started ops)[i]? = some (t, q, n) → .dropQuery i ∉ ops → .dropTransducer t ∉ ops →
      w.ts[t]? = some (some (A, a)) → (∀ im', w.im.count ≤ im'.count → iaddr im' ≠ a) →
      Yields A Prod.mk h1.mem d.root q n rs → ∀ v e, rs[ops.count (.next i)]? = some (v, e) →
      (lifeRun paddr saddr iaddr first upd dflt d.root fuel (ops ++ [.dropTransducer t, .next i]) ⟨h1, m, im, some d, [], []⟩ =
        .error .ub ↔ ops.count (.next i) + 1 < rs.length ∨ RootNeeded sgn terms v) ∧
      (rs.length = ops.count (.next i) + 1 → ¬ RootNeeded sgn terms v → ∃ w' Q,
        lifeRun paddr saddr iaddr first upd dflt d.root fuel (ops ++ [.dropTransducer t, .next i]) ⟨h1, m, im, some d, [], []⟩ =
          .ok w' ∧ w'.qs[i]? = some (some (A, Q)) ∧ Q.complete = true) := by
  obtain ⟨_, hfin⟩ := finished_of_run ha hr
  obtain ⟨k, _, hd⟩ := hfin.dictionary hlen
  obtain ⟨_, hsort, _, _⟩ := c81_dictionaries.1 ⟨k, hd⟩
  obtain ⟨h2, nd, F, N, ht, hZ, hdead, hmem, hN⟩ := life_run hA hI ha hr hlen hm hi
  refine ⟨N, fun fuel hf first R upd dflt ops hok hdd w e i t q n A a rs hs hdq hdt hts hne hy v ed hv => ?_⟩
  obtain ⟨w', e', hinv⟩ := (hN fuel hf).2.2 first R upd dflt ops hok
  rw [e] at e'
  cases e'
  obtain ⟨A', PQ, g1, g2, g3, g4⟩ := hinv.qlive i t q n hs hdq
  obtain ⟨a', Q, k1, k2, P, ch, k3, _, hq, hn, _⟩ := g4 hdt
  have hrs : rs = allOut A n q nd F := by
    have := hy.unique (ht.yields (by have := sizeMax_val; omega) hq Prod.mk)
    simpa using this
  subst hrs
  have hse : nd.edges.Pairwise (fun e f => charLt sgn e.1 f.1) := hsort d.root nd .refl ht.node
  have hroot : (v = [] ∨ ∃ c, v = [c] ∧ ∃ f ∈ nd.edges, charLt sgn c f.1) ↔ RootNeeded sgn terms v := by
    simp only [RootNeeded, root_edges hfin ht.node]
  obtain ⟨w1, s1, s2, s3⟩ := hinv.next_last_noTransducer (first := first) (dflt := dflt) hA hI ht hZ ht.node hse (hN fuel hf).1 hs hdq
    hdt hdd hts hne hv
  rw [hroot] at s2 s3
  have hrun : lifeRun paddr saddr iaddr first upd dflt d.root fuel (ops ++ [.dropTransducer t, .next i])
      ⟨h1, m, im, some d, [], []⟩ = lifeStep paddr saddr iaddr first upd dflt d.root fuel (.next i) w1 := by
    rw [lifeRun_append, e]
    simp only [Except.bind, lifeRun, bind, s1]
    split <;> simp_all
  have hlast : (allOut A n q nd F).length = ops.count (.next i) + 1 → ¬ RootNeeded sgn terms v → ∃ w' Q,
      lifeStep paddr saddr iaddr first upd dflt d.root fuel (.next i) w1 = .ok w' ∧ w'.qs[i]? = some (some (A, Q)) ∧
        Q.complete = true := by
    intro hl hno
    exact s3 hno (by rw [List.drop_eq_nil_iff]; simp only [doneBy]; omega)
  rw [hrun]
  refine ⟨⟨fun hub => ?_, fun hor => ?_⟩, hlast⟩
  · by_cases hno : RootNeeded sgn terms v
    · exact .inr hno
    · have hlt := (List.getElem?_eq_some_iff.1 hv).1
      by_cases hl : (allOut A n q nd F).length = ops.count (.next i) + 1
      · obtain ⟨w', Q, h', _⟩ := hlast hl hno
        rw [hub] at h'; cases h'
      · exact .inl (by omega)
  · by_cases hno : RootNeeded sgn terms v
    · exact s2 hno
    · rcases hor with hlt | hno'
      · have hmore : (allOut A n q nd F).drop ((doneBy ops).cnt i + 1) ≠ [] := by
          rw [Ne, List.drop_eq_nil_iff]
          simp only [doneBy]
          omega
        obtain ⟨w2, t1, t2⟩ := hinv.next_noTransducer (first := first) (dflt := dflt) hA hI ht hZ (hN fuel hf).1 hs hdq hdt hdd hts
          hne hmore
        rw [s1] at t1
        cases t1
        exact t2
      · exact absurd hno' hno

/-- C111: in particular a query may be advanced past a last candidate of two or more letters when its transducer is gone. -/
theorem c111_longer (hA : SAlloc paddr saddr) (hI : IAlloc iaddr) (ha : Allocator addr h)
    (hr : Ends (fun fuel => sortedDawg sgn addr fuel terms h) (h1, some d)) (hlen : ∀ t ∈ terms, t.length < 2 ^ 62)
    (hm : m.Finite) (hi : im.Finite) :
    ∃ N, ∀ fuel, N ≤ fuel → ∀ (first : Bool) (R : Type) (upd : Str → Nat → R) (dflt : R) (ops : List LOp), LifeOk ops →
      .dropDictionary ∉ ops → ∀ w, lifeRun paddr saddr iaddr first upd dflt d.root fuel ops ⟨h1, m, im, some d, [], []⟩ = .ok w →
      ∀ i t q n A a rs, (started ops)[i]? = some (t, q, n) → .dropQuery i ∉ ops → .dropTransducer t ∉ ops →
      w.ts[t]? = some (some (A, a)) → (∀ im', w.im.count ≤ im'.count → iaddr im' ≠ a) →
      Yields A Prod.mk h1.mem d.root q n rs → rs.length = ops.count (.next i) + 1 →
      ∀ v e, rs[ops.count (.next i)]? = some (v, e) → 2 ≤ v.length → ∃ w' Q,
        lifeRun paddr saddr iaddr first upd dflt d.root fuel (ops ++ [.dropTransducer t, .next i]) ⟨h1, m, im, some d, [], []⟩ =
          .ok w' ∧ w'.qs[i]? = some (some (A, Q)) ∧ Q.complete = true := by
  obtain ⟨N, hN⟩ := c111_without_transducer hA hI ha hr hlen hm hi
  refine ⟨N, fun fuel hf first R upd dflt ops hok hdd w e i t q n A a rs hs hdq hdt hts hne hy hl v ed hv h2 => ?_⟩
  refine (hN fuel hf first R upd dflt ops hok hdd w e i t q n A a rs hs hdq hdt hts hne hy v ed hv).2 hl ?_
  rintro (rfl | ⟨c, rfl, _⟩) <;> simp at h2

/-- C111: when the dictionary is gone as well, advancing a query that shows a candidate is always undefined behaviour, in whatever order
transducer and dictionary were destroyed and whatever addresses the allocator hands out. -/
theorem c111_without_both (hA : SAlloc paddr saddr) (hI : IAlloc iaddr) (ha : Allocator addr h)
    (hr : Ends (fun fuel => sortedDawg sgn addr fuel terms h) (h1, some d)) (hlen : ∀ t ∈ terms, t.length < 2 ^ 62)
    (hm : m.Finite) (hi : im.Finite) :
    ∃ N, ∀ fuel, N ≤ fuel → ∀ (first : Bool) (R : Type) (upd : Str → Nat → R) (dflt : R) (ops : List LOp), LifeOk ops →
      ∀ i t q n A rs, (started ops)[i]? = some (t, q, n) → (made ops)[t]? = some A →
      .dropQuery i ∉ ops → .dropTransducer t ∉ ops → Yields A upd h1.mem d.root q n rs → ops.count (.next i) < rs.length →
      ∀ last, (.dropDictionary ∈ ops ∧ last = [.dropTransducer t, .next i]) ∨
        (.dropDictionary ∉ ops ∧ (last = [.dropTransducer t, .dropDictionary, .next i] ∨
          last = [.dropDictionary, .dropTransducer t, .next i])) →
      lifeRun paddr saddr iaddr first upd dflt d.root fuel (ops ++ last) ⟨h1, m, im, some d, [], []⟩ = .error .ub := by
  obtain ⟨h2, nd, F, N, ht, hZ, hdead, hmem, hN⟩ := life_run hA hI ha hr hlen hm hi
  refine ⟨N, fun fuel hf first R upd dflt ops hok i t q n A rs hs hmd hdq hdt hy hlt last hlast => ?_⟩
  haveI : Inhabited R := ⟨dflt⟩
  have key : ∀ ops', LifeOk ops' → (started ops')[i]? = some (t, q, n) → (made ops')[t]? = some A →
      .dropQuery i ∉ ops' → .dropTransducer t ∉ ops' → ops'.count (.next i) < rs.length →
      (.dropDictionary ∈ ops' → lifeRun paddr saddr iaddr first upd dflt d.root fuel (ops' ++ [.dropTransducer t, .next i])
        ⟨h1, m, im, some d, [], []⟩ = .error .ub) ∧
      (.dropDictionary ∉ ops' → lifeRun paddr saddr iaddr first upd dflt d.root fuel
        (ops' ++ [.dropTransducer t, .dropDictionary, .next i]) ⟨h1, m, im, some d, [], []⟩ = .error .ub) := by
    intro ops' hok' hs' hmd' hdq' hdt' hlt'
    obtain ⟨w, e, hinv⟩ := (hN fuel hf).2.2 first R upd dflt ops' hok'
    obtain ⟨A', PQ, g1, g2, g3, g4⟩ := hinv.qlive i t q n hs' hdq'
    obtain ⟨a, Q, k1, k2, P, ch, k3, _, hq, hn, _⟩ := g4 hdt'
    have hAA : A' = A := by
      simp only [doneBy] at g1
      rw [hmd'] at g1
      exact (Option.some.inj g1).symm
    subst hAA
    have hrs := hy.unique (ht.yields (by have := sizeMax_val; omega) hq upd)
    have hmore : (allOut A' n q nd F).drop ((doneBy ops').cnt i) ≠ [] := by
      rw [Ne, List.drop_eq_nil_iff]
      rw [hrs, List.length_map] at hlt'
      simp only [doneBy]
      omega
    obtain ⟨r1, r2⟩ := hinv.next_gone (iaddr := iaddr) (first := first) (dflt := dflt) hA ht hZ hdead (hN fuel hf).2.1 (hN fuel hf).1
      hs' hdq' hdt' k1 hmore
    refine ⟨fun hdd => ?_, fun hdd => ?_⟩
    · rw [lifeRun_append, e]; exact r1 hdd
    · rw [lifeRun_append, e]; exact r2 hdd
  rcases hlast with ⟨hdd, rfl⟩ | ⟨hdd, rfl | rfl⟩
  · exact (key ops hok hs hmd hdq hdt hlt).1 hdd
  · exact (key ops hok hs hmd hdq hdt hlt).2 hdd
  · have hst : started (ops ++ [.dropDictionary]) = started ops := by rw [started_append]; simp [started]
    have hmk : made (ops ++ [.dropDictionary]) = made ops := by rw [made_append]; simp [made]
    have hok' : LifeOk (ops ++ [.dropDictionary]) := by
      intro p op r hpr
      rcases List.eq_nil_or_concat r with rfl | ⟨r', x, rfl⟩
      · obtain ⟨rfl, h2⟩ := List.append_inj' hpr rfl
        cases h2
        exact hdd
      · rw [List.concat_eq_append, ← List.cons_append, ← List.append_assoc] at hpr
        exact hok p op r' (List.append_inj' hpr rfl).1
    have := (key (ops ++ [.dropDictionary]) hok' (by rw [hst]; exact hs) (by rw [hmk]; exact hmd) (by simpa using hdq)
      (by simpa using hdt) (by simpa [List.count_append] using hlt)).1 (by simp)
    simpa using this

end

/-! ### Concrete cases -/

set_option synthInstance.maxSize 1000 in
/-- In {"ab", "b", "cb"}: past "cb", the only candidate for "cb" at distance 0, a query can be advanced without its transducer; past
"b", the only candidate for "b" at distance 0, it cannot, as the query has still to look at 'c'. -/
example : LifeOk [.transducer .standard, .start 0 [99, 98] 0] ∧ LifeOk [.transducer .standard, .start 0 [98] 0] ∧
    exLife newInt [.transducer .standard, .start 0 [99, 98] 0, .dropTransducer 0, .next 0] = .ok ([some none], [3, 2, 2, 2]) ∧
    exLife newInt [.transducer .standard, .start 0 [98] 0, .dropTransducer 0, .next 0] = .error .ub :=
  ⟨lifeOk_of (by decide), lifeOk_of (by decide), by decide +kernel, by decide +kernel⟩

set_option synthInstance.maxSize 1000 in
/-- In the same dictionary: past "cb" a query can not be advanced when both are gone, in either order. -/
example :
    exLife lowInt [.transducer .standard, .start 0 [99, 98] 0, .dropTransducer 0, .dropDictionary, .next 0] = .error .ub ∧
    exLife lowInt [.transducer .standard, .start 0 [99, 98] 0, .dropDictionary, .dropTransducer 0, .next 0] = .error .ub ∧
    exLife lowInt [.transducer .standard, .start 0 [99, 98] 0, .dropDictionary, .dropTransducer 0] =
      .ok ([some (some ([99, 98], 0))], [0, 2, 2, 2]) :=
  ⟨by decide +kernel, by decide +kernel, by decide +kernel⟩

example : ¬ RootNeeded true [[97, 98], [98], [99, 98]] [99, 98] ∧ RootNeeded true [[97, 98], [98], [99, 98]] [98] ∧
    ¬ RootNeeded true [[97, 98], [98]] [98] := by
  refine ⟨?_, .inr ⟨98, rfl, 99, [98], by simp, by unfold charLt; decide⟩, ?_⟩
  · rintro (h | ⟨c, h, _⟩) <;> cases h
  · rintro (h | ⟨c, h, c', u, h1, h2⟩)
    · cases h
    · cases h
      simp only [List.mem_cons, List.cons.injEq, List.not_mem_nil, or_false] at h1
      rcases h1 with ⟨rfl, _⟩ | ⟨rfl, _⟩ <;> revert h2 <;> unfold charLt <;> decide

end Lev.Props
