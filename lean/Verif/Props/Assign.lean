import Verif.Proofs.Assign
import Verif.Props.Lifetime

/-!
# Property C89: assignments

A program makes and uses transducers and queries as in C55, copies and assigns some of them, and then destroys all of them.
-/

namespace Lev.Props

open Lev Spec

section
variable {paddr saddr : SMem → Nat} {iaddr : IMem Nat → Nat} {sgn : Bool} {addr : Nat → Nat} {h h1 : Heap}
  {terms : List Str} {d : SDawg} {m : SMem} {im : IMem Nat}

/-- C89: copies and assignments in any number, then the destruction of everything in any order.  It is undefined behaviour
if and only if some intersection has two owners.  Otherwise exactly the intersections are left, beyond those before the
program, that had an owner before the copies and assignments and have none afterwards; nothing is left if and only if there
are none. -/
theorem c89_assignments (hA : SAlloc paddr saddr) (hI : IAlloc iaddr) (ha : Allocator addr h)
    (hr : Ends (fun fuel => sortedDawg sgn addr fuel terms h) (h1, some d)) (hlen : ∀ t ∈ terms, t.length < 2 ^ 62)
    (hm : m.Finite) (hi : im.Finite) :
    ∃ N, ∀ fuel, N ≤ fuel → ∀ (first : Bool) (R : Type) (upd : Str → Nat → R) (dflt : R) (ops : List LOp), LifeOk ops →
      ∀ w, lifeRun paddr saddr iaddr first upd dflt d.root fuel ops ⟨h1, m, im, some d, [], []⟩ = .ok w →
      ∀ cops w', assignRun cops w = .ok w' →
        (∃ ds, DestroysAll w' ds) ∧ ∀ ds, DestroysAll w' ds →
          (¬ (owners w').Nodup → lifeRun paddr saddr iaddr first upd dflt d.root fuel ds w' = .error .ub) ∧
          ((owners w').Nodup → ∃ w'', lifeRun paddr saddr iaddr first upd dflt d.root fuel ds w' = .ok w'' ∧
            (∀ x, x ∈ owners w → x ∉ owners w' → ∃ c, w''.im.cell x = some c ∧ w.im.cell x = some c ∧
              im.cell x = none ∧ m.st c.state = none ∧ w''.sm.st c.state ≠ none) ∧
            (∀ x, x ∉ owners w ∨ x ∈ owners w' → w''.im.cell x = im.cell x) ∧
            ((∀ x, x ∈ owners w → x ∈ owners w') ↔
              w''.im.cell = im.cell ∧ w''.sm.st = m.st ∧ w''.sm.pos = m.pos)) := by
  obtain ⟨h2, nd, F, N, ht, hZ, hdead, hmem, hN⟩ := life_run hA hI ha hr hlen hm hi
  refine ⟨N, fun fuel hf first R upd dflt ops hok w e cops w' e' => ⟨⟨_, destroysAll_there w'⟩, fun ds hd => ?_⟩⟩
  obtain ⟨w0, e0, hinv⟩ := (hN fuel hf).2.2 first R upd dflt ops hok
  rw [e] at e0
  cases e0
  have hacc := hinv.acc
  rw [← owners_eq] at hacc
  obtain ⟨g1, g2⟩ := assign_destroy (paddr := paddr) (saddr := saddr) (iaddr := iaddr) (first := first) (upd := upd)
    (dflt := dflt) (root := d.root) (fuel := fuel) hacc e' hd
  refine ⟨g2, fun hn => ?_⟩
  obtain ⟨w'', r1, r2, _, r4⟩ := g1 hn
  have hmf : ∀ x, x ∈ (owners w).filter (· ∉ owners w') ↔ x ∈ owners w ∧ x ∉ owners w' := by
    intro x; simp [List.mem_filter]
  have hleft : ∀ x, x ∈ owners w → x ∉ owners w' → ∃ c, w''.im.cell x = some c ∧ w.im.cell x = some c ∧
      im.cell x = none ∧ m.st c.state = none ∧ w''.sm.st c.state ≠ none := by
    intro x hx hx'
    obtain ⟨_, k2, c, k3⟩ := r2.own x ((hmf x).2 ⟨hx, hx'⟩)
    obtain ⟨_, s2, l, s3, _⟩ := r2.states.states (stateOf w''.im x) (List.mem_map_of_mem ((hmf x).2 ⟨hx, hx'⟩))
    have hst : stateOf w''.im x = c.state := by simp [stateOf, k3]
    rw [hst] at s2 s3
    refine ⟨c, k3, by rw [← r4 x hx']; exact k3, k2, s2, ?_⟩
    obtain ⟨s4, _⟩ := s3
    simp [s4]
  refine ⟨w'', r1, hleft, fun x hx => r2.same x fun hc => ?_, fun hall => ?_, fun hsame x hx => ?_⟩
  · have := (hmf x).1 hc
    rcases hx with hx | hx
    · exact hx this.1
    · exact this.2 hx
  · have : (owners w).filter (· ∉ owners w') = [] := List.eq_nil_iff_forall_not_mem.2 fun x hx =>
      ((hmf x).1 hx).2 (hall x ((hmf x).1 hx).1)
    rw [this] at r2
    exact ⟨r2.all.2.2, r2.all.2.1, r2.all.1⟩
  · by_cases hx' : x ∈ owners w'
    · exact hx'
    · obtain ⟨c, q1, _, q2, _⟩ := hleft x hx hx'
      rw [hsame.1, q2] at q1
      cases q1

theorem owners_set {R : Type} {w : World R} {i : Nat} {x y : Option (Algorithm × PQuery R)} (hi : w.qs[i]? = some x) :
    ∃ rest, (owners w).Perm (rest ++ (x.map fun z => z.2.owned).getD []) ∧
      (owners { w with qs := w.qs.set i y }).Perm (rest ++ (y.map fun z => z.2.owned).getD []) ∧
      ∀ j z, j ≠ i → w.qs[j]? = some (some z) → ∀ a ∈ z.2.owned, a ∈ rest := by
  obtain ⟨l, r, hT, hlen, hset⟩ := split_at hi
  have hp : ∀ (P a b c : List Nat), (P ++ (a ++ (b ++ c))).Perm ((P ++ (a ++ c)) ++ b) := by
    intro P a b c
    rw [List.append_assoc, List.append_assoc]
    exact List.Perm.append_left _ (List.Perm.append_left _ List.perm_append_comm)
  refine ⟨tOwned w.ts ++ (qOwned l ++ qOwned r), ?_, ?_, fun j z hj hz a ha => ?_⟩
  · rw [owners_eq]
    have : qOwned w.qs = qOwned l ++ ((x.map fun z => z.2.owned).getD [] ++ qOwned r) := by rw [hT]; simp [qOwned]
    rw [this]
    exact hp _ _ _ _
  · rw [owners_eq]
    have : qOwned (w.qs.set i y) = qOwned l ++ ((y.map fun z => z.2.owned).getD [] ++ qOwned r) := by
      rw [hset]; simp [qOwned]
    simp only [this]
    exact hp _ _ _ _
  · refine List.mem_append_right _ ?_
    have hmem : some z ∈ l ++ r := by
      rw [hT] at hz
      rcases Nat.lt_or_ge j l.length with hjl | hjl
      · rw [List.getElem?_append_left hjl] at hz
        exact List.mem_append_left _ (List.mem_of_getElem? hz)
      · rw [List.getElem?_append_right hjl] at hz
        obtain ⟨k, hk⟩ : ∃ k, j - l.length = k + 1 := ⟨j - l.length - 1, by omega⟩
        rw [hk, List.getElem?_cons_succ] at hz
        exact List.mem_append_right _ (List.mem_of_getElem? hz)
    rcases List.mem_append.1 hmem with hz | hz
    · exact List.mem_append_left _ (List.mem_flatMap.2 ⟨_, hz, by simpa using ha⟩)
    · exact List.mem_append_right _ (List.mem_flatMap.2 ⟨_, hz, by simpa using ha⟩)

/-- C89, one assignment between two queries: `queries[i] = queries[j]`.  Destroying everything afterwards is undefined
behaviour if and only if `queries[j]` has made an intersection; otherwise all intersections of `queries[i]` are leaked, and
nothing else. -/
theorem c89_assigned_query (hA : SAlloc paddr saddr) (hI : IAlloc iaddr) (ha : Allocator addr h)
    (hr : Ends (fun fuel => sortedDawg sgn addr fuel terms h) (h1, some d)) (hlen : ∀ t ∈ terms, t.length < 2 ^ 62)
    (hm : m.Finite) (hi : im.Finite) :
    ∃ N, ∀ fuel, N ≤ fuel → ∀ (first : Bool) (R : Type) (upd : Str → Nat → R) (dflt : R) (ops : List LOp), LifeOk ops →
      ∀ w, lifeRun paddr saddr iaddr first upd dflt d.root fuel ops ⟨h1, m, im, some d, [], []⟩ = .ok w →
      ∀ i j A B Q P, i ≠ j → w.qs[i]? = some (some (A, Q)) → w.qs[j]? = some (some (B, P)) →
        ∃ w', assignRun [.assign i j] w = .ok w' ∧ w'.qs[i]? = some (some (B, P)) ∧ w'.qs[j]? = some (some (B, P)) ∧
          ∀ ds, DestroysAll w' ds →
            (P.owned ≠ [] → lifeRun paddr saddr iaddr first upd dflt d.root fuel ds w' = .error .ub) ∧
            (P.owned = [] → ∃ w'', lifeRun paddr saddr iaddr first upd dflt d.root fuel ds w' = .ok w'' ∧
              (∀ x, x ∈ Q.owned → w''.im.cell x ≠ none ∧ im.cell x = none) ∧
              ∀ x, x ∉ Q.owned → w''.im.cell x = im.cell x) := by
  obtain ⟨N, hN⟩ := c89_assignments hA hI ha hr hlen hm hi
  obtain ⟨_, _, _, N', _, _, _, _, hN'⟩ := life_run hA hI ha hr hlen hm hi
  refine ⟨max N N', fun fuel hf first R upd dflt ops hok w e i j A B Q P hij hQ hP => ?_⟩
  obtain ⟨w0, e0, hinv⟩ := (hN' fuel (by omega)).2.2 first R upd dflt ops hok
  rw [e] at e0
  cases e0
  have hnd := hinv.acc.nodup
  rw [← owners_eq] at hnd
  have e' : assignRun [.assign i j] w = .ok { w with qs := w.qs.set i (some (B, P)) } := by
    simp only [assignRun, assignStep, hQ, hP, bind, Except.bind]
  have hlt := (List.getElem?_eq_some_iff.1 hQ).1
  refine ⟨_, e', by simp [List.getElem?_set_self hlt], by simp [List.getElem?_set_ne hij, hP], fun ds hd => ?_⟩
  obtain ⟨g1, g2⟩ := (hN fuel (by omega) first R upd dflt ops hok w e _ _ e').2 ds hd
  obtain ⟨rest, p1, p2, p3⟩ := owners_set (w := w) (y := some (B, P)) hQ
  simp only [Option.map_some, Option.getD_some] at p1 p2
  have hnd' := p1.nodup_iff.1 hnd
  constructor
  · intro hne
    refine g1 fun hc => ?_
    obtain ⟨a, ha⟩ := List.exists_mem_of_ne_nil _ hne
    exact (List.nodup_append.1 (p2.nodup_iff.1 hc)).2.2 a (p3 j _ (fun h => hij h.symm) hP a ha) a ha rfl
  · intro ho
    rw [ho, List.append_nil] at p2
    obtain ⟨w'', q1, q2, q3, _⟩ := g2 (p2.nodup_iff.2 (List.nodup_append.1 hnd').1)
    refine ⟨w'', q1, fun x hx => ?_, fun x hx => q3 x ?_⟩
    · obtain ⟨c, k1, _, k2, _⟩ := q2 x (p1.mem_iff.2 (by simp [hx]))
        fun hc => (List.nodup_append.1 hnd').2.2 x (p2.mem_iff.1 hc) x hx rfl
      exact ⟨by simp [k1], k2⟩
    · by_cases hw : x ∈ owners w
      · rcases List.mem_append.1 (p1.mem_iff.1 hw) with hr | hr
        · exact .inr (p2.mem_iff.2 hr)
        · exact absurd hr hx
      · exact .inl hw

/-- C89: assigning a query or a transducer to itself changes nothing. -/
theorem c89_self {R : Type} (w : World R) {i : Nat} {x : Algorithm × PQuery R} {t : Nat} {y : Algorithm × Nat} :
    (w.qs[i]? = some (some x) → assignRun [.assign i i] w = .ok w) ∧
    (w.ts[t]? = some (some y) → assignRun [.assignTransducer t t] w = .ok w) := by
  constructor
  · intro hx
    have : w.qs.set i (some x) = w.qs := by
      obtain ⟨l, r, e1, e2, e3⟩ := split_at hx
      rw [e3]; exact e1.symm
    simp only [assignRun, assignStep, hx, this, bind, Except.bind]
  · intro hy
    have : w.ts.set t (some y) = w.ts := by
      obtain ⟨l, r, e1, e2, e3⟩ := split_at hy
      rw [e3]; exact e1.symm
    simp only [assignRun, assignStep, hy, this, bind, Except.bind, if_true]

theorem set_set_perm {α : Type} {l : List α} {i j : Nat} {x y : α} (hi : l[i]? = some x) (hj : l[j]? = some y) (hij : i ≠ j) :
    ((l.set i y).set j x).Perm l := by
  have key : ∀ {l : List α} {i : Nat} {x : α} (y : α), l[i]? = some x → (x :: l.set i y).Perm (y :: l) := by
    intro l i x y h
    obtain ⟨a, b, e1, _, e3⟩ := split_at h
    rw [e3, e1]
    refine (List.Perm.cons x List.perm_middle).trans ?_
    refine (List.Perm.swap y x (a ++ b)).trans ?_
    exact List.Perm.cons y List.perm_middle.symm
  have h1 := key x (l := l.set i y) (i := j) (x := y) (by rw [List.getElem?_set_ne hij]; exact hj)
  have h2 := key y hi
  exact (List.perm_cons y).1 (h1.trans h2)

/-- C89, `std::swap` of two queries, which copies the first one to a temporary and assigns twice.  Destroying the temporary
and everything else is undefined behaviour if and only if the first query has made an intersection; otherwise nothing is
leaked. -/
theorem c89_swapped_queries (hA : SAlloc paddr saddr) (hI : IAlloc iaddr) (ha : Allocator addr h)
    (hr : Ends (fun fuel => sortedDawg sgn addr fuel terms h) (h1, some d)) (hlen : ∀ t ∈ terms, t.length < 2 ^ 62)
    (hm : m.Finite) (hi : im.Finite) :
    ∃ N, ∀ fuel, N ≤ fuel → ∀ (first : Bool) (R : Type) (upd : Str → Nat → R) (dflt : R) (ops : List LOp), LifeOk ops →
      ∀ w, lifeRun paddr saddr iaddr first upd dflt d.root fuel ops ⟨h1, m, im, some d, [], []⟩ = .ok w →
      ∀ i j A B Q P, i ≠ j → w.qs[i]? = some (some (A, Q)) → w.qs[j]? = some (some (B, P)) →
        ∃ w', assignRun (swapOps w.qs.length i j) w = .ok w' ∧ w'.qs[i]? = some (some (B, P)) ∧
          w'.qs[j]? = some (some (A, Q)) ∧
          ∀ ds, DestroysAll w' ds →
            (Q.owned ≠ [] → lifeRun paddr saddr iaddr first upd dflt d.root fuel ds w' = .error .ub) ∧
            (Q.owned = [] → ∃ w'', lifeRun paddr saddr iaddr first upd dflt d.root fuel ds w' = .ok w'' ∧
              w''.im.cell = im.cell ∧ w''.sm.st = m.st ∧ w''.sm.pos = m.pos) := by
  obtain ⟨N, hN⟩ := c89_assignments hA hI ha hr hlen hm hi
  obtain ⟨_, _, _, N', _, _, _, _, hN'⟩ := life_run hA hI ha hr hlen hm hi
  refine ⟨max N N', fun fuel hf first R upd dflt ops hok w e i j A B Q P hij hQ hP => ?_⟩
  obtain ⟨w0, e0, hinv⟩ := (hN' fuel (by omega)).2.2 first R upd dflt ops hok
  rw [e] at e0
  cases e0
  have hnd := hinv.acc.nodup
  rw [← owners_eq] at hnd
  have hi' := (List.getElem?_eq_some_iff.1 hQ).1
  have hj' := (List.getElem?_eq_some_iff.1 hP).1
  have a1 : (w.qs ++ [some (A, Q)])[i]? = some (some (A, Q)) := by rw [List.getElem?_append_left hi']; exact hQ
  have a2 : (w.qs ++ [some (A, Q)])[j]? = some (some (B, P)) := by rw [List.getElem?_append_left hj']; exact hP
  have a3 : ((w.qs ++ [some (A, Q)]).set i (some (B, P)))[j]? = some (some (B, P)) := by
    rw [List.getElem?_set_ne hij]; exact a2
  have a4 : ((w.qs ++ [some (A, Q)]).set i (some (B, P)))[w.qs.length]? = some (some (A, Q)) := by
    rw [List.getElem?_set_ne (by omega), List.getElem?_append_right (Nat.le_refl _)]; simp
  have a5 : ((w.qs ++ [some (A, Q)]).set i (some (B, P))).set j (some (A, Q)) =
      (w.qs.set i (some (B, P))).set j (some (A, Q)) ++ [some (A, Q)] := by
    rw [List.set_append_left _ _ hi', List.set_append_left _ _ (by simpa using hj')]
  have e' : assignRun (swapOps w.qs.length i j) w =
      .ok { w with qs := (w.qs.set i (some (B, P))).set j (some (A, Q)) ++ [some (A, Q)] } := by
    simp only [swapOps, assignRun, assignStep, hQ, a1, a2, a3, a4, a5, bind, Except.bind]
  have b2 : ((w.qs.set i (some (B, P))).set j (some (A, Q)))[j]? = some (some (A, Q)) :=
    List.getElem?_set_self (by simpa using hj')
  have b1 : ((w.qs.set i (some (B, P))).set j (some (A, Q)))[i]? = some (some (B, P)) := by
    rw [List.getElem?_set_ne (fun h => hij h.symm)]
    exact List.getElem?_set_self hi'
  refine ⟨_, e', ?_, ?_, fun ds hd => ?_⟩
  · simp only
    rw [List.getElem?_append_left (by simpa using hi')]; exact b1
  · simp only
    rw [List.getElem?_append_left (by simpa using hj')]; exact b2
  obtain ⟨g1, g2⟩ := (hN fuel (by omega) first R upd dflt ops hok w e _ _ e').2 ds hd
  have ho : owners { w with qs := (w.qs.set i (some (B, P))).set j (some (A, Q)) ++ [some (A, Q)] } =
      (tOwned w.ts ++ qOwned ((w.qs.set i (some (B, P))).set j (some (A, Q)))) ++ Q.owned := by
    rw [owners_eq]; simp [qOwned]
  have hp : (tOwned w.ts ++ qOwned ((w.qs.set i (some (B, P))).set j (some (A, Q)))).Perm (owners w) := by
    rw [owners_eq]
    exact List.Perm.append_left _ ((set_set_perm hQ hP hij).flatMap_right _)
  constructor
  · intro hne
    refine g1 fun hc => ?_
    rw [ho] at hc
    obtain ⟨a, ha⟩ := List.exists_mem_of_ne_nil _ hne
    exact (List.nodup_append.1 hc).2.2 a (List.mem_append_right _ (mem_qOwned b2 ha)) a ha rfl
  · intro hne
    rw [hne, List.append_nil] at ho
    rw [ho] at g2
    obtain ⟨w'', q1, _, _, q4⟩ := g2 (hp.nodup_iff.2 hnd)
    exact ⟨w'', q1, q4.1 fun x hx => hp.mem_iff.2 hx⟩

/-- C89: assigning a transducer to another one of the same type.  Destroying everything afterwards is undefined
behaviour. -/
theorem c89_assigned_transducer (hA : SAlloc paddr saddr) (hI : IAlloc iaddr) (ha : Allocator addr h)
    (hr : Ends (fun fuel => sortedDawg sgn addr fuel terms h) (h1, some d)) (hlen : ∀ t ∈ terms, t.length < 2 ^ 62)
    (hm : m.Finite) (hi : im.Finite) :
    ∃ N, ∀ fuel, N ≤ fuel → ∀ (first : Bool) (R : Type) (upd : Str → Nat → R) (dflt : R) (ops : List LOp), LifeOk ops →
      ∀ w, lifeRun paddr saddr iaddr first upd dflt d.root fuel ops ⟨h1, m, im, some d, [], []⟩ = .ok w →
      ∀ s t A a b, s ≠ t → w.ts[s]? = some (some (A, a)) → w.ts[t]? = some (some (A, b)) →
        ∃ w', assignRun [.assignTransducer s t] w = .ok w' ∧ a ∉ owners w' ∧
          ∀ ds, DestroysAll w' ds → lifeRun paddr saddr iaddr first upd dflt d.root fuel ds w' = .error .ub := by
  obtain ⟨N, hN⟩ := c89_assignments hA hI ha hr hlen hm hi
  obtain ⟨_, _, _, N', _, _, _, _, hN'⟩ := life_run hA hI ha hr hlen hm hi
  refine ⟨max N N', fun fuel hf first R upd dflt ops hok w e s t A a b hst hs ht => ?_⟩
  obtain ⟨w0, e0, hinv⟩ := (hN' fuel (by omega)).2.2 first R upd dflt ops hok
  rw [e] at e0
  cases e0
  have hnd := hinv.acc.nodup
  have e' : assignRun [.assignTransducer s t] w = .ok { w with ts := w.ts.set s (some (A, b)) } := by
    simp only [assignRun, assignStep, hs, ht, if_true, bind, Except.bind]
  obtain ⟨l, r, hT, hl, hset⟩ := split_at hs
  have hmem : some (A, b) ∈ l ++ r := by
    rw [hT] at ht
    rcases Nat.lt_or_ge t l.length with hjl | hjl
    · rw [List.getElem?_append_left hjl] at ht
      exact List.mem_append_left _ (List.mem_of_getElem? ht)
    · rw [List.getElem?_append_right hjl] at ht
      obtain ⟨k, hk⟩ : ∃ k, t - l.length = k + 1 := ⟨t - l.length - 1, by omega⟩
      rw [hk, List.getElem?_cons_succ] at ht
      exact List.mem_append_right _ (List.mem_of_getElem? ht)
  have hb : b ∈ tOwned l ++ tOwned r := by
    rcases List.mem_append.1 hmem with hz | hz
    · exact List.mem_append_left _ (List.mem_flatMap.2 ⟨_, hz, by simp⟩)
    · exact List.mem_append_right _ (List.mem_flatMap.2 ⟨_, hz, by simp⟩)
  have hp : ∀ z, (tOwned (l ++ some (A, z) :: r) ++ qOwned w.qs).Perm (z :: ((tOwned l ++ tOwned r) ++ qOwned w.qs)) := by
    intro z
    have : tOwned (l ++ some (A, z) :: r) = tOwned l ++ z :: tOwned r := by simp [tOwned]
    rw [this]
    exact List.Perm.append_right _ List.perm_middle
  have hq : owners { w with ts := w.ts.set s (some (A, b)) } = tOwned (l ++ some (A, b) :: r) ++ qOwned w.qs := by
    rw [owners_eq]; simp only [hset]
  rw [hT] at hnd
  have hnd' := (hp a).nodup_iff.1 hnd
  refine ⟨_, e', fun hc => ?_, fun ds hd => ?_⟩
  · rw [hq, (hp b).mem_iff, List.mem_cons] at hc
    rcases hc with rfl | hc
    · exact (List.nodup_cons.1 hnd').1 (List.mem_append_left _ hb)
    · exact (List.nodup_cons.1 hnd').1 hc
  · refine ((hN fuel (by omega) first R upd dflt ops hok w e _ _ e').2 ds hd).1 fun hc => ?_
    rw [hq] at hc
    exact (List.nodup_cons.1 ((hp b).nodup_iff.1 hc)).1 (List.mem_append_left _ hb)

end

/-- C89: a dictionary assigned to another one, be it as `SortedDawg` or as `Dawg`.  Destroying one of the two leaves every
node of the other dictionary in memory, where nothing refers to it any more; destroying the second one then is undefined
behaviour. -/
theorem c89_assigned_dictionary {sgn : Bool} {addr : Nat → Nat} {h h1 h2 : Heap} {ts us : List Str} {d e : SDawg}
    (ha : Allocator addr h) (hd : Ends (fun fuel => sortedDawg sgn addr fuel ts h) (h1, some d))
    (he : Ends (fun fuel => sortedDawg sgn addr fuel us h1) (h2, some e)) :
    ∃ h3 N, ∀ fuel, N ≤ fuel → ∀ x, x = assignDawg d e ∨ x = assignBase d e →
      (destroyDawg fuel h2 x = .ok h3 ∧ destroyDawg fuel h3 e = .error .ub) ∧
      (destroyDawg fuel h2 e = .ok h3 ∧ destroyDawg fuel h3 x = .error .ub) ∧
      ∀ a, Reaches h1.mem d.root a → h3.mem a ≠ none ∧ ¬ Reaches h2.mem e.root a ∧ h.mem a = none := by
  obtain ⟨_, hf⟩ := finished_of_run ha hd
  have ha1 : Allocator addr h1 := ⟨ha.nonnull, ha.inj, hf.null, hf.fresh⟩
  obtain ⟨_, hg⟩ := finished_of_run ha1 he
  obtain ⟨h3, ⟨N, e1⟩, e2⟩ := hg.destroy ha1.fresh
  obtain ⟨k, hk, _, hroot⟩ := hg.range e.root .refl
  have hdead : h3.mem e.root = none := by rw [e2, hroot]; exact ha1.fresh k hk
  refine ⟨h3, N + 1, fun fuel hfu x hx => ?_⟩
  have hs : ∀ fuel h, destroyDawg fuel h x = destroyDawg fuel h e := by
    intro fuel h
    rcases hx with rfl | rfl
    · rfl
    · simp only [destroyDawg, cleanUp, assignBase, hf.ptrs.2.2, hg.ptrs.2.2, bind, Except.bind]
  have hub : destroyDawg fuel h3 e = .error .ub := by
    obtain ⟨f, rfl⟩ : ∃ f, fuel = f + 1 := ⟨fuel - 1, by omega⟩
    simp only [destroyDawg, cleanUp, hg.ptrs.2.2, bind, Except.bind, allNodes, allNodesLoop, deref, hdead]
  rw [hs, hs]
  refine ⟨⟨e1 fuel (by omega), hub⟩, ⟨e1 fuel (by omega), hub⟩, fun a har => ?_⟩
  have hr := hf.range a har
  have hal := (hf.alive a hr).2 har
  refine ⟨by rw [e2]; exact hal, fun hc => ?_, ?_⟩
  · obtain ⟨j, hj, _, rfl⟩ := hg.range a hc
    exact hal (ha1.fresh j hj)
  · obtain ⟨j, hj, _, rfl⟩ := hr
    exact ha.fresh j hj

/-- C89: an iterator over a dictionary assigned to another one.  Destroying one of the two leaves every prefix of the
overwritten iterator in memory; destroying the other one is undefined behaviour. -/
theorem c89_assigned_iterator {sgn : Bool} {addr paddr : Nat → Nat} {h h1 : Heap} {ph : PHeap} {terms : List Str} {d : SDawg}
    (ha : Allocator addr h) (hr : Ends (fun fuel => sortedDawg sgn addr fuel terms h) (h1, some d))
    (hp : PAllocator paddr ph) (j k : Nat) :
    ∃ ph1 it ph2 jt ph3, Ends (fun fuel => dictIterAt h1.mem paddr fuel d.root j ph) (ph1, it) ∧
      Ends (fun fuel => dictIterAt h1.mem paddr fuel d.root k ph1) (ph2, jt) ∧
      iterDestroy ph2 (assignIter it jt) = .ok ph3 ∧ iterDestroy ph3 jt = .error .ub ∧
      it.prefixes ≠ [] ∧ ∀ a ∈ it.prefixes, ph3.mem a ≠ none ∧ a ∉ jt.prefixes ∧ ph.mem a = none := by
  obtain ⟨_, hf⟩ := finished_of_run ha hr
  obtain ⟨nd, F, m, u, _, s, _⟩ := hf.dict
  obtain ⟨ph1, it, L, r1, r2, _, _, _, _, r3, _⟩ := dictIterAt_spec hp m u j
  have hp1 : PAllocator paddr ph1 := ⟨r2.nonnull, r2.inj, r2.null, r2.fresh⟩
  obtain ⟨ph2, jt, L', q1, q2, _, _, _, _, q3, _⟩ := dictIterAt_spec hp1 m u k
  obtain ⟨ph3, e1, e2⟩ := q2.destroy hp1.fresh
  refine ⟨ph1, it, ph2, jt, ph3, ⟨_, fun fuel hf => r1 fuel hf⟩, ⟨_, fun fuel hf => q1 fuel hf⟩, e1, ?_, r3, fun a hm => ?_⟩
  · obtain ⟨a, as, has⟩ := List.exists_cons_of_ne_nil q3
    have hmem : a ∈ jt.prefixes := by simp [has]
    rw [q2.owned, List.mem_map] at hmem
    obtain ⟨j, hj, rfl⟩ := hmem
    rw [List.mem_range'_1] at hj
    have hd : ph3.mem (paddr j) = none := by rw [e2]; exact hp1.fresh j hj.1
    simp only [iterDestroy, has, deletePrefixes, deletePrefix, hp.nonnull j, if_false, hd, bind, Except.bind]
  · rw [r2.owned, List.mem_map] at hm
    obtain ⟨i, hi, rfl⟩ := hm
    rw [List.mem_range'_1] at hi
    refine ⟨?_, fun hc => ?_, hp.fresh i hi.1⟩
    · rw [e2]; exact r2.live i hi.1 (by have := r2.base; omega)
    · rw [q2.owned, List.mem_map] at hc
      obtain ⟨l, hl, hil⟩ := hc
      rw [List.mem_range'_1] at hl
      have := hp.inj _ _ hil
      have := r2.base
      omega

/-! ### Examples -/

/-- `exLife` with copies and assignments between two parts: how often each intersection is owned before the second part, how
many of the first 100 addresses of positions, states and intersections are in use in the end. -/
def exAssign (ops : List LOp) (cops : List AOp) (ds : List LOp) : Except Err (List Nat × List Nat) := do
  let (h, r) ← sortedDawg true (fun k => k + 1) 100 [[97, 98], [98], [99, 98]] exHeap
  match r with
  | none => .error .ub
  | some d => do
      let w ← lifeRun lowPos lowSt lowInt true updCandidate ([], 0) d.root 100 ops ⟨h, SMem.empty, emptyInt, some d, [], []⟩
      let w' ← assignRun cops w
      let w'' ← lifeRun lowPos lowSt lowInt true updCandidate ([], 0) d.root 100 ds w'
      .ok ((List.range 10).map fun a => (owners w').count a,
        [(liveBelow w''.sm).1, (liveBelow w''.sm).2, ((List.range 100).filter fun a => (w''.im.cell a).isSome).length])

/-- Query 0 has made intersections, query 1 has not. -/
def exAssignOps : List LOp := [.transducer .standard, .transducer .standard, .start 0 [98] 1, .next 0, .start 1 [122] 0]

theorem exAssignOps_ok : LifeOk exAssignOps := lifeOk_of (by decide)

set_option synthInstance.maxSize 1000 in
/-- Before, each intersection has one owner, and all can be destroyed. -/
example : exAssign exAssignOps [] [.dropQuery 0, .dropQuery 1, .dropTransducer 0, .dropTransducer 1] =
    .ok ([0, 1, 1, 1, 1, 1, 1, 0, 0, 0], [0, 0, 0]) := by decide +kernel

set_option synthInstance.maxSize 1000 in
/-- `queries[0] = queries[1]` leaks four intersections; `queries[1] = queries[0]` deletes four intersections twice. -/
theorem c89_example_query :
    exAssign exAssignOps [.assign 0 1] [.dropQuery 0, .dropQuery 1, .dropTransducer 0, .dropTransducer 1] =
      .ok ([0, 1, 1, 0, 0, 0, 0, 0, 0, 0], [6, 4, 4]) ∧
    exAssign exAssignOps [.assign 1 0] [] = .ok ([0, 1, 1, 2, 2, 2, 2, 0, 0, 0], [8, 6, 6]) ∧
    exAssign exAssignOps [.assign 1 0] [.dropQuery 0, .dropQuery 1, .dropTransducer 0, .dropTransducer 1] = .error .ub := by
  decide +kernel

set_option synthInstance.maxSize 1000 in
/-- `std::swap(queries[0], queries[1])` and `std::swap(queries[1], queries[0])`: the temporary is query 2, which is destroyed
first.  The order of the arguments matters. -/
theorem c89_example_swap :
    exAssign exAssignOps (swapOps 2 0 1) [.dropQuery 2, .dropQuery 0, .dropQuery 1, .dropTransducer 0, .dropTransducer 1] =
      .error .ub ∧
    exAssign exAssignOps (swapOps 2 1 0) [.dropQuery 2, .dropQuery 0, .dropQuery 1, .dropTransducer 0, .dropTransducer 1] =
      .ok ([0, 1, 1, 1, 1, 1, 1, 0, 0, 0], [0, 0, 0]) := by
  decide +kernel

set_option synthInstance.maxSize 1000 in
/-- `transducers[0] = transducers[1]`. -/
theorem c89_example_transducer :
    exAssign exAssignOps [.assignTransducer 0 1] [] = .ok ([0, 0, 2, 1, 1, 1, 1, 0, 0, 0], [8, 6, 6]) ∧
    exAssign exAssignOps [.assignTransducer 0 1] [.dropTransducer 0, .dropTransducer 1] = .error .ub := by
  decide +kernel

end Lev.Props
