import Verif.Proofs.DictSem
import Verif.Proofs.QueryAll

/-!
# Words of 2^31 characters or more

Where the `int` counters of `Dawg::contains` and of `characteristic_vector` overflow.
-/

namespace Lev

open Spec

/-- In a forest with sorted edges the character `c` leads to `k` and to no other forest. -/
theorem accT_child {sgn : Bool} {F : Forest} (hs : F.Sorted sgn) {b : Bool} {c : UInt8} {f : Bool} {k : Forest}
    (h : (c, f, k) ∈ F.toList) (t : Str) : AccT b F (c :: t) ↔ AccT f k t := by
  simp only [AccT, List.cons_ne_nil, false_and, false_or, Forest.acc_cons]
  constructor
  · rintro ⟨f', k', h7, h8⟩
    have := forest_label_unique hs (x := (f', k')) (y := (f, k)) h7 h
    cases this
    exact h8
  · intro h'; exact ⟨_, _, h, h'⟩

/-- The loop of `contains` is undefined exactly if a path takes it to the last `int` with a character left. -/
theorem containsLoop_exact {sgn : Bool} {mem : Mem} (h0 : mem 0 = none) (t : Str) {i a : Nat} {nd : DNode} {F : Forest}
    (hm : mem a = some nd) (hF : Unf mem nd.edges F) (hs : F.Sorted sgn) (ht : F.Trim) (hi : i ≤ 2147483647)
    (hlive : i = 2147483647 → ∃ v, AccT nd.final F v) :
    (2147483647 - i < t.length → (∃ v, AccT nd.final F (t.take (2147483647 - i) ++ v)) → containsLoop mem t i a = .error .ub) ∧
    (¬ (2147483647 - i < t.length ∧ ∃ v, AccT nd.final F (t.take (2147483647 - i) ++ v)) →
      ∃ b, containsLoop mem t i a = .ok b ∧
        ((b = 0 ∧ ¬ AccT nd.final F t) ∨ ∃ nb, b ≠ 0 ∧ mem b = some nb ∧ (AccT nd.final F t ↔ nb.final = true))) := by
  have ha : a ≠ 0 := by rintro rfl; rw [h0] at hm; cases hm
  induction t generalizing i a nd F with
  | nil => exact ⟨fun h => by simp at h, fun _ => ⟨a, rfl, .inr ⟨nd, ha, hm, by simp [AccT, Forest.acc_nil]⟩⟩⟩
  | cons c t ih =>
    by_cases hov : i + 1 > 2147483647
    · have hi' : i = 2147483647 := by omega
      have herr : containsLoop mem (c :: t) i a = .error .ub := by
        simp only [containsLoop, ha, if_false, deref, hm, bind, Except.bind, hov, if_true]
      refine ⟨fun _ _ => herr, fun hn => absurd ⟨by simp [hi'], ?_⟩ hn⟩
      simpa [hi'] using hlive hi'
    · have hstep : containsLoop mem (c :: t) i a = containsLoop mem t (i + 1) (nodeTransition nd c) := by
        simp only [containsLoop, ha, if_false, deref, hm, bind, Except.bind, hov]
      have hk : 2147483647 - i = (2147483647 - (i + 1)) + 1 := by omega
      rw [hstep]
      simp only [hk, List.length_cons, List.take_succ_cons, List.cons_append, Nat.add_lt_add_iff_right]
      rcases hF.find nd.final c with ⟨b, nb, k, h1, h2, h3, h4⟩ | ⟨h1, h2⟩
      · have h1 : nodeTransition nd c = b := h1
        rw [h1]
        have hb : b ≠ 0 := by rintro rfl; rw [h0] at h2; cases h2
        have htk := ht.mem h4
        have := ih (i := i + 1) h2 h3 (hs.toList.2 _ h4) htk.2 (by omega) (fun _ => accT_exists htk.2 htk.1) hb
        simp only [accT_child hs h4]
        exact this
      · have h1 : nodeTransition nd c = 0 := h1
        rw [h1, contains_zero]
        have hno : ∀ u, ¬ AccT nd.final F (c :: u) := by
          intro u
          simp only [AccT, List.cons_ne_nil, false_and, false_or, Forest.acc_cons]
          rintro ⟨f, k, h3, _⟩
          exact h2 f k h3
        exact ⟨fun _ ⟨v, hv⟩ => absurd hv (hno _), fun _ => ⟨0, rfl, .inl ⟨rfl, hno _⟩⟩⟩

section
variable {sgn : Bool} {addr : Nat → Nat} {c0 : Nat} {m0 : Mem} {terms : List Str} {h : Heap} {d : SDawg}

/-- `contains` on a finished dictionary, for any string. -/
theorem Finished.contains_exact (hf : Finished sgn addr c0 m0 terms h d) (t : Str) :
    ((2147483647 < t.length ∧ ∃ s ∈ terms, t.take 2147483647 <+: s) → containsTerm h.mem d.root t = .error .ub) ∧
    (¬ (2147483647 < t.length ∧ ∃ s ∈ terms, t.take 2147483647 <+: s) →
      containsTerm h.mem d.root t = .ok (decide (t ∈ terms))) := by
  obtain ⟨nd, F, h1, h2, h3, h4, h5⟩ := hf.dict
  have hacc : ∀ u, AccT nd.final F u ↔ u ∈ terms := fun u => by rw [← accepts_iff h1 h2, hf.accepts]
  have hex : (∃ v, AccT nd.final F (t.take 2147483647 ++ v)) ↔ ∃ s ∈ terms, t.take 2147483647 <+: s := by
    constructor
    · rintro ⟨v, hv⟩; exact ⟨_, (hacc _).1 hv, v, rfl⟩
    · rintro ⟨_, hs, v, rfl⟩; exact ⟨v, (hacc _).2 hs⟩
  obtain ⟨hA, hB⟩ := containsLoop_exact hf.null t (i := 0) h1 h2 h4 h3 (by omega) (fun h => by cases h)
  simp only [Nat.sub_zero, hex] at hA hB
  simp only [hacc] at hB
  constructor
  · rintro ⟨a, b⟩
    simp only [containsTerm, hA a b, bind, Except.bind]
  · intro hn
    obtain ⟨b, h6, h7⟩ := hB hn
    simp only [containsTerm, h6, bind, Except.bind]
    rcases h7 with ⟨rfl, h7⟩ | ⟨nb, h8, h9, h7⟩
    · simp [h7]
    · simp only [h8, if_false, deref, h9, Except.ok.injEq]
      by_cases hm : t ∈ terms
      · simp [hm, h7.1 hm]
      · have : nb.final ≠ true := fun h => hm (h7.2 h)
        simp [hm, this]

/-- The root of a finished dictionary has an edge if a term has a character. -/
theorem Finished.root_edges (hf : Finished sgn addr c0 m0 terms h d) {nd : DNode} (hm : h.mem d.root = some nd) :
    nd.edges ≠ [] ↔ ∃ t ∈ terms, t ≠ [] := by
  obtain ⟨nd', F, h1, h2, h3, h4, h5⟩ := hf.dict
  rw [h1] at hm
  cases hm
  have hnil : nd.edges = [] ↔ F = .nil := by
    generalize nd.edges = es at h2
    cases h2 <;> simp
  have hacc : ∀ u, AccT nd.final F u ↔ u ∈ terms := fun u => by rw [← accepts_iff h1 h2, hf.accepts]
  rw [Ne, hnil]
  constructor
  · intro hne
    obtain ⟨t, ht⟩ := h3.exists_acc hne
    exact ⟨t, (hacc t).1 (.inr ht), by rintro rfl; exact Forest.acc_nil ht⟩
  · rintro ⟨t, ht, hne⟩ rfl
    rcases (hacc t).2 ht with ⟨h, _⟩ | h
    · exact hne h
    · exact h

/-- The root of a finished dictionary is final if the empty string is a term. -/
theorem Finished.root_final (hf : Finished sgn addr c0 m0 terms h d) {nd : DNode} (hm : h.mem d.root = some nd) :
    nd.final = true ↔ [] ∈ terms := by
  obtain ⟨nd', F, h1, h2, h3, h4, h5⟩ := hf.dict
  rw [h1] at hm
  cases hm
  rw [← hf.accepts, accepts_iff h1 h2]
  simp [AccT, Forest.acc_nil]

end

/-! ### Queries -/

theorem windowMax_large {n : Nat} (h : 2 ^ 30 ≤ n) (hn : n < 2 ^ 64) : 2147483647 < windowMax n := by
  by_cases hc : n < (sizeMax - 1) / 2
  · rw [windowMax, if_pos hc]
    simp only [wadd, sizeMax, sizeW] at hc ⊢
    omega
  · rw [windowMax, if_neg hc]
    decide

section
variable {R : Type} {A : Algorithm} {upd : Str → Nat → R} {mem : Mem} {root : Nat} {q : Str} {n : Nat} {nd : DNode}

/-- A query which has just begun. -/
def freshQuery (root : Nat) (q : Str) (n : Nat) (c : R) : Query (List Pos) R :=
  { pending := [Inter.root root initialState], edges := [], owned := [], complete := false, cur := none, cand := c,
    term := q, maxD := n, a := windowMax n, k := 0, i := 0 }

theorem fresh_advance_ub (hm : mem root = some nd) (he : nd.edges ≠ []) (hq : 2147483647 < q.length) (hn : 2 ^ 30 ≤ n)
    (hn' : n < 2 ^ 64) (hq' : q.length < 2 ^ 62) (c : R) (fuel : Nat) (hfuel : 2 ≤ fuel) :
    queryAdvance (listBackend A n q.length) mem upd fuel () (freshQuery root q n c) = .error .ub := by
  obtain ⟨fuel, rfl⟩ : ∃ f, fuel = f + 2 := ⟨fuel - 2, by omega⟩
  obtain ⟨⟨l, b⟩, es, hes⟩ := List.exists_cons_of_ne_nil he
  have hw := windowMax_large hn hn'
  have hsub : wsub q.length 0 = q.length := by simp only [wsub, sizeW]; omega
  have hk : ¬ (if windowMax n < q.length then windowMax n else q.length) ≤ 2147483647 := by
    split <;> omega
  simp [queryAdvance, freshQuery, queryLoop, queryIter, listBackend, initialState, Inter.state, Inter.node, deref, hm, hes,
    bind, Except.bind, pure, Except.pure, charVec, hsub, hk]

theorem fresh_advance_end (hm : mem root = some nd) (he : nd.edges = []) (c : R) (fuel : Nat) (hfuel : 1 ≤ fuel) :
    ∃ Q, queryAdvance (listBackend A n q.length) mem upd fuel () (freshQuery root q n c) = .ok ((), Q) ∧ Q.complete = true := by
  obtain ⟨fuel, rfl⟩ : ∃ f, fuel = f + 1 := ⟨fuel - 1, by omega⟩
  simp [queryAdvance, freshQuery, queryLoop, queryIter, listBackend, initialState, Inter.state, Inter.node, deref, hm, he,
    bind, Except.bind, pure, Except.pure]

theorem begin_final (hm : mem root = some nd) (hc : nd.final = true ∧ q.length ≤ n) (fuel : Nat) (dflt : R) :
    queryBegin (listBackend A n q.length) mem upd fuel dflt () root initialState q n =
      .ok ((), freshQuery root q n (upd [] q.length)) := by
  simp [queryBegin, deref, hm, hc, bind, Except.bind, pure, Except.pure, freshQuery]

theorem begin_other (hm : mem root = some nd) (hc : ¬ (nd.final = true ∧ q.length ≤ n)) (fuel : Nat) (dflt : R) :
    queryBegin (listBackend A n q.length) mem upd fuel dflt () root initialState q n =
      queryAdvance (listBackend A n q.length) mem upd fuel () (freshQuery root q n dflt) := by
  have : (nd.final && decide (q.length ≤ n)) = false := by
    cases hf : nd.final <;> simp_all
  simp [queryBegin, deref, hm, this, bind, Except.bind, freshQuery]

theorem transduce_ub (hm : mem root = some nd) (he : nd.edges ≠ []) (hq : 2147483647 < q.length) (hn : 2 ^ 30 ≤ n)
    (hn' : n < 2 ^ 64) (hq' : q.length < 2 ^ 62) (dflt : R) (fuel : Nat) (hfuel : 3 ≤ fuel) :
    transduce A upd dflt mem root q n fuel = .error .ub := by
  by_cases hc : nd.final = true ∧ q.length ≤ n
  · obtain ⟨fuel, rfl⟩ : ∃ f, fuel = f + 1 := ⟨fuel - 1, by omega⟩
    have h1 := fresh_advance_ub (A := A) (upd := upd) hm he hq hn hn' hq' (upd [] q.length) fuel (by omega)
    have h2 := begin_final (A := A) (upd := upd) hm hc (fuel + 1) dflt
    have h3 : (freshQuery root q n (upd [] q.length)).complete = false := rfl
    simp only [transduce, queryAll, h2, bind, Except.bind, queryCollect, h3, h1]
    rfl
  · have h1 := fresh_advance_ub (A := A) (upd := upd) hm he hq hn hn' hq' dflt fuel (by omega)
    have h2 := begin_other (A := A) (upd := upd) hm hc fuel dflt
    simp only [transduce, queryAll, h2, bind, Except.bind, h1]
    rfl

theorem transduce_leaf (hm : mem root = some nd) (he : nd.edges = []) :
    Yields A upd mem root q n (if nd.final = true ∧ q.length ≤ n then [upd [] q.length] else []) := by
  refine ⟨3, fun fuel hfuel dflt => ?_⟩
  by_cases hc : nd.final = true ∧ q.length ≤ n
  · obtain ⟨fuel, rfl⟩ : ∃ f, fuel = f + 2 := ⟨fuel - 2, by omega⟩
    obtain ⟨Q, h1, h4⟩ := fresh_advance_end (A := A) (upd := upd) (n := n) (q := q) hm he (upd [] q.length) (fuel + 1) (by omega)
    have h2 := begin_final (A := A) (upd := upd) hm hc (fuel + 2) dflt
    have h3 : (freshQuery root q n (upd [] q.length)).complete = false := rfl
    simp only [transduce, queryAll, h2, bind, Except.bind, queryCollect, h3, h1, h4, hc]
    rfl
  · obtain ⟨fuel, rfl⟩ : ∃ f, fuel = f + 1 := ⟨fuel - 1, by omega⟩
    obtain ⟨Q, h1, h4⟩ := fresh_advance_end (A := A) (upd := upd) (n := n) (q := q) hm he dflt (fuel + 1) (by omega)
    have h2 := begin_other (A := A) (upd := upd) hm hc (fuel + 1) dflt
    simp only [transduce, queryAll, h2, bind, Except.bind, queryCollect, h1, h4, hc]
    rfl

end

end Lev
