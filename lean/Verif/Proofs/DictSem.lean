import Verif.Proofs.BuilderEnd
import Verif.Proofs.QueryAll

/-!
Consequences of a finished construction: sortedness in terms of `strLess`, membership, equality, hash, destruction.
-/

namespace Lev

open Spec

/-! ### The order of terms -/

theorem strLt_iff (a b : Str) : strLt a b = true ↔ strLess a b := by
  induction b generalizing a with
  | nil =>
    unfold strLt
    simp only [Bool.false_eq_true, false_iff]
    intro h; cases h
  | cons y b ih =>
    cases a with
    | nil => simp only [strLt, true_iff]; exact .nil
    | cons x a =>
      simp only [strLt]
      by_cases h1 : x.toNat < y.toNat
      · simp only [h1, if_true, true_iff]; exact .rel h1
      · simp only [h1, if_false]
        by_cases h2 : y.toNat < x.toNat
        · simp only [h2, if_true, Bool.false_eq_true, false_iff]
          intro h
          cases h with
          | rel h => omega
          | cons h => omega
        · simp only [h2, if_false, ih]
          have hxy : x = y := UInt8.toNat_inj.1 (by omega)
          subst hxy
          constructor
          · exact .cons
          · intro h
            cases h with
            | rel h => omega
            | cons h => exact h

theorem strLt_false_iff (a b : Str) : strLt a b = false ↔ ¬ strLess a b := by
  rw [← strLt_iff]; simp

instance (a b : Str) : Decidable (strLess a b) := decidable_of_iff _ (strLt_iff a b)

theorem strLess_trans {a b c : Str} (h1 : strLess a b) (h2 : strLess b c) : strLess a c := by
  unfold strLess at *
  induction h1 generalizing c with
  | nil => cases h2 with
    | rel h => exact .nil
    | cons h => exact .nil
  | rel h => cases h2 with
    | rel h' => exact .rel (by omega)
    | cons h' => exact .rel h
  | cons h ih => cases h2 with
    | rel h' => exact .rel h'
    | cons h' => exact .cons (ih h')

theorem strLess_total (a b : Str) : strLess a b ∨ a = b ∨ strLess b a := by
  unfold strLess
  induction a generalizing b with
  | nil => cases b with
    | nil => exact .inr (.inl rfl)
    | cons y b => exact .inl .nil
  | cons x a ih => cases b with
    | nil => exact .inr (.inr .nil)
    | cons y b =>
      rcases Nat.lt_trichotomy x.toNat y.toNat with h | h | h
      · exact .inl (.rel h)
      · have hxy : x = y := UInt8.toNat_inj.1 h
        subst hxy
        rcases ih b with h | h | h
        · exact .inl (.cons h)
        · exact .inr (.inl (by rw [h]))
        · exact .inr (.inr (.cons h))
      · exact .inr (.inr (.rel h))

theorem strLess_irrefl (a : Str) : ¬ strLess a a := by
  rw [← strLt_iff]
  induction a with
  | nil => simp [strLt]
  | cons x a ih => simpa [strLt] using ih

theorem not_strLess_nil (a : Str) : ¬ strLess a [] := by intro h; cases h

theorem not_strLess_trans {a b c : Str} (h1 : ¬ strLess b a) (h2 : ¬ strLess c b) : ¬ strLess c a := by
  intro h
  rcases strLess_total a b with h' | rfl | h'
  · exact h2 (strLess_trans h h')
  · exact h2 h
  · exact h1 h'

theorem asc_iff (prev : Str) (terms : List Str) : Asc prev terms ↔ SortedTerms (prev :: terms) := by
  induction terms generalizing prev with
  | nil => simp [Asc, SortedTerms]
  | cons t ts ih =>
    simp only [Asc, ih, strLt_false_iff, SortedTerms]
    constructor
    · rintro ⟨h1, h2⟩
      have h2' := List.pairwise_cons.1 h2
      refine List.pairwise_cons.2 ⟨fun s hs => ?_, h2⟩
      rcases List.mem_cons.1 hs with rfl | hs
      · exact h1
      · exact not_strLess_trans h1 (h2'.1 s hs)
    · intro h
      have h' := List.pairwise_cons.1 h
      exact ⟨h'.1 t (by simp), h'.2⟩

theorem asc_nil_iff (terms : List Str) : Asc [] terms ↔ SortedTerms terms := by
  rw [asc_iff, SortedTerms, List.pairwise_cons]
  exact ⟨fun h => h.2, fun h => ⟨fun s _ => not_strLess_nil s, h⟩⟩

theorem not_asc_iff (prev : Str) (terms : List Str) : ¬ Asc prev terms ↔ HasDescent (prev :: terms) := by
  induction terms generalizing prev with
  | nil =>
    simp only [Asc, not_true, false_iff]
    rintro ⟨l, s, t, r, h, _⟩
    have := congrArg List.length h
    simp at this
    omega
  | cons t ts ih =>
    constructor
    · intro h
      by_cases h1 : strLt t prev = false
      · obtain ⟨l, s, u, r, h2, h3⟩ := (ih t).1 fun h2 => h ⟨h1, h2⟩
        exact ⟨prev :: l, s, u, r, by rw [h2]; rfl, h3⟩
      · exact ⟨[], prev, t, ts, rfl, by
          rw [strLt_false_iff] at h1
          exact Decidable.not_not.1 h1⟩
    · rintro ⟨l, s, u, r, h2, h3⟩ ⟨h4, h5⟩
      cases l with
      | nil =>
        simp only [List.nil_append, List.cons.injEq] at h2
        obtain ⟨rfl, rfl, rfl⟩ := h2
        exact (strLt_false_iff _ _).1 h4 h3
      | cons x l =>
        simp only [List.cons_append, List.cons.injEq] at h2
        exact (ih t).2 ⟨l, s, u, r, h2.2, h3⟩ h5

theorem not_sorted_iff (terms : List Str) : ¬ SortedTerms terms ↔ HasDescent terms := by
  rw [← asc_nil_iff, not_asc_iff]
  constructor
  · rintro ⟨l, s, t, r, h, h'⟩
    cases l with
    | nil =>
      simp only [List.nil_append, List.cons.injEq] at h
      rw [← h.1] at h'
      exact absurd h' (not_strLess_nil t)
    | cons x l =>
      simp only [List.cons_append, List.cons.injEq] at h
      exact ⟨l, s, t, r, h.2, h'⟩
  · rintro ⟨l, s, t, r, h, h'⟩
    exact ⟨[] :: l, s, t, r, by rw [h]; rfl, h'⟩

/-! ### `contains` -/

theorem contains_zero (mem : Mem) (t : Str) (i : Nat) : containsLoop mem t i 0 = .ok 0 := by
  cases t <;> simp [containsLoop]

theorem containsLoop_spec {sgn : Bool} {mem : Mem} (h0 : mem 0 = none) (t : Str) {i a : Nat} {nd : DNode} {F : Forest}
    (hm : mem a = some nd) (hF : Unf mem nd.edges F) (hs : F.Sorted sgn)
    (hi : i + t.length ≤ 2147483647 ∨ i + F.height < 2147483647) :
    ∃ b, containsLoop mem t i a = .ok b ∧
      ((b = 0 ∧ ¬ AccT nd.final F t) ∨ ∃ nb, b ≠ 0 ∧ mem b = some nb ∧ (AccT nd.final F t ↔ nb.final = true)) := by
  have ha : a ≠ 0 := by rintro rfl; rw [h0] at hm; cases hm
  induction t generalizing i a nd F with
  | nil => exact ⟨a, rfl, .inr ⟨nd, ha, hm, by simp [AccT, Forest.acc_nil]⟩⟩
  | cons c t ih =>
    have hov : ¬ i + 1 > 2147483647 := by
      simp only [List.length_cons] at hi
      omega
    have hstep : containsLoop mem (c :: t) i a = containsLoop mem t (i + 1) (nodeTransition nd c) := by
      simp only [containsLoop, ha, if_false, deref, hm, bind, Except.bind, hov]
    rw [hstep]
    rcases hF.find nd.final c with ⟨b, nb, k, h1, h2, h3, h4⟩ | ⟨h1, h2⟩
    · have h1 : nodeTransition nd c = b := h1
      rw [h1]
      have hb : b ≠ 0 := by rintro rfl; rw [h0] at h2; cases h2
      have hh := Forest.height_mem h4
      obtain ⟨x, h5, h6⟩ := ih (i := i + 1) h2 h3 (hs.toList.2 _ h4) (by simp only [List.length_cons] at hi; omega) hb
      have hiff : AccT nd.final F (c :: t) ↔ AccT nb.final k t := by
        simp only [AccT, List.cons_ne_nil, false_and, false_or, Forest.acc_cons]
        constructor
        · rintro ⟨f, k', h7, h8⟩
          have := forest_label_unique hs (x := (f, k')) (y := (nb.final, k)) h7 h4
          cases this
          exact h8
        · intro h; exact ⟨_, _, h4, h⟩
      exact ⟨x, h5, by rw [hiff]; exact h6⟩
    · have h1 : nodeTransition nd c = 0 := h1
      rw [h1, contains_zero]
      refine ⟨0, rfl, .inl ⟨rfl, ?_⟩⟩
      simp only [AccT, List.cons_ne_nil, false_and, false_or, Forest.acc_cons]
      rintro ⟨f, k, h3, _⟩
      exact h2 f k h3

theorem contains_spec {sgn : Bool} {mem : Mem} (h0 : mem 0 = none) {root : Nat} {nd : DNode} {F : Forest}
    (hm : mem root = some nd) (hF : Unf mem nd.edges F) (hs : F.Sorted sgn) (t : Str)
    (hi : t.length ≤ 2147483647 ∨ F.height < 2147483647) :
    ∃ b, containsTerm mem root t = .ok b ∧ (b = true ↔ Accepts mem root t) := by
  obtain ⟨b, h1, h2⟩ := containsLoop_spec h0 t (i := 0) hm hF hs (by omega)
  rw [accepts_iff hm hF]
  simp only [containsTerm, h1, bind, Except.bind]
  rcases h2 with ⟨rfl, h2⟩ | ⟨nb, h2, h3, h4⟩
  · exact ⟨false, rfl, by simp [h2]⟩
  · simp only [h2, if_false, deref, h3]
    exact ⟨nb.final, rfl, h4.symm⟩

/-- `contains` gives the same on two graphs that unfold to the same tree, whatever it is. -/
theorem containsLoop_same {sgn : Bool} {m m' : Mem} (h0 : m 0 = none) (h0' : m' 0 = none) (t : Str) {i a a' : Nat} {nd nd' : DNode}
    {F : Forest} (hm : m a = some nd) (hF : Unf m nd.edges F) (hm' : m' a' = some nd') (hF' : Unf m' nd'.edges F) (hs : F.Sorted sgn)
    (hf : nd.final = nd'.final) :
    (containsLoop m t i a = .error .ub ∧ containsLoop m' t i a' = .error .ub) ∨
    (containsLoop m t i a = .ok 0 ∧ containsLoop m' t i a' = .ok 0) ∨
    ∃ b b' nb nb', containsLoop m t i a = .ok b ∧ containsLoop m' t i a' = .ok b' ∧ b ≠ 0 ∧ b' ≠ 0 ∧ m b = some nb ∧
      m' b' = some nb' ∧ nb.final = nb'.final := by
  have ha : a ≠ 0 := by rintro rfl; rw [h0] at hm; cases hm
  have ha' : a' ≠ 0 := by rintro rfl; rw [h0'] at hm'; cases hm'
  induction t generalizing i a a' nd nd' F with
  | nil => exact .inr (.inr ⟨a, a', nd, nd', rfl, rfl, ha, ha', hm, hm', hf⟩)
  | cons c t ih =>
    simp only [containsLoop, ha, ha', if_false, deref, hm, hm', bind, Except.bind]
    by_cases hov : i + 1 > 2147483647
    · simp [hov]
    · simp only [hov, if_false]
      rcases hF.find nd.final c with ⟨b, nb, k, h1, h2, h3, h4⟩ | ⟨h1, h2⟩
      · rcases hF'.find nd'.final c with ⟨b', nb', k', g1, g2, g3, g4⟩ | ⟨g1, g2⟩
        · have := forest_label_unique hs (x := (nb.final, k)) (y := (nb'.final, k')) h4 g4
          simp only [Prod.mk.injEq] at this
          obtain ⟨hfin, rfl⟩ := this
          have h1 : nodeTransition nd c = b := h1
          have g1 : nodeTransition nd' c = b' := g1
          rw [h1, g1]
          exact ih h2 h3 g2 g3 (hs.toList.2 _ h4) hfin (by rintro rfl; rw [h0] at h2; cases h2)
            (by rintro rfl; rw [h0'] at g2; cases g2)
        · exact absurd h4 (g2 _ _)
      · rcases hF'.find nd'.final c with ⟨b', nb', k', g1, g2, g3, g4⟩ | ⟨g1, g2⟩
        · exact absurd g4 (h2 _ _)
        · have h1 : nodeTransition nd c = 0 := h1
          have g1 : nodeTransition nd' c = 0 := g1
          rw [h1, g1, contains_zero, contains_zero]
          exact .inr (.inl ⟨rfl, rfl⟩)

theorem contains_same {sgn : Bool} {m m' : Mem} (h0 : m 0 = none) (h0' : m' 0 = none) (t : Str) {a a' : Nat} {nd nd' : DNode}
    {F : Forest} (hm : m a = some nd) (hF : Unf m nd.edges F) (hm' : m' a' = some nd') (hF' : Unf m' nd'.edges F) (hs : F.Sorted sgn)
    (hf : nd.final = nd'.final) : containsTerm m a t = containsTerm m' a' t := by
  rcases containsLoop_same h0 h0' t (i := 0) hm hF hm' hF' hs hf with ⟨h1, h2⟩ | ⟨h1, h2⟩ | ⟨b, b', nb, nb', h1, h2, h3, h4, h5, h6, h7⟩
  · simp only [containsTerm, h1, h2, bind, Except.bind]
  · simp only [containsTerm, h1, h2, bind, Except.bind]
    rfl
  · simp only [containsTerm, h1, h2, bind, Except.bind, h3, h4, if_false, deref, h5, h6, h7]

/-! ### A finished dictionary -/

section
variable {sgn : Bool} {addr : Nat → Nat} {c0 : Nat} {m0 : Mem} {terms : List Str} {h : Heap} {d : SDawg}

theorem Finished.allocator (hf : Finished sgn addr c0 m0 terms h d) {h' : Heap} (ha : Allocator addr h') :
    Allocator addr h := ⟨ha.nonnull, ha.inj, hf.null, hf.fresh⟩

theorem Finished.height (hf : Finished sgn addr c0 m0 terms h d) {b : Nat} (hb : ∀ t ∈ terms, t.length ≤ b)
    {nd : DNode} {F : Forest} (hm : h.mem d.root = some nd) (hF : Unf h.mem nd.edges F) (ht : F.Trim) : F.height ≤ b := by
  by_cases hne : F = .nil
  · subst hne; simp [Forest.height]
  · obtain ⟨t, h1, h2⟩ := ht.long hne
    have : t ∈ terms := (hf.accepts t).1 ((accepts_iff hm hF t).2 (.inr h1))
    have := hb t this
    omega

theorem Finished.dictionary (hf : Finished sgn addr c0 m0 terms h d) (hb : ∀ t ∈ terms, t.length < 2 ^ 62) :
    Dictionary sgn h.mem d.root := by
  obtain ⟨nd, F, h1, h2, h3, h4, h5⟩ := hf.dict
  exact ⟨_, by have := hf.height (b := 2 ^ 62 - 1) (fun t ht => by have := hb t ht; omega) h1 h2 h3; omega, h5⟩

theorem Finished.contains (hf : Finished sgn addr c0 m0 terms h d) (t : Str)
    (ht : t.length ≤ 2147483647 ∨ ∀ s ∈ terms, s.length < 2147483647) :
    containsTerm h.mem d.root t = .ok (decide (t ∈ terms)) := by
  obtain ⟨nd, F, h1, h2, h3, h4, h5⟩ := hf.dict
  obtain ⟨b, h6, h7⟩ := contains_spec hf.null h1 h2 h4 t (by
    rcases ht with ht | ht
    · exact .inl ht
    · exact .inr (by have := hf.height (b := 2147483646) (fun t h' => by have := ht t h'; omega) h1 h2 h3; omega))
  rw [h6]
  congr 1
  rw [hf.accepts] at h7
  by_cases hm : t ∈ terms
  · simp [hm, h7]
  · cases b with
    | false => simp [hm]
    | true => exact absurd (h7.1 rfl) hm

theorem Finished.closed (hf : Finished sgn addr c0 m0 terms h d) : Closed h.mem (Reaches h.mem d.root) := by
  obtain ⟨nd, F, h1, h2, h3, h4, h5⟩ := hf.dict
  exact DictNode.closed h5

theorem Finished.destroy (hf : Finished sgn addr c0 m0 terms h d) (hfresh : ∀ j, c0 ≤ j → m0 (addr j) = none) :
    ∃ h', Ends (fun fuel => destroyDawg fuel h d) h' ∧ ∀ a, h'.mem a = m0 a := by
  obtain ⟨nd, F, h1, h2, h3, h4, h5⟩ := hf.dict
  obtain ⟨h', hrun, _, hdead, hold⟩ := deleteReach_spec h1 h2 hf.null hf.closed
  refine ⟨h', hrun.congr fun n => ?_, fun a => ?_⟩
  · simp only [destroyDawg, cleanUp, hf.ptrs.2.2, bind, Except.bind]
  · by_cases ha : Reaches h.mem d.root a
    · rw [hdead a ha]
      obtain ⟨j, h6, _, rfl⟩ := hf.range a ha
      exact (hfresh j h6).symm
    · rw [hold a ha]
      by_cases hr : InRange addr c0 h a
      · have : h.mem a = none := by
          by_cases hn : h.mem a = none
          · exact hn
          · exact absurd ((hf.alive a hr).1 hn) ha
        rw [this]
        obtain ⟨j, h6, _, rfl⟩ := hr
        exact (hfresh j h6).symm
      · exact hf.old a hr

/-- A dictionary is not affected by the construction of another one. -/
theorem Finished.frame {terms' : List Str} {h' : Heap} {d' : SDawg} (hf : Finished sgn addr c0 m0 terms h d)
    (hf' : Finished sgn addr h.count h.mem terms' h' d') (ha : ∀ j k, addr j = addr k → j = k) (a : Nat)
    (hr : Reaches h.mem d.root a) : h'.mem a = h.mem a := by
  refine hf'.old a ?_
  rintro ⟨j, h1, _, h2⟩
  obtain ⟨k, _, h3, h4⟩ := hf.range a hr
  have := ha k j (by rw [← h4, h2])
  omega

end

end Lev
