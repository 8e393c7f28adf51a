import Verif.Proofs.LongWords
import Verif.Spec.LongWords
import Verif.Props.Dawg

/-!
# Property C98: words of 2^31 characters or more

`Dawg::contains` and `characteristic_vector` count with an `int`.  These theorems say exactly when the counter overflows,
and that the answers are right in all other cases.
-/

namespace Lev.Props

open Lev Spec

/-- C98: for words of any length `contains` is undefined behaviour exactly if the word has 2^31 or more characters, the first
2^31 - 1 of which begin a term; else it is right. -/
theorem c98_contains (sgn : Bool) {addr : Nat → Nat} {h : Heap} {terms : List Str} (ha : Allocator addr h)
    (hs : SortedTerms terms) :
    ∃ h' d, Ends (fun fuel => sortedDawg sgn addr fuel terms h) (h', some d) ∧
      ∀ t, (LongProbe terms t → containsTerm h'.mem d.root t = .error .ub) ∧
        (¬ LongProbe terms t → containsTerm h'.mem d.root t = .ok (decide (t ∈ terms))) := by
  obtain ⟨h', d, h1, h2⟩ := sortedDawg_asc (sgn := sgn) ⟨ha.nonnull, ha.inj⟩ ha.null ha.fresh ((asc_nil_iff _).2 hs)
  refine ⟨h', d, h1, fun t => ?_⟩
  have := h2.contains_exact t
  have e : (2 : Nat) ^ 31 - 1 = 2147483647 := by decide
  have e' : (2 : Nat) ^ 31 = 2147483647 + 1 := by decide
  simp only [LongProbe, e, e', Nat.succ_le_iff]
  exact this

/-- C98: a query of any length and any distance is undefined behaviour exactly if `LongQuery`; else it yields the terms within
the distance. -/
theorem c98_query (sgn : Bool) {addr : Nat → Nat} {h : Heap} {terms : List Str} (ha : Allocator addr h)
    (hs : SortedTerms terms) (hlen : ∀ t ∈ terms, t.length < 2 ^ 62) (A : Algorithm) {q : Str} {n : Nat}
    (hq : q.length < 2 ^ 62) (hn : n < 2 ^ 64) :
    ∃ h' d, Ends (fun fuel => sortedDawg sgn addr fuel terms h) (h', some d) ∧
      (LongQuery terms q n → ∀ {R : Type} (upd : Str → Nat → R) dflt, ∀ fuel, 3 ≤ fuel →
        transduce A upd dflt h'.mem d.root q n fuel = .error .ub) ∧
      (¬ LongQuery terms q n → ∃ rs, Yields A updCandidate h'.mem d.root q n rs ∧
        (∀ t k, (t, k) ∈ rs ↔ t ∈ terms ∧ answer A [] q t = k ∧ k ≤ n) ∧
        rs.Pairwise (fun a b => shortLex sgn a.1 b.1)) := by
  obtain ⟨h', d, h1, hf⟩ := sortedDawg_asc (sgn := sgn) ⟨ha.nonnull, ha.inj⟩ ha.null ha.fresh ((asc_nil_iff _).2 hs)
  obtain ⟨nd, F, hm, hF, -, -, -⟩ := hf.dict
  refine ⟨h', d, h1, ?_, fun hno => ?_⟩
  · rintro ⟨a, b, c⟩ R upd dflt fuel hfuel
    exact transduce_ub hm ((hf.root_edges hm).2 (by simpa using c)) (by omega) b hn hq dflt fuel hfuel
  · by_cases hfit : QueryFits n q
    · have hd := hf.dictionary (by simpa using hlen)
      obtain ⟨rs, h2, h3⟩ := query_exact A hd hfit hn
      refine ⟨rs, h2, fun t k => ?_, c37_order hd hfit hn h2⟩
      rw [h3, hf.accepts]
      have hc := answer_isMinCost A [] q t
      constructor
      · rintro ⟨a, b, c⟩; exact ⟨a, hc.unique b, c⟩
      · rintro ⟨a, b, c⟩; exact ⟨a, b ▸ hc, c⟩
    · have hlong : 2 ^ 31 ≤ q.length ∧ 2 ^ 30 ≤ n := by
        have : ¬ (q.length < 2 ^ 31 ∨ n < 2 ^ 30) := fun h => hfit ⟨hq, h⟩
        omega
      have hnil : ∀ t ∈ terms, t = [] := fun t ht =>
        Classical.byContradiction fun hne => hno ⟨hlong.1, hlong.2, t, ht, hne⟩
      have he : nd.edges = [] := Classical.byContradiction fun hne => by
        obtain ⟨t, ht, hne⟩ := (hf.root_edges hm).1 hne
        exact hne (hnil t (by simpa using ht))
      have hfin : nd.final = true ↔ [] ∈ terms := by simpa using hf.root_final hm
      have hans : answer A [] q [] = q.length :=
        (answer_isMinCost A [] q []).unique (isMinCost_nil_right q)
      refine ⟨_, transduce_leaf hm he, fun t k => ?_, ?_⟩
      · simp only [hfin]
        split
        · rename_i hc
          simp only [updCandidate, List.mem_singleton, Prod.mk.injEq]
          constructor
          · rintro ⟨rfl, rfl⟩; exact ⟨hc.1, hans, hc.2⟩
          · rintro ⟨ht, rfl, hk⟩
            obtain rfl := hnil t ht
            exact ⟨rfl, hans⟩
        · rename_i hc
          simp only [List.not_mem_nil, false_iff]
          rintro ⟨ht, rfl, hk⟩
          obtain rfl := hnil t ht
          exact hc ⟨ht, hans ▸ hk⟩
      · split <;> simp

/-- C98: where a query is undefined behaviour, the empty term is still shown if it is a candidate (`begin()` returns, and `++` is
undefined); else `begin()` is. -/
theorem c98_first (sgn : Bool) {addr : Nat → Nat} {h : Heap} {terms : List Str} (ha : Allocator addr h)
    (hs : SortedTerms terms) (A : Algorithm) {q : Str} {n : Nat} (hq : q.length < 2 ^ 62) (hn : n < 2 ^ 64)
    (hl : LongQuery terms q n) {R : Type} (upd : Str → Nat → R) (dflt : R) :
    ∃ h' d, Ends (fun fuel => sortedDawg sgn addr fuel terms h) (h', some d) ∧ ∀ fuel, 2 ≤ fuel →
      (([] ∈ terms ∧ q.length ≤ n) →
        ∃ Q, queryBegin (listBackend A n q.length) h'.mem upd fuel dflt () d.root initialState q n = .ok ((), Q) ∧
          Q.complete = false ∧ Q.cand = upd [] q.length ∧
          queryAdvance (listBackend A n q.length) h'.mem upd fuel () Q = .error .ub) ∧
      (¬ ([] ∈ terms ∧ q.length ≤ n) →
        queryBegin (listBackend A n q.length) h'.mem upd fuel dflt () d.root initialState q n = .error .ub) := by
  obtain ⟨h', d, h1, hf⟩ := sortedDawg_asc (sgn := sgn) ⟨ha.nonnull, ha.inj⟩ ha.null ha.fresh ((asc_nil_iff _).2 hs)
  obtain ⟨nd, F, hm, hF, -, -, -⟩ := hf.dict
  have hfin : nd.final = true ↔ [] ∈ terms := by simpa using hf.root_final hm
  obtain ⟨a, b, c⟩ := hl
  have hadv := fun x => fresh_advance_ub (A := A) (upd := upd) hm ((hf.root_edges hm).2 (by simpa using c)) (by omega) b hn hq x
  refine ⟨h', d, h1, fun fuel hfuel => ⟨fun hc => ?_, fun hc => ?_⟩⟩
  · rw [← hfin] at hc
    exact ⟨_, begin_final hm hc fuel dflt, rfl, rfl, hadv _ fuel hfuel⟩
  · rw [← hfin] at hc
    rw [begin_other hm hc fuel dflt]
    exact hadv _ fuel hfuel

/-! ### Examples -/

/-- The longest words meet the hypotheses, and both cases of each theorem occur. -/
example : LongQuery [[], [97]] (List.replicate (2 ^ 31) 97) (2 ^ 31) := by
  refine ⟨by rw [List.length_replicate]; exact Nat.le_refl _, by decide, [97], by simp, by simp⟩

example : ¬ LongQuery [[], [97]] (List.replicate (2 ^ 31) 97) 3 := fun h => absurd h.2.1 (by decide)

example : ¬ LongQuery [[]] (List.replicate (2 ^ 31) 97) (2 ^ 31) := by
  rintro ⟨-, -, t, ht, hne⟩
  simp at ht
  exact hne ht

example : LongProbe [List.replicate (2 ^ 31) 97] (List.replicate (2 ^ 31) 97) :=
  ⟨by rw [List.length_replicate]; exact Nat.le_refl _, _, List.mem_singleton.2 rfl, List.take_prefix _ _⟩

example : ¬ LongProbe [[97]] (List.replicate (2 ^ 31) 97) := by
  rintro ⟨-, s, hs, h⟩
  rw [List.mem_singleton] at hs
  subst hs
  have := h.length_le
  rw [List.length_take, List.length_replicate] at this
  simp at this

end Lev.Props
