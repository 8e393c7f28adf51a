import Verif.Proofs.Subsume

/-!
# C78: exactly when `subsumes` is right

C51 shows that `subsumes` is not sound.  Here the documented relation between two positions is computed exactly, and with it
the pairs for which the code gives a wrong answer.
-/

namespace Lev.Props

open Lev Spec

/-- A position that a query can have: in the query, and with a flag only where the operation that is half done can be
finished. -/
def Room (A : Algorithm) (q : Str) (p : Pos) : Prop :=
  p.index ≤ q.length ∧ (p.special = true → A ≠ .standard ∧ p.index + (if A = .transposition then 2 else 1) ≤ q.length)

/-- The positions of all states that queries reach are of this kind. -/
theorem room_of_reachable {A : Algorithm} {n : Nat} {q w : Str} {l : List Pos} (h : ReachState A n q w l)
    (hn : n < 2 ^ 64) (hq : QueryFits n q) (hw : w.length < 2 ^ 62) : ∀ p ∈ l, Room A q p := by
  intro p hp
  have hs := h.sem (by have := sizeMax_val; omega) hq (by omega)
  have ho := hs.inv.ok p hp
  refine ⟨ho.index_le, fun hsp => ⟨(ho.special_alg hsp).1, ?_⟩⟩
  cases A with
  | standard => exact absurd rfl (ho.special_alg hsp).1
  | transposition => exact ho.special_trans hsp rfl
  | mergeAndSplit => exact ho.special_ms hsp rfl

/-- By how many errors the position `b` must exceed `a` to be subsumed by it; `none` if it never is. -/
def excess (A : Algorithm) (q : Str) (a b : Pos) : Option Nat :=
  match a.special, b.special, A with
  | false, false, _ => some (gapOf a.index b.index)
  | true, false, _ => none
  | false, true, .transposition => some (swapGap q a.index b.index)
  | false, true, _ => some (max 1 (gapOf a.index b.index))
  | true, true, .transposition => if q[a.index]? = q[b.index]? then some (gapOf a.index b.index) else none
  | true, true, _ => some (gapOf a.index b.index)

/-- C78, the documented relation: `b` is subsumed by `a` exactly if it has so many errors more. -/
theorem c78_meaning {A : Algorithm} {q : Str} {a b : Pos} (ha : Room A q a) (hb : Room A q b) :
    SubsumedBy A q a b ↔ ∃ d, excess A q a b = some d ∧ a.errors + d ≤ b.errors := by
  obtain ⟨i, e, s⟩ := a
  obtain ⟨j, f, t⟩ := b
  obtain ⟨ha1, ha2⟩ := ha
  obtain ⟨hb1, hb2⟩ := hb
  simp only at ha1 ha2 hb1 hb2
  cases s <;> cases t
  · simp [excess, subsumed_ff ha1 hb1]
  · obtain ⟨hA, hb3⟩ := hb2 rfl
    cases A with
    | standard => exact absurd rfl hA
    | transposition => simp [excess, subsumed_ft_trans ha1 hb3]
    | mergeAndSplit => simp [excess, subsumed_ft_ms ha1 hb3]
  · simp [excess, subsumed_tf]
  · obtain ⟨hA, hb3⟩ := hb2 rfl
    obtain ⟨_, ha3⟩ := ha2 rfl
    cases A with
    | standard => exact absurd rfl hA
    | transposition =>
      rw [subsumed_tt_trans ha3 hb3]
      simp only [excess]
      split <;> simp_all
    | mergeAndSplit => simp [excess, subsumed_tt_ms ha3 hb3]

theorem code_gap {i j len : Nat} (hi : i ≤ len) (hj : j ≤ len) (hl : len < 2 ^ 64) :
    (if i < j then wsub j i else wsub i j) = gapOf i j := by
  rw [gapOf_eq]
  split
  · exact wsub_le_of_le (by omega) (by omega)
  · exact wsub_le_of_le (by omega) (by omega)

/-- What the code answers, the right position having at least as many errors. -/
theorem code_answer {A : Algorithm} {q : Str} {a b : Pos} {n : Nat} (hq : q.length < 2 ^ 64) (ha : a.index ≤ q.length)
    (hb : b.index ≤ q.length) (hf : b.errors < 2 ^ 64) (he : a.errors ≤ b.errors) :
    subsumes A a b n = true ↔
      if A = .transposition ∧ a.special = true then a.index = b.index
      else a.errors + gapOf a.index b.index ≤ b.errors := by
  obtain ⟨i, e, s⟩ := a
  obtain ⟨j, f, t⟩ := b
  simp only at ha hb hf he
  have h1 := code_gap ha hb hq
  have h2 : wsub f e = f - e := wsub_le_of_le he hf
  cases A <;> cases s <;> simp [subsumes, h1, h2] <;> omega

/-- C78, where the code is unsound: the pairs for which it says that `a` subsumes `b`, and `a` does not.  There are none for
STANDARD; for the other two it is that the flag of the right position is never read. -/
theorem c78_unsound {A : Algorithm} {q : Str} {a b : Pos} {n : Nat} (hq : q.length < 2 ^ 64) (ha : Room A q a)
    (hb : Room A q b) (hf : b.errors < 2 ^ 64) (he : a.errors ≤ b.errors) :
    (subsumes A a b n = true ∧ ¬ SubsumedBy A q a b) ↔
      match A with
      | .standard => False
      | .transposition => (a.special = true ∧ b.special = false ∧ a.index = b.index) ∨
          (a.special = false ∧ b.special = true ∧ a.index ≤ b.index ∧ b.errors - a.errors = b.index - a.index)
      | .mergeAndSplit => (a.special = true ∧ b.special = false ∧ gapOf a.index b.index ≤ b.errors - a.errors) ∨
          (a.special = false ∧ b.special = true ∧ a.index = b.index ∧ a.errors = b.errors) := by
  rw [code_answer hq ha.1 hb.1 hf he, c78_meaning ha hb]
  obtain ⟨i, e, s⟩ := a
  obtain ⟨j, f, t⟩ := b
  obtain ⟨ha1, ha2⟩ := ha
  obtain ⟨hb1, hb2⟩ := hb
  simp only at *
  cases A with
  | standard =>
    cases s with
    | true => exact absurd rfl (ha2 rfl).1
    | false =>
      cases t with
      | true => exact absurd rfl (hb2 rfl).1
      | false => simp [excess]
  | transposition =>
    cases s <;> cases t <;> simp [excess]
    · unfold swapGap
      repeat' split
      all_goals (unfold gapOf; omega)
    · intro h; subst h; simp [gapOf, he]
  | mergeAndSplit =>
    cases s <;> cases t <;> simp [excess]
    · unfold gapOf; omega
    · omega

/-- C78, where the code is incomplete: the pairs that it fails to recognise.  There are none for STANDARD and
MERGE_AND_SPLIT. -/
theorem c78_incomplete {A : Algorithm} {q : Str} {a b : Pos} {n : Nat} (hq : q.length < 2 ^ 64) (ha : Room A q a)
    (hb : Room A q b) (hf : b.errors < 2 ^ 64) (he : a.errors ≤ b.errors) :
    (subsumes A a b n = false ∧ SubsumedBy A q a b) ↔
      A = .transposition ∧ b.special = true ∧
        ((a.special = true ∧ a.index ≠ b.index ∧ q[a.index]? = q[b.index]? ∧
            a.errors + gapOf a.index b.index ≤ b.errors) ∨
         (a.special = false ∧ b.index < a.index ∧ b.errors - a.errors = a.index - b.index - 1 ∧
            (a.index = b.index + 1 → q[a.index]? = q[b.index]?))) := by
  rw [← Bool.not_eq_true, code_answer hq ha.1 hb.1 hf he, c78_meaning ha hb]
  obtain ⟨i, e, s⟩ := a
  obtain ⟨j, f, t⟩ := b
  obtain ⟨ha1, ha2⟩ := ha
  obtain ⟨hb1, hb2⟩ := hb
  simp only at *
  cases A with
  | standard =>
    cases s with
    | true => exact absurd rfl (ha2 rfl).1
    | false =>
      cases t with
      | true => exact absurd rfl (hb2 rfl).1
      | false => simp [excess]
  | transposition =>
    cases s <;> cases t <;> simp [excess]
    · unfold swapGap
      by_cases hij : i = j + 1
      · subst hij
        by_cases hc : q[j]? = q[j + 1]?
        · simp [hc, gapOf]; omega
        · simp [hc, Ne.symm hc, gapOf]
      · simp [hij, gapOf]; omega
    · by_cases hc : q[i]? = q[j]?
      · simp [hc]
      · simp [hc]
  | mergeAndSplit =>
    cases s <;> cases t <;> simp [excess]
    omega

/-- C78, more errors on the left: nothing is subsumed then, but the difference of the errors wraps around and the code says
yes, except that it looks at the indexes alone if the left position has a flag and the algorithm is TRANSPOSITION. -/
theorem c78_wrapped {A : Algorithm} {q : Str} {a b : Pos} {n : Nat} (hq : q.length < 2 ^ 63) (ha : Room A q a)
    (hb : Room A q b) (hb63 : a.errors < 2 ^ 63) (he : b.errors < a.errors) :
    ¬ SubsumedBy A q a b ∧
    (subsumes A a b n = true ↔ ¬ (A = .transposition ∧ a.special = true) ∨ a.index = b.index) := by
  constructor
  · rw [c78_meaning ha hb]
    rintro ⟨d, _, h⟩
    omega
  · obtain ⟨i, e, s⟩ := a
    obtain ⟨j, f, t⟩ := b
    have h1 := code_gap ha.1 hb.1 (show q.length < 2 ^ 64 by omega)
    have hi := ha.1
    have hj := hb.1
    simp only at *
    have h2 : gapOf i j ≤ wsub f e := by
      have h3 : gapOf i j ≤ q.length := by unfold gapOf; omega
      have := sizeW_val
      unfold wsub
      rw [Nat.mod_eq_of_lt (show e < sizeW by omega), Nat.mod_eq_of_lt (by omega)]
      omega
    cases A <;> cases s <;> simp [subsumes, h1, h2]

/-! ### The repair -/

/-- `subsumes` with one word changed: `t` is the flag of the right position. -/
def subsumesRepaired : Algorithm → Pos → Pos → Nat → Bool
  | .standard, a, b, n => subsumes .standard a b n
  | .transposition, a, b, n =>
      if a.special then (if b.special then a.index == b.index else b.errors == n && a.index == b.index)
      else if b.special then
        decide ((if b.index < a.index then wsub (wsub a.index b.index) 1 else wadd (wsub b.index a.index) 1)
          ≤ wsub b.errors a.errors)
      else subsumes .transposition a b n
  | .mergeAndSplit, a, b, n => if a.special && !b.special then false else subsumes .mergeAndSplit a b n

/-- What can be completed from `b` within `c ≤ n` errors in total can be completed from `a` within `c` errors. -/
def SubsumedWithin (A : Algorithm) (q : Str) (n : Nat) (a b : Pos) : Prop :=
  ∀ u k c, c ≤ n → Completes A q b.index b.special u k → b.errors + k ≤ c →
    ∃ k', Completes A q a.index a.special u k' ∧ a.errors + k' ≤ c

/-- C78, the repair: with the right flag, and the largest distance as third argument, `subsumes` is sound for the pairs that
`unsubsume` compares, which are those with fewer errors on the left. -/
theorem c78_repaired {A : Algorithm} {q : Str} {a b : Pos} {n : Nat} (hq : q.length < 2 ^ 63) (ha : Room A q a)
    (hb : Room A q b) (hf : b.errors < 2 ^ 64) (he : a.errors < b.errors)
    (h : subsumesRepaired A a b n = true) : SubsumedWithin A q n a b := by
  have hfrom : SubsumedBy A q a b → SubsumedWithin A q n a b := fun h u k c _ h1 h2 => h u k c h1 h2
  have hans := code_answer (A := A) (n := n) (show q.length < 2 ^ 64 by omega) ha.1 hb.1 hf (Nat.le_of_lt he)
  have hmean := c78_meaning ha hb
  obtain ⟨i, e, s⟩ := a
  obtain ⟨j, f, t⟩ := b
  obtain ⟨ha1, ha2⟩ := ha
  obtain ⟨hb1, hb2⟩ := hb
  have h2 : wsub f e = f - e := wsub_le_of_le (Nat.le_of_lt he) hf
  simp only at *
  cases A with
  | standard =>
    refine hfrom (hmean.2 ?_)
    cases s with
    | true => exact absurd rfl (ha2 rfl).1
    | false =>
      cases t with
      | true => exact absurd rfl (hb2 rfl).1
      | false => simpa [excess] using hans.1 h
  | transposition =>
    cases s <;> cases t
    · refine hfrom (hmean.2 ?_)
      have h3 := hans.1 (by simpa [subsumesRepaired] using h)
      simpa [excess] using h3
    · refine hfrom (hmean.2 ?_)
      have h4 : (if j < i then wsub (wsub i j) 1 else wadd (wsub j i) 1) = gapOf i (j + 1) := by
        have := sizeW_val
        split
        · rw [wsub_le_of_le (a := i) (b := j) (by omega) (by omega), wsub_le_of_le (by omega) (by omega)]
          unfold gapOf; omega
        · rw [wsub_le_of_le (by omega) (by omega)]
          unfold wadd
          rw [Nat.mod_eq_of_lt (by omega)]
          unfold gapOf; omega
      simp only [subsumesRepaired, Bool.false_eq_true, if_false, if_true, h4, h2, decide_eq_true_eq] at h
      refine ⟨swapGap q i j, rfl, ?_⟩
      clear hmean hfrom hans
      have h5 : swapGap q i j ≤ max 1 (gapOf i (j + 1)) := by
        unfold swapGap
        repeat' split
        all_goals omega
      omega
    · simp only [subsumesRepaired, if_true, Bool.false_eq_true, if_false, Bool.and_eq_true, beq_iff_eq] at h
      obtain ⟨rfl, rfl⟩ := h
      obtain ⟨_, hr⟩ := ha2 rfl
      intro u k c hc hu hk
      simp only at hu hk ⊢
      have hk0 : k = 0 := by omega
      subst hk0
      obtain rfl := Align.eq_of_zero (show Align .transposition (q.drop i) u 0 from hu)
      have d1 := drop_cons (q := q) (i := i) (by simp at hr; omega)
      have d2 := drop_cons (q := q) (i := i + 1) (by simp at hr; omega)
      refine ⟨1, ⟨q[i]'(by simp at hr; omega), q[i + 1]'(by simp at hr; omega), q.drop (i + 1 + 1),
        q.drop (i + 1), by rw [← d2]; exact d1, d1, ?_⟩, by omega⟩
      rw [d2]
      exact (align_self _).ins _
    · refine hfrom (hmean.2 ?_)
      simp only [subsumesRepaired, if_true, beq_iff_eq] at h
      subst h
      simp [excess, gapOf]; omega
  | mergeAndSplit =>
    cases s <;> cases t
    · refine hfrom (hmean.2 ?_)
      simpa [excess] using hans.1 (by simpa [subsumesRepaired] using h)
    · refine hfrom (hmean.2 ?_)
      have h3 := hans.1 (by simpa [subsumesRepaired] using h)
      simp only [reduceCtorEq, false_and, if_false] at h3
      exact ⟨max 1 (gapOf i j), rfl, by clear hmean hfrom hans; omega⟩
    · simp [subsumesRepaired] at h
    · refine hfrom (hmean.2 ?_)
      simpa [excess] using hans.1 (by simpa [subsumesRepaired] using h)

/-! ### Cases -/

/-- Positions of the query "abc" with flags: (1, 1) subsumes (0, 2) with a swap half done, (0, 1) does not, and the code
says of the latter that it does. -/
example : SubsumedBy .transposition [97, 98, 99] ⟨1, 1, false⟩ ⟨0, 2, true⟩ ∧
    ¬ SubsumedBy .transposition [97, 98, 99] ⟨0, 1, false⟩ ⟨1, 2, true⟩ ∧
    subsumes .transposition ⟨0, 1, false⟩ ⟨1, 2, true⟩ 3 = true := by
  refine ⟨?_, ?_, by decide +kernel⟩
  · exact (c78_meaning (by simp [Room]) (by simp [Room])).2 ⟨1, by decide, by decide⟩
  · rw [c78_meaning (by simp [Room]) (by simp [Room])]
    rintro ⟨d, h1, h2⟩
    have : d = 2 := by simpa [excess, swapGap, gapOf] using h1.symm
    subst this
    simp at h2

example : subsumesRepaired .transposition ⟨0, 1, true⟩ ⟨0, 2, false⟩ 2 = true ∧
    subsumesRepaired .transposition ⟨0, 1, false⟩ ⟨1, 2, true⟩ 3 = false ∧
    subsumesRepaired .mergeAndSplit ⟨0, 1, false⟩ ⟨1, 2, true⟩ 3 = true := by decide +kernel

end Lev.Props
