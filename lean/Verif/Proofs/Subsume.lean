import Verif.Props.State
import Verif.Proofs.Distance

/-!
When one position subsumes another, in terms of their indexes and errors.
-/

namespace Lev

open Spec Lev.Props

/-- `|i - j|`. -/
def gapOf (i j : Nat) : Nat := (i - j) + (j - i)

variable {A : Algorithm} {q : Str} {i j e f : Nat}

theorem gapOf_eq (i j : Nat) : gapOf i j = if i < j then j - i else i - j := by
  unfold gapOf; split <;> omega

theorem drop_cons {i : Nat} (h : i < q.length) : q.drop i = q[i] :: q.drop (i + 1) := List.drop_eq_getElem_cons h

theorem shift {u : Str} {k : Nat} (hi : i ≤ q.length) (hj : j ≤ q.length) (h : AlignLe A (q.drop j) u k) :
    AlignLe A (q.drop i) u (k + gapOf i j) := by
  obtain ⟨k0, h1, h2⟩ := h
  obtain ⟨k', h3, h4⟩ := align_shift (e := 0) (f := gapOf i j) (c := gapOf i j + k0) hi hj
    (by rw [gapOf_eq]; omega) h2 (by omega)
  exact ⟨k', by omega, h3⟩

theorem gap_le {u : Str} {k : Nat} (hi : i ≤ q.length) (h : Align A (q.drop i) u k) :
    gapOf (q.length - i) u.length ≤ k := by
  have := h.length_bounds
  simp only [List.length_drop] at this
  unfold gapOf; omega

theorem align_self (v : Str) : Align A v v 0 := by
  induction v with
  | nil => exact .nil
  | cons a v ih => exact ih.keep a

theorem other_char (x : UInt8) : ∃ y, y ≠ x := ⟨x + 1, by simp⟩

/-- Both without flag. -/
theorem subsumed_ff (hi : i ≤ q.length) (hj : j ≤ q.length) :
    SubsumedBy A q ⟨i, e, false⟩ ⟨j, f, false⟩ ↔ e + gapOf i j ≤ f := by
  constructor
  · intro h
    obtain ⟨k', h1, h2⟩ := h (q.drop j) 0 f (show Align A _ _ 0 from align_self _) (by simp)
    have := gap_le hi (show Align A _ _ k' from h1)
    simp only [List.length_drop] at this h2
    unfold gapOf at *; omega
  · intro h u k c hu hc
    obtain ⟨k', h1, h2⟩ := shift hi hj (Align.le (show Align A _ _ k from hu))
    exact ⟨k', h2, by simp only at *; omega⟩

/-- A flag on the left only. -/
theorem subsumed_tf : ¬ SubsumedBy A q ⟨i, e, true⟩ ⟨j, f, false⟩ := by
  intro h
  obtain ⟨c, _, h1⟩ := alignLe_max (A := A) (q.drop j) []
  obtain ⟨k', h2, _⟩ := h [] c (f + c) h1 (Nat.le_refl _)
  cases A with
  | standard => exact h2
  | transposition => obtain ⟨_, _, _, _, _, h3, _⟩ := h2; cases h3
  | mergeAndSplit => obtain ⟨_, _, _, _, _, h3, _⟩ := h2; cases h3

/-- Both with flag, MERGE_AND_SPLIT. -/
theorem subsumed_tt_ms (hi : i < q.length) (hj : j < q.length) :
    SubsumedBy .mergeAndSplit q ⟨i, e, true⟩ ⟨j, f, true⟩ ↔ e + gapOf i j ≤ f := by
  constructor
  · intro h
    obtain ⟨k', h1, h2⟩ := h (q[j] :: q.drop (j + 1)) 0 f ⟨_, _, _, _, drop_cons hj, rfl, align_self _⟩ (by simp)
    obtain ⟨x, v, y, u', h3, h4, h5⟩ := h1
    rw [drop_cons hi] at h3
    cases h3; cases h4
    have := gap_le (by omega) h5
    simp only [List.length_drop] at this h2
    unfold gapOf at *; omega
  · intro h u k c hu hc
    obtain ⟨x, v, y, u', h3, rfl, h5⟩ := hu
    rw [drop_cons hj] at h3
    cases h3
    obtain ⟨k', h1, h2⟩ := shift (i := i + 1) (by omega) (by omega) h5.le
    exact ⟨k', ⟨_, _, _, _, drop_cons hi, rfl, h2⟩, by simp only [gapOf] at *; omega⟩

/-- Both with flag, TRANSPOSITION. -/
theorem subsumed_tt_trans (hi : i + 1 < q.length) (hj : j + 1 < q.length) :
    SubsumedBy .transposition q ⟨i, e, true⟩ ⟨j, f, true⟩ ↔ q[i]? = q[j]? ∧ e + gapOf i j ≤ f := by
  have di := drop_cons (q := q) (i := i) (by omega)
  have dj := drop_cons (q := q) (i := j) (by omega)
  rw [drop_cons (i := i + 1) hi] at di
  rw [drop_cons (i := j + 1) hj] at dj
  rw [List.getElem?_eq_getElem (show i < q.length by omega), List.getElem?_eq_getElem (show j < q.length by omega),
    Option.some.injEq]
  constructor
  · intro h
    obtain ⟨k', h1, h2⟩ := h (q[j] :: q.drop (j + 1 + 1)) 0 f ⟨_, _, _, _, dj, rfl, align_self _⟩ (by simp)
    obtain ⟨x, y, v, u', h3, h4, h5⟩ := h1
    rw [di] at h3
    cases h3
    obtain ⟨h6, rfl⟩ := List.cons.inj h4
    have := gap_le (by omega) h5
    simp only [List.length_drop] at this h2
    refine ⟨h6.symm, ?_⟩
    unfold gapOf at *; omega
  · rintro ⟨heq, h⟩ u k c hu hc
    obtain ⟨x, y, v, u', h3, rfl, h5⟩ := hu
    rw [dj] at h3
    cases h3
    obtain ⟨k', h1, h2⟩ := shift (i := i + 1 + 1) (by omega) (by omega) h5.le
    exact ⟨k', ⟨_, _, _, _, di, by rw [heq], h2⟩, by simp only [gapOf] at *; omega⟩

/-- A flag on the right only, MERGE_AND_SPLIT. -/
theorem subsumed_ft_ms (hi : i ≤ q.length) (hj : j < q.length) :
    SubsumedBy .mergeAndSplit q ⟨i, e, false⟩ ⟨j, f, true⟩ ↔ e + max 1 (gapOf i j) ≤ f := by
  constructor
  · intro h
    obtain ⟨y, hy⟩ := other_char q[j]
    obtain ⟨k', h1, h2⟩ := h (y :: q.drop (j + 1)) 0 f ⟨_, _, _, _, drop_cons hj, rfl, align_self _⟩ (by simp)
    have h1 : Align .mergeAndSplit (q.drop i) (y :: q.drop (j + 1)) k' := h1
    have := gap_le hi h1
    simp only [List.length_drop, List.length_cons] at this h2
    have hpos : i = j → 1 ≤ k' := by
      rintro rfl
      rw [drop_cons hj] at h1
      exact not_align_zero hy.symm h1
    unfold gapOf at *; omega
  · intro h u k c hu hc
    obtain ⟨x, v, y, u', h3, rfl, h5⟩ := hu
    simp only at h3 h5 hc
    rw [drop_cons hj] at h3
    cases h3
    suffices AlignLe .mergeAndSplit (q.drop i) (y :: u') (k + max 1 (gapOf i j)) by
      obtain ⟨k', h1, h2⟩ := this
      exact ⟨k', h2, by simp only at *; omega⟩
    rcases Nat.lt_trichotomy i j with hij | rfl | hij
    · obtain ⟨z, hz, hzl⟩ := drop_gap q (i := i) (j := j - 1) (by omega) (by omega)
      rw [hz, drop_cons (i := j - 1) (by omega), show j - 1 + 1 = j by omega, drop_cons hj]
      exact alignLe_del_prefix (h5.le.merge rfl _ _ y (Nat.le_refl _)) (by unfold gapOf; omega)
    · rw [drop_cons hj]
      exact h5.le.sub _ _ (by omega)
    · exact (shift (i := i) hi (by omega) h5.le).ins y (by unfold gapOf; omega)

/-- The difference that matters if only the right position has a flag, for TRANSPOSITION. -/
def swapGap (q : Str) (i j : Nat) : Nat := if i = j + 1 then (if q[j]? = q[j + 1]? then 0 else 1) else gapOf i (j + 1)

/-- A flag on the right only, TRANSPOSITION. -/
theorem subsumed_ft_trans (hi : i ≤ q.length) (hj : j + 1 < q.length) :
    SubsumedBy .transposition q ⟨i, e, false⟩ ⟨j, f, true⟩ ↔ e + swapGap q i j ≤ f := by
  have dj := drop_cons (q := q) (i := j) (by omega)
  have dj1 := drop_cons (q := q) (i := j + 1) hj
  rw [dj1] at dj
  simp only [swapGap, List.getElem?_eq_getElem (show j < q.length by omega), List.getElem?_eq_getElem hj, Option.some.injEq]
  constructor
  · intro h
    obtain ⟨k', h1, h2⟩ := h (q[j] :: q.drop (j + 1 + 1)) 0 f ⟨_, _, _, _, dj, rfl, align_self _⟩ (by simp)
    have h1 : Align .transposition (q.drop i) (q[j] :: q.drop (j + 1 + 1)) k' := h1
    have := gap_le hi h1
    simp only [List.length_drop, List.length_cons] at this h2
    split
    · rename_i hij
      subst hij
      split
      · omega
      · rename_i hne
        rw [dj1] at h1
        have := not_align_zero (fun h => hne h.symm) h1
        omega
    · unfold gapOf at *; omega
  · intro h u k c hu hc
    obtain ⟨x, y, v, u', h3, rfl, h5⟩ := hu
    simp only at h3 h5 hc
    rw [dj] at h3
    cases h3
    suffices AlignLe .transposition (q.drop i) (q[j] :: u') (k + (f - e)) by
      obtain ⟨k', h1, h2⟩ := this
      exact ⟨k', h2, by simp only at *; split at h <;> omega⟩
    split at h
    · rename_i hij
      subst hij
      rw [dj1]
      split at h
      · rename_i heq
        rw [heq]
        exact (h5.le.keep _).mono (by omega)
      · exact h5.le.sub _ _ (by omega)
    · rcases Nat.lt_or_ge i (j + 1) with hij | hij
      · obtain ⟨z, hz, hzl⟩ := drop_gap q (i := i) (j := j) (by omega) (by omega)
        rw [hz, dj]
        exact alignLe_del_prefix ((h5.le.del _ (Nat.le_refl _)).keep _) (by unfold gapOf at h; omega)
      · exact (shift (i := i) hi (by omega) h5.le).ins _ (by unfold gapOf at *; omega)

end Lev
