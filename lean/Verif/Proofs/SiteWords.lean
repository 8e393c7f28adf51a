import Verif.Proofs.DictSem
import Verif.Spec.BuildFail

/-!
Common prefixes and the order of words.
-/

namespace Lev

open Spec

theorem ge_cons {x y : UInt8} {s t : Str} :
    ¬ strLess (x :: s) (y :: t) ↔ y.toNat < x.toNat ∨ x = y ∧ ¬ strLess s t := by
  rw [← strLt_false_iff, strLt, ← strLt_false_iff]
  by_cases h : x = y
  · subst h; simp
  · have hne : x.toNat ≠ y.toNat := fun h' => h (UInt8.toNat_inj.1 h')
    simp only [h, false_and, or_false]
    split
    · simp; omega
    · split
      · simp; omega
      · omega

theorem ge_nil (s : Str) : ¬ strLess s [] := by rw [← strLt_false_iff]; unfold strLt; rfl

theorem not_ge_nil (y : UInt8) (t : Str) : strLess [] (y :: t) := by rw [← strLt_iff]; simp [strLt]

theorem ge_trans {a b c : Str} (h1 : ¬ strLess b a) (h2 : ¬ strLess c b) : ¬ strLess c a := by
  intro h
  rcases strLess_total b c with hbc | hbc | hbc
  · exact h1 (strLess_trans hbc h)
  · subst hbc; exact h1 h
  · exact h2 hbc

theorem ge_refl (a : Str) : ¬ strLess a a := strLess_irrefl a

theorem ge_antisymm {a b : Str} (h1 : ¬ strLess a b) (h2 : ¬ strLess b a) : a = b := by
  rcases strLess_total a b with h | h | h
  · exact absurd h h1
  · exact h
  · exact absurd h h2

theorem commonLen_le_left (s t : Str) : commonLen s t ≤ s.length := by
  induction s generalizing t with
  | nil => simp [commonLen]
  | cons x s ih =>
    cases t with
    | nil => simp [commonLen]
    | cons y t =>
      simp only [commonLen]
      split
      · have := ih t; simp; omega
      · simp

theorem commonLen_comm (s t : Str) : commonLen s t = commonLen t s := by
  induction s generalizing t with
  | nil => cases t <;> simp [commonLen]
  | cons x s ih =>
    cases t with
    | nil => simp [commonLen]
    | cons y t =>
      simp only [commonLen, ih t]
      by_cases h : x = y
      · subst h; simp
      · simp [h, Ne.symm h]

theorem commonLen_le_right (s t : Str) : commonLen s t ≤ t.length := by
  rw [commonLen_comm]; exact commonLen_le_left t s

theorem commonLen_self (s : Str) : commonLen s s = s.length := by
  induction s with
  | nil => rfl
  | cons x s ih => simp [commonLen, ih]

theorem commonLen_take (s t : Str) : s.take (commonLen s t) = t.take (commonLen s t) := by
  induction s generalizing t with
  | nil => simp [commonLen]
  | cons x s ih =>
    cases t with
    | nil => simp [commonLen]
    | cons y t =>
      simp only [commonLen]
      split
      · next h => subst h; simp [ih t]
      · simp

theorem commonLen_ge {s t : Str} {m : Nat} (h1 : m ≤ s.length) (h2 : m ≤ t.length) (h : s.take m = t.take m) :
    m ≤ commonLen s t := by
  induction m generalizing s t with
  | zero => omega
  | succ m ih =>
    cases s with
    | nil => simp at h1
    | cons x s =>
      cases t with
      | nil => simp at h2
      | cons y t =>
        simp only [List.take_succ_cons, List.cons.injEq] at h
        have := ih (s := s) (t := t) (by simpa using h1) (by simpa using h2) h.2
        simp only [commonLen, h.1, if_true]
        omega

theorem commonPrefix_eq (a b : Str) : commonPrefix a b = commonLen a b := by
  induction a generalizing b with
  | nil => simp [commonPrefix, commonLen]
  | cons x a ih =>
    cases b with
    | nil => simp [commonPrefix, commonLen]
    | cons y b => simp only [commonPrefix, commonLen, ih b]

/-- A word between two others has what they have in common. -/
theorem commonLen_between {a b c : Str} (h1 : ¬ strLess b a) (h2 : ¬ strLess c b) : commonLen c a ≤ commonLen b a := by
  induction a generalizing b c with
  | nil => cases c <;> simp [commonLen]
  | cons x a ih =>
    cases c with
    | nil => simp [commonLen]
    | cons z c =>
      cases b with
      | nil => exact absurd (not_ge_nil x a) h1
      | cons y b =>
        simp only [commonLen]
        split
        · next hzx =>
          subst hzx
          rw [ge_cons] at h1 h2
          have hyz : y = z := by
            rcases h1 with h1 | h1 <;> rcases h2 with h2 | h2
            · omega
            · exact h2.1.symm
            · exact h1.1
            · exact h1.1
          subst hyz
          simp only [if_true, Nat.lt_irrefl, true_and, false_or] at h1 h2 ⊢
          have := ih h1 h2
          omega
        · simp

/-- After the common prefix the smaller word ends, or it has the smaller letter. -/
theorem ge_next {s t : Str} {m : Nat} {b : UInt8} (h : ¬ strLess s t) (hst : s.take m = t.take m) (hb : t[m]? = some b) :
    ∃ a, s[m]? = some a ∧ b.toNat ≤ a.toNat := by
  induction m generalizing s t with
  | zero =>
    cases t with
    | nil => simp at hb
    | cons y t =>
      cases s with
      | nil => exact absurd (not_ge_nil y t) h
      | cons x s =>
        rw [ge_cons] at h
        simp only [List.getElem?_cons_zero, Option.some.injEq] at hb
        subst hb
        refine ⟨x, rfl, ?_⟩
        rcases h with h | h
        · omega
        · rw [h.1]; exact Nat.le_refl _
  | succ m ih =>
    cases t with
    | nil => simp at hb
    | cons y t =>
      cases s with
      | nil => exact absurd (not_ge_nil y t) h
      | cons x s =>
        simp only [List.take_succ_cons, List.cons.injEq] at hst
        obtain ⟨rfl, hst⟩ := hst
        rw [ge_cons] at h
        simp only [Nat.lt_irrefl, true_and, false_or] at h
        exact ih h hst (by simpa using hb)

theorem commonLen_next {s t : Str} {a b : UInt8} (ha : s[commonLen s t]? = some a) (hb : t[commonLen s t]? = some b) : a ≠ b := by
  induction s generalizing t with
  | nil => simp at ha
  | cons x s ih =>
    cases t with
    | nil => simp at hb
    | cons y t =>
      by_cases h : x = y
      · simp only [commonLen, h, if_true, List.getElem?_cons_succ] at ha hb
        exact ih ha hb
      · simp only [commonLen, h, if_false, List.getElem?_cons_zero, Option.some.injEq] at ha hb
        rw [← ha, ← hb]; exact h

theorem prefix_ge {s t : Str} (h : s <+: t) : ¬ strLess t s := by
  obtain ⟨u, rfl⟩ := h
  induction s with
  | nil => exact ge_nil _
  | cons x s ih => rw [List.cons_append, ge_cons]; exact .inr ⟨rfl, ih⟩

/-! ### The words of a dictionary that is being built -/

/-- The words of calls are not smaller than the ones before. -/
structure Spec.Progress.Ordered (s : Progress) : Prop where
  prev : ¬ strLess s.last s.prev
  path : ¬ strLess s.last s.path
  near : commonLen s.last s.prev ≤ s.path.length
  same : s.path.take (commonLen s.last s.prev) = s.prev.take (commonLen s.last s.prev)

/-- What is known of a word that may be added. -/
theorem Spec.Progress.Ordered.next {s : Progress} (hs : s.Ordered) {t : Str} (ht : ¬ strLess t s.last)
    (hc : commonLen t s.path ≤ commonLen t s.prev) :
    ¬ strLess t s.prev ∧ commonLen t s.prev ≤ s.path.length ∧
      s.path.take (commonLen t s.prev) = t.take (commonLen t s.prev) ∧
      (∀ c, s.path[commonLen t s.prev]? = some c → ∃ x, t[commonLen t s.prev]? = some x ∧ c.toNat < x.toNat) := by
  have h1 : ¬ strLess t s.prev := ge_trans hs.prev ht
  have h2 : ¬ strLess t s.path := ge_trans hs.path ht
  have h3 := commonLen_between hs.prev ht
  have hn := hs.near
  have h4 : s.path.take (commonLen t s.prev) = t.take (commonLen t s.prev) := by
    have h5 := congrArg (List.take (commonLen t s.prev)) hs.same
    rw [List.take_take, List.take_take, Nat.min_eq_left h3] at h5
    rw [h5, commonLen_take]
  refine ⟨h1, by omega, h4, fun c hcp => ?_⟩
  have hl := commonLen_le_left t s.prev
  have h5 : commonLen t s.path = commonLen t s.prev := by
    have := commonLen_ge (s := t) (t := s.path) (m := commonLen t s.prev) hl (by omega) h4.symm
    omega
  obtain ⟨x, hx, hle⟩ := ge_next h2 h4.symm hcp
  refine ⟨x, hx, ?_⟩
  have := commonLen_next (s := t) (t := s.path) (a := x) (b := c) (by rw [h5]; exact hx) (by rw [h5]; exact hcp)
  have hne : x.toNat ≠ c.toNat := fun h' => this (UInt8.toNat_inj.1 h')
  omega

/-- The path becomes a part of what it was. -/
theorem Spec.Progress.Ordered.cut {s s' : Progress} (hs : s.Ordered) {t : Str} (ht : ¬ strLess t s.last)
    (hc : commonLen t s.path ≤ commonLen t s.prev) {m : Nat} (hm : commonLen t s.prev ≤ m)
    (h1 : s'.prev = s.prev) (h2 : s'.last = t) (h3 : s'.path = s.path.take m) : s'.Ordered := by
  obtain ⟨n1, n2, n3, _⟩ := hs.next ht hc
  have hp : ¬ strLess t s.path := ge_trans hs.path ht
  refine ⟨by rw [h1, h2]; exact n1, ?_, ?_, ?_⟩
  · rw [h2, h3]; exact ge_trans (prefix_ge (List.take_prefix _ _)) hp
  · rw [h1, h2, h3, List.length_take]; omega
  · rw [h1, h2, h3, List.take_take, Nat.min_eq_left hm, n3, commonLen_take]

/-- The path becomes a part of the word. -/
theorem Spec.Progress.Ordered.grow {s s' : Progress} (hs : s.Ordered) {t : Str} (ht : ¬ strLess t s.last) {m : Nat}
    (hm : commonLen t s.prev ≤ m)
    (h1 : s'.prev = s.prev) (h2 : s'.last = t) (h3 : s'.path = t.take m) : s'.Ordered := by
  refine ⟨by rw [h1, h2]; exact ge_trans hs.prev ht, ?_, ?_, ?_⟩
  · rw [h2, h3]; exact prefix_ge (List.take_prefix _ _)
  · have := commonLen_le_left t s.prev
    rw [h1, h2, h3, List.length_take]; omega
  · rw [h1, h2, h3, List.take_take, Nat.min_eq_left hm, commonLen_take]

/-- A word is added. -/
theorem Spec.Progress.Ordered.done {s' : Progress} {t : Str} (h1 : s'.prev = t) (h2 : s'.last = t) (h3 : s'.path = t) :
    s'.Ordered := by
  refine ⟨by rw [h1, h2]; exact ge_refl t, by rw [h2, h3]; exact ge_refl t, ?_, by rw [h1, h2, h3]⟩
  rw [h1, h2, h3, commonLen_self]; exact Nat.le_refl _

end Lev
