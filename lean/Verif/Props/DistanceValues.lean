import Verif.Props.Distance

/-!
# Property C117: exact values of the distances

(src/liblevenshtein/distance/{standard,transposition,merge_and_split}_distance.cpp).
-/

namespace Lev.Props

open Lev Spec

section
variable {A : Algorithm} {v w : Str}

/-- C117: the distance of concatenations is at most the sum of the distances of the parts. -/
theorem c117_concatenation (A : Algorithm) (history : List (Str × Str)) (x y x' y' : Str) :
    answer A history (x ++ y) (x' ++ y') ≤ answer A history x x' + answer A history y y' :=
  (answer_isMinCost A history _ _).2 _ ((answer_isMinCost A history x x').1.append (answer_isMinCost A history y y').1)

theorem alignLe_sublist (h : w.Sublist v) : AlignLe A v w (v.length - w.length) := by
  induction h with
  | slnil => exact AlignLe.nil
  | cons a h ih =>
    refine ih.del a ?_
    have := h.length_le
    simp only [List.length_cons]
    omega
  | cons_cons a h ih =>
    have := ih.keep a
    simpa using this

/-- C117: a word is as far from each of its subsequences as it is longer. -/
theorem c117_subsequence (A : Algorithm) (history : List (Str × Str)) {v w : Str} (h : w.Sublist v) :
    answer A history v w = v.length - w.length := by
  have hc := answer_isMinCost A history v w
  have hb := hc.1.length_bounds
  exact Nat.le_antisymm (hc.le_iff.1 (alignLe_sublist h)) (by omega)

theorem align_deletions (hA : A ≠ .mergeAndSplit) {c : Nat} (h : Align A v w c) (hc : c + w.length = v.length) : w.Sublist v := by
  induction h with
  | nil => exact .slnil
  | keep a _ ih => exact (ih (by simp only [List.length_cons] at hc; omega)).cons_cons a
  | sub a b h _ => have := h.length_bounds; simp only [List.length_cons] at hc; omega
  | ins b h _ => have := h.length_bounds; simp only [List.length_cons] at hc; omega
  | del a _ ih => exact (ih (by simp only [List.length_cons] at hc; omega)).cons a
  | swap _ a b h _ => have := h.length_bounds; simp only [List.length_cons] at hc; omega
  | merge h => exact absurd h hA
  | split h => exact absurd h hA

/-- C117: for the standard distance and the one with transpositions, only for its subsequences. -/
theorem c117_only_subsequences (hA : A ≠ .mergeAndSplit) (history : List (Str × Str)) {v w : Str} (hl : w.length ≤ v.length) :
    answer A history v w = v.length - w.length ↔ w.Sublist v := by
  refine ⟨fun h => ?_, c117_subsequence A history⟩
  have hc := (answer_isMinCost A history v w).1
  exact align_deletions hA hc (by omega)

theorem align_disjoint (hA : A ≠ .mergeAndSplit) {c : Nat} (h : Align A v w c) (hd : ∀ a ∈ v, a ∉ w) :
    v.length ≤ c ∧ w.length ≤ c := by
  induction h with
  | nil => simp
  | keep a _ _ => exact absurd (List.mem_cons_self) (hd a List.mem_cons_self)
  | sub a b _ ih =>
    have := ih fun x hx hy => hd x (List.mem_cons_of_mem _ hx) (List.mem_cons_of_mem _ hy)
    simp only [List.length_cons]; omega
  | ins b _ ih =>
    have := ih fun x hx hy => hd x hx (List.mem_cons_of_mem _ hy)
    simp only [List.length_cons]; omega
  | del a _ ih =>
    have := ih fun x hx hy => hd x (List.mem_cons_of_mem _ hx) hy
    simp only [List.length_cons]; omega
  | swap _ a b _ _ => exact absurd (by simp) (hd a List.mem_cons_self)
  | merge h => exact absurd h hA
  | split h => exact absurd h hA

/-- C117: words without a common character are as far from each other as the longer one is long, for the standard distance and the one
with transpositions. -/
theorem c117_nothing_in_common (hA : A ≠ .mergeAndSplit) (history : List (Str × Str)) {v w : Str} (hd : ∀ a ∈ v, a ∉ w) :
    answer A history v w = max v.length w.length := by
  have hc := answer_isMinCost A history v w
  have := align_disjoint hA hc.1 hd
  exact Nat.le_antisymm (hc.le_iff.1 (alignLe_max v w)) (by omega)

theorem alignLe_thirds (k : Nat) : ∀ v w : Str, v.length + w.length = k →
    AlignLe .mergeAndSplit v w (max ((v.length + w.length + 2) / 3) (max (v.length - w.length) (w.length - v.length))) := by
  induction k using Nat.strongRecOn with
  | ind k ih =>
    intro v w hk
    match v, w with
    | [], w => exact (align_nil_left w).le.mono (by simp; omega)
    | v, [] => exact (align_nil_right v).le.mono (by simp; omega)
    | [a], [b] => exact (AlignLe.nil (c := 0)).sub a b (by simp)
    | a :: v, b :: b' :: w =>
      by_cases hl : v.length + 1 < w.length + 2
      · refine (ih (v.length + w.length) (by simp only [List.length_cons] at hk; omega) v w rfl).split rfl a b b' ?_
        simp only [List.length_cons]
        omega
      · match v with
        | [] => simp at hl
        | a' :: v =>
          refine (ih (v.length + (w.length + 1)) (by simp only [List.length_cons] at hk; omega) v (b' :: w) rfl).merge rfl a a' b ?_
          simp only [List.length_cons] at hl ⊢
          omega
    | a :: a' :: v, [b] =>
      refine (ih (v.length + 0) (by simp only [List.length_cons, List.length_nil] at hk; omega) v [] rfl).merge rfl a a' b ?_
      simp only [List.length_cons, List.length_nil]
      omega

theorem align_disjoint_thirds {c : Nat} (h : Align A v w c) (hd : ∀ a ∈ v, a ∉ w) : v.length + w.length ≤ 3 * c := by
  induction h with
  | nil => simp
  | keep a _ _ => exact absurd (List.mem_cons_self) (hd a List.mem_cons_self)
  | sub a b _ ih =>
    have := ih fun x hx hy => hd x (List.mem_cons_of_mem _ hx) (List.mem_cons_of_mem _ hy)
    simp only [List.length_cons]; omega
  | ins b _ ih =>
    have := ih fun x hx hy => hd x hx (List.mem_cons_of_mem _ hy)
    simp only [List.length_cons]; omega
  | del a _ ih =>
    have := ih fun x hx hy => hd x (List.mem_cons_of_mem _ hx) hy
    simp only [List.length_cons]; omega
  | swap _ a b _ _ => exact absurd (by simp) (hd a List.mem_cons_self)
  | merge _ a b d _ ih =>
    have := ih fun x hx hy => hd x (by simp [hx]) (by simp [hy])
    simp only [List.length_cons]; omega
  | split _ a b d _ ih =>
    have := ih fun x hx hy => hd x (by simp [hx]) (by simp [hy])
    simp only [List.length_cons]; omega

/-- C117: the distance with merges and splits is at most a third of the two lengths together, rounded up, or the difference of the lengths
if that is larger; for words without a common character it is exactly that. -/
theorem c117_thirds (history : List (Str × Str)) (v w : Str) :
    answer .mergeAndSplit history v w ≤
      max ((v.length + w.length + 2) / 3) (max (v.length - w.length) (w.length - v.length)) ∧
    ((∀ a ∈ v, a ∉ w) → answer .mergeAndSplit history v w =
      max ((v.length + w.length + 2) / 3) (max (v.length - w.length) (w.length - v.length))) := by
  have hc := answer_isMinCost .mergeAndSplit history v w
  have hle := hc.le_iff.1 (alignLe_thirds _ v w rfl)
  refine ⟨hle, fun hd => Nat.le_antisymm hle ?_⟩
  have h1 := align_disjoint_thirds hc.1 hd
  have h2 := hc.1.length_bounds
  omega

/-- C117: words of the same length are at most as far from each other as the number of places where they differ. -/
theorem c117_places (A : Algorithm) (history : List (Str × Str)) {v w : Str} (hl : v.length = w.length) :
    answer A history v w ≤ ((List.range v.length).filter fun i => v[i]? ≠ w[i]?).length := by
  refine (answer_isMinCost A history v w).le_iff.1 ?_
  induction v generalizing w with
  | nil =>
    cases w with
    | nil => exact AlignLe.nil
    | cons b w => simp at hl
  | cons a v ih =>
    cases w with
    | nil => simp at hl
    | cons b w =>
      have := ih (w := w) (by simpa using hl)
      have e : ((List.range (a :: v).length).filter fun i => (a :: v)[i]? ≠ (b :: w)[i]?).length =
          (if a = b then 0 else 1) + ((List.range v.length).filter fun i => v[i]? ≠ w[i]?).length := by
        rw [List.length_cons, List.range_succ_eq_map, List.filter_cons, List.filter_map]
        by_cases h : a = b
        · simp [h, Function.comp_def]
        · simp [h, Function.comp_def]; omega
      rw [e]
      by_cases h : a = b
      · subst h; simpa using this.keep a
      · simp only [h, if_false]; exact this.sub a b (by omega)

end

/-! ### Cases -/

example : answer .mergeAndSplit [] [97, 97, 97] [98, 98, 98] = 2 ∧ answer .standard [] [97, 97, 97] [98, 98, 98] = 3 := by
  rw [answer_eq_eval, answer_eq_eval]; decide

example : ([97, 99] : Str).Sublist [97, 98, 99] ∧ answer .transposition [] [97, 98, 99] [97, 99] = 1 := by
  refine ⟨by decide, ?_⟩
  rw [answer_eq_eval]; decide

/-- Merging makes words closer that are no subsequences. -/
example : ¬ (sM.Sublist sRn) ∧ answer .mergeAndSplit [] sRn sM = sRn.length - sM.length := by
  refine ⟨by decide, ?_⟩
  rw [answer_eq_eval]; decide

end Lev.Props
