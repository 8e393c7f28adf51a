import Verif.Proofs.Distance

/-! A structurally recursive evaluator of the least alignment cost, used to settle concrete cases by
computation. -/

namespace Lev

open Spec

/-- Least alignment cost; `fuel` must be at least the total length. -/
def evalCost (A : Algorithm) : Nat → Str → Str → Nat
  | _, [], w => w.length
  | _, v, [] => v.length
  | 0, _, _ => 0
  | n + 1, a :: v, b :: w =>
      if a = b then evalCost A n v w else
        let m := min (min (evalCost A n v (b :: w)) (evalCost A n (a :: v) w)) (evalCost A n v w)
        match A with
        | .standard => 1 + m
        | .transposition =>
          match v, w with
          | a' :: v', b' :: w' => if a' = b ∧ b' = a then 1 + min m (evalCost A n v' w') else 1 + m
          | _, _ => 1 + m
        | .mergeAndSplit =>
          let m := match w with
            | _ :: w' => min m (evalCost A n v w')
            | [] => m
          match v with
            | _ :: v' => 1 + min m (evalCost A n v' w)
            | [] => 1 + m

theorem evalCost_spec (A : Algorithm) (n : Nat) (v w : Str) (h : v.length + w.length ≤ n) :
    IsMinCost A v w (evalCost A n v w) := by
  induction n using Nat.strongRecOn generalizing v w with
  | _ n ih =>
  match n, v, w with
  | _, [], w => simpa [evalCost] using isMinCost_nil_left w
  | 0, a :: v, w => simp at h
  | n + 1, a :: v, [] => simpa [evalCost] using isMinCost_nil_right (a :: v)
  | n + 1, a :: v, b :: w =>
    simp only [List.length_cons] at h
    rw [evalCost]
    split
    · rename_i hab; subst hab; exact (isMinCost_cons a).2 (ih n (by omega) v w (by omega))
    · rename_i hab
      have h1 := ih n (by omega) v (b :: w) (by simp only [List.length_cons]; omega)
      have h2 := ih n (by omega) (a :: v) w (by simp only [List.length_cons]; omega)
      have h3 := ih n (by omega) v w (by omega)
      cases A with
      | standard => exact isMinCost_std hab h1 h2 h3
      | transposition =>
        have key := isMinCost_trans hab h1 h2 h3
        dsimp only
        split
        · rename_i a' v' b' w'
          split
          · rename_i he
            obtain ⟨rfl, rfl⟩ := he
            exact key.1 v' w' _ rfl rfl (ih n (by omega) v' w' (by simp only [List.length_cons] at h; omega))
          · rename_i he
            refine key.2 ?_
            rintro v'' w'' ⟨e1, e2⟩
            cases e1; cases e2
            exact he ⟨rfl, rfl⟩
        · rename_i hno
          refine key.2 ?_
          rintro v'' w'' ⟨e1, e2⟩
          exact hno _ _ _ _ e1 e2
      | mergeAndSplit =>
        dsimp only
        cases v with
        | nil =>
          cases w with
          | nil =>
            refine isMinCost_ms hab h1 h2 h3 (by dsimp only; omega) (by dsimp only; omega) (by dsimp only; omega) (by dsimp only; omega) (by simp) (by simp)
          | cons b' w' =>
            have h4 := ih n (by omega) [] w' (by simp only [List.length_cons, List.length_nil] at h ⊢; omega)
            dsimp only
            generalize evalCost .mergeAndSplit n [] (b :: b' :: w') = x1 at *
            generalize evalCost .mergeAndSplit n [a] (b' :: w') = x2 at *
            generalize evalCost .mergeAndSplit n [] (b' :: w') = x3 at *
            generalize evalCost .mergeAndSplit n [] w' = x4 at *
            refine isMinCost_ms hab h1 h2 h3 ?_ (by omega) (by omega) (by omega) ?_ (by simp)
            · rcases Nat.le_total (min (min x1 x2) x3) x4 with h | h
              · rw [Nat.min_eq_left h]; omega
              · rw [Nat.min_eq_right h]; exact .inr (.inr (.inr (.inl ⟨b', w', rfl, h4⟩)))
            · rintro _ _ e; cases e; exact ⟨x4, h4, by omega⟩
        | cons a' v' =>
          have h5 := ih n (by omega) v' w (by simp only [List.length_cons] at h ⊢; omega)
          cases w with
          | nil =>
            dsimp only
            generalize evalCost .mergeAndSplit n (a' :: v') [b] = x1 at *
            generalize evalCost .mergeAndSplit n (a :: a' :: v') [] = x2 at *
            generalize evalCost .mergeAndSplit n (a' :: v') [] = x3 at *
            generalize evalCost .mergeAndSplit n v' [] = x5 at *
            refine isMinCost_ms hab h1 h2 h3 ?_ (by omega) (by omega) (by omega) (by simp) ?_
            · rcases Nat.le_total (min (min x1 x2) x3) x5 with h | h
              · rw [Nat.min_eq_left h]; omega
              · rw [Nat.min_eq_right h]; exact .inr (.inr (.inr (.inr ⟨a', v', rfl, h5⟩)))
            · rintro _ _ e; cases e; exact ⟨x5, h5, by omega⟩
          | cons b' w' =>
            have h4 := ih n (by omega) (a' :: v') w' (by simp only [List.length_cons] at h ⊢; omega)
            dsimp only
            generalize evalCost .mergeAndSplit n (a' :: v') (b :: b' :: w') = x1 at *
            generalize evalCost .mergeAndSplit n (a :: a' :: v') (b' :: w') = x2 at *
            generalize evalCost .mergeAndSplit n (a' :: v') (b' :: w') = x3 at *
            generalize evalCost .mergeAndSplit n (a' :: v') w' = x4 at *
            generalize evalCost .mergeAndSplit n v' (b' :: w') = x5 at *
            refine isMinCost_ms hab h1 h2 h3 ?_ (by omega) (by omega) (by omega) ?_ ?_
            · rcases Nat.le_total (min (min (min x1 x2) x3) x4) x5 with h | h
              · rw [Nat.min_eq_left h]
                rcases Nat.le_total (min (min x1 x2) x3) x4 with h' | h'
                · rw [Nat.min_eq_left h']; omega
                · rw [Nat.min_eq_right h']; exact .inr (.inr (.inr (.inl ⟨b', w', rfl, h4⟩)))
              · rw [Nat.min_eq_right h]; exact .inr (.inr (.inr (.inr ⟨a', v', rfl, h5⟩)))
            · rintro _ _ e; cases e; exact ⟨x4, h4, by omega⟩
            · rintro _ _ e; cases e; exact ⟨x5, h5, by omega⟩

end Lev
