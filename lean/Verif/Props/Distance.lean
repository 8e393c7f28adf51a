import Verif.Proofs.DistEval
import Verif.Proofs.Concurrent
import Verif.Proofs.Trace

/-!
# Properties C01–C14: the distance objects

`answer A history v w` is what `between(v, w)` returns on an object of variant `A` after the calls
`history`.
-/

namespace Lev.Props

open Lev Spec

/-- "CA" -/
def sCA : Str := [67, 65]
/-- "AC" -/
def sAC : Str := [65, 67]
/-- "ABC" -/
def sABC : Str := [65, 66, 67]
/-- "kitten" -/
def sKitten : Str := [107, 105, 116, 116, 101, 110]
/-- "sitting" -/
def sSitting : Str := [115, 105, 116, 116, 105, 110, 103]
/-- "rn" -/
def sRn : Str := [114, 110]
/-- "m" -/
def sM : Str := [109]

/-- On any object, after any calls, the answer is the least alignment cost. -/
theorem answer_isMinCost (A : Algorithm) (history : List (Str × Str)) (v w : Str) :
    IsMinCost A v w (answer A history v w) :=
  ((between_correct A v w).run
    ((callSeq_correct A history).run (m := []) (fun _ h => by cases h)).2).1

theorem answer_eq_eval (A : Algorithm) (history : List (Str × Str)) (v w : Str) :
    answer A history v w = evalCost A (v.length + w.length) v w :=
  (answer_isMinCost A history v w).unique (evalCost_spec A _ v w (Nat.le_refl _))

/-! ### C01 -/

/-- C01: `StandardDistance::between` returns the least number of insertions, deletions and
substitutions. -/
theorem c01_standard_min_ops (history : List (Str × Str)) (v w : Str) :
    IsMinOps .standard v w (answer .standard history v w) :=
  (answer_isMinCost .standard history v w).isMinOps (by decide)

example : answer .standard [(sCA, sABC), (sABC, sCA)] sKitten sSitting = 3 := by
  rw [answer_eq_eval]; decide

/-! ### C02 -/

/-- C02: `MergeAndSplitDistance::between` returns the least number of insertions, deletions,
substitutions, merges and splits. -/
theorem c02_mergeAndSplit_min_ops (history : List (Str × Str)) (v w : Str) :
    IsMinOps .mergeAndSplit v w (answer .mergeAndSplit history v w) :=
  (answer_isMinCost .mergeAndSplit history v w).isMinOps (by decide)

example : answer .mergeAndSplit [] sRn sM = 1 ∧ answer .standard [] sRn sM = 2 := by
  rw [answer_eq_eval, answer_eq_eval]; decide

/-! ### C03 -/

/-- C03: `TranspositionDistance::between` returns the least cost of an alignment with swaps (optimal
string alignment distance). -/
theorem c03_transposition_min_alignment (history : List (Str × Str)) (v w : Str) :
    IsMinCost .transposition v w (answer .transposition history v w) :=
  answer_isMinCost .transposition history v w

example : answer .transposition [] sCA sAC = 1 ∧ answer .standard [] sCA sAC = 2 := by
  rw [answer_eq_eval, answer_eq_eval]; decide

/-! ### C04 -/

/-- The full claim of `distance.h:10-13` for the variant with transpositions. -/
def C04_full : Prop := ∀ v w : Str, IsMinOps .transposition v w (answer .transposition [] v w)

/-- C04: the documented claim is false: "CA" becomes "ABC" with two operations
(swap, then insert), but the code returns 3. -/
theorem c04_documented_claim_false : ¬ C04_full := by
  intro h
  have h1 := (h sCA sABC).2 2
    (.step (.swap rfl [] [] 67 65) (.step (.ins [65] [67] 66) (.refl _)))
  rw [answer_eq_eval] at h1
  revert h1; decide

/-- C04, the part that holds (missing from the full claim: equality): the result is reachable by that
many operations, so it is never below the least number of operations. -/
theorem c04_not_below_min_ops_partial (history : List (Str × Str)) (v w : Str) :
    Reach .transposition (answer .transposition history v w) v w ∧
    ∀ d, IsMinOps .transposition v w d → d ≤ answer .transposition history v w := by
  have h := (answer_isMinCost .transposition history v w).1.reach
  exact ⟨h, fun d hd => hd.2 _ h⟩

/-- C04, how far the result can be off (missing from the full claim: equality): it is at most 3/2 times the length of any
sequence of operations from `v` to `w`. -/
theorem c04_at_most_three_halves_partial (history : List (Str × Str)) (v w : Str) {k : Nat}
    (h : Reach .transposition k v w) : 2 * answer .transposition history v w ≤ 3 * k := by
  obtain ⟨c, h1, h2⟩ := reach_alignLe_three_halves h
  have := (answer_isMinCost .transposition history v w).le_iff.1 h1
  omega

/-- C04: no factor below 3/2 would do. -/
theorem c04_three_halves_is_sharp {p q : Nat}
    (h : ∀ (v w : Str) (k : Nat), Reach .transposition k v w → q * answer .transposition [] v w ≤ p * k) :
    3 * q ≤ 2 * p := by
  have h1 := h sCA sABC 2 (.step (.swap rfl [] [] 67 65) (.step (.ins [65] [67] 66) (.refl _)))
  have h2 : answer .transposition [] sCA sABC = 3 := by rw [answer_eq_eval]; decide
  rw [h2] at h1
  omega

/-- C04: a single operation is counted as one. -/
theorem c04_single_operation_partial (history : List (Str × Str)) (v w : Str) (h : Step .transposition v w) :
    answer .transposition history v w ≤ 1 :=
  (answer_isMinCost .transposition history v w).le_iff.1 h.alignLe

example : Step .transposition sCA sAC := .swap rfl [] [] 67 65

example : answer .transposition [] sCA sABC = 3 := by rw [answer_eq_eval]; decide

/-! ### C05 -/

/-- C05: distance zero exactly for equal strings. -/
theorem c05_zero_iff_eq (A : Algorithm) (history : List (Str × Str)) (v w : Str) :
    answer A history v w = 0 ↔ v = w := by
  have h := answer_isMinCost A history v w
  constructor
  · intro h0; rw [h0] at h; exact h.1.eq_of_zero
  · rintro rfl; exact Nat.le_zero.1 (h.2 0 (align_refl v))

example : answer .mergeAndSplit [] sRn sRn = 0 ∧ answer .mergeAndSplit [] sRn sM ≠ 0 := by
  rw [answer_eq_eval, answer_eq_eval]; decide

/-! ### C06 -/

/-- C06: symmetry, whatever was asked before on either object. -/
theorem c06_symmetric (A : Algorithm) (history history' : List (Str × Str)) (v w : Str) :
    answer A history v w = answer A history' w v :=
  (answer_isMinCost A history v w).unique (answer_isMinCost A history' w v).symm

/-- C06, asked in the other order on the same object: the second call finds the entry of the first. -/
theorem c06_symmetric_same_object (A : Algorithm) (history : List (Str × Str)) (v w : Str) :
    answer A (history ++ [(v, w)]) w v = answer A history v w :=
  c06_symmetric A _ _ w v

example : answer .transposition [(sABC, sCA)] sCA sABC = answer .transposition [] sABC sCA :=
  c06_symmetric _ _ _ _ _

/-! ### C07 -/

/-- C07: triangle inequality of the standard and the merge-and-split distance. -/
theorem c07_triangle (A : Algorithm) (hA : A ≠ .transposition) (history : List (Str × Str)) (x y z : Str) :
    answer A history x z ≤ answer A history x y + answer A history y z := by
  have h := AlignLe.reach hA (answer_isMinCost A history x y).1.le
    (answer_isMinCost A history y z).1.reach
  exact (answer_isMinCost A history x z).le_iff.1 h

example : Algorithm.standard ≠ .transposition ∧ Algorithm.mergeAndSplit ≠ .transposition := by decide
example : answer .standard [] sCA sABC = 3 ∧ answer .standard [] sCA sAC = 2 ∧ answer .standard [] sAC sABC = 1 := by
  rw [answer_eq_eval, answer_eq_eval, answer_eq_eval]; decide

/-! ### C08 -/

/-- The full claim: triangle inequality of the distance with transpositions
(`distance.h:15-19`, axiom 4). -/
def C08_full : Prop := ∀ x y z : Str,
  answer .transposition [] x z ≤ answer .transposition [] x y + answer .transposition [] y z

/-- C08: the documented triangle inequality is false for the variant with transpositions. -/
theorem c08_triangle_false : ¬ C08_full := by
  intro h
  have := h sCA sAC sABC
  rw [answer_eq_eval, answer_eq_eval, answer_eq_eval] at this
  revert this; decide

/-- C08, the part that holds (missing: the factor 3/2 cannot be dropped). -/
theorem c08_triangle_three_halves_partial (history : List (Str × Str)) (x y z : Str) :
    2 * answer .transposition history x z ≤
      3 * (answer .transposition history x y + answer .transposition history y z) :=
  c04_at_most_three_halves_partial history x z
    ((answer_isMinCost .transposition history x y).1.reach.trans (answer_isMinCost .transposition history y z).1.reach)

/-- C08: no factor below 3/2 would do. -/
theorem c08_three_halves_is_sharp {p q : Nat}
    (h : ∀ x y z : Str, q * answer .transposition [] x z ≤
      p * (answer .transposition [] x y + answer .transposition [] y z)) : 3 * q ≤ 2 * p := by
  have h1 := h sCA sAC sABC
  have e1 : answer .transposition [] sCA sABC = 3 := by rw [answer_eq_eval]; decide
  have e2 : answer .transposition [] sCA sAC = 1 := by rw [answer_eq_eval]; decide
  have e3 : answer .transposition [] sAC sABC = 1 := by rw [answer_eq_eval]; decide
  rw [e1, e2, e3] at h1
  omega

/-! ### C09 -/

/-- C09: a common prefix does not change the distance. -/
theorem c09_left_invariant (A : Algorithm) (history : List (Str × Str)) (x y z : Str) :
    answer A history (z ++ x) (z ++ y) = answer A history x y := by
  have h1 := answer_isMinCost A history (z ++ x) (z ++ y)
  have h2 := answer_isMinCost A history x y
  exact Nat.le_antisymm (h1.le_iff.1 (h2.1.le.keep_prefix z)) (h2.le_iff.1 (h1.1.le.discard_prefix z))

/-- C09: a common suffix does not change the distance. -/
theorem c09_right_invariant (A : Algorithm) (history : List (Str × Str)) (x y z : Str) :
    answer A history (x ++ z) (y ++ z) = answer A history x y := by
  have h1 := answer_isMinCost A history (x ++ z) (y ++ z)
  have h2 := answer_isMinCost A history x y
  exact Nat.le_antisymm (h1.le_iff.1 (h2.1.le.keep_suffix z)) (h2.le_iff.1 (h1.1.le.discard_suffix z))

example : answer .transposition [] (sM ++ sCA) (sM ++ sAC) = 1 := by
  rw [c09_left_invariant, answer_eq_eval]; decide

/-! ### C10 -/

/-- C10: bounds by the lengths. -/
theorem c10_length_bounds (A : Algorithm) (history : List (Str × Str)) (v w : Str) :
    answer A history v w ≤ max v.length w.length ∧
    v.length - w.length ≤ answer A history v w ∧ w.length - v.length ≤ answer A history v w := by
  have h := answer_isMinCost A history v w
  have hb := h.1.length_bounds
  exact ⟨h.le_iff.1 (alignLe_max v w), by omega, by omega⟩

/-- C10: the extended distances are at most the standard one, which is at most twice each of them. -/
theorem c10_comparison (A : Algorithm) (history history' : List (Str × Str)) (v w : Str) :
    answer A history v w ≤ answer .standard history' v w ∧
    answer .standard history' v w ≤ 2 * answer A history v w := by
  have h := answer_isMinCost A history v w
  have h' := answer_isMinCost .standard history' v w
  exact ⟨h.2 _ h'.1.of_standard, h'.le_iff.1 h.1.to_standard⟩

example : answer .standard [] sRn sM = 2 * answer .mergeAndSplit [] sRn sM := by
  rw [answer_eq_eval, answer_eq_eval]; decide

/-! ### C11 -/

/-- C11: the answer does not depend on the calls made before. -/
theorem c11_history_independent (A : Algorithm) (history : List (Str × Str)) (v w : Str) :
    answer A history v w = answer A [] v w :=
  (answer_isMinCost A history v w).unique (answer_isMinCost A [] v w)

/-! ### C12 -/

/-- C12: whatever the schedule, a thread that has finished has the answers of a fresh object, in order,
for exactly its own calls. -/
theorem c12_concurrent_answers (A : Algorithm) (clients : List (List (Str × Str))) (n : Nat) (s : Sys)
    (hs : SysSteps n (Sys.start A clients) s) (i : Nat) (calls : List (Str × Str)) (t : Thread) (ds : List Nat)
    (hi : clients[i]? = some calls) (ht : s.threads[i]? = some t) (hd : t.prog = .ret ds) :
    ds = calls.map fun c => answer A [] c.1 c.2 := by
  have hc := (results_steps (results_start A clients) hs).1
  have hmin : AllMin A calls ds := by
    clear hs
    generalize s.threads = ts at hc ht
    induction i generalizing clients ts with
    | zero =>
      cases clients with
      | nil => simp at hi
      | cons c cs =>
        cases ts with
        | nil => simp at ht
        | cons t' ts =>
          simp at hi ht
          subst hi; subst ht
          have := hc.1
          rw [hd] at this
          exact this
    | succ i ih =>
      cases clients with
      | nil => simp at hi
      | cons c cs =>
        cases ts with
        | nil => simp at ht
        | cons t' ts => exact ih cs (by simpa using hi) ts hc.2 (by simpa using ht)
  clear hd hi
  induction calls generalizing ds with
  | nil => cases ds with
    | nil => rfl
    | cons d ds => exact hmin.elim
  | cons c calls ih => cases ds with
    | nil => exact hmin.elim
    | cons d ds =>
      simp only [List.map_cons, List.cons.injEq]
      exact ⟨hmin.1.unique (answer_isMinCost A [] c.1 c.2), ih ds hmin.2⟩

/-- C12: the map is never written while another thread accesses it. -/
theorem c12_no_data_race (A : Algorithm) (clients : List (List (Str × Str))) (n : Nat) (s : Sys)
    (hs : SysSteps n (Sys.start A clients) s) : ¬ s.Race :=
  ((LockInv.start A clients).steps hs).no_race

/-- C12: no deadlock. -/
theorem c12_no_deadlock (A : Algorithm) (clients : List (List (Str × Str))) (n : Nat) (s : Sys)
    (hs : SysSteps n (Sys.start A clients) s) (hf : ¬ s.Finished) : ∃ s', SysStep s s' :=
  ((LockInv.start A clients).steps hs).progress hf

/-- Two threads asking the same question; a step is possible, so the hypotheses are met. -/
example : ∃ s, SysSteps 1 (Sys.start .standard [[(sCA, sABC)], [(sABC, sCA)]]) s := by
  obtain ⟨s, hs⟩ := c12_no_deadlock .standard [[(sCA, sABC)], [(sABC, sCA)]] 0 _ (.refl _) (by
    intro h
    obtain ⟨ds, hds⟩ := h ⟨.idle, callSeq .standard [(sCA, sABC)]⟩ (by simp [Sys.start])
    simp only [callSeq, between, sCA, sABC] at hds
    rw [stdBetween.eq_def] at hds
    exact Prog.noConfusion rfl (heq_of_eq hds))
  exact ⟨s, .tail (.refl _) hs⟩

/-! ### C13 -/

/-- C13: a call performs a bounded number of table accesses, whatever the table (and hence any other
thread writing to it) answers. -/
theorem c13_bounded_accesses (A : Algorithm) (v w : Str) :
    (between A v w).Bounded (2 * 6 ^ (v.length + w.length)) :=
  between_bounded A v w

/-- C13: every execution of any number of threads is finite; together with `c12_no_deadlock` every call
returns. -/
theorem c13_executions_finite (A : Algorithm) (clients : List (List (Str × Str))) :
    ∃ N, ∀ n s, SysSteps n (Sys.start A clients) s → n ≤ N :=
  ⟨sysBound clients, fun _ _ h => ((ThreadsBounded.start A clients).steps h).1⟩

/-! ### C14 -/

/-- C14: two `SymmetricPair`s are equal exactly when they are equal as unordered pairs. -/
theorem c14_unordered_pair (u v x y : Str) :
    SymPair.eq (SymPair.make u v) (SymPair.make x y) = true ↔ (u = x ∧ v = y) ∨ (u = y ∧ v = x) := by
  have hcase : ∀ u v : Str, (u < v ∧ SymPair.make u v = ⟨u, v⟩) ∨ (¬ u < v ∧ SymPair.make u v = ⟨v, u⟩) := by
    intro u v
    unfold SymPair.make
    by_cases h : u < v
    · exact .inl ⟨h, if_pos h⟩
    · exact .inr ⟨h, if_neg h⟩
  have hasymm : ∀ a b : Str, a < b → ¬ b < a := fun a b h => List.lt_asymm h
  have htot : ∀ a b : Str, ¬ a < b → ¬ b < a → a = b := fun a b h h' => List.le_antisymm h' h
  rcases hcase u v with ⟨h, e⟩ | ⟨h, e⟩ <;> rcases hcase x y with ⟨h', e'⟩ | ⟨h', e'⟩ <;> rw [e, e'] <;>
    simp only [SymPair.eq, Bool.and_eq_true, beq_iff_eq]
  · constructor
    · exact .inl
    · rintro (h1 | ⟨rfl, rfl⟩)
      · exact h1
      · exact absurd h (hasymm _ _ h')
  · constructor
    · exact .inr
    · rintro (⟨rfl, rfl⟩ | h1)
      · exact absurd h h'
      · exact h1
  · constructor
    · rintro ⟨rfl, rfl⟩; exact .inr ⟨rfl, rfl⟩
    · rintro (⟨rfl, rfl⟩ | ⟨rfl, rfl⟩)
      · exact absurd h' h
      · exact ⟨rfl, rfl⟩
  · constructor
    · rintro ⟨rfl, rfl⟩; exact .inl ⟨rfl, rfl⟩
    · rintro (⟨rfl, rfl⟩ | ⟨rfl, rfl⟩)
      · exact ⟨rfl, rfl⟩
      · have := htot _ _ h h'; subst this; exact ⟨rfl, rfl⟩

/-- C14: the order of the constructor arguments matters neither for `operator==` nor for the hash. -/
theorem c14_hash_respects_eq (u v x y : Str)
    (h : SymPair.eq (SymPair.make u v) (SymPair.make x y) = true) :
    (SymPair.make u v).hash = (SymPair.make x y).hash := by
  have : SymPair.make u v = SymPair.make x y := by
    simp only [SymPair.eq, Bool.and_eq_true, beq_iff_eq] at h
    cases hp : SymPair.make u v; cases hq : SymPair.make x y
    simp_all
  rw [this]

example : SymPair.eq (SymPair.make sCA sAC) (SymPair.make sAC sCA) = true := by decide
example : SymPair.eq (SymPair.make sCA sAC) (SymPair.make sCA sCA) = false := by decide

end Lev.Props
