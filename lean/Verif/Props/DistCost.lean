import Verif.Proofs.DistCost
import Verif.Proofs.TestRun

/-!
# C77: how long computing a distance takes

The three classes remember the distances of all pairs of suffixes they meet.  Counted are the calls of `between`, the outer
one and those it makes of itself, and the entries that are added.
-/

namespace Lev.Props

open Spec

/-- C77, one call on an object with any table: every `set` adds an entry (none is computed twice), at most one for each pair
of suffixes, and the number of calls is at most one more than 3 (standard), 4 (transposition) or 5 (merge and split) times
that. -/
theorem c77_between (A : Algorithm) (m : Memo) (v w : Str) :
    ((between A v w).run m).2.length = m.length + (between A v w).sets m ∧
    (between A v w).sets m ≤ (v.length + 1) * (w.length + 1) ∧
    (between A v w).gets m ≤ 1 + branches A * (between A v w).sets m := by
  obtain ⟨new, h1, _, h3, _⟩ := between_cost A v w m
  exact ⟨h1.length.1, h1.length.2, by rw [h1.sets]; exact h3⟩

/-- C77, asking again: a pair that was asked before, in either order, takes one look at the table and adds nothing. -/
theorem c77_again (A : Algorithm) (history : List (Str × Str)) (v w : Str) (h : (v, w) ∈ history ∨ (w, v) ∈ history) :
    (between A v w).gets (memoAfter A history) = 1 ∧ (between A v w).sets (memoAfter A history) = 0 := by
  obtain ⟨new, h1, _, _, h4⟩ := between_cost A v w (memoAfter A history)
  obtain ⟨_, _, _, _, h5⟩ := callSeq_cost A history []
  have hk : SymPair.make v w ∈ (memoAfter A history).keys := by
    rcases h with h | h
    · exact h5 _ h
    · rw [show SymPair.make v w = SymPair.make w v from symPair_comm v w]; exact h5 _ h
  obtain ⟨rfl, h6⟩ := h4 hk
  exact ⟨h6, h1.sets⟩

/-- C77, all calls on one object: the entries of the table, and the number of calls. -/
theorem c77_history (A : Algorithm) (history : List (Str × Str)) :
    (memoAfter A history).length = (callSeq A history).sets [] ∧
    (memoAfter A history).length ≤ (history.map fun c => (c.1.length + 1) * (c.2.length + 1)).sum ∧
    (callSeq A history).gets [] ≤ history.length + branches A * (memoAfter A history).length := by
  obtain ⟨h1, h2, h3, _⟩ := callSeq_cost A history []
  have h1' : (memoAfter A history).length = (callSeq A history).sets [] := by simpa [memoAfter] using h1
  exact ⟨h1', by omega, by rw [h1']; exact h3⟩

/-- C77, the bound for the entries is attained for strings of every length: all pairs of suffixes of aa...a and bb...b are
entered in the table. -/
theorem c77_attained (n k : Nat) (hn : 0 < n) (hk : 0 < k) :
    ∃ v w : Str, v.length = n ∧ w.length = k ∧ (between .standard v w).sets [] = (v.length + 1) * (w.length + 1) := by
  refine ⟨List.replicate n 97, List.replicate k 98, by simp, by simp, ?_⟩
  obtain ⟨n, rfl⟩ : ∃ n', n = n' + 1 := ⟨n - 1, by omega⟩
  obtain ⟨k, rfl⟩ : ∃ k', k = k' + 1 := ⟨k - 1, by omega⟩
  simpa [between] using std_ab_sets n k

/-! ### Cases -/

/-- "abc" and "ca" on a new object. -/
example : (between .transposition [97, 98, 99] [99, 97]).gets [] ≤ 1 + 4 * 12 ∧
    (between .transposition [97, 98, 99] [99, 97]).sets [] ≤ 12 := by
  obtain ⟨_, h2, h3⟩ := c77_between .transposition [] [97, 98, 99] [99, 97]
  simp only [List.length_cons, List.length_nil, branches] at h2 h3
  exact ⟨by omega, by omega⟩

example : (between .standard [97, 98] [98, 97]).gets (memoAfter .standard [([97], [98]), ([98, 97], [97, 98])]) = 1 :=
  (c77_again .standard _ _ _ (.inr (by simp))).1

end Lev.Props
