/-!
# Specification of the three edit distances

This file knows nothing about the code. It says what an elementary edit operation is, what the
least number of operations is, and what a (restricted) alignment and its cost are.
-/

namespace Lev

/-- The three variants of the distance (`/repo/src/liblevenshtein/transducer/algorithm.h:9-22`). -/
inductive Algorithm where
  | standard
  | transposition
  | mergeAndSplit
deriving DecidableEq, Repr

namespace Spec

variable {α : Type}

/-- `Step A v w`: one elementary operation of variant `A`, applied anywhere in `v`, gives `w`.
Insertion, deletion and substitution belong to every variant; a transposition swaps two adjacent
characters; a merge replaces two adjacent characters by one, a split one character by two. -/
inductive Step (A : Algorithm) : List α → List α → Prop
  | ins (p s : List α) (a : α) : Step A (p ++ s) (p ++ a :: s)
  | del (p s : List α) (a : α) : Step A (p ++ a :: s) (p ++ s)
  | sub (p s : List α) (a b : α) : Step A (p ++ a :: s) (p ++ b :: s)
  | swap (h : A = .transposition) (p s : List α) (a b : α) :
      Step A (p ++ a :: b :: s) (p ++ b :: a :: s)
  | merge (h : A = .mergeAndSplit) (p s : List α) (a b c : α) :
      Step A (p ++ a :: b :: s) (p ++ c :: s)
  | split (h : A = .mergeAndSplit) (p s : List α) (a b c : α) :
      Step A (p ++ a :: s) (p ++ b :: c :: s)

/-- `Reach A k v w`: `k` operations, one after another, turn `v` into `w`. -/
inductive Reach (A : Algorithm) : Nat → List α → List α → Prop
  | refl (v : List α) : Reach A 0 v v
  | step {k : Nat} {u v w : List α} : Step A u v → Reach A k v w → Reach A (k + 1) u w

/-- `d` is the least number of operations of variant `A` that turn `v` into `w`. -/
def IsMinOps (A : Algorithm) (v w : List α) (d : Nat) : Prop :=
  Reach A d v w ∧ ∀ k, Reach A k v w → d ≤ k

/-- `Align A v w c`: `v` and `w` can be read side by side from left to right, each character taking
part in exactly one of: a free match, or a unit-cost substitution, insertion, deletion, swap
(variant with transpositions), merge or split (variant with merge and split); `c` is the cost.
With swaps this is the "optimal string alignment" restriction: no character is edited twice. -/
inductive Align (A : Algorithm) : List α → List α → Nat → Prop
  | nil : Align A [] [] 0
  | keep {v w c} (a : α) : Align A v w c → Align A (a :: v) (a :: w) c
  | sub {v w c} (a b : α) : Align A v w c → Align A (a :: v) (b :: w) (c + 1)
  | ins {v w c} (b : α) : Align A v w c → Align A v (b :: w) (c + 1)
  | del {v w c} (a : α) : Align A v w c → Align A (a :: v) w (c + 1)
  | swap {v w c} (h : A = .transposition) (a b : α) :
      Align A v w c → Align A (a :: b :: v) (b :: a :: w) (c + 1)
  | merge {v w c} (h : A = .mergeAndSplit) (a b d : α) :
      Align A v w c → Align A (a :: b :: v) (d :: w) (c + 1)
  | split {v w c} (h : A = .mergeAndSplit) (a b d : α) :
      Align A v w c → Align A (a :: v) (b :: d :: w) (c + 1)

/-- `d` is the least cost of an alignment of `v` with `w`. -/
def IsMinCost (A : Algorithm) (v w : List α) (d : Nat) : Prop :=
  Align A v w d ∧ ∀ c, Align A v w c → d ≤ c

/-- `w` can be continued to a string within cost `n` of `q`. -/
def Viable (A : Algorithm) (q : List α) (n : Nat) (w : List α) : Prop := ∃ u c, c ≤ n ∧ Align A q (w ++ u) c

end Spec
end Lev
