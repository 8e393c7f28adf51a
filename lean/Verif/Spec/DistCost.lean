import Verif.Model.Distance

/-!
# Counting the accesses to the memo

How often a call to `between` enters the two critical sections of `MemoizedDistance`
(`/repo/src/liblevenshtein/distance/memoized_distance.cpp:9-24`).  Every recursive call of `between` begins with one `get`,
so the number of `get` is also the number of calls.
-/

namespace Lev

/-- How many times `get` is called when the program runs on the memo `m`. -/
def Prog.gets {R : Type} : Prog R → Memo → Nat
  | .ret _, _ => 0
  | .get key k, m => 1 + (k (m.get key)).gets m
  | .set key d k, m => k.gets (m.set key d)

/-- How many times `set` is called when the program runs on the memo `m`. -/
def Prog.sets {R : Type} : Prog R → Memo → Nat
  | .ret _, _ => 0
  | .get key k, m => (k (m.get key)).sets m
  | .set key d k, m => 1 + k.sets (m.set key d)

namespace Spec

/-- How many calls of itself a call of `between` makes at most. -/
def branches : Algorithm → Nat
  | .standard => 3
  | .transposition => 4
  | .mergeAndSplit => 5

end Spec

end Lev
