import Verif.Model.Hash
import Verif.Spec.Edit

/-!
# Model of the three memoized distances

`/repo/src/liblevenshtein/distance/*.cpp`.  A call to `between` is a program that interacts with the
memo of its object through two atomic operations, `get` and `set`.  The same program is run
sequentially (`Prog.run`) and interleaved with other threads (`Verif/Model/Concurrent.lean`).

Simplification: `std::size_t` is `Nat`; every value computed is at most the length of a string, so
no operation can wrap.
-/

namespace Lev

/-- `SymmetricPair` (`distance/symmetric_pair.h:12-46`). -/
structure SymPair where
  first : Str
  second : Str
deriving DecidableEq, Repr

/-- Constructor `SymmetricPair::SymmetricPair` (`distance/symmetric_pair.cpp:9-17`).
`std::string::compare` orders strings lexicographically by unsigned bytes, a proper prefix first;
that is the order `<` on `List UInt8`. -/
def SymPair.make (u v : Str) : SymPair :=
  if u < v then ⟨u, v⟩ else ⟨v, u⟩

/-- `SymmetricPair::operator==` (`distance/symmetric_pair.cpp:19-21`). -/
def SymPair.eq (p q : SymPair) : Bool := (p.first == q.first) && (p.second == q.second)

/-- `std::hash<SymmetricPair>` (`distance/symmetric_pair.cpp:36-43`). -/
def SymPair.hash (p : SymPair) : UInt64 :=
  murmur64A p.second (murmur64A p.first 0xDEADBEEF)

/-- The member `memo` of `MemoizedDistance`, a `std::unordered_map<SymmetricPair, size_t>`
(`distance/memoized_distance.h:57`), as the sequence of its entries. -/
abbrev Memo := List (SymPair × Nat)

/-- How `std::unordered_map` recognises a key: same hash code and equal by `operator==`. -/
def SymPair.matches (key k : SymPair) : Bool := k.hash == key.hash && SymPair.eq k key

/-- `memo.find(key)` as used by `MemoizedDistance::get` (`distance/memoized_distance.cpp:9-17`). -/
def Memo.get : Memo → SymPair → Option Nat
  | [], _ => none
  | (k, d) :: m, key => if SymPair.matches key k then some d else Memo.get m key

/-- `memo[key] = distance` as used by `MemoizedDistance::set`
(`distance/memoized_distance.cpp:19-24`). -/
def Memo.set : Memo → SymPair → Nat → Memo
  | [], key, d => [(key, d)]
  | (k, e) :: m, key, d =>
      if SymPair.matches key k then (k, d) :: m else (k, e) :: Memo.set m key d

/-- A program that reads and writes the memo.  Each `get`/`set` is one critical section of
`MemoizedDistance::mutex` (`distance/memoized_distance.cpp:10,21`). -/
inductive Prog (R : Type) : Type where
  | ret (r : R) : Prog R
  | get (key : SymPair) (k : Option Nat → Prog R) : Prog R
  | set (key : SymPair) (d : Nat) (k : Prog R) : Prog R

/-- Sequencing: run the first program, hand its result to the second. -/
def Prog.bind {R S : Type} : Prog R → (R → Prog S) → Prog S
  | .ret r, f => f r
  | .get key k, f => .get key fun o => (k o).bind f
  | .set key d k, f => .set key d (k.bind f)

/-- Sequential execution on an object whose memo is `m`. -/
def Prog.run {R : Type} : Prog R → Memo → R × Memo
  | .ret r, m => (r, m)
  | .get key k, m => (k (m.get key)).run m
  | .set key d k, m => k.run (m.set key d)

/-- `return set(key, d)` (`distance/memoized_distance.cpp:19-24`). -/
def setRet (key : SymPair) (d : Nat) : Prog Nat := .set key d (.ret d)

/-- `MemoizedDistance::f` (`distance/memoized_distance.cpp:26-31`). -/
def suffixF (u : Str) (t : Nat) : Str := if t < u.length then u.drop (1 + t) else []

/-- The loop that discards identical characters (`standard_distance.cpp:25-29`,
`transposition_distance.cpp:26-30`, `merge_and_split_distance.cpp:28-36`), started with
`v = a :: s` and `w = b :: t`; the loop keeps `v = a :: s` and `w = b :: t`. -/
def discard : UInt8 → Str → UInt8 → Str → UInt8 × Str × UInt8 × Str
  | a, [], b, t => (a, [], b, t)
  | a, s, b, [] => (a, s, b, [])
  | a, a' :: s, b, b' :: t =>
      if a = b then discard a' s b' t else (a, a' :: s, b, b' :: t)

theorem discard_length (a : UInt8) (s : Str) (b : UInt8) (t : Str) :
    (discard a s b t).2.1.length ≤ s.length ∧ (discard a s b t).2.2.2.length ≤ t.length := by
  induction s generalizing a b t with
  | nil => simp [discard]
  | cons a' s ih =>
    cases t with
    | nil => simp [discard]
    | cons b' t =>
      simp only [discard]
      split
      · have := ih a' b' t; simp only [List.length_cons]; omega
      · simp

/-- `if (distance < min_distance) { min_distance = distance; }` (`standard_distance.cpp:51-53,60-62`;
the same statement in the other two variants). -/
def updMin (m d : Nat) : Nat := if d < m then d else m

/-- `StandardDistance::between` (`distance/standard_distance.cpp:6-65`). -/
def stdBetween (v w : Str) : Prog Nat :=
  let key := SymPair.make v w
  .get key fun
    | some d => .ret d
    | none =>
      match v, w with
      | [], w => setRet key w.length
      | v, [] => setRet key v.length
      | a0 :: s0, b0 :: t0 =>
        let r := discard a0 s0 b0 t0
        let a := r.1; let s := r.2.1; let b := r.2.2.1; let t := r.2.2.2
        let v := a :: s; let w := b :: t
        if a = b then
          if s = [] then setRet key t.length else setRet key s.length
        else
          (stdBetween s w).bind fun d =>
          if 0 = d then setRet key 1 else
          let m := d
          (stdBetween v t).bind fun d =>
          if 0 = d then setRet key 1 else
          let m := updMin m d
          (stdBetween s t).bind fun d =>
          if 0 = d then setRet key 1 else
          let m := updMin m d
          setRet key (1 + m)
termination_by v.length + w.length
decreasing_by
  all_goals
    have := discard_length a0 s0 b0 t0
    simp only [List.length_cons]
    omega

/-- `TranspositionDistance::between` (`distance/transposition_distance.cpp:6-82`). -/
def transBetween (v w : Str) : Prog Nat :=
  let key := SymPair.make v w
  .get key fun
    | some d => .ret d
    | none =>
      match v, w with
      | [], w => setRet key w.length
      | v, [] => setRet key v.length
      | a0 :: s0, b0 :: t0 =>
        let r := discard a0 s0 b0 t0
        let a := r.1; let x := r.2.1; let b := r.2.2.1; let y := r.2.2.2
        let v := a :: x; let w := b :: y
        if a = b then
          if x = [] then setRet key y.length else setRet key x.length
        else
          (transBetween x w).bind fun d =>
          if 0 = d then setRet key 1 else
          let m := d
          (transBetween v y).bind fun d =>
          if 0 = d then setRet key 1 else
          let m := updMin m d
          (transBetween x y).bind fun d =>
          if 0 = d then setRet key 1 else
          let m := updMin m d
          if x ≠ [] ∧ y ≠ [] ∧ some a = y.head? ∧ x.head? = some b then
            (transBetween (suffixF v 1) (suffixF w 1)).bind fun d =>
            if 0 = d then setRet key 1 else
            let m := updMin m d
            setRet key (1 + m)
          else setRet key (1 + m)
termination_by v.length + w.length
decreasing_by
  all_goals
    have := discard_length a0 s0 b0 t0
    try simp only [suffixF]
    repeat' split
    all_goals
      simp only [List.length_cons, List.length_drop, List.length_nil]
      omega

/-- `MergeAndSplitDistance::between` (`distance/merge_and_split_distance.cpp:6-96`). -/
def msBetween (v w : Str) : Prog Nat :=
  let key := SymPair.make v w
  .get key fun
    | some d => .ret d
    | none =>
      match v, w with
      | [], w => setRet key w.length
      | v, [] => setRet key v.length
      | a0 :: s0, b0 :: t0 =>
        let r := discard a0 s0 b0 t0
        let a := r.1; let x := r.2.1; let b := r.2.2.1; let y := r.2.2.2
        let v := a :: x; let w := b :: y
        if a = b then
          if x = [] then setRet key y.length else setRet key x.length
        else
          (msBetween x w).bind fun d =>
          if 0 = d then setRet key 1 else
          let m := d
          (msBetween v y).bind fun d =>
          if 0 = d then setRet key 1 else
          let m := updMin m d
          (msBetween x y).bind fun d =>
          if 0 = d then setRet key 1 else
          let m := updMin m d
          let afterSplit (m : Nat) : Prog Nat :=
            if v.length > 1 then
              (msBetween (suffixF v 1) y).bind fun d =>
              if 0 = d then setRet key 1 else
              let m := updMin m d
              setRet key (1 + m)
            else setRet key (1 + m)
          if w.length > 1 then
            (msBetween x (suffixF w 1)).bind fun d =>
            if 0 = d then setRet key 1 else
            let m := updMin m d
            afterSplit m
          else afterSplit m
termination_by v.length + w.length
decreasing_by
  all_goals
    have := discard_length a0 s0 b0 t0
    try simp only [suffixF]
    repeat' split
    all_goals
      simp only [List.length_cons, List.length_drop]
      omega

/-- Virtual dispatch of `Distance::between` on the concrete class, and `Distance::operator()`, which
forwards to it (`distance/distance.cpp:5-8`). -/
def between : Algorithm → Str → Str → Prog Nat
  | .standard => stdBetween
  | .transposition => transBetween
  | .mergeAndSplit => msBetween

/-- A client that makes the listed calls on one object, one after another, and collects the
results. -/
def callSeq (A : Algorithm) : List (Str × Str) → Prog (List Nat)
  | [] => .ret []
  | (v, w) :: calls =>
      (between A v w).bind fun d => (callSeq A calls).bind fun ds => .ret (d :: ds)

/-- The memo of an object on which the calls `history` have been made since its construction. -/
def memoAfter (A : Algorithm) (history : List (Str × Str)) : Memo := ((callSeq A history).run []).2

/-- What `between(v, w)` returns on an object on which the calls `history` have been made before. -/
def answer (A : Algorithm) (history : List (Str × Str)) (v w : Str) : Nat :=
  ((between A v w).run (memoAfter A history)).1

end Lev
