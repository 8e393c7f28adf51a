import Verif.Model.Distance

/-!
# The recursive calls of `between`

The functions of `Verif/Model/Distance.lean` once more, with the recursive calls marked, so that it can be said how many calls
are on the stack at the same time.  Forgetting the marks gives the functions there (`Verif/Proofs/DistDepth.lean`).
-/

namespace Lev

/-- A program that reads and writes the memo and calls `between`. -/
inductive CProg : Type where
  | ret (r : Nat) : CProg
  | get (key : SymPair) (k : Option Nat → CProg) : CProg
  | set (key : SymPair) (d : Nat) (k : CProg) : CProg
  | call (p : CProg) (k : Nat → CProg) : CProg

/-- The same program, without the marks. -/
def CProg.flat : CProg → Prog Nat
  | .ret r => .ret r
  | .get key k => .get key fun o => (k o).flat
  | .set key d k => .set key d k.flat
  | .call p k => p.flat.bind fun d => (k d).flat

/-- The calls that are on the stack at the same time, at most, when the program runs on the memo `m`; the program itself is
one. -/
def CProg.depth : CProg → Memo → Nat
  | .ret _, _ => 1
  | .get key k, m => (k (m.get key)).depth m
  | .set key d k, m => k.depth (m.set key d)
  | .call p k, m => max (1 + p.depth m) ((k (p.flat.run m).1).depth (p.flat.run m).2)

/-- `return set(key, d)` (`distance/memoized_distance.cpp:19-24`). -/
def setRetC (key : SymPair) (d : Nat) : CProg := .set key d (.ret d)

/-- `StandardDistance::between` (`distance/standard_distance.cpp:6-65`). -/
def stdBetweenC (v w : Str) : CProg :=
  let key := SymPair.make v w
  .get key fun
    | some d => .ret d
    | none =>
      match v, w with
      | [], w => setRetC key w.length
      | v, [] => setRetC key v.length
      | a0 :: s0, b0 :: t0 =>
        let r := discard a0 s0 b0 t0
        let a := r.1; let s := r.2.1; let b := r.2.2.1; let t := r.2.2.2
        let v := a :: s; let w := b :: t
        if a = b then
          if s = [] then setRetC key t.length else setRetC key s.length
        else
          .call (stdBetweenC s w) fun d =>
          if 0 = d then setRetC key 1 else
          let m := d
          .call (stdBetweenC v t) fun d =>
          if 0 = d then setRetC key 1 else
          let m := updMin m d
          .call (stdBetweenC s t) fun d =>
          if 0 = d then setRetC key 1 else
          let m := updMin m d
          setRetC key (1 + m)
termination_by v.length + w.length
decreasing_by
  all_goals
    have := discard_length a0 s0 b0 t0
    simp only [List.length_cons]
    omega

/-- `TranspositionDistance::between` (`distance/transposition_distance.cpp:6-82`). -/
def transBetweenC (v w : Str) : CProg :=
  let key := SymPair.make v w
  .get key fun
    | some d => .ret d
    | none =>
      match v, w with
      | [], w => setRetC key w.length
      | v, [] => setRetC key v.length
      | a0 :: s0, b0 :: t0 =>
        let r := discard a0 s0 b0 t0
        let a := r.1; let x := r.2.1; let b := r.2.2.1; let y := r.2.2.2
        let v := a :: x; let w := b :: y
        if a = b then
          if x = [] then setRetC key y.length else setRetC key x.length
        else
          .call (transBetweenC x w) fun d =>
          if 0 = d then setRetC key 1 else
          let m := d
          .call (transBetweenC v y) fun d =>
          if 0 = d then setRetC key 1 else
          let m := updMin m d
          .call (transBetweenC x y) fun d =>
          if 0 = d then setRetC key 1 else
          let m := updMin m d
          if x ≠ [] ∧ y ≠ [] ∧ some a = y.head? ∧ x.head? = some b then
            .call (transBetweenC (suffixF v 1) (suffixF w 1)) fun d =>
            if 0 = d then setRetC key 1 else
            let m := updMin m d
            setRetC key (1 + m)
          else setRetC key (1 + m)
termination_by v.length + w.length
decreasing_by
  all_goals
    have := discard_length a0 s0 b0 t0
    try simp only [suffixF]
    repeat' split
    all_goals
      simp only [List.length_cons, List.length_drop, List.length_nil]
      omega

/-- `MergeAndSplitDistance::between` (`distance/merge_and_split_distance.cpp:6-96`). -/
def msBetweenC (v w : Str) : CProg :=
  let key := SymPair.make v w
  .get key fun
    | some d => .ret d
    | none =>
      match v, w with
      | [], w => setRetC key w.length
      | v, [] => setRetC key v.length
      | a0 :: s0, b0 :: t0 =>
        let r := discard a0 s0 b0 t0
        let a := r.1; let x := r.2.1; let b := r.2.2.1; let y := r.2.2.2
        let v := a :: x; let w := b :: y
        if a = b then
          if x = [] then setRetC key y.length else setRetC key x.length
        else
          .call (msBetweenC x w) fun d =>
          if 0 = d then setRetC key 1 else
          let m := d
          .call (msBetweenC v y) fun d =>
          if 0 = d then setRetC key 1 else
          let m := updMin m d
          .call (msBetweenC x y) fun d =>
          if 0 = d then setRetC key 1 else
          let m := updMin m d
          let afterSplit (m : Nat) : CProg :=
            if v.length > 1 then
              .call (msBetweenC (suffixF v 1) y) fun d =>
              if 0 = d then setRetC key 1 else
              let m := updMin m d
              setRetC key (1 + m)
            else setRetC key (1 + m)
          if w.length > 1 then
            .call (msBetweenC x (suffixF w 1)) fun d =>
            if 0 = d then setRetC key 1 else
            let m := updMin m d
            afterSplit m
          else afterSplit m
termination_by v.length + w.length
decreasing_by
  all_goals
    have := discard_length a0 s0 b0 t0
    try simp only [suffixF]
    repeat' split
    all_goals
      simp only [List.length_cons, List.length_drop]
      omega

/-- Virtual dispatch of `Distance::between` on the concrete class. -/
def betweenC : Algorithm → Str → Str → CProg
  | .standard => stdBetweenC
  | .transposition => transBetweenC
  | .mergeAndSplit => msBetweenC

end Lev
