import Verif.Model.Basic
import Verif.Model.Hash
import Verif.Spec.Edit

/-!
# Positions and states of the Levenshtein automaton, as lists

Models `/repo/src/liblevenshtein/transducer/{position,position_transition,merge,subsumes,unsubsume,
comparator,state,state_transition,distance}.cpp`.  A `State` is the list of its positions in link
order.  The pointer-level operations on the linked list are modelled separately in
`Verif/Model/StateHeap.lean` and shown there to implement these list functions.
-/

namespace Lev

/-- `Position` without its link (`transducer/position.h:11-79`). -/
structure Pos where
  index : Nat
  errors : Nat
  special : Bool := false
deriving DecidableEq, Repr

/-- `characteristic_vector[h]`: reading a `std::vector<bool>` out of range is undefined. -/
def cvAt (cv : List Bool) (h : Nat) : Except Err Bool :=
  match cv[h]? with
  | some b => .ok b
  | none => .error .ub

/-- The loop of `index_of` (`position_transition.cpp:8-12`) with `r` iterations left and counter `j`. -/
def indexOfLoop (cv : List Bool) (i : Nat) : Nat → Nat → Except Err Nat
  | 0, _ => .ok sizeMax
  | r + 1, j => do
      if ← cvAt cv (wadd i j) then return j
      indexOfLoop cv i r (wadd j 1)

/-- `index_of` (`position_transition.cpp:6-14`). -/
def indexOf (cv : List Bool) (k i : Nat) : Except Err Nat := indexOfLoop cv i k 0

/-- `a = (n - e < SIZE_MAX) ? n - e + 1 : SIZE_MAX` (`position_transition.cpp:28-30`, and the same in
`:96-98` and `:150-152`). -/
def maxSkip (n e : Nat) : Nat := if wsub n e < sizeMax then wadd (wsub n e) 1 else sizeMax

/-- `position_transition<STANDARD>` (`position_transition.cpp:16-80`). -/
def posTransStd (n : Nat) (p : Pos) (cv : List Bool) (offset : Nat) : Except Err (List Pos) := do
  let i := p.index
  let e := p.errors
  let h := wsub i offset
  let w := cv.length
  if e < n then
    if wadd h 2 ≤ w then
      let a := maxSkip n e
      let b := wsub w h
      let k := if a < b then a else b
      let j ← indexOf cv k h
      if j = 0 then
        return [⟨wadd i 1, e, false⟩]
      if j ≠ sizeMax then
        return [⟨i, wadd e 1, false⟩, ⟨wadd i 1, wadd e 1, false⟩, ⟨wadd (wadd i j) 1, wadd e j, false⟩]
      return [⟨i, wadd e 1, false⟩, ⟨wadd i 1, wadd e 1, false⟩]
    if wadd h 1 = w then
      if ← cvAt cv h then
        return [⟨wadd i 1, e, false⟩]
      return [⟨i, wadd e 1, false⟩, ⟨wadd i 1, wadd e 1, false⟩]
    return [⟨i, wadd e 1, false⟩]
  if e = n ∧ wadd h 1 ≤ w then
    if ← cvAt cv h then
      return [⟨wadd i 1, n, false⟩]
    return []
  return []

/-- `position_transition<TRANSPOSITION>` (`position_transition.cpp:82-228`). -/
def posTransTrans (n : Nat) (p : Pos) (cv : List Bool) (offset : Nat) : Except Err (List Pos) := do
  let i := p.index
  let e := p.errors
  let t := p.special
  let h := wsub i offset
  let w := cv.length
  if e = 0 ∧ 0 < n then
    if wadd h 2 ≤ w then
      let a := maxSkip n e
      let b := wsub w h
      let k := if a < b then a else b
      let j ← indexOf cv k h
      if j = 0 then return [⟨wadd i 1, 0, false⟩]
      if j = 1 then
        return [⟨i, 1, false⟩, ⟨i, 1, true⟩, ⟨wadd i 1, 1, false⟩, ⟨wadd i 2, 1, false⟩]
      if j = sizeMax then return [⟨i, 1, false⟩, ⟨wadd i 1, 1, false⟩]
      return [⟨i, 1, false⟩, ⟨wadd i 1, 1, false⟩, ⟨wadd (wadd i j) 1, j, false⟩]
    if wadd h 1 = w then
      if ← cvAt cv h then return [⟨wadd i 1, 0, false⟩]
      return [⟨i, 1, false⟩, ⟨wadd i 1, 1, false⟩]
    return [⟨i, 1, false⟩]
  if 1 ≤ e ∧ e < n then
    if wadd h 2 ≤ w then
      if !t then
        let a := maxSkip n e
        let b := wsub w h
        let k := if a < b then a else b
        let j ← indexOf cv k h
        if j = 0 then return [⟨wadd i 1, e, false⟩]
        if j = 1 then
          return [⟨i, wadd e 1, false⟩, ⟨i, wadd e 1, true⟩, ⟨wadd i 1, wadd e 1, false⟩,
            ⟨wadd i 2, wadd e 1, false⟩]
        if j = sizeMax then return [⟨i, wadd e 1, false⟩, ⟨wadd i 1, wadd e 1, false⟩]
        return [⟨i, wadd e 1, false⟩, ⟨wadd i 1, wadd e 1, false⟩, ⟨wadd (wadd i j) 1, wadd e j, false⟩]
      if ← cvAt cv h then return [⟨wadd i 2, e, false⟩]
      return []
    if wadd h 1 = w then
      if ← cvAt cv h then return [⟨wadd i 1, e, false⟩]
      return [⟨i, wadd e 1, false⟩, ⟨wadd i 1, wadd e 1, false⟩]
    return [⟨i, wadd e 1, false⟩]
  if wadd h 1 ≤ w ∧ t = false then
    if ← cvAt cv h then return [⟨wadd i 1, n, false⟩]
    return []
  if wadd h 2 ≤ w ∧ t = true then
    if ← cvAt cv h then return [⟨wadd i 2, n, false⟩]
    return []
  return []

/-- `position_transition<MERGE_AND_SPLIT>` (`position_transition.cpp:230-342`). -/
def posTransMS (n : Nat) (p : Pos) (cv : List Bool) (offset : Nat) : Except Err (List Pos) := do
  let i := p.index
  let e := p.errors
  let s := p.special
  let h := wsub i offset
  let w := cv.length
  if e = 0 ∧ 0 < n then
    if wadd h 2 ≤ w then
      if ← cvAt cv h then return [⟨wadd i 1, e, false⟩]
      return [⟨i, wadd e 1, false⟩, ⟨i, wadd e 1, true⟩, ⟨wadd i 1, wadd e 1, false⟩,
        ⟨wadd i 2, wadd e 1, false⟩]
    if wadd h 1 = w then
      if ← cvAt cv h then return [⟨wadd i 1, e, false⟩]
      return [⟨i, wadd e 1, false⟩, ⟨i, wadd e 1, true⟩, ⟨wadd i 1, wadd e 1, false⟩]
    return [⟨i, wadd e 1, false⟩]
  if e < n then
    if wadd h 2 ≤ w then
      if !s then
        if ← cvAt cv h then return [⟨wadd i 1, e, false⟩]
        return [⟨i, wadd e 1, false⟩, ⟨i, wadd e 1, true⟩, ⟨wadd i 1, wadd e 1, false⟩,
          ⟨wadd i 2, wadd e 1, false⟩]
      return [⟨wadd i 1, e, false⟩]
    if wadd h 1 = w then
      if !s then
        if ← cvAt cv h then return [⟨wadd i 1, e, false⟩]
        return [⟨i, wadd e 1, false⟩, ⟨i, wadd e 1, true⟩, ⟨wadd i 1, wadd e 1, false⟩]
      return [⟨wadd i 1, e, false⟩]
    return [⟨i, wadd e 1, false⟩]
  if wadd h 1 ≤ w then
    if !s then
      if ← cvAt cv h then return [⟨wadd i 1, n, false⟩]
      return []
    return [⟨wadd i 1, e, false⟩]
  return []

/-- `position_transition<Type>`. -/
def posTrans : Algorithm → Nat → Pos → List Bool → Nat → Except Err (List Pos)
  | .standard => posTransStd
  | .transposition => posTransTrans
  | .mergeAndSplit => posTransMS

/-- The condition under which the search loop of `merge` walks on, past `b`, when inserting `a`
(`merge.cpp:33` for STANDARD, `:77` and `:125` for the others). -/
def mergeWalks : Algorithm → Pos → Pos → Bool
  | .standard, a, b => a.errors < b.errors || (a.errors == b.errors && a.index < b.index)
  | _, a, b => a.errors < b.errors ||
      (a.errors == b.errors && (a.index < b.index || (a.index == b.index && !a.special && b.special)))

/-- The test that the position found is a different one (`merge.cpp:46`, `:94`, `:142`). -/
def mergeDiffers : Algorithm → Pos → Pos → Bool
  | .standard, a, b => b.index != a.index || b.errors != a.errors
  | _, a, b => b.index != a.index || b.errors != a.errors || b.special != a.special

/-- One iteration of the outer loop of `merge<Type>` (`merge.cpp:20-56`, `:62-104`, `:110-152`): walk to the
place of `a`, insert it there unless it is present. -/
def mergeOne (A : Algorithm) (a : Pos) : List Pos → List Pos
  | [] => [a]
  | b :: rest =>
      if mergeWalks A a b then b :: mergeOne A a rest
      else if mergeDiffers A a b then a :: b :: rest
      else b :: rest

/-- `merge<Type>` (`merge.cpp:17-153`). -/
def mergeAll (A : Algorithm) (state : List Pos) (positions : List Pos) : List Pos :=
  positions.foldl (fun st a => mergeOne A a st) state

/-- `subsumes<Type>` (`subsumes.cpp:5-56`), `n` being the third parameter. -/
def subsumes : Algorithm → Pos → Pos → Nat → Bool
  | .standard, lhs, rhs, _ =>
      decide ((if lhs.index < rhs.index then wsub rhs.index lhs.index else wsub lhs.index rhs.index)
        ≤ wsub rhs.errors lhs.errors)
  | .transposition, lhs, rhs, n =>
      let i := lhs.index; let e := lhs.errors; let s := lhs.special
      let j := rhs.index; let f := rhs.errors; let t := lhs.special
      if s then
        if t then i == j else f == n && i == j
      else if t then
        decide ((if j < i then wsub (wsub i j) 1 else wadd (wsub j i) 1) ≤ wsub f e)
      else decide ((if i < j then wsub j i else wsub i j) ≤ wsub f e)
  | .mergeAndSplit, lhs, rhs, _ =>
      let i := lhs.index; let e := lhs.errors; let s := lhs.special
      let j := rhs.index; let f := rhs.errors; let t := lhs.special
      if s && !t then false
      else decide ((if i < j then wsub j i else wsub i j) ≤ wsub f e)

/-- The two inner loops of `UnsubsumeFn::operator()` for one `outer` (`unsubsume.cpp:17-34`): skip up to the
first position with more errors, then drop every position subsumed. -/
def unsubInner (sub : Pos → Pos → Bool) (outer : Pos) : List Pos → List Pos
  | [] => []
  | inner :: rest =>
      if outer.errors < inner.errors then (inner :: rest).filter (fun p => !sub outer p)
      else inner :: unsubInner sub outer rest

theorem unsubInner_length (sub : Pos → Pos → Bool) (outer : Pos) (l : List Pos) :
    (unsubInner sub outer l).length ≤ l.length := by
  induction l with
  | nil => simp [unsubInner]
  | cons a l ih =>
    simp only [unsubInner]
    split
    · exact List.length_filter_le _ _
    · simpa using ih

/-- `UnsubsumeFn::operator()` (`unsubsume.cpp:10-38`) for the subsumption predicate `sub`. -/
def unsubsume (sub : Pos → Pos → Bool) : List Pos → List Pos
  | [] => []
  | outer :: rest => outer :: unsubsume sub (unsubInner sub outer rest)
termination_by l => l.length
decreasing_by
  have := unsubInner_length sub outer rest
  simp only [List.length_cons]; omega

/-- `compare<Type>` (`comparator.cpp:9-72`). -/
def comparePos (A : Algorithm) (lhs rhs : Pos) : Int :=
    if lhs.index < rhs.index then -1
    else if lhs.index > rhs.index then 1
    else if lhs.errors < rhs.errors then -1
    else if lhs.errors > rhs.errors then 1
    else match A with
      | .standard => 0
      | _ => (if lhs.special then 1 else 0) - (if rhs.special then 1 else 0)

/-- `State::merge` (`state.cpp:88-116`): merge of two sorted lists, the lower one first on ties. -/
def mergeSorted {α : Type} (cmp : α → α → Int) : List α → List α → List α
  | [], u => u
  | l, [] => l
  | a :: l, b :: u =>
      if cmp a b < 1 then a :: mergeSorted cmp l (b :: u) else b :: mergeSorted cmp (a :: l) u
termination_by l u => l.length + u.length

/-- `State::merge_sort` (`state.cpp:73-86`).  `find_middle` (`state.cpp:118-128`) stops at the element with
index `(len - 1) / 2`, so the lower part has `(len - 1) / 2 + 1` elements. -/
def mergeSort {α : Type} (cmp : α → α → Int) (l : List α) : List α :=
  if h : l.length < 2 then l
  else
    let m := (l.length - 1) / 2 + 1
    mergeSorted cmp (mergeSort cmp (l.take m)) (mergeSort cmp (l.drop m))
termination_by l.length
decreasing_by
  · simp only [List.length_take]; omega
  · simp only [List.length_drop]; omega

/-- The loop over the positions of `curr_state` in `StateTransition::operator()`
(`state_transition.cpp:24-26`). -/
def transLoop (A : Algorithm) (n : Nat) (cv : List Bool) (offset : Nat) :
    List Pos → List Pos → Except Err (List Pos)
  | [], acc => .ok acc
  | p :: ps, acc => do
      let new ← posTrans A n p cv offset
      transLoop A n cv offset ps (mergeAll A acc new)

/-- `StateTransition::operator()` (`state_transition.cpp:17-37`); `none` is the null state.  The head of
`curr_state` is dereferenced without a check. -/
def stateTrans (A : Algorithm) (n queryLength : Nat) (curr : List Pos) (cv : List Bool) :
    Except Err (Option (List Pos)) :=
  match curr with
  | [] => .error .ub
  | hd :: _ => do
      let next ← transLoop A n cv hd.index curr []
      let next := unsubsume (fun a b => subsumes A a b queryLength) next
      match next with
      | [] => return none
      | _ :: _ => return some (mergeSort (comparePos A) next)

/-- `distance<Type>` (`distance.cpp:9-57`). -/
def stateDist (A : Algorithm) (state : List Pos) (queryLength : Nat) : Nat :=
  state.foldl (fun m p =>
    if A ≠ .standard ∧ p.special then m
    else
      let d := wadd (wsub queryLength p.index) p.errors
      if d < m then d else m) sizeMax

end Lev
