import Verif.Model.Query

/-!
# Queries with checked arithmetic

The functions of `Verif/Model/Transition.lean` and `Verif/Model/Query.lean` once more, with every addition,
subtraction and multiplication of `std::size_t` values replaced by one that fails with `Err.wrap` when the
mathematical result is not a value of the type.  A run without failure is a run in which nothing wraps around.
The names are those of the unchecked functions with a `C` at the end, and the cited lines are the same.
Operands of `&&` which the code skips are evaluated here all the same, so slightly more is checked than the code
computes.
-/

namespace Lev

/-- `a + b`, failing when it exceeds `SIZE_MAX`. -/
def addC (a b : Nat) : Except Err Nat := if a + b ≤ sizeMax then .ok (a + b) else .error .wrap

/-- `a - b`, failing when it is negative. -/
def subC (a b : Nat) : Except Err Nat := if b ≤ a then .ok (a - b) else .error .wrap

/-- `a * b`, failing when it exceeds `SIZE_MAX`. -/
def mulC (a b : Nat) : Except Err Nat := if a * b ≤ sizeMax then .ok (a * b) else .error .wrap

/-- The loop of `index_of` (`position_transition.cpp:8-12`). -/
def indexOfLoopC (cv : List Bool) (i : Nat) : Nat → Nat → Except Err Nat
  | 0, _ => .ok sizeMax
  | r + 1, j => do
      if ← cvAt cv (← addC i j) then return j
      indexOfLoopC cv i r (← addC j 1)

/-- `index_of` (`position_transition.cpp:6-14`). -/
def indexOfC (cv : List Bool) (k i : Nat) : Except Err Nat := indexOfLoopC cv i k 0

/-- `a` (`position_transition.cpp:28-30`, `:96-98`, `:150-152`). -/
def maxSkipC (n e : Nat) : Except Err Nat := do
  if (← subC n e) < sizeMax then addC (← subC n e) 1 else return sizeMax

/-- `position_transition<STANDARD>` (`position_transition.cpp:16-80`). -/
def posTransStdC (n : Nat) (p : Pos) (cv : List Bool) (offset : Nat) : Except Err (List Pos) := do
  let i := p.index
  let e := p.errors
  let h ← subC i offset
  let w := cv.length
  if e < n then
    if (← addC h 2) ≤ w then
      let a ← maxSkipC n e
      let b ← subC w h
      let k := if a < b then a else b
      let j ← indexOfC cv k h
      if j = 0 then
        return [⟨← addC i 1, e, false⟩]
      if j ≠ sizeMax then
        return [⟨i, ← addC e 1, false⟩, ⟨← addC i 1, ← addC e 1, false⟩,
          ⟨← addC (← addC i j) 1, ← addC e j, false⟩]
      return [⟨i, ← addC e 1, false⟩, ⟨← addC i 1, ← addC e 1, false⟩]
    if (← addC h 1) = w then
      if ← cvAt cv h then
        return [⟨← addC i 1, e, false⟩]
      return [⟨i, ← addC e 1, false⟩, ⟨← addC i 1, ← addC e 1, false⟩]
    return [⟨i, ← addC e 1, false⟩]
  if e = n ∧ (← addC h 1) ≤ w then
    if ← cvAt cv h then
      return [⟨← addC i 1, n, false⟩]
    return []
  return []

/-- `position_transition<TRANSPOSITION>` (`position_transition.cpp:82-228`). -/
def posTransTransC (n : Nat) (p : Pos) (cv : List Bool) (offset : Nat) : Except Err (List Pos) := do
  let i := p.index
  let e := p.errors
  let t := p.special
  let h ← subC i offset
  let w := cv.length
  if e = 0 ∧ 0 < n then
    if (← addC h 2) ≤ w then
      let a ← maxSkipC n e
      let b ← subC w h
      let k := if a < b then a else b
      let j ← indexOfC cv k h
      if j = 0 then return [⟨← addC i 1, 0, false⟩]
      if j = 1 then
        return [⟨i, 1, false⟩, ⟨i, 1, true⟩, ⟨← addC i 1, 1, false⟩, ⟨← addC i 2, 1, false⟩]
      if j = sizeMax then return [⟨i, 1, false⟩, ⟨← addC i 1, 1, false⟩]
      return [⟨i, 1, false⟩, ⟨← addC i 1, 1, false⟩, ⟨← addC (← addC i j) 1, j, false⟩]
    if (← addC h 1) = w then
      if ← cvAt cv h then return [⟨← addC i 1, 0, false⟩]
      return [⟨i, 1, false⟩, ⟨← addC i 1, 1, false⟩]
    return [⟨i, 1, false⟩]
  if 1 ≤ e ∧ e < n then
    if (← addC h 2) ≤ w then
      if !t then
        let a ← maxSkipC n e
        let b ← subC w h
        let k := if a < b then a else b
        let j ← indexOfC cv k h
        if j = 0 then return [⟨← addC i 1, e, false⟩]
        if j = 1 then
          return [⟨i, ← addC e 1, false⟩, ⟨i, ← addC e 1, true⟩, ⟨← addC i 1, ← addC e 1, false⟩,
            ⟨← addC i 2, ← addC e 1, false⟩]
        if j = sizeMax then return [⟨i, ← addC e 1, false⟩, ⟨← addC i 1, ← addC e 1, false⟩]
        return [⟨i, ← addC e 1, false⟩, ⟨← addC i 1, ← addC e 1, false⟩,
          ⟨← addC (← addC i j) 1, ← addC e j, false⟩]
      if ← cvAt cv h then return [⟨← addC i 2, e, false⟩]
      return []
    if (← addC h 1) = w then
      if ← cvAt cv h then return [⟨← addC i 1, e, false⟩]
      return [⟨i, ← addC e 1, false⟩, ⟨← addC i 1, ← addC e 1, false⟩]
    return [⟨i, ← addC e 1, false⟩]
  if (← addC h 1) ≤ w ∧ t = false then
    if ← cvAt cv h then return [⟨← addC i 1, n, false⟩]
    return []
  if (← addC h 2) ≤ w ∧ t = true then
    if ← cvAt cv h then return [⟨← addC i 2, n, false⟩]
    return []
  return []

/-- `position_transition<MERGE_AND_SPLIT>` (`position_transition.cpp:230-342`). -/
def posTransMSC (n : Nat) (p : Pos) (cv : List Bool) (offset : Nat) : Except Err (List Pos) := do
  let i := p.index
  let e := p.errors
  let s := p.special
  let h ← subC i offset
  let w := cv.length
  if e = 0 ∧ 0 < n then
    if (← addC h 2) ≤ w then
      if ← cvAt cv h then return [⟨← addC i 1, e, false⟩]
      return [⟨i, ← addC e 1, false⟩, ⟨i, ← addC e 1, true⟩, ⟨← addC i 1, ← addC e 1, false⟩,
        ⟨← addC i 2, ← addC e 1, false⟩]
    if (← addC h 1) = w then
      if ← cvAt cv h then return [⟨← addC i 1, e, false⟩]
      return [⟨i, ← addC e 1, false⟩, ⟨i, ← addC e 1, true⟩, ⟨← addC i 1, ← addC e 1, false⟩]
    return [⟨i, ← addC e 1, false⟩]
  if e < n then
    if (← addC h 2) ≤ w then
      if !s then
        if ← cvAt cv h then return [⟨← addC i 1, e, false⟩]
        return [⟨i, ← addC e 1, false⟩, ⟨i, ← addC e 1, true⟩, ⟨← addC i 1, ← addC e 1, false⟩,
          ⟨← addC i 2, ← addC e 1, false⟩]
      return [⟨← addC i 1, e, false⟩]
    if (← addC h 1) = w then
      if !s then
        if ← cvAt cv h then return [⟨← addC i 1, e, false⟩]
        return [⟨i, ← addC e 1, false⟩, ⟨i, ← addC e 1, true⟩, ⟨← addC i 1, ← addC e 1, false⟩]
      return [⟨← addC i 1, e, false⟩]
    return [⟨i, ← addC e 1, false⟩]
  if (← addC h 1) ≤ w then
    if !s then
      if ← cvAt cv h then return [⟨← addC i 1, n, false⟩]
      return []
    return [⟨← addC i 1, e, false⟩]
  return []

/-- `position_transition<Type>`. -/
def posTransC : Algorithm → Nat → Pos → List Bool → Nat → Except Err (List Pos)
  | .standard => posTransStdC
  | .transposition => posTransTransC
  | .mergeAndSplit => posTransMSC

/-- `subsumes<Type>` (`subsumes.cpp:5-56`). -/
def subsumesC : Algorithm → Pos → Pos → Nat → Except Err Bool
  | .standard, lhs, rhs, _ => do
      let d ← if lhs.index < rhs.index then subC rhs.index lhs.index else subC lhs.index rhs.index
      return decide (d ≤ (← subC rhs.errors lhs.errors))
  | .transposition, lhs, rhs, n => do
      let i := lhs.index; let e := lhs.errors; let s := lhs.special
      let j := rhs.index; let f := rhs.errors; let t := lhs.special
      if s then
        if t then return i == j else return f == n && i == j
      else if t then
        let d ← if j < i then do subC (← subC i j) 1 else do addC (← subC j i) 1
        return decide (d ≤ (← subC f e))
      else
        let d ← if i < j then subC j i else subC i j
        return decide (d ≤ (← subC f e))
  | .mergeAndSplit, lhs, rhs, _ => do
      let i := lhs.index; let e := lhs.errors; let s := lhs.special
      let j := rhs.index; let f := rhs.errors; let t := lhs.special
      if s && !t then return false
      else
        let d ← if i < j then subC j i else subC i j
        return decide (d ≤ (← subC f e))

/-- The second inner loop of `UnsubsumeFn::operator()` (`unsubsume.cpp:23-34`). -/
def dropC (sub : Pos → Pos → Except Err Bool) (outer : Pos) : List Pos → Except Err (List Pos)
  | [] => .ok []
  | inner :: rest => do
      let b ← sub outer inner
      let r ← dropC sub outer rest
      return if b then r else inner :: r

/-- Both inner loops (`unsubsume.cpp:17-34`). -/
def unsubInnerC (sub : Pos → Pos → Except Err Bool) (outer : Pos) : List Pos → Except Err (List Pos)
  | [] => .ok []
  | inner :: rest =>
      if outer.errors < inner.errors then dropC sub outer (inner :: rest)
      else do return inner :: (← unsubInnerC sub outer rest)

/-- `UnsubsumeFn::operator()` (`unsubsume.cpp:10-38`); the first argument bounds the number of rounds and is
the length of the list at the call. -/
def unsubsumeC (sub : Pos → Pos → Except Err Bool) : Nat → List Pos → Except Err (List Pos)
  | _, [] => .ok []
  | 0, _ :: _ => .error .diverge
  | r + 1, outer :: rest => do return outer :: (← unsubsumeC sub r (← unsubInnerC sub outer rest))

/-- The loop of `StateTransition::operator()` (`state_transition.cpp:24-26`). -/
def transLoopC (A : Algorithm) (n : Nat) (cv : List Bool) (offset : Nat) :
    List Pos → List Pos → Except Err (List Pos)
  | [], acc => .ok acc
  | p :: ps, acc => do
      let new ← posTransC A n p cv offset
      transLoopC A n cv offset ps (mergeAll A acc new)

/-- `StateTransition::operator()` (`state_transition.cpp:17-37`). -/
def stateTransC (A : Algorithm) (n queryLength : Nat) (curr : List Pos) (cv : List Bool) :
    Except Err (Option (List Pos)) :=
  match curr with
  | [] => .error .ub
  | hd :: _ => do
      let next ← transLoopC A n cv hd.index curr []
      let next ← unsubsumeC (fun a b => subsumesC A a b queryLength) next.length next
      match next with
      | [] => return none
      | _ :: _ => return some (mergeSort (comparePos A) next)

/-- The loop of `distance<Type>` (`distance.cpp:9-57`). -/
def stateDistLoopC (A : Algorithm) (queryLength : Nat) : List Pos → Nat → Except Err Nat
  | [], m => .ok m
  | p :: ps, m =>
      if A ≠ .standard ∧ p.special then stateDistLoopC A queryLength ps m
      else do
        let d ← addC (← subC queryLength p.index) p.errors
        stateDistLoopC A queryLength ps (if d < m then d else m)

/-- `distance<Type>` (`distance.cpp:9-57`). -/
def stateDistC (A : Algorithm) (state : List Pos) (queryLength : Nat) : Except Err Nat :=
  stateDistLoopC A queryLength state sizeMax

/-- The loop of `characteristic_vector` (`lazy_query.cpp:123-125`); the counter is an `int` and is checked in
`charVecC`. -/
def cvLoopC (x : UInt8) (term : Str) (i : Nat) : Nat → Nat → Except Err (List Bool)
  | 0, _ => .ok []
  | r + 1, j => do
      let c ← strAt term (← addC i j)
      let rest ← cvLoopC x term i r (j + 1)
      return (x == c) :: rest

/-- `characteristic_vector` (`lazy_query.cpp:118-127`). -/
def charVecC (x : UInt8) (term : Str) (k i : Nat) : Except Err (List Bool) :=
  if k ≤ 2147483647 then cvLoopC x term i k 0 else .error .ub

/-- `_a` (`lazy_query.cpp:14-15`). -/
def windowMaxC (n : Nat) : Except Err Nat := do
  if n < (← subC sizeMax 1) / 2 then addC (← mulC 2 n) 1 else return sizeMax

/-- The backend of checked operations on lists of positions. -/
def checkedBackend (A : Algorithm) (n queryLength : Nat) : Backend Unit (List Pos) where
  headIdx _ l := match l with
    | [] => .error .ub
    | p :: _ => .ok p.index
  trans _ l cv := (stateTransC A n queryLength l cv).map (fun r => ((), r))
  dist _ l len := stateDistC A l len

section
variable {σ S R : Type} (B : Backend σ S) (mem : Mem) (upd : Str → Nat → R)

/-- One iteration of the loop of `advance` (`lazy_query.cpp:36-72`). -/
def queryIterC (m : σ) (Q : Query S R) : Except Err (σ × Query S R × Bool) :=
  match Q.edges with
  | [] =>
    match Q.pending with
    | [] => .error .ub
    | I :: rest => do
        let i ← B.headIdx m I.state
        let b ← subC Q.term.length i
        let k := if Q.a < b then Q.a else b
        let nd ← deref mem I.node
        return (m, { Q with pending := rest, cur := some I, i := i, k := k, edges := nd.edges }, false)
  | (label, target) :: es =>
    match Q.cur with
    | none => .error .ub
    | some I => do
        let cv ← charVecC label Q.term Q.k Q.i
        let (m', next) ← B.trans m I.state cv
        match next with
        | none => return (m', { Q with edges := es }, false)
        | some s =>
          let J := Inter.child label target s I
          let Q' := { Q with edges := es, pending := Q.pending ++ [J], owned := Q.owned ++ [s] }
          let nd ← deref mem target
          if nd.final then
            let d ← B.dist m' s Q.term.length
            if d ≤ Q.maxD then
              return (m', { Q' with cand := upd J.str d, complete := false }, true)
            else return (m', Q', false)
          else return (m', Q', false)

/-- The loop of `advance` (`lazy_query.cpp:36-73`). -/
def queryLoopC : Nat → σ → Query S R → Except Err (σ × Query S R)
  | 0, _, _ => .error .diverge
  | fuel + 1, m, Q => do
      let (m', Q', stop) ← queryIterC B mem upd m Q
      if stop then return (m', Q')
      else if Q'.edges.isEmpty && Q'.pending.isEmpty then return (m', Q')
      else queryLoopC fuel m' Q'

/-- `advance` (`lazy_query.cpp:33-77`). -/
def queryAdvanceC (fuel : Nat) (m : σ) (Q : Query S R) : Except Err (σ × Query S R) :=
  if Q.edges.isEmpty && Q.pending.isEmpty then return (m, { Q with complete := true })
  else queryLoopC B mem upd fuel m { Q with complete := true }

/-- The constructor (`lazy_query.cpp:8-24`). -/
def queryBeginC (fuel : Nat) (dflt : R) (m : σ) (root : Nat) (s0 : S) (term : Str) (n : Nat) :
    Except Err (σ × Query S R) := do
  let nd ← deref mem root
  let a ← windowMaxC n
  let Q : Query S R := { pending := [Inter.root root s0], edges := [], owned := [], complete := false,
                         cur := none, cand := dflt, term := term, maxD := n, a := a, k := 0, i := 0 }
  if nd.final && decide (term.length ≤ n) then
    return (m, { Q with cand := upd [] term.length })
  else queryAdvanceC B mem upd fuel m Q

/-- A range-for over a query. -/
def queryCollectC : Nat → σ → Query S R → Except Err (σ × List R)
  | 0, _, _ => .error .diverge
  | fuel + 1, m, Q =>
      if Q.complete then return (m, [])
      else do
        let (m', Q') ← queryAdvanceC B mem upd fuel m Q
        let (m'', rs) ← queryCollectC fuel m' Q'
        return (m'', Q.cand :: rs)

/-- A whole query. -/
def queryAllC (fuel : Nat) (dflt : R) (m : σ) (root : Nat) (s0 : S) (term : Str) (n : Nat) :
    Except Err (σ × List R) := do
  let (m', Q) ← queryBeginC B mem upd fuel dflt m root s0 term n
  queryCollectC B mem upd fuel m' Q

end

/-- `transduce` with checked arithmetic. -/
def transduceC {R : Type} (A : Algorithm) (upd : Str → Nat → R) (dflt : R) (mem : Mem) (root : Nat) (q : Str)
    (n fuel : Nat) : Except Err (List R) :=
  (queryAllC (checkedBackend A n q.length) mem upd fuel dflt () root initialState q n).map (·.2)

/-- The query runs to its end without undefined behaviour and without any wraparound and yields `rs`. -/
def YieldsChecked {R : Type} (A : Algorithm) (upd : Str → Nat → R) (mem : Mem) (root : Nat) (q : Str) (n : Nat)
    (rs : List R) : Prop :=
  ∃ N, ∀ fuel, N ≤ fuel → ∀ dflt, transduceC A upd dflt mem root q n fuel = .ok rs

end Lev
