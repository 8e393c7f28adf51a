import Verif.Model.Query

/-!
# Positions and states in memory

Models `/repo/src/liblevenshtein/transducer/{position,state,state_iterator,merge,unsubsume,state_transition,
distance}.cpp` with pointers: positions and states are objects on a heap, a state points to the first of its positions
and each position to the next.

* Positions and states have separate address spaces (the code never confuses the two types); 0 is `nullptr`.
* `paddr m`, `saddr m` are the addresses the allocator hands out for a position or a state when the memory is `m`
  (`SAlloc`); addresses of deleted objects may be handed out again.
* Loops and recursions along a list are given as many steps as there have been allocations, plus two; should that not
  be enough, the outcome is `Err.diverge`.  The theorems show that it is enough.
* What does not touch the heap (`position_transition`, `subsumes`, `compare`) is taken from
  `Verif/Model/Transition.lean`.
-/

namespace Lev

/-- `Position` (`position.h:11-79`). -/
structure PCell where
  pos : Pos
  next : Nat
deriving DecidableEq, Repr

/-- The heap: positions, states (with their `_head`), and the number of allocations so far. -/
structure SMem where
  pos : Nat → Option PCell
  st : Nat → Option Nat
  count : Nat

/-- No more positions or states are alive than there have been allocations. -/
def SMem.Finite (m : SMem) : Prop :=
  (∃ L : List Nat, L.length ≤ m.count ∧ ∀ a c, m.pos a = some c → a ∈ L) ∧
  ∃ L : List Nat, L.length ≤ m.count ∧ ∀ s h, m.st s = some h → s ∈ L

/-- The assumption on the allocator: it hands out an address that is not null and not in use. -/
structure SAlloc (paddr saddr : SMem → Nat) : Prop where
  pos : ∀ m : SMem, m.Finite → paddr m ≠ 0 ∧ m.pos (paddr m) = none
  st : ∀ m : SMem, m.Finite → saddr m ≠ 0 ∧ m.st (saddr m) = none

/-- Assignment to one address. -/
def upd1 {α : Type} (f : Nat → α) (a : Nat) (v : α) : Nat → α := fun x => if x = a then v else f x

/-- Steps granted to a loop along a list. -/
def SMem.steps (m : SMem) : Nat := m.count + 2

/-- Reading a position through a pointer. -/
def getCell (m : SMem) (a : Nat) : Except Err PCell :=
  match m.pos a with
  | some c => .ok c
  | none => .error .ub

/-- `a->next(nx)` (`position.cpp:15-17`). -/
def setNext (a nx : Nat) (m : SMem) : Except Err SMem := do
  let c ← getCell m a
  .ok { m with pos := upd1 m.pos a (some { c with next := nx }) }

/-- `new Position(…)` (`position.cpp:5-9`). -/
def newPos (paddr : SMem → Nat) (p : Pos) (m : SMem) : Nat × SMem :=
  (paddr m, { m with pos := upd1 m.pos (paddr m) (some { pos := p, next := 0 }), count := m.count + 1 })

/-- The memory of a position is given back. -/
def freePos (a : Nat) (m : SMem) : Except Err SMem := do
  let _ ← getCell m a
  .ok { m with pos := upd1 m.pos a none }

/-- `delete a` for a position: the destructor deletes the next one first (`position.cpp:11-13`). -/
def deletePosLoop : Nat → Nat → SMem → Except Err SMem
  | 0, _, _ => .error .diverge
  | fuel + 1, a, m =>
      if a = 0 then .ok m
      else do
        let c ← getCell m a
        let m ← deletePosLoop fuel c.next m
        freePos a m

/-- `delete a` for a position. -/
def deletePos (a : Nat) (m : SMem) : Except Err SMem := deletePosLoop m.steps a m

/-- `state->_head`. -/
def getHead (m : SMem) (s : Nat) : Except Err Nat :=
  match m.st s with
  | some h => .ok h
  | none => .error .ub

/-- `state->_head = h`. -/
def setHead (s h : Nat) (m : SMem) : Except Err SMem := do
  let _ ← getHead m s
  .ok { m with st := upd1 m.st s (some h) }

/-- `new State()` (`state.h:29`). -/
def newState (saddr : SMem → Nat) (m : SMem) : Nat × SMem :=
  (saddr m, { m with st := upd1 m.st (saddr m) (some 0), count := m.count + 1 })

/-- The memory of a state is given back. -/
def freeState (s : Nat) (m : SMem) : Except Err SMem := do
  let _ ← getHead m s
  .ok { m with st := upd1 m.st s none }

/-- `delete state` (`state.cpp:22-24`). -/
def deleteState (s : Nat) (m : SMem) : Except Err SMem :=
  if s = 0 then .ok m
  else do
    let h ← getHead m s
    let m ← deletePos h m
    freeState s m

/-- `State::head(Position *)` (`state.cpp:26-29`). -/
def stateHead (s a : Nat) (m : SMem) : Except Err SMem := do
  let h ← getHead m s
  let m ← setNext a h m
  setHead s a m

/-- The loop of `State::add` (`state.cpp:40-43`). -/
def addLoop (m : SMem) : Nat → Nat → Except Err Nat
  | 0, _ => .error .diverge
  | fuel + 1, curr => do
      let c ← getCell m curr
      if c.next ≠ 0 then addLoop m fuel c.next else .ok curr

/-- `State::add` (`state.cpp:35-46`). -/
def stateAdd (s a : Nat) (m : SMem) : Except Err SMem := do
  let h ← getHead m s
  if h = 0 then setHead s a m
  else do
    let curr ← addLoop m m.steps h
    setNext curr a m

/-- `State::insert_after` (`state.cpp:48-56`). -/
def stateInsertAfter (s curr a : Nat) (m : SMem) : Except Err SMem :=
  if curr ≠ 0 then do
    let c ← getCell m curr
    let m ← setNext a c.next m
    setNext curr a m
  else stateAdd s a m

/-- The loop of the constructors from a list of positions (`state.cpp:6-20`). -/
def fillState (s : Nat) : List Nat → Nat → SMem → Except Err SMem
  | [], _, m => .ok m
  | a :: rest, curr, m => do
      let m ← stateInsertAfter s curr a m
      fillState s rest a m

/-- `new State(positions)` (`state.cpp:6-20`). -/
def newStateOf (saddr : SMem → Nat) (ps : List Nat) (m : SMem) : Except Err (Nat × SMem) := do
  let (s, m) := newState saddr m
  let m ← fillState s ps 0 m
  .ok (s, m)

/-- `State::remove` (`state.cpp:58-71`). -/
def stateRemove (s prev curr : Nat) (m : SMem) : Except Err SMem :=
  if prev ≠ 0 then do
    let p ← getCell m prev
    let c ← getCell m curr
    let m ← setNext prev c.next m
    let m ← setNext p.next 0 m
    deletePos p.next m
  else do
    let h ← getHead m s
    let c ← getCell m h
    let m ← setHead s c.next m
    let m ← setNext h 0 m
    deletePos h m

/-! ### Sorting -/

/-- The loop of `find_middle` (`state.cpp:122-125`). -/
def findMiddleLoop (m : SMem) : Nat → Nat → Nat → Except Err Nat
  | 0, _, _ => .error .diverge
  | fuel + 1, slow, fast => do
      let f ← getCell m fast
      if f.next ≠ 0 then do
        let g ← getCell m f.next
        if g.next ≠ 0 then do
          let c ← getCell m slow
          findMiddleLoop m fuel c.next g.next
        else .ok slow
      else .ok slow

/-- `State::find_middle` (`state.cpp:118-128`). -/
def findMiddle (lower : Nat) (m : SMem) : Except Err Nat := findMiddleLoop m m.steps lower lower

/-- `curr->next(a)` in `State::merge`, where `curr` may be the local `temp` (`none`); also returns `temp.next()`. -/
def linkTemp (curr : Option Nat) (a : Nat) (temp : Nat) (m : SMem) : Except Err (Nat × SMem) :=
  match curr with
  | none => .ok (a, m)
  | some c => do
      let m ← setNext c a m
      .ok (temp, m)

/-- The loop of `State::merge` and the two lines that append what is left (`state.cpp:94-111`); `temp` is the link of the
local `Position temp`. -/
def mergeListsLoop (cmp : Pos → Pos → Int) : Nat → Option Nat → Nat → Nat → Nat → SMem → Except Err (Nat × SMem)
  | 0, _, _, _, _, _ => .error .diverge
  | fuel + 1, curr, temp, lower, upper, m =>
      if lower ≠ 0 ∧ upper ≠ 0 then do
        let l ← getCell m lower
        let u ← getCell m upper
        if cmp l.pos u.pos < 1 then do
          let (temp, m) ← linkTemp curr lower temp m
          let l ← getCell m lower
          mergeListsLoop cmp fuel (some lower) temp l.next upper m
        else do
          let (temp, m) ← linkTemp curr upper temp m
          let u ← getCell m upper
          mergeListsLoop cmp fuel (some upper) temp lower u.next m
      else if upper ≠ 0 then linkTemp curr upper temp m
      else if lower ≠ 0 then linkTemp curr lower temp m
      else .ok (temp, m)

/-- `State::merge` (`state.cpp:88-116`).  At the end `temp`, its link cleared, is destroyed. -/
def mergeLists (cmp : Pos → Pos → Int) (lower upper : Nat) (m : SMem) : Except Err (Nat × SMem) := do
  let (r, m) ← mergeListsLoop cmp m.steps none 0 lower upper m
  let m ← deletePos 0 m
  .ok (r, m)

/-- `State::merge_sort` (`state.cpp:73-86`).  The order in which the two recursive calls, arguments of one call, are
evaluated is unspecified: `first` says which. -/
def mergeSortLoop (first : Bool) (cmp : Pos → Pos → Int) : Nat → Nat → SMem → Except Err (Nat × SMem)
  | 0, _, _ => .error .diverge
  | fuel + 1, lower, m =>
      if lower = 0 then .ok (lower, m)
      else do
        let c ← getCell m lower
        if c.next = 0 then .ok (lower, m)
        else do
          let middle ← findMiddle lower m
          let mid ← getCell m middle
          let upper := mid.next
          let m ← setNext middle 0 m
          if first then do
            let (l, m) ← mergeSortLoop first cmp fuel lower m
            let (u, m) ← mergeSortLoop first cmp fuel upper m
            mergeLists cmp l u m
          else do
            let (u, m) ← mergeSortLoop first cmp fuel upper m
            let (l, m) ← mergeSortLoop first cmp fuel lower m
            mergeLists cmp l u m

/-- `State::sort` (`state.cpp:130-132`). -/
def stateSort (first : Bool) (cmp : Pos → Pos → Int) (s : Nat) (m : SMem) : Except Err SMem := do
  let h ← getHead m s
  let (r, m) ← mergeSortLoop first cmp m.steps h m
  setHead s r m

/-! ### Iterators -/

/-- `StateIterator` (`state_iterator.h:14-92`) without `_outer`, which is passed where it is used. -/
structure SIter where
  state : Nat
  next : Nat
  curr : Nat
  prev : Nat
deriving DecidableEq, Repr

/-- The constructor (`state_iterator.cpp:6-11`). -/
def iterNew (s head : Nat) (m : SMem) : Except Err SIter :=
  if head ≠ 0 then do
    let c ← getCell m head
    .ok { state := s, next := c.next, curr := head, prev := 0 }
  else .ok { state := s, next := 0, curr := 0, prev := 0 }

/-- `State::begin` (`state.cpp:134-136`). -/
def siterBegin (s : Nat) (m : SMem) : Except Err SIter := do
  let h ← getHead m s
  iterNew s h m

/-- Comparison with `State::end()` (`state_iterator.cpp:22-24`, `state.cpp:138-140`). -/
def SIter.atEnd (it : SIter) : Bool := it.curr == 0 && it.next == 0

/-- `operator++` and `advance` (`state_iterator.cpp:13-16`, `:45-55`). -/
def siterAdvance (m : SMem) (it : SIter) : Except Err SIter :=
  let prev := if it.curr ≠ 0 then it.curr else it.prev
  if it.next ≠ 0 then do
    let c ← getCell m it.next
    .ok { state := it.state, next := c.next, curr := it.next, prev := prev }
  else .ok { state := it.state, next := 0, curr := it.next, prev := prev }

/-- `StateIterator::insert` (`state_iterator.cpp:26-33`). -/
def iterInsert (it : SIter) (a : Nat) (m : SMem) : Except Err (SIter × SMem) :=
  if it.curr ≠ 0 then do
    let m ← stateInsertAfter it.state it.curr a m
    .ok ({ it with next := a }, m)
  else do
    let m ← stateHead it.state a m
    .ok ({ it with next := a }, m)

/-- The part of `StateIterator::remove` that concerns the outer iterator (`state_iterator.cpp:37-39`). -/
def skipRemoved (curr : Nat) (m : SMem) : Option SIter → Except Err (Option SIter)
  | none => .ok none
  | some o =>
      if o.next = curr then do
        let c ← getCell m o.next
        .ok (some { o with next := c.next })
      else .ok (some o)

/-- `StateIterator::remove` (`state_iterator.cpp:35-43`). -/
def iterRemove (it : SIter) (outer : Option SIter) (m : SMem) : Except Err (SIter × Option SIter × SMem) :=
  if it.curr ≠ 0 then do
    let outer ← skipRemoved it.curr m outer
    let m ← stateRemove it.state it.prev it.curr m
    .ok ({ it with curr := 0 }, outer, m)
  else .ok (it, outer, m)

/-- `for (Position *p : *state)`: the positions seen, in order. -/
def iterCollect (m : SMem) : Nat → SIter → Except Err (List Nat)
  | 0, _ => .error .diverge
  | fuel + 1, it =>
      if it.atEnd then .ok []
      else do
        let it' ← siterAdvance m it
        let rest ← iterCollect m fuel it'
        .ok (it.curr :: rest)

/-! ### `merge` -/

/-- The free function `insert_after` (`merge.cpp:8-15`). -/
def insertAfter (s curr a : Nat) (m : SMem) : Except Err SMem :=
  if curr = 0 then stateHead s a m else stateInsertAfter s curr a m

/-- The loop that looks for the place of `a` (`merge.cpp:28-41` and the like); also returns `p`. -/
def mergeSearch (A : Algorithm) (a : Pos) (m : SMem) : Nat → SIter → Nat → Except Err (SIter × Nat)
  | 0, _, _ => .error .diverge
  | fuel + 1, it, p =>
      if it.atEnd then .ok (it, p)
      else do
        let b ← getCell m it.curr
        if mergeWalks A a b.pos then do
          let it' ← siterAdvance m it
          mergeSearch A a m fuel it' it.curr
        else .ok (it, p)

/-- The increment of the iterator after the search, only in the second and third version (`merge.cpp:88`, `:136`). -/
def mergeStep (A : Algorithm) (m : SMem) (it : SIter) : Except Err SIter :=
  if A = .standard then .ok it else siterAdvance m it

/-- One iteration of the outer loop of `merge<Type>` (`merge.cpp:20-56`, `:62-104`, `:110-152`). -/
def mergeOneH (A : Algorithm) (s a : Nat) (m : SMem) : Except Err SMem := do
  let c ← getCell m a
  let it ← siterBegin s m
  let (it, p) ← mergeSearch A c.pos m m.steps it 0
  if it.atEnd then insertAfter s p a m
  else do
    let _ ← mergeStep A m it
    let b ← getCell m it.curr
    if mergeDiffers A c.pos b.pos then insertAfter s p a m else deletePos a m

/-- `merge<Type>` (`merge.cpp:17-153`). -/
def mergeAllH (A : Algorithm) (s : Nat) : List Nat → SMem → Except Err SMem
  | [], m => .ok m
  | a :: rest, m => do
      let m ← mergeOneH A s a m
      mergeAllH A s rest m

/-! ### `unsubsume` -/

/-- The first inner loop (`unsubsume.cpp:20-26`). -/
def unsubSkip (errors : Nat) (m : SMem) : Nat → SIter → Except Err SIter
  | 0, _ => .error .diverge
  | fuel + 1, it =>
      if it.atEnd then .ok it
      else do
        let c ← getCell m it.curr
        if errors < c.pos.errors then .ok it
        else do
          let it' ← siterAdvance m it
          unsubSkip errors m fuel it'

/-- The second inner loop (`unsubsume.cpp:28-34`); also returns the outer iterator. -/
def unsubDrop (sub : Pos → Pos → Bool) (outer : Nat) : Nat → SIter → Option SIter → SMem →
    Except Err (Option SIter × SMem)
  | 0, _, _, _ => .error .diverge
  | fuel + 1, it, oi, m =>
      if it.atEnd then .ok (oi, m)
      else do
        let o ← getCell m outer
        let c ← getCell m it.curr
        if sub o.pos c.pos then do
          let (it, oi, m) ← iterRemove it oi m
          let it ← siterAdvance m it
          unsubDrop sub outer fuel it oi m
        else do
          let it ← siterAdvance m it
          unsubDrop sub outer fuel it oi m

/-- The outer loop (`unsubsume.cpp:13-37`). -/
def unsubLoop (sub : Pos → Pos → Bool) (s : Nat) : Nat → SIter → SMem → Except Err SMem
  | 0, _, _ => .error .diverge
  | fuel + 1, oi, m =>
      if oi.atEnd then .ok m
      else do
        let o ← getCell m oi.curr
        let it ← iterNew s oi.curr m
        let it ← siterAdvance m it
        let it ← unsubSkip o.pos.errors m m.steps it
        let (oi', m) ← unsubDrop sub oi.curr m.steps it (some oi) m
        match oi' with
        | none => .error .ub
        | some oi' => do
            let oi'' ← siterAdvance m oi'
            unsubLoop sub s fuel oi'' m

/-- `UnsubsumeFn::operator()` (`unsubsume.cpp:10-38`). -/
def unsubsumeH (sub : Pos → Pos → Bool) (s : Nat) (m : SMem) : Except Err SMem := do
  let it ← siterBegin s m
  unsubLoop sub s m.steps it m

/-! ### `StateTransition` and `distance` -/

/-- The allocations of a `position_transition<Type>`. -/
def newPositions (paddr : SMem → Nat) : List Pos → SMem → List Nat × SMem
  | [], m => ([], m)
  | p :: ps, m =>
      let (a, m) := newPos paddr p m
      let (as, m) := newPositions paddr ps m
      (a :: as, m)

/-- The loop over the positions of `curr_state` (`state_transition.cpp:24-26`). -/
def transLoopH (paddr : SMem → Nat) (A : Algorithm) (n : Nat) (cv : List Bool) (offset next : Nat) :
    Nat → SIter → SMem → Except Err SMem
  | 0, _, _ => .error .diverge
  | fuel + 1, it, m =>
      if it.atEnd then .ok m
      else do
        let c ← getCell m it.curr
        let ps ← posTrans A n c.pos cv offset
        let (as, m) := newPositions paddr ps m
        let m ← mergeAllH A next as m
        let it ← siterAdvance m it
        transLoopH paddr A n cv offset next fuel it m

/-- `StateTransition::operator()` (`state_transition.cpp:17-37`); `none` is `nullptr`. -/
def stateTransH (paddr saddr : SMem → Nat) (first : Bool) (A : Algorithm) (n queryLength : Nat) (s : Nat)
    (cv : List Bool) (m : SMem) : Except Err (SMem × Option Nat) := do
  let h ← getHead m s
  let hd ← getCell m h
  let (next, m) := newState saddr m
  let it ← siterBegin s m
  let m ← transLoopH paddr A n cv hd.pos.index next m.steps it m
  let m ← unsubsumeH (fun a b => subsumes A a b queryLength) next m
  let h ← getHead m next
  if h ≠ 0 then do
    let m ← stateSort first (comparePos A) next m
    .ok (m, some next)
  else do
    let m ← deleteState next m
    .ok (m, none)

/-- The loop of `distance<Type>` (`distance.cpp:13-20` and the like). -/
def distLoopH (A : Algorithm) (queryLength : Nat) (m : SMem) : Nat → SIter → Nat → Except Err Nat
  | 0, _, _ => .error .diverge
  | fuel + 1, it, d =>
      if it.atEnd then .ok d
      else do
        let c ← getCell m it.curr
        let d := if A ≠ .standard ∧ c.pos.special then d
          else
            let x := wadd (wsub queryLength c.pos.index) c.pos.errors
            if x < d then x else d
        let it ← siterAdvance m it
        distLoopH A queryLength m fuel it d

/-- `distance<Type>` (`distance.cpp:9-57`). -/
def stateDistH (A : Algorithm) (s queryLength : Nat) (m : SMem) : Except Err Nat := do
  let it ← siterBegin s m
  distLoopH A queryLength m m.steps it sizeMax

/-- The backend of queries in which states are objects in memory. -/
def heapBackend (paddr saddr : SMem → Nat) (first : Bool) (A : Algorithm) (n queryLength : Nat) : Backend SMem Nat where
  headIdx m s := do
    let h ← getHead m s
    let c ← getCell m h
    .ok c.pos.index
  trans m s cv := stateTransH paddr saddr first A n queryLength s cv m
  dist m s len := stateDistH A s len m

/-! ### Ownership -/

/-- `~LazyQuery` (`lazy_query.cpp:26-30`, `intersection.cpp:13-15`): each intersection of the query is deleted, and
with it its state (the intersection objects themselves are not in this memory). -/
def destroyQuery : List Nat → SMem → Except Err SMem
  | [], m => .ok m
  | s :: rest, m => do
      let m ← deleteState s m
      destroyQuery rest m

/-- The constructor of `Transducer` (`transducer.cpp:13-18`): the initial state. -/
def newTransducer (paddr saddr : SMem → Nat) (m : SMem) : Except Err (Nat × SMem) := do
  let (a, m) := newPos paddr ⟨0, 0, false⟩ m
  newStateOf saddr [a] m

end Lev
