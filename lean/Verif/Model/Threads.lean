import Verif.Model.Lifetime

/-!
# Queries in several threads

The functions of `Verif/Model/StateHeap.lean` and `Verif/Model/Lifetime.lean` once more, as programs of single accesses to
memory: reading or writing one object, allocating, giving memory back.  Threads run such programs on one memory, and any
thread can be interrupted by any other between two accesses.  That the programs, run alone, do what the functions do is
proved (`Verif/Proofs/ThreadsRun.lean`).

* An access concerns one object as a whole.  Reading several members of an object one after the other is one access here or
  several; no difference can be seen as long as there is no race on the object.
* `operator new` and `delete` are thread-safe; the allocator hands out any address that is not in use, also one that another
  thread has given back.
* Everything else (`LazyQuery` with its queues and strings, iterators, local variables) belongs to one thread.
* Nodes of the dictionary are only read (`Dawg` is not changed after its construction, `dawg.h`).
-/

namespace Lev

/-- The memory of positions, states and intersections. -/
structure LMem where
  sm : SMem
  im : IMem Nat

/-- One access to memory. -/
inductive Access where
  /-- reading a position -/
  | readPos (a : Nat)
  /-- `a->next(nx)` -/
  | writeNext (a nx : Nat)
  /-- `new Position(…)` -/
  | newPos (p : Pos)
  /-- the memory of a position is given back -/
  | freePos (a : Nat)
  /-- reading the head of a state -/
  | readHead (s : Nat)
  /-- writing the head of a state -/
  | writeHead (s h : Nat)
  /-- `new State()` -/
  | newState
  /-- the memory of a state is given back -/
  | freeState (s : Nat)
  /-- reading an intersection -/
  | readInter (a : Nat)
  /-- `new Intersection(…)` -/
  | newInter (c : ICell Nat)
  /-- the memory of an intersection is given back -/
  | freeInter (a : Nat)
  /-- reading a node -/
  | readNode (a : Nat)
  /-- the number of steps granted to a loop over positions: not an access, but a local variable of the model -/
  | steps
  /-- the same for the recursion over intersections -/
  | isteps
deriving DecidableEq, Repr

/-- What an access returns. -/
def Access.Res : Access → Type
  | .readPos _ => PCell
  | .newPos _ | .readHead _ | .newState | .newInter _ | .steps | .isteps => Nat
  | .readInter _ => ICell Nat
  | .readNode _ => DNode
  | .writeNext .. | .freePos _ | .writeHead .. | .freeState _ | .freeInter _ => Unit

/-- A place in memory that can change. -/
inductive Loc where
  | pos (a : Nat)
  | st (s : Nat)
  | inter (a : Nat)
deriving DecidableEq, Repr

/-- What is in a place. -/
inductive Val where
  | pos (c : PCell)
  | st (h : Nat)
  | inter (c : ICell Nat)
deriving DecidableEq, Repr

/-- The contents of a place; `none`: there is no object. -/
def LMem.at (l : LMem) : Loc → Option Val
  | .pos a => (l.sm.pos a).map .pos
  | .st s => (l.sm.st s).map .st
  | .inter a => (l.im.cell a).map .inter

/-- The place an access concerns; `new` is the address that the allocator hands out. -/
def Access.loc (new : Nat) : Access → Option Loc
  | .readPos a | .writeNext a _ | .freePos a => some (.pos a)
  | .newPos _ => some (.pos new)
  | .readHead s | .writeHead s _ | .freeState s => some (.st s)
  | .newState => some (.st new)
  | .readInter a | .freeInter a => some (.inter a)
  | .newInter _ => some (.inter new)
  | .readNode _ | .steps | .isteps => none

/-- The access is an allocation. -/
def Access.isNew : Access → Bool
  | .newPos _ | .newState | .newInter _ => true
  | _ => false

/-- The place an access to an existing object concerns. -/
def Access.touches (x : Access) : Option Loc := if x.isNew then none else x.loc 0

/-- The access changes an existing object, or gives its memory back. -/
def Access.writes : Access → Bool
  | .writeNext .. | .freePos _ | .writeHead .. | .freeState _ | .freeInter _ => true
  | _ => false

/-- The allocator may hand out `new`. -/
def Access.Fresh (x : Access) (new : Nat) (l : LMem) : Prop :=
  x.isNew = true → new ≠ 0 ∧ ∀ p, x.loc new = some p → l.at p = none

/-- The effect of an access. -/
def Access.perform (mem : Mem) (new : Nat) (l : LMem) : (x : Access) → Except Err (x.Res × LMem)
  | .readPos a => do
      let c ← getCell l.sm a
      .ok (c, l)
  | .writeNext a nx => do
      let m ← setNext a nx l.sm
      .ok ((), { l with sm := m })
  | .newPos p => .ok (new, { l with sm := (Lev.newPos (fun _ => new) p l.sm).2 })
  | .freePos a => do
      let m ← Lev.freePos a l.sm
      .ok ((), { l with sm := m })
  | .readHead s => do
      let h ← getHead l.sm s
      .ok (h, l)
  | .writeHead s h => do
      let m ← setHead s h l.sm
      .ok ((), { l with sm := m })
  | .newState => .ok (new, { l with sm := (Lev.newState (fun _ => new) l.sm).2 })
  | .freeState s => do
      let m ← Lev.freeState s l.sm
      .ok ((), { l with sm := m })
  | .readInter a => do
      let c ← getInter l.im a
      .ok (c, l)
  | .newInter c => .ok (new, { l with im := (Lev.newInter (fun _ => new) c l.im).2 })
  | .freeInter a => do
      let _ ← getInter l.im a
      .ok ((), { l with im := { l.im with cell := upd1 l.im.cell a none } })
  | .readNode a => do
      let nd ← deref mem a
      .ok (nd, l)
  | .steps => .ok (l.sm.steps, l)
  | .isteps => .ok (l.im.steps, l)

/-- A program of accesses. -/
inductive HProg (α : Type) where
  | ret (x : α)
  | fail (e : Err)
  | act (x : Access) (k : x.Res → HProg α)

/-- One program after the other. -/
def HProg.bind {α β : Type} : HProg α → (α → HProg β) → HProg β
  | .ret x, f => f x
  | .fail e, _ => .fail e
  | .act x k, f => .act x fun r => (k r).bind f

instance : Monad HProg where
  pure := .ret
  bind := .bind

/-- A single access. -/
def HProg.access (x : Access) : HProg x.Res := .act x .ret

/-- A computation without accesses. -/
def HProg.lift {α : Type} : Except Err α → HProg α
  | .ok x => .ret x
  | .error e => .fail e

/-- The address that the allocators hand out. -/
def Access.address (paddr saddr : SMem → Nat) (iaddr : IMem Nat → Nat) (l : LMem) : Access → Nat
  | .newPos _ => paddr l.sm
  | .newState => saddr l.sm
  | .newInter _ => iaddr l.im
  | _ => 0

/-- The program run alone, with the given allocators. -/
def HProg.run {α : Type} (mem : Mem) (paddr saddr : SMem → Nat) (iaddr : IMem Nat → Nat) : HProg α → LMem → Except Err (α × LMem)
  | .ret x, l => .ok (x, l)
  | .fail e, _ => .error e
  | .act x k, l =>
      match x.perform mem (x.address paddr saddr iaddr l) l with
      | .ok (r, l') => (k r).run mem paddr saddr iaddr l'
      | .error e => .error e

/-! ### The functions as programs

Each has the name of the function of `Verif/Model/StateHeap.lean` or `Verif/Model/Lifetime.lean` whose text it repeats; the
citations are there. -/

namespace Thr

open HProg

def getCell (a : Nat) : HProg PCell := access (.readPos a)
def setNext (a nx : Nat) : HProg Unit := access (.writeNext a nx)
def newPos (p : Pos) : HProg Nat := access (.newPos p)
def freePos (a : Nat) : HProg Unit := access (.freePos a)
def getHead (s : Nat) : HProg Nat := access (.readHead s)
def setHead (s h : Nat) : HProg Unit := access (.writeHead s h)
def newState : HProg Nat := access .newState
def freeState (s : Nat) : HProg Unit := access (.freeState s)
def getInter (a : Nat) : HProg (ICell Nat) := access (.readInter a)
def newInter (c : ICell Nat) : HProg Nat := access (.newInter c)
def freeInter (a : Nat) : HProg Unit := access (.freeInter a)
def deref (a : Nat) : HProg DNode := access (.readNode a)
def steps : HProg Nat := access .steps
def isteps : HProg Nat := access .isteps

/-- `position.cpp:11-13` -/
def deletePosLoop : Nat → Nat → HProg Unit
  | 0, _ => fail .diverge
  | fuel + 1, a =>
      if a = 0 then ret ()
      else do
        let c ← getCell a
        deletePosLoop fuel c.next
        freePos a

/-- `position.cpp:11-13` -/
def deletePos (a : Nat) : HProg Unit := do
  let n ← steps
  deletePosLoop n a

/-- `state.cpp:22-24` -/
def deleteState (s : Nat) : HProg Unit :=
  if s = 0 then ret ()
  else do
    let h ← getHead s
    deletePos h
    freeState s

/-- `state.cpp:26-29` -/
def stateHead (s a : Nat) : HProg Unit := do
  let h ← getHead s
  setNext a h
  setHead s a

/-- `state.cpp:40-43` -/
def addLoop : Nat → Nat → HProg Nat
  | 0, _ => fail .diverge
  | fuel + 1, curr => do
      let c ← getCell curr
      if c.next ≠ 0 then addLoop fuel c.next else ret curr

/-- `state.cpp:35-46` -/
def stateAdd (s a : Nat) : HProg Unit := do
  let h ← getHead s
  if h = 0 then setHead s a
  else do
    let n ← steps
    let curr ← addLoop n h
    setNext curr a

/-- `state.cpp:48-56` -/
def stateInsertAfter (s curr a : Nat) : HProg Unit :=
  if curr ≠ 0 then do
    let c ← getCell curr
    setNext a c.next
    setNext curr a
  else stateAdd s a

/-- `state.cpp:6-20` -/
def fillState (s : Nat) : List Nat → Nat → HProg Unit
  | [], _ => ret ()
  | a :: rest, curr => do
      stateInsertAfter s curr a
      fillState s rest a

/-- `state.cpp:6-20` -/
def newStateOf (ps : List Nat) : HProg Nat := do
  let s ← newState
  fillState s ps 0
  ret s

/-- `state.cpp:58-71` -/
def stateRemove (s prev curr : Nat) : HProg Unit :=
  if prev ≠ 0 then do
    let p ← getCell prev
    let c ← getCell curr
    setNext prev c.next
    setNext p.next 0
    deletePos p.next
  else do
    let h ← getHead s
    let c ← getCell h
    setHead s c.next
    setNext h 0
    deletePos h

/-- `state.cpp:122-125` -/
def findMiddleLoop : Nat → Nat → Nat → HProg Nat
  | 0, _, _ => fail .diverge
  | fuel + 1, slow, fast => do
      let f ← getCell fast
      if f.next ≠ 0 then do
        let g ← getCell f.next
        if g.next ≠ 0 then do
          let c ← getCell slow
          findMiddleLoop fuel c.next g.next
        else ret slow
      else ret slow

/-- `state.cpp:118-128` -/
def findMiddle (lower : Nat) : HProg Nat := do
  let n ← steps
  findMiddleLoop n lower lower

/-- `state.cpp:94-111` -/
def linkTemp (curr : Option Nat) (a temp : Nat) : HProg Nat :=
  match curr with
  | none => ret a
  | some c => do
      setNext c a
      ret temp

/-- `state.cpp:94-111` -/
def mergeListsLoop (cmp : Pos → Pos → Int) : Nat → Option Nat → Nat → Nat → Nat → HProg Nat
  | 0, _, _, _, _ => fail .diverge
  | fuel + 1, curr, temp, lower, upper =>
      if lower ≠ 0 ∧ upper ≠ 0 then do
        let l ← getCell lower
        let u ← getCell upper
        if cmp l.pos u.pos < 1 then do
          let temp ← linkTemp curr lower temp
          let l ← getCell lower
          mergeListsLoop cmp fuel (some lower) temp l.next upper
        else do
          let temp ← linkTemp curr upper temp
          let u ← getCell upper
          mergeListsLoop cmp fuel (some upper) temp lower u.next
      else if upper ≠ 0 then linkTemp curr upper temp
      else if lower ≠ 0 then linkTemp curr lower temp
      else ret temp

/-- `state.cpp:88-116` -/
def mergeLists (cmp : Pos → Pos → Int) (lower upper : Nat) : HProg Nat := do
  let n ← steps
  let r ← mergeListsLoop cmp n none 0 lower upper
  deletePos 0
  ret r

/-- `state.cpp:73-86` -/
def mergeSortLoop (first : Bool) (cmp : Pos → Pos → Int) : Nat → Nat → HProg Nat
  | 0, _ => fail .diverge
  | fuel + 1, lower =>
      if lower = 0 then ret lower
      else do
        let c ← getCell lower
        if c.next = 0 then ret lower
        else do
          let middle ← findMiddle lower
          let mid ← getCell middle
          setNext middle 0
          if first then do
            let l ← mergeSortLoop first cmp fuel lower
            let u ← mergeSortLoop first cmp fuel mid.next
            mergeLists cmp l u
          else do
            let u ← mergeSortLoop first cmp fuel mid.next
            let l ← mergeSortLoop first cmp fuel lower
            mergeLists cmp l u

/-- `state.cpp:130-132` -/
def stateSort (first : Bool) (cmp : Pos → Pos → Int) (s : Nat) : HProg Unit := do
  let h ← getHead s
  let n ← steps
  let r ← mergeSortLoop first cmp n h
  setHead s r

/-- `state_iterator.cpp:6-11` -/
def iterNew (s head : Nat) : HProg SIter :=
  if head ≠ 0 then do
    let c ← getCell head
    ret { state := s, next := c.next, curr := head, prev := 0 }
  else ret { state := s, next := 0, curr := 0, prev := 0 }

/-- `state.cpp:134-136` -/
def siterBegin (s : Nat) : HProg SIter := do
  let h ← getHead s
  iterNew s h

/-- `state_iterator.cpp:13-16`, `:45-55` -/
def siterAdvance (it : SIter) : HProg SIter :=
  let prev := if it.curr ≠ 0 then it.curr else it.prev
  if it.next ≠ 0 then do
    let c ← getCell it.next
    ret { state := it.state, next := c.next, curr := it.next, prev := prev }
  else ret { state := it.state, next := 0, curr := it.next, prev := prev }

/-- `state_iterator.cpp:37-39` -/
def skipRemoved (curr : Nat) : Option SIter → HProg (Option SIter)
  | none => ret none
  | some o =>
      if o.next = curr then do
        let c ← getCell o.next
        ret (some { o with next := c.next })
      else ret (some o)

/-- `state_iterator.cpp:35-43` -/
def iterRemove (it : SIter) (outer : Option SIter) : HProg (SIter × Option SIter) :=
  if it.curr ≠ 0 then do
    let outer ← skipRemoved it.curr outer
    stateRemove it.state it.prev it.curr
    ret ({ it with curr := 0 }, outer)
  else ret (it, outer)

/-- `merge.cpp:8-15` -/
def insertAfter (s curr a : Nat) : HProg Unit :=
  if curr = 0 then stateHead s a else stateInsertAfter s curr a

/-- `merge.cpp:28-41` -/
def mergeSearch (A : Algorithm) (a : Pos) : Nat → SIter → Nat → HProg (SIter × Nat)
  | 0, _, _ => fail .diverge
  | fuel + 1, it, p =>
      if it.atEnd then ret (it, p)
      else do
        let b ← getCell it.curr
        if mergeWalks A a b.pos then do
          let it' ← siterAdvance it
          mergeSearch A a fuel it' it.curr
        else ret (it, p)

/-- `merge.cpp:88`, `:136` -/
def mergeStep (A : Algorithm) (it : SIter) : HProg SIter :=
  if A = .standard then ret it else siterAdvance it

/-- `merge.cpp:20-56` -/
def mergeOneH (A : Algorithm) (s a : Nat) : HProg Unit := do
  let c ← getCell a
  let it ← siterBegin s
  let n ← steps
  let (it, p) ← mergeSearch A c.pos n it 0
  if it.atEnd then insertAfter s p a
  else do
    let _ ← mergeStep A it
    let b ← getCell it.curr
    if mergeDiffers A c.pos b.pos then insertAfter s p a else deletePos a

/-- `merge.cpp:17-153` -/
def mergeAllH (A : Algorithm) (s : Nat) : List Nat → HProg Unit
  | [] => ret ()
  | a :: rest => do
      mergeOneH A s a
      mergeAllH A s rest

/-- `unsubsume.cpp:20-26` -/
def unsubSkip (errors : Nat) : Nat → SIter → HProg SIter
  | 0, _ => fail .diverge
  | fuel + 1, it =>
      if it.atEnd then ret it
      else do
        let c ← getCell it.curr
        if errors < c.pos.errors then ret it
        else do
          let it' ← siterAdvance it
          unsubSkip errors fuel it'

/-- `unsubsume.cpp:28-34` -/
def unsubDrop (sub : Pos → Pos → Bool) (outer : Nat) : Nat → SIter → Option SIter → HProg (Option SIter)
  | 0, _, _ => fail .diverge
  | fuel + 1, it, oi =>
      if it.atEnd then ret oi
      else do
        let o ← getCell outer
        let c ← getCell it.curr
        if sub o.pos c.pos then do
          let (it, oi) ← iterRemove it oi
          let it ← siterAdvance it
          unsubDrop sub outer fuel it oi
        else do
          let it ← siterAdvance it
          unsubDrop sub outer fuel it oi

/-- `unsubsume.cpp:13-37` -/
def unsubLoop (sub : Pos → Pos → Bool) (s : Nat) : Nat → SIter → HProg Unit
  | 0, _ => fail .diverge
  | fuel + 1, oi =>
      if oi.atEnd then ret ()
      else do
        let o ← getCell oi.curr
        let it ← iterNew s oi.curr
        let it ← siterAdvance it
        let n ← steps
        let it ← unsubSkip o.pos.errors n it
        let n ← steps
        let oi' ← unsubDrop sub oi.curr n it (some oi)
        match oi' with
        | none => fail .ub
        | some oi' => do
            let oi'' ← siterAdvance oi'
            unsubLoop sub s fuel oi''

/-- `unsubsume.cpp:10-38` -/
def unsubsumeH (sub : Pos → Pos → Bool) (s : Nat) : HProg Unit := do
  let it ← siterBegin s
  let n ← steps
  unsubLoop sub s n it

/-- The allocations of a `position_transition<Type>`. -/
def newPositions : List Pos → HProg (List Nat)
  | [] => ret []
  | p :: ps => do
      let a ← newPos p
      let as ← newPositions ps
      ret (a :: as)

/-- `state_transition.cpp:24-26` -/
def transLoopH (A : Algorithm) (n : Nat) (cv : List Bool) (offset next : Nat) : Nat → SIter → HProg Unit
  | 0, _ => fail .diverge
  | fuel + 1, it =>
      if it.atEnd then ret ()
      else do
        let c ← getCell it.curr
        let ps ← lift (posTrans A n c.pos cv offset)
        let as ← newPositions ps
        mergeAllH A next as
        let it ← siterAdvance it
        transLoopH A n cv offset next fuel it

/-- `state_transition.cpp:17-37` -/
def stateTransH (first : Bool) (A : Algorithm) (n queryLength : Nat) (s : Nat) (cv : List Bool) : HProg (Option Nat) := do
  let h ← getHead s
  let hd ← getCell h
  let next ← newState
  let it ← siterBegin s
  let f ← steps
  transLoopH A n cv hd.pos.index next f it
  unsubsumeH (fun a b => subsumes A a b queryLength) next
  let h ← getHead next
  if h ≠ 0 then do
    stateSort first (comparePos A) next
    ret (some next)
  else do
    deleteState next
    ret none

/-- `distance.cpp:13-20` -/
def distLoopH (A : Algorithm) (queryLength : Nat) : Nat → SIter → Nat → HProg Nat
  | 0, _, _ => fail .diverge
  | fuel + 1, it, d =>
      if it.atEnd then ret d
      else do
        let c ← getCell it.curr
        let d := if A ≠ .standard ∧ c.pos.special then d
          else
            let x := wadd (wsub queryLength c.pos.index) c.pos.errors
            if x < d then x else d
        let it ← siterAdvance it
        distLoopH A queryLength fuel it d

/-- `distance.cpp:9-57` -/
def stateDistH (A : Algorithm) (s queryLength : Nat) : HProg Nat := do
  let it ← siterBegin s
  let n ← steps
  distLoopH A queryLength n it sizeMax

/-- `transducer.cpp:13-18` -/
def newTransducer : HProg Nat := do
  let a ← newPos ⟨0, 0, false⟩
  newStateOf [a]

/-- `intersection.cpp:25-37` -/
def interStr : Nat → Nat → HProg Str
  | 0, _ => fail .diverge
  | fuel + 1, a => do
      let c ← getInter a
      if c.parent = 0 then ret []
      else do
        let s ← interStr fuel c.parent
        ret (s ++ [c.label])

section
variable {R : Type} (first : Bool) (A : Algorithm) (n queryLength : Nat) (upd : Str → Nat → R)

/-- `lazy_query.cpp:36-72` -/
def ptrIter (Q : PQuery R) : HProg (PQuery R × Bool) :=
  match Q.edges with
  | [] =>
    match Q.pending with
    | [] => fail .ub
    | a :: rest => do
        let c ← getInter a
        let h ← getHead c.state
        let hd ← getCell h
        let i := hd.pos.index
        let b := wsub Q.term.length i
        let k := if Q.a < b then Q.a else b
        let nd ← deref c.node
        ret ({ Q with pending := rest, cur := a, i := i, k := k, edges := nd.edges }, false)
  | (label, target) :: es => do
      let c ← getInter Q.cur
      let cv ← lift (charVec label Q.term Q.k Q.i)
      let next ← stateTransH first A n queryLength c.state cv
      match next with
      | none => ret ({ Q with edges := es }, false)
      | some s => do
        let j ← newInter { label := label, node := target, state := s, parent := Q.cur }
        let Q' := { Q with edges := es, pending := Q.pending ++ [j], owned := Q.owned ++ [j] }
        let nd ← deref target
        if nd.final then do
          let d ← stateDistH A s Q.term.length
          if d ≤ Q.maxD then do
            let f ← isteps
            let t ← interStr f j
            ret ({ Q' with cand := upd t d, complete := false }, true)
          else ret (Q', false)
        else ret (Q', false)

/-- `lazy_query.cpp:36-73` -/
def ptrLoop : Nat → PQuery R → HProg (PQuery R)
  | 0, _ => fail .diverge
  | fuel + 1, Q => do
      let (Q', stop) ← ptrIter first A n queryLength upd Q
      if stop then ret Q'
      else if Q'.edges.isEmpty && Q'.pending.isEmpty then ret Q'
      else ptrLoop fuel Q'

/-- `lazy_query.cpp:33-77` -/
def ptrAdvance (fuel : Nat) (Q : PQuery R) : HProg (PQuery R) :=
  if Q.edges.isEmpty && Q.pending.isEmpty then ret { Q with complete := true }
  else ptrLoop first A n queryLength upd fuel { Q with complete := true }

/-- `lazy_query.cpp:8-24` -/
def ptrBegin (fuel : Nat) (dflt : R) (t : Nat) (term : Str) (n' : Nat) : HProg (PQuery R) := do
  let c ← getInter t
  let nd ← deref c.node
  let Q : PQuery R := { pending := [t], edges := [], owned := [], complete := false, cur := 0, cand := dflt, term := term,
                        maxD := n', a := windowMax n', k := 0, i := 0 }
  if nd.final && decide (term.length ≤ n') then
    ret { Q with cand := upd [] term.length }
  else ptrAdvance first A n queryLength upd fuel Q

end

/-- `intersection.cpp:13-15` -/
def deleteInter (a : Nat) : HProg Unit :=
  if a = 0 then ret ()
  else do
    let c ← getInter a
    deleteState c.state
    freeInter a

/-- `lazy_query.cpp:26-30` -/
def deleteInters : List Nat → HProg Unit
  | [] => ret ()
  | a :: as => do
      deleteInter a
      deleteInters as

/-- The transducers and queries that a thread knows. -/
structure Objects (R : Type) where
  ts : List (Option (Algorithm × Nat))
  qs : List (Option (Algorithm × PQuery R))

section
variable {R : Type} (first : Bool) (upd : Str → Nat → R) (dflt : R) (root fuel : Nat)

/-- `lifeStep`, one operation on transducers and queries.  Threads do not copy (C56) and do not destroy the dictionary. -/
def lifeStep (op : LOp) (w : Objects R) : HProg (Objects R) :=
  match op with
  | .transducer A => do
      let s ← newTransducer
      let t ← newInter { label := 0, node := root, state := s, parent := 0 }
      ret { w with ts := w.ts ++ [some (A, t)] }
  | .start t q n =>
      match w.ts[t]? with
      | some (some (A, a)) => do
          let Q ← ptrBegin first A n q.length upd fuel dflt a q n
          ret { w with qs := w.qs ++ [some (A, Q)] }
      | _ => fail .ub
  | .next i =>
      match w.qs[i]? with
      | some (some (A, Q)) => do
          let Q ← ptrAdvance first A Q.maxD Q.term.length upd fuel Q
          ret { w with qs := w.qs.set i (some (A, Q)) }
      | _ => fail .ub
  | .dropQuery i =>
      match w.qs[i]? with
      | some (some (_, Q)) => do
          deleteInters Q.owned
          ret { w with qs := w.qs.set i none }
      | _ => fail .ub
  | .dropTransducer t =>
      match w.ts[t]? with
      | some (some (_, a)) => do
          deleteInter a
          ret { w with ts := w.ts.set t none }
      | _ => fail .ub
  | .copy _ | .copyTransducer _ | .dropDictionary => fail .ub

/-- `lifeRun`, the program of a thread. -/
def lifeRun : List LOp → Objects R → HProg (Objects R)
  | [], w => ret w
  | op :: ops, w => do
      let w ← lifeStep first upd dflt root fuel op w
      lifeRun ops w

end

end Thr

/-! ### Threads -/

/-- A thread: the rest of its program, and how much it has allocated (which only serves to bound its loops). -/
structure HThread (α : Type) where
  prog : HProg α
  count : Nat
  icount : Nat

/-- The memory that the threads share. -/
structure GMem where
  pos : Nat → Option PCell
  st : Nat → Option Nat
  cell : Nat → Option (ICell Nat)

/-- The memory as a thread sees it. -/
def GMem.view (g : GMem) (count icount : Nat) : LMem := ⟨⟨g.pos, g.st, count⟩, ⟨g.cell, icount⟩⟩

/-- Memory and threads. -/
structure HSys (α : Type) where
  mem : GMem
  threads : List (HThread α)

/-- One access of one thread. -/
inductive HStep {α : Type} (nodes : Mem) : HSys α → HSys α → Prop
  | step (g pre post x k c ic new r l) :
      x.Fresh new (g.view c ic) → x.perform nodes new (g.view c ic) = .ok (r, l) →
      HStep nodes ⟨g, pre ++ ⟨.act x k, c, ic⟩ :: post⟩
        ⟨⟨l.sm.pos, l.sm.st, l.im.cell⟩, pre ++ ⟨k r, l.sm.count, l.im.count⟩ :: post⟩

/-- Executions. -/
inductive HSteps {α : Type} (nodes : Mem) : HSys α → HSys α → Prop
  | refl (s) : HSteps nodes s s
  | tail {s s' s''} : HSteps nodes s s' → HStep nodes s' s'' → HSteps nodes s s''

/-- Undefined behaviour: a thread is about to access an object that does not exist, or has failed. -/
def HSys.Fault {α : Type} (nodes : Mem) (s : HSys α) : Prop :=
  ∃ t ∈ s.threads, (∃ e, t.prog = .fail e) ∨
    ∃ x k new e, t.prog = .act x k ∧ x.Fresh new (s.mem.view t.count t.icount) ∧
      x.perform nodes new (s.mem.view t.count t.icount) = .error e

/-- A data race: two threads are about to access the same object, one of them to change or delete it. -/
def HSys.Race {α : Type} (s : HSys α) : Prop :=
  ∃ pre mid post t t' x k x' k' p, s.threads = pre ++ t :: mid ++ t' :: post ∧ t.prog = .act x k ∧ t'.prog = .act x' k' ∧
    x.touches = some p ∧ x'.touches = some p ∧ (x.writes = true ∨ x'.writes = true)

/-- Memory and objects after some operations; one thread is started for each list of operations. -/
def HSys.start {R : Type} (first : Bool) (upd : Str → Nat → R) (dflt : R) (root fuel : Nat) (w : World R)
    (opss : List (List LOp)) : HSys (Thr.Objects R) :=
  ⟨⟨w.sm.pos, w.sm.st, w.im.cell⟩,
    opss.map fun ops => ⟨Thr.lifeRun first upd dflt root fuel ops ⟨w.ts, w.qs⟩, w.sm.count, w.im.count⟩⟩

end Lev
