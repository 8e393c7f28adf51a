import Verif.Model.StateHeap
import Verif.Model.Dawg

/-!
# Intersections as objects; the lifetimes of dictionary, transducers and queries

In `Verif/Model/Query.lean` the parent of an intersection is part of the intersection.  Here intersections are objects in
memory as they are in `/repo/src/liblevenshtein/transducer/{intersection,lazy_query,transducer}.{h,cpp}`: queries hold
pointers to them, an intersection holds a pointer to its parent, `~LazyQuery` and `~Transducer` delete them.  A program may
destroy the dictionary, its transducers and their queries in any order, and it may copy queries and transducers with the
copy constructors that the compiler provides.

`iaddr im` is the address the allocator hands out for an intersection when the memory is `im` (`IAlloc`); addresses may be
handed out again; 0 is `nullptr`.  The functions of the query are those of `Verif/Model/Query.lean` with pointers in place
of intersections.
-/

namespace Lev

/-- `Intersection` (`intersection.h:63-74`). -/
structure ICell (S : Type) where
  label : UInt8
  node : Nat
  state : S
  parent : Nat
deriving DecidableEq, Repr

/-- The memory of intersections: contents, and how many were allocated so far. -/
structure IMem (S : Type) where
  cell : Nat → Option (ICell S)
  count : Nat

/-- No more intersections are alive than there have been allocations. -/
def IMem.Finite {S : Type} (im : IMem S) : Prop :=
  ∃ L : List Nat, L.length ≤ im.count ∧ ∀ a c, im.cell a = some c → a ∈ L

/-- The assumption on the allocator: it hands out an address that is not null and not in use. -/
def IAlloc {S : Type} (iaddr : IMem S → Nat) : Prop :=
  ∀ im : IMem S, im.Finite → iaddr im ≠ 0 ∧ im.cell (iaddr im) = none

section
variable {S : Type}

/-- Reading an intersection through a pointer. -/
def getInter (im : IMem S) (a : Nat) : Except Err (ICell S) :=
  match im.cell a with
  | some c => .ok c
  | none => .error .ub

/-- `new Intersection(…)` (`intersection.cpp:7-11`). -/
def newInter (iaddr : IMem S → Nat) (c : ICell S) (im : IMem S) : Nat × IMem S :=
  (iaddr im, { cell := upd1 im.cell (iaddr im) (some c), count := im.count + 1 })

/-- `Intersection::str` and `operator<<` (`intersection.cpp:25-37`), the recursion bounded by the number of allocations. -/
def interStr (im : IMem S) : Nat → Nat → Except Err Str
  | 0, _ => .error .diverge
  | fuel + 1, a => do
      let c ← getInter im a
      if c.parent = 0 then .ok []
      else do
        let s ← interStr im fuel c.parent
        .ok (s ++ [c.label])

/-- Steps granted to the recursion. -/
def IMem.steps (im : IMem S) : Nat := im.count + 2

/-- `LazyQuery` (`lazy_query.h:86-129`) with pointers to intersections. -/
structure PQuery (R : Type) where
  pending : List Nat
  edges : List (UInt8 × Nat)
  owned : List Nat
  complete : Bool
  cur : Nat
  cand : R
  term : Str
  maxD : Nat
  a : Nat
  k : Nat
  i : Nat
deriving DecidableEq

section
variable {σ R : Type} (B : Backend σ S) (iaddr : IMem S → Nat) (mem : Mem) (upd : Str → Nat → R)

/-- One iteration of the loop of `advance` (`lazy_query.cpp:36-72`). -/
def ptrIter (m : σ) (im : IMem S) (Q : PQuery R) : Except Err (σ × IMem S × PQuery R × Bool) :=
  match Q.edges with
  | [] =>
    match Q.pending with
    | [] => .error .ub
    | a :: rest => do
        let c ← getInter im a
        let i ← B.headIdx m c.state
        let b := wsub Q.term.length i
        let k := if Q.a < b then Q.a else b
        let nd ← deref mem c.node
        return (m, im, { Q with pending := rest, cur := a, i := i, k := k, edges := nd.edges }, false)
  | (label, target) :: es => do
      let c ← getInter im Q.cur
      let cv ← charVec label Q.term Q.k Q.i
      let (m', next) ← B.trans m c.state cv
      match next with
      | none => return (m', im, { Q with edges := es }, false)
      | some s =>
        let (j, im') := newInter iaddr { label := label, node := target, state := s, parent := Q.cur } im
        let Q' := { Q with edges := es, pending := Q.pending ++ [j], owned := Q.owned ++ [j] }
        let nd ← deref mem target
        if nd.final then
          let d ← B.dist m' s Q.term.length
          if d ≤ Q.maxD then do
            let t ← interStr im' im'.steps j
            return (m', im', { Q' with cand := upd t d, complete := false }, true)
          else return (m', im', Q', false)
        else return (m', im', Q', false)

/-- The `do … while` loop of `advance` (`lazy_query.cpp:36-73`). -/
def ptrLoop : Nat → σ → IMem S → PQuery R → Except Err (σ × IMem S × PQuery R)
  | 0, _, _, _ => .error .diverge
  | fuel + 1, m, im, Q => do
      let (m', im', Q', stop) ← ptrIter B iaddr mem upd m im Q
      if stop then return (m', im', Q')
      else if Q'.edges.isEmpty && Q'.pending.isEmpty then return (m', im', Q')
      else ptrLoop fuel m' im' Q'

/-- `advance` (`lazy_query.cpp:33-77`), which is also `operator++` (`:88-92`). -/
def ptrAdvance (fuel : Nat) (m : σ) (im : IMem S) (Q : PQuery R) : Except Err (σ × IMem S × PQuery R) :=
  if Q.edges.isEmpty && Q.pending.isEmpty then return (m, im, { Q with complete := true })
  else ptrLoop B iaddr mem upd fuel m im { Q with complete := true }

/-- The constructor (`lazy_query.cpp:8-24`); `t` is the intersection of the transducer. -/
def ptrBegin (fuel : Nat) (dflt : R) (m : σ) (im : IMem S) (t : Nat) (term : Str) (n : Nat) :
    Except Err (σ × IMem S × PQuery R) := do
  let c ← getInter im t
  let nd ← deref mem c.node
  let Q : PQuery R := { pending := [t], edges := [], owned := [], complete := false, cur := 0, cand := dflt, term := term,
                        maxD := n, a := windowMax n, k := 0, i := 0 }
  if nd.final && decide (term.length ≤ n) then
    return (m, im, { Q with cand := upd [] term.length })
  else ptrAdvance B iaddr mem upd fuel m im Q

end

/-- The default constructor, which `LazyIterator::end` calls (`lazy_query.h:55`, `lazy_query.cpp:149-152`).  The members
without initializer are indeterminate: the parameters. -/
def ptrEnd {R : Type} (cand : R) (maxD a k i : Nat) : PQuery R :=
  { pending := [], edges := [], owned := [], complete := false, cur := 0, cand := cand, term := [], maxD := maxD, a := a,
    k := k, i := i }

/-- `operator==` (`lazy_query.cpp:112-116`). -/
def ptrEq {R : Type} (Q _other : PQuery R) : Bool := Q.complete

end

/-! ### Destruction -/

/-- `delete intersection` (`intersection.cpp:13-15`): the state is deleted first. -/
def deleteInter (a : Nat) (m : SMem) (im : IMem Nat) : Except Err (SMem × IMem Nat) :=
  if a = 0 then .ok (m, im)
  else do
    let c ← getInter im a
    let m ← deleteState c.state m
    .ok (m, { im with cell := upd1 im.cell a none })

/-- `~LazyQuery` (`lazy_query.cpp:26-30`). -/
def deleteInters : List Nat → SMem → IMem Nat → Except Err (SMem × IMem Nat)
  | [], m, im => .ok (m, im)
  | a :: as, m, im => do
      let (m, im) ← deleteInter a m im
      deleteInters as m im

/-! ### Programs -/

/-- What a program does with one dictionary.  Transducers and queries are numbered in the order of their construction. -/
inductive LOp where
  /-- `Transducer<A, Result>(dawg->root())` (`transducer.cpp:13-18`) -/
  | transducer (A : Algorithm)
  /-- `transducer(q, n).begin()` on transducer `t` (`transducer.cpp:25-35`, `lazy_query.cpp:143-147`) -/
  | start (t : Nat) (q : Str) (n : Nat)
  /-- `++` (`lazy_query.cpp:88-92`) -/
  | next (i : Nat)
  /-- the copy constructor of `LazyQuery`, which the compiler provides: every member is copied -/
  | copy (i : Nat)
  /-- the copy constructor of `Transducer`, which the compiler provides: the pointer is copied -/
  | copyTransducer (t : Nat)
  /-- `~LazyQuery` -/
  | dropQuery (i : Nat)
  /-- `~Transducer` (`transducer.cpp:20-23`) -/
  | dropTransducer (t : Nat)
  /-- `delete dawg` (`dawg.cpp:22-26`, `sorted_dawg.cpp:11-13`) -/
  | dropDictionary
deriving DecidableEq, Repr

/-- All there is: memory of nodes, positions and states, intersections; the dictionary; transducers and queries, `none` in
place of those that were destroyed. -/
structure World (R : Type) where
  heap : Heap
  sm : SMem
  im : IMem Nat
  dict : Option SDawg
  ts : List (Option (Algorithm × Nat))
  qs : List (Option (Algorithm × PQuery R))

section
variable {R : Type} (paddr saddr : SMem → Nat) (iaddr : IMem Nat → Nat) (first : Bool) (upd : Str → Nat → R) (dflt : R)
  (root fuel : Nat)

/-- One step. -/
def lifeStep (op : LOp) (w : World R) : Except Err (World R) :=
  match op with
  | .transducer A => do
      let (s, sm) ← newTransducer paddr saddr w.sm
      let (t, im) := newInter iaddr { label := 0, node := root, state := s, parent := 0 } w.im
      .ok { w with sm := sm, im := im, ts := w.ts ++ [some (A, t)] }
  | .start t q n =>
      match w.ts[t]? with
      | some (some (A, a)) => do
          let (sm, im, Q) ← ptrBegin (heapBackend paddr saddr first A n q.length) iaddr w.heap.mem upd fuel dflt w.sm w.im a q n
          .ok { w with sm := sm, im := im, qs := w.qs ++ [some (A, Q)] }
      | _ => .error .ub
  | .next i =>
      match w.qs[i]? with
      | some (some (A, Q)) => do
          let (sm, im, Q) ← ptrAdvance (heapBackend paddr saddr first A Q.maxD Q.term.length) iaddr w.heap.mem upd fuel w.sm w.im Q
          .ok { w with sm := sm, im := im, qs := w.qs.set i (some (A, Q)) }
      | _ => .error .ub
  | .copy i =>
      match w.qs[i]? with
      | some (some (A, Q)) => .ok { w with qs := w.qs ++ [some (A, Q)] }
      | _ => .error .ub
  | .copyTransducer t =>
      match w.ts[t]? with
      | some (some (A, a)) => .ok { w with ts := w.ts ++ [some (A, a)] }
      | _ => .error .ub
  | .dropQuery i =>
      match w.qs[i]? with
      | some (some (_, Q)) => do
          let (sm, im) ← deleteInters Q.owned w.sm w.im
          .ok { w with sm := sm, im := im, qs := w.qs.set i none }
      | _ => .error .ub
  | .dropTransducer t =>
      match w.ts[t]? with
      | some (some (_, a)) => do
          let (sm, im) ← deleteInter a w.sm w.im
          .ok { w with sm := sm, im := im, ts := w.ts.set t none }
      | _ => .error .ub
  | .dropDictionary =>
      match w.dict with
      | some d => do
          let h ← destroyDawg fuel w.heap d
          .ok { w with heap := h, dict := none }
      | none => .error .ub

/-- A sequence of steps. -/
def lifeRun : List LOp → World R → Except Err (World R)
  | [], w => .ok w
  | op :: ops, w => do
      let w ← lifeStep paddr saddr iaddr first upd dflt root fuel op w
      lifeRun ops w

end

end Lev
