import Verif.Model.Node
import Verif.Model.Transition

/-!
# Queries

Models `/repo/src/liblevenshtein/transducer/{lazy_query,intersection,transducer}.cpp`.

The model of `LazyQuery` does not depend on how states are represented: it is given a `Backend`, which plays
the part of the two function objects `transition` and `min_distance` and of `state->head()`.  The list
backend below stands for the functions of `Verif/Model/Transition.lean`; a backend with an explicit memory of
positions and states is in `Verif/Model/StateHeap.lean`.
-/

namespace Lev

/-- The operations on states a query uses.  `σ` is the memory in which states live, `S` a pointer to one. -/
structure Backend (σ S : Type) where
  /-- `state->head()->term_index()` -/
  headIdx : σ → S → Except Err Nat
  /-- `transition(state, characteristic_vector)`; `none` is `nullptr` -/
  trans : σ → S → List Bool → Except Err (σ × Option S)
  /-- `min_distance(state, query_length)` -/
  dist : σ → S → Nat → Except Err Nat

/-- The backend in which a state is the list of its positions. -/
def listBackend (A : Algorithm) (n queryLength : Nat) : Backend Unit (List Pos) where
  headIdx _ l := match l with
    | [] => .error .ub
    | p :: _ => .ok p.index
  trans _ l cv := (stateTrans A n queryLength l cv).map (fun r => ((), r))
  dist _ l len := .ok (stateDist A l len)

/-- `Intersection` (`intersection.h:16-75`).  Intersections are not modified after their construction, so a
parent pointer is modelled by the parent itself; `root` is the one of the transducer
(`transducer.cpp:14-18`), whose parent is null. -/
inductive Inter (S : Type) where
  | root (node : Nat) (state : S)
  | child (label : UInt8) (node : Nat) (state : S) (parent : Inter S)

namespace Inter
variable {S : Type}

/-- `Intersection::node` (`intersection.cpp:17-19`). -/
def node : Inter S → Nat
  | root n _ => n
  | child _ n _ _ => n

/-- `Intersection::state` (`intersection.cpp:21-23`). -/
def state : Inter S → S
  | root _ s => s
  | child _ _ s _ => s

/-- `Intersection::str` and `operator<<` (`intersection.cpp:25-37`): the labels from the root, the label of
the root itself not being printed. -/
def str : Inter S → Str
  | root _ _ => []
  | child l _ _ p => p.str ++ [l]

end Inter

/-- `LazyQuery` (`lazy_query.h:30-173`).  `owned` are the states of the intersections in `_intersections`,
in the order of construction. -/
structure Query (S R : Type) where
  pending : List (Inter S)
  edges : List (UInt8 × Nat)
  owned : List S
  complete : Bool
  cur : Option (Inter S)
  cand : R
  term : Str
  maxD : Nat
  a : Nat
  k : Nat
  i : Nat

/-- `term[pos]` of a `std::string`: the position after the last character holds `'\0'`. -/
def strAt (term : Str) (pos : Nat) : Except Err UInt8 :=
  match term[pos]? with
  | some c => .ok c
  | none => if pos = term.length then .ok 0 else .error .ub

/-- The loop of `characteristic_vector` (`lazy_query.cpp:123-125`) with `r` iterations left. -/
def cvLoop (x : UInt8) (term : Str) (i : Nat) : Nat → Nat → Except Err (List Bool)
  | 0, _ => .ok []
  | r + 1, j => do
      let c ← strAt term (wadd i j)
      let rest ← cvLoop x term i r (j + 1)
      return (x == c) :: rest

/-- `characteristic_vector` (`lazy_query.cpp:118-127`).  The counter is an `int`: it overflows when the window
has more than `INT_MAX` entries. -/
def charVec (x : UInt8) (term : Str) (k i : Nat) : Except Err (List Bool) :=
  if k ≤ 2147483647 then cvLoop x term i k 0 else .error .ub

/-- `_a` (`lazy_query.cpp:14-15`). -/
def windowMax (n : Nat) : Nat := if n < (sizeMax - 1) / 2 then wadd (2 * n % sizeW) 1 else sizeMax

section
variable {σ S R : Type} (B : Backend σ S) (mem : Mem) (upd : Str → Nat → R)

/-- One iteration of the loop of `advance` (`lazy_query.cpp:36-72`); the flag says that it was left by
`break`. -/
def queryIter (m : σ) (Q : Query S R) : Except Err (σ × Query S R × Bool) :=
  match Q.edges with
  | [] =>
    match Q.pending with
    | [] => .error .ub
    | I :: rest => do
        let i ← B.headIdx m I.state
        let b := wsub Q.term.length i
        let k := if Q.a < b then Q.a else b
        let nd ← deref mem I.node
        return (m, { Q with pending := rest, cur := some I, i := i, k := k, edges := nd.edges }, false)
  | (label, target) :: es =>
    match Q.cur with
    | none => .error .ub
    | some I => do
        let cv ← charVec label Q.term Q.k Q.i
        let (m', next) ← B.trans m I.state cv
        match next with
        | none => return (m', { Q with edges := es }, false)
        | some s =>
          let J := Inter.child label target s I
          let Q' := { Q with edges := es, pending := Q.pending ++ [J], owned := Q.owned ++ [s] }
          let nd ← deref mem target
          if nd.final then
            let d ← B.dist m' s Q.term.length
            if d ≤ Q.maxD then
              return (m', { Q' with cand := upd J.str d, complete := false }, true)
            else return (m', Q', false)
          else return (m', Q', false)

/-- The `do … while` loop of `advance` (`lazy_query.cpp:36-73`). -/
def queryLoop : Nat → σ → Query S R → Except Err (σ × Query S R)
  | 0, _, _ => .error .diverge
  | fuel + 1, m, Q => do
      let (m', Q', stop) ← queryIter B mem upd m Q
      if stop then return (m', Q')
      else if Q'.edges.isEmpty && Q'.pending.isEmpty then return (m', Q')
      else queryLoop fuel m' Q'

/-- `advance` (`lazy_query.cpp:33-77`), which is also `operator++` (`:88-92`). -/
def queryAdvance (fuel : Nat) (m : σ) (Q : Query S R) : Except Err (σ × Query S R) :=
  if Q.edges.isEmpty && Q.pending.isEmpty then return (m, { Q with complete := true })
  else queryLoop B mem upd fuel m { Q with complete := true }

/-- The constructor (`lazy_query.cpp:8-24`), called by `LazyIterator::begin` (`:145-148`) with the
transducer's intersection of the dictionary's root and the initial state `s0`. -/
def queryBegin (fuel : Nat) (dflt : R) (m : σ) (root : Nat) (s0 : S) (term : Str) (n : Nat) :
    Except Err (σ × Query S R) := do
  let nd ← deref mem root
  let Q : Query S R := { pending := [Inter.root root s0], edges := [], owned := [], complete := false,
                         cur := none, cand := dflt, term := term, maxD := n, a := windowMax n, k := 0, i := 0 }
  if nd.final && decide (term.length ≤ n) then
    return (m, { Q with cand := upd [] term.length })
  else queryAdvance B mem upd fuel m Q

/-- The loop of a range-for over a query: while it is not complete (`operator==`, `lazy_query.cpp:112-116`),
take the candidate and advance. -/
def queryCollect : Nat → σ → Query S R → Except Err (σ × List R)
  | 0, _, _ => .error .diverge
  | fuel + 1, m, Q =>
      if Q.complete then return (m, [])
      else do
        let (m', Q') ← queryAdvance B mem upd fuel m Q
        let (m'', rs) ← queryCollect fuel m' Q'
        return (m'', Q.cand :: rs)

/-- `for (const Result &r : transducer(term, n)) …`: all that is yielded. -/
def queryAll (fuel : Nat) (dflt : R) (m : σ) (root : Nat) (s0 : S) (term : Str) (n : Nat) :
    Except Err (σ × List R) := do
  let (m', Q) ← queryBegin B mem upd fuel dflt m root s0 term n
  queryCollect B mem upd fuel m' Q

end

/-- The initial state of a transducer (`transducer.cpp:15-16`). -/
def initialState : List Pos := [⟨0, 0, false⟩]

/-- `update_candidate` of `LazyQuery<Candidate>` (`lazy_query.cpp:100-105`). -/
def updCandidate (t : Str) (d : Nat) : Str × Nat := (t, d)

/-- `update_candidate` of `LazyQuery<std::string>` (`lazy_query.cpp:94-98`). -/
def updString (t : Str) (_ : Nat) : Str := t

/-- What a transducer for `A` with results made by `upd` yields for the query `(q, n)` on the dictionary whose
root is at `root`, in the list model of states. -/
def transduce {R : Type} (A : Algorithm) (upd : Str → Nat → R) (dflt : R) (mem : Mem) (root : Nat) (q : Str)
    (n fuel : Nat) : Except Err (List R) :=
  (queryAll (listBackend A n q.length) mem upd fuel dflt () root initialState q n).map (·.2)

/-- The query `(q, n)` runs to its end without undefined behaviour and yields `rs`: so does the model whenever
the bound on the number of steps is large enough, and whatever the initial value of `_candidate` is. -/
def Yields {R : Type} (A : Algorithm) (upd : Str → Nat → R) (mem : Mem) (root : Nat) (q : Str) (n : Nat)
    (rs : List R) : Prop :=
  ∃ N, ∀ fuel, N ≤ fuel → ∀ dflt, transduce A upd dflt mem root q n fuel = .ok rs

/-- `k` times `++` on a query. -/
def queryAdvances {σ S R : Type} (B : Backend σ S) (mem : Mem) (upd : Str → Nat → R) (fuel : Nat) :
    Nat → σ → Query S R → Except Err (σ × Query S R)
  | 0, m, Q => .ok (m, Q)
  | k + 1, m, Q => do
      let (m', Q') ← queryAdvance B mem upd fuel m Q
      queryAdvances B mem upd fuel k m' Q'

end Lev
