import Verif.Model.StateHeap

/-!
# Queries that run out of memory

`std::bad_alloc` thrown while a query is advanced (`/repo/src/liblevenshtein/transducer/lazy_query.cpp:33-92`,
`state_transition.cpp:17-37`, `position_transition.cpp:16-342`).  The library catches nothing, so the exception leaves
`operator++`; a caller may catch it and go on.

* Which allocation fails is not up to the library: each iteration of the loop of `advance` is given a `Fault`, the place
  where it fails if it comes past that place, or none.  Containers may allocate at each insertion or not; every insertion
  is a possible place.
* A container whose insertion fails is as before (`std::deque::push_back`, `std::vector::push_back` at the end).
* The model also returns, for each exception, what the query did not get to (`Thrown`).  The program has no such list.
* Exceptions thrown by the constructor are in `queryBeginF`: the object is not made, so its destructor does not run.  What
  can fail in the constructor before `advance` (copy of the term, containers) leaves nothing behind and is left out.
* One failure is no exception: `str` writes the letters into a `std::stringstream` (`intersection.cpp:25-39`), and the
  operators `<<` of the standard library catch what is thrown while they write; they only mark the stream as bad, which
  nobody asks for, and a bad stream ignores what follows.  `str` then returns the letters written so far (`cutUpd`).
-/

namespace Lev

/-- Where an allocation fails during one iteration of the loop of `advance`. -/
inductive Fault where
  /-- `_edges.emplace` for the edge number `j` of the node (`lazy_query.cpp:45-47`) -/
  | edges (j : Nat)
  /-- the characteristic vector (`:55-56`, `:122`) -/
  | vector
  /-- the allocation number `j` of `transition` (`:57`) -/
  | trans (j : Nat)
  /-- `new Intersection` (`:83`) -/
  | inter
  /-- `_intersections.push_back` (`:84`) -/
  | push
  /-- `_pending.push` (`:61`) -/
  | queue
  /-- `str` or `update_candidate` (`:65-66`) -/
  | text
deriving DecidableEq, Repr

/-- An exception, with the string that leads to a node the query did not look at, or to a candidate it did not report. -/
structure Thrown where
  fault : Fault
  path : Str
deriving DecidableEq, Repr

/-- The operations on states, and how `transition` is left when an allocation fails. -/
structure FBackend (σ S : Type) extends Backend σ S where
  /-- `transition(state, characteristic_vector)` when the allocation number `j` fails: the memory left behind, or `none`
  if there are not as many allocations. -/
  transFail : σ → S → List Bool → Nat → Except Err (Option σ)

/-- How an iteration of the loop of `advance` ends. -/
inductive Ending where
  | go
  | stop
  | thrown (l : List Thrown)
deriving DecidableEq, Repr

/-- `update_candidate(candidate, intersection->str(), distance)` (`lazy_query.cpp:65-66`) when memory may run out in the
stream (`intersection.cpp:25-39`): of the term `t` the first `keep t` letters are written.  A query comes to a term at most
once, so that the number may be given by the term. -/
def cutUpd {R : Type} (keep : Str → Nat) (upd : Str → Nat → R) : Str → Nat → R := fun t d => upd (t.take (keep t)) d

section
variable {σ S R : Type} (B : FBackend σ S) (mem : Mem) (upd : Str → Nat → R)

/-- The rest of an iteration once the transition has been made (`lazy_query.cpp:58-71`); `m` is the memory then, `Q` the
query without the edge. -/
def queryStateF (f : Option Fault) (label : UInt8) (target : Nat) (I : Inter S) (m : σ) (next : Option S) (Q : Query S R) :
    Except Err (σ × Query S R × Ending) :=
  match next with
  | none => .ok (m, Q, .go)
  | some s =>
    let J := Inter.child label target s I
    match f with
    | some .inter => .ok (m, Q, .thrown [⟨.inter, J.str⟩])
    | some .push => .ok (m, Q, .thrown [⟨.push, J.str⟩])
    | some .queue => .ok (m, { Q with owned := Q.owned ++ [s] }, .thrown [⟨.queue, J.str⟩])
    | _ =>
      let Q' := { Q with pending := Q.pending ++ [J], owned := Q.owned ++ [s] }
      do
      let nd ← deref mem target
      if nd.final then
        let d ← B.dist m s Q.term.length
        if d ≤ Q.maxD then
          if f = some .text then return (m, Q', .thrown [⟨.text, J.str⟩])
          else return (m, { Q' with cand := upd J.str d, complete := false }, .stop)
        else return (m, Q', .go)
      else return (m, Q', .go)

/-- One iteration of the loop of `advance` (`lazy_query.cpp:36-72`). -/
def queryIterF (f : Option Fault) (m : σ) (Q : Query S R) : Except Err (σ × Query S R × Ending) :=
  match Q.edges with
  | [] =>
    match Q.pending with
    | [] => .error .ub
    | I :: rest => do
        let i ← B.headIdx m I.state
        let b := wsub Q.term.length i
        let k := if Q.a < b then Q.a else b
        let nd ← deref mem I.node
        let Q' := { Q with pending := rest, cur := some I, i := i, k := k, edges := nd.edges }
        match f with
        | some (.edges j) =>
            if j < nd.edges.length then
              return (m, { Q' with edges := nd.edges.take j },
                .thrown ((nd.edges.drop j).map fun e => ⟨.edges j, I.str ++ [e.1]⟩))
            else return (m, Q', .go)
        | _ => return (m, Q', .go)
  | (label, target) :: es =>
    match Q.cur with
    | none => .error .ub
    | some I =>
      let Q' := { Q with edges := es }
      if f = some .vector then .ok (m, Q', .thrown [⟨.vector, I.str ++ [label]⟩])
      else do
        let cv ← charVec label Q.term Q.k Q.i
        match f with
        | some (.trans j) =>
            match ← B.transFail m I.state cv j with
            | some m' => return (m', Q', .thrown [⟨.trans j, I.str ++ [label]⟩])
            | none => do
                let (m', next) ← B.trans m I.state cv
                queryStateF B mem upd f label target I m' next Q'
        | _ => do
            let (m', next) ← B.trans m I.state cv
            queryStateF B mem upd f label target I m' next Q'

/-- The loop of `advance` (`lazy_query.cpp:36-73`).  `fs` are the faults of the next iterations; the ones not used are
returned.  The list of what was thrown is empty if the function returns. -/
def queryLoopF : Nat → List (Option Fault) → σ → Query S R →
    Except Err (List (Option Fault) × σ × Query S R × List Thrown)
  | 0, _, _, _ => .error .diverge
  | fuel + 1, fs, m, Q => do
      let (m', Q', e) ← queryIterF B mem upd (fs.headD none) m Q
      match e with
      | .thrown l => return (fs.tail, m', Q', l)
      | .stop => return (fs.tail, m', Q', [])
      | .go =>
          if Q'.edges.isEmpty && Q'.pending.isEmpty then return (fs.tail, m', Q', [])
          else queryLoopF fuel fs.tail m' Q'

/-- `advance` and `operator++` (`lazy_query.cpp:33-77`, `:88-92`). -/
def queryAdvanceF (fuel : Nat) (fs : List (Option Fault)) (m : σ) (Q : Query S R) :
    Except Err (List (Option Fault) × σ × Query S R × List Thrown) :=
  if Q.edges.isEmpty && Q.pending.isEmpty then return (fs, m, { Q with complete := true }, [])
  else queryLoopF B mem upd fuel fs m { Q with complete := true }

/-- `k` calls of `operator++`, whose exceptions are caught. -/
def queryCallsF (fuel : Nat) : Nat → List (Option Fault) → σ → Query S R → Except Err (List (Option Fault) × σ × Query S R)
  | 0, fs, m, Q => .ok (fs, m, Q)
  | k + 1, fs, m, Q => do
      let (fs, m, Q, _) ← queryAdvanceF B mem upd fuel fs m Q
      queryCallsF fuel k fs m Q

/-- A caller that catches the exceptions of `operator++` and calls it again until it returns. -/
def queryRetryF (inner : Nat) : Nat → List (Option Fault) → σ → Query S R →
    Except Err (List (Option Fault) × σ × Query S R × List Thrown)
  | 0, _, _, _ => .error .diverge
  | fuel + 1, fs, m, Q => do
      let (fs, m, Q, l) ← queryAdvanceF B mem upd inner fs m Q
      if l.isEmpty then return (fs, m, Q, [])
      else do
        let (fs, m, Q, l') ← queryRetryF inner fuel fs m Q
        return (fs, m, Q, l ++ l')

/-- A loop over the candidates of a query, by a caller that catches the exceptions of `operator++` and calls it again.
The result has the candidates and what was thrown. -/
def queryCollectF : Nat → List (Option Fault) → σ → Query S R → Except Err (σ × Query S R × List R × List Thrown)
  | 0, _, _, _ => .error .diverge
  | fuel + 1, fs, m, Q =>
      if Q.complete then return (m, Q, [], [])
      else do
        let (fs, m', Q', l) ← queryRetryF B mem upd fuel fuel fs m Q
        let (m'', Q'', rs, l') ← queryCollectF fuel fs m' Q'
        return (m'', Q'', Q.cand :: rs, l ++ l')

/-- A loop over the candidates, by a caller that catches the exceptions of `operator++` and goes on with the test for the
end of the loop (`operator==`, `lazy_query.cpp:112-116`). -/
def queryCollectStop : Nat → List (Option Fault) → σ → Query S R → Except Err (σ × Query S R × List R × List Thrown)
  | 0, _, _, _ => .error .diverge
  | fuel + 1, fs, m, Q =>
      if Q.complete then return (m, Q, [], [])
      else do
        let (fs, m', Q', l) ← queryAdvanceF B mem upd fuel fs m Q
        let (m'', Q'', rs, l') ← queryCollectStop fuel fs m' Q'
        return (m'', Q'', Q.cand :: rs, l ++ l')

/-- The constructor (`lazy_query.cpp:8-24`).  If it throws (the list is not empty) the query that is returned does not
exist for the caller: its members are destroyed, but `~LazyQuery` is not called. -/
def queryBeginF (fuel : Nat) (fs : List (Option Fault)) (dflt : R) (m : σ) (root : Nat) (s0 : S) (term : Str) (n : Nat) :
    Except Err (List (Option Fault) × σ × Query S R × List Thrown) := do
  let nd ← deref mem root
  let Q : Query S R := { pending := [Inter.root root s0], edges := [], owned := [], complete := false,
                         cur := none, cand := dflt, term := term, maxD := n, a := windowMax n, k := 0, i := 0 }
  if nd.final && decide (term.length ≤ n) then
    return (fs, m, { Q with cand := upd [] term.length }, [])
  else queryAdvanceF B mem upd fuel fs m Q

end

/-- The backend in which a state is the list of its positions; a failed transition leaves nothing behind that could be
seen in it. -/
def listBackendF (A : Algorithm) (n queryLength : Nat) : FBackend Unit (List Pos) where
  toBackend := listBackend A n queryLength
  transFail _ _ _ _ := .ok (some ())

/-! ### Transitions in memory -/

/-- The allocations of a `position_transition<Type>` (`position_transition.cpp:16-342`), `j` of which succeed: the
positions one after the other, then the vector that holds them, unless there are none.  `inl` is the memory left behind
by the exception, which is that with all the positions made so far: nothing deletes them. -/
def newPositionsF (paddr : SMem → Nat) : Nat → List Pos → SMem → SMem ⊕ (List Nat × SMem × Nat)
  | j, [], m => .inr ([], m, j)
  | 0, _ :: _, m => .inl m
  | j + 1, p :: ps, m =>
      let (a, m) := newPos paddr p m
      match newPositionsF paddr j ps m with
      | .inl m => .inl m
      | .inr (as, m, j) => .inr (a :: as, m, j)

/-- The vector of the positions (`position_transition.cpp`, each `return { … }`). -/
def newVectorF : List Nat × SMem × Nat → SMem ⊕ (List Nat × SMem × Nat)
  | ([], m, j) => .inr ([], m, j)
  | (_ :: _, m, 0) => .inl m
  | (a :: as, m, j + 1) => .inr (a :: as, m, j)

/-- The loop over the positions of `curr_state` (`state_transition.cpp:24-26`), `j` allocations succeeding. -/
def transLoopF (paddr : SMem → Nat) (A : Algorithm) (n : Nat) (cv : List Bool) (offset next : Nat) :
    Nat → Nat → SIter → SMem → Except Err (Option SMem)
  | 0, _, _, _ => .error .diverge
  | fuel + 1, j, it, m =>
      if it.atEnd then .ok none
      else do
        let c ← getCell m it.curr
        let ps ← posTrans A n c.pos cv offset
        match newPositionsF paddr j ps m with
        | .inl m => .ok (some m)
        | .inr r =>
          match newVectorF r with
          | .inl m => .ok (some m)
          | .inr (as, m, j) => do
              let m ← mergeAllH A next as m
              let it ← siterAdvance m it
              transLoopF paddr A n cv offset next fuel j it m

/-- `StateTransition::operator()` (`state_transition.cpp:17-37`) when all allocations from number `j` on fail: the memory
left behind, or `none` if there are not as many.  What follows the loop allocates nothing. -/
def stateTransFail (paddr saddr : SMem → Nat) (A : Algorithm) (n : Nat) (s : Nat) (cv : List Bool) (j : Nat) (m : SMem) :
    Except Err (Option SMem) := do
  let h ← getHead m s
  let hd ← getCell m h
  match j with
  | 0 => .ok (some m)
  | j + 1 => do
      let (next, m) := newState saddr m
      let it ← siterBegin s m
      transLoopF paddr A n cv hd.pos.index next m.steps j it m

/-- The backend of queries in which states are objects in memory. -/
def heapBackendF (paddr saddr : SMem → Nat) (first : Bool) (A : Algorithm) (n queryLength : Nat) : FBackend SMem Nat where
  toBackend := heapBackend paddr saddr first A n queryLength
  transFail m s cv j := stateTransFail paddr saddr A n s cv j m

end Lev
