import Verif.Model.Iter

/-!
# Iterators that run out of memory

`std::bad_alloc` thrown while an iterator of a dictionary is made or advanced
(`/repo/src/liblevenshtein/collection/dawg_iterator.cpp:6-60`, `prefix.cpp:34-45`).  The library catches nothing, so the
exception leaves the constructor or `operator++`; a caller may catch it and go on.

* Each iteration of the loop of `advance` is given an `IFault`, the place where it fails if it comes past that place, or
  none.  Every insertion into a container is such a place, whether it allocates or not.
* A container whose insertion fails is as before.
* `prefix->str()` writes into a `std::stringstream`, which throws nothing when it has no memory for a letter: it ignores this
  letter and all that follow.  Of the term `t` the first `keep t` letters are written.  An iterator comes to a term at most
  once, so that the number may be given by the term.
* `operator*` copies the string; if that throws, the iterator is as before, and nothing is left to say about it.
-/

namespace Lev

/-- Where a new prefix is when memory runs out: not made, made and in no container, or in `_prefixes` only
(`dawg_iterator.cpp:7-9`, `:49-51`). -/
inductive IPlace where
  | make
  | store
  | queue
deriving DecidableEq, Repr

/-- Where an iteration of the loop of `advance` fails: at the edge number `j` (`dawg_iterator.cpp:48-52`), or when
`_next_value` is computed (`:57`). -/
inductive IFault where
  | edge (j : Nat) (p : IPlace)
  | text
deriving DecidableEq, Repr

/-- The new prefix at the place where memory runs out. -/
def failPrefix (paddr : Nat → Nat) (p : Prefix) (h : PHeap) (it : DIter) : IPlace → PHeap × DIter
  | .make => (h, it)
  | .store => ((newPrefix paddr p h).2, it)
  | .queue =>
      let r := newPrefix paddr p h
      (r.2, { it with prefixes := it.prefixes ++ [r.1] })

/-- The calls of the lambda in `advance` (`dawg_iterator.cpp:48-52`), the edge number `j` failing; also says whether an
exception was thrown. -/
def pushEdgesF (paddr : Nat → Nat) (parent : Nat) : Option (Nat × IPlace) → List (UInt8 × Nat) → PHeap → DIter →
    PHeap × DIter × Bool
  | _, [], h, it => (h, it, false)
  | some (0, p), (label, target) :: _, h, it =>
      let r := failPrefix paddr { node := target, parent := parent, label := label } h it p
      (r.1, r.2, true)
  | some (j + 1, p), (label, target) :: es, h, it =>
      let r := newPrefix paddr { node := target, parent := parent, label := label } h
      pushEdgesF paddr parent (some (j, p)) es r.2
        { it with prefixes := it.prefixes ++ [r.1], pending := it.pending ++ [r.1] }
  | none, (label, target) :: es, h, it =>
      let r := newPrefix paddr { node := target, parent := parent, label := label } h
      pushEdgesF paddr parent none es r.2
        { it with prefixes := it.prefixes ++ [r.1], pending := it.pending ++ [r.1] }

/-- The part of the fault that concerns the edges. -/
def IFault.atEdge : Option IFault → Option (Nat × IPlace)
  | some (.edge j p) => some (j, p)
  | _ => none

/-- How the loop of `advance` is left: by an exception, or with `prefix` and `node->is_final()`. -/
inductive ILeft where
  | thrown (f : IFault)
  | node (a : Nat) (final : Bool)
deriving DecidableEq, Repr

/-- The `do … while` loop of `advance` (`dawg_iterator.cpp:43-54`).  `fs` are the faults of the next iterations; the ones not
used are returned.  The exception of `prefix->str()` and of the assignment (`:57`) belongs to the last iteration. -/
def iterLoopF (mem : Mem) (paddr : Nat → Nat) : Nat → List (Option IFault) → PHeap → DIter →
    Except Err (List (Option IFault) × PHeap × DIter × ILeft)
  | 0, _, _, _ => .error .diverge
  | fuel + 1, fs, h, it =>
      match it.pending with
      | [] => .error .ub
      | a :: rest =>
          match h.mem a with
          | none => .error .ub
          | some p => do
              let nd ← deref mem p.node
              let f := fs.headD none
              let r := pushEdgesF paddr a (IFault.atEdge f) nd.edges h { it with pending := rest }
              if r.2.2 then .ok (fs.tail, r.1, r.2.1, .thrown (f.getD .text))
              else if nd.final = false ∧ r.2.1.pending ≠ [] then iterLoopF mem paddr fuel fs.tail r.1 r.2.1
              else if nd.final ∧ f = some .text then .ok (fs.tail, r.1, r.2.1, .thrown .text)
              else .ok (fs.tail, r.1, r.2.1, .node a nd.final)

section
variable (mem : Mem) (paddr : Nat → Nat) (keep : Str → Nat)

/-- `DawgIterator::advance` (`dawg_iterator.cpp:37-60`), and the exception it throws, if any. -/
def iterAdvanceF (fuel : Nat) (fs : List (Option IFault)) (h : PHeap) (it : DIter) :
    Except Err (List (Option IFault) × PHeap × DIter × Option IFault) :=
  if it.pending = [] then .ok (fs, h, it, none)
  else do
    let (fs, h, it, r) ← iterLoopF mem paddr fuel fs h it
    match r with
    | .thrown f => .ok (fs, h, it, some f)
    | .node a true => do
        let s ← prefixStr h.mem fuel a
        .ok (fs, h, { it with value := s.take (keep s) }, none)
    | .node _ false => .ok (fs, h, it, none)

/-- `DawgIterator(root)` (`dawg_iterator.cpp:6-11`); `b` is where memory runs out before `advance` is called.  If the
constructor throws (the Boolean) the iterator that is returned does not exist for the caller: its members are destroyed, but
`~DawgIterator` is not called. -/
def iterBeginF (fuel : Nat) (b : Option IPlace) (fs : List (Option IFault)) (root : Nat) (h : PHeap) :
    Except Err (List (Option IFault) × PHeap × DIter × Bool) :=
  let p0 : Prefix := { node := root, parent := 0, label := 0 }
  match b with
  | some p =>
      let r := failPrefix paddr p0 h { prefixes := [], pending := [], value := [], index := 0 } p
      .ok (fs, r.1, r.2, true)
  | none => do
      let r := newPrefix paddr p0 h
      let (fs, h, it, e) ← iterAdvanceF mem paddr keep fuel fs r.2
        { prefixes := [r.1], pending := [r.1], value := [], index := 0 }
      .ok (fs, h, it, e.isSome)

/-- `operator++` (`dawg_iterator.cpp:23-27`): an exception leaves it before the index is incremented. -/
def iterNextF (fuel : Nat) (fs : List (Option IFault)) (h : PHeap) (it : DIter) :
    Except Err (List (Option IFault) × PHeap × DIter × Option IFault) := do
  let (fs, h, it, e) ← iterAdvanceF mem paddr keep fuel fs h it
  match e with
  | some f => .ok (fs, h, it, some f)
  | none => .ok (fs, h, { it with index := it.index + 1 }, none)

/-- `k` calls of `operator++`, whose exceptions are caught; also the exceptions. -/
def iterCallsF (fuel : Nat) : Nat → List (Option IFault) → PHeap → DIter →
    Except Err (List (Option IFault) × PHeap × DIter × List IFault)
  | 0, fs, h, it => .ok (fs, h, it, [])
  | k + 1, fs, h, it => do
      let (fs, h, it, e) ← iterNextF mem paddr keep fuel fs h it
      let (fs, h, it, es) ← iterCallsF fuel k fs h it
      .ok (fs, h, it, e.toList ++ es)

/-- A caller that catches the exceptions of `operator++` and calls it again until it returns. -/
def iterRetryF (inner : Nat) : Nat → List (Option IFault) → PHeap → DIter →
    Except Err (List (Option IFault) × PHeap × DIter × List IFault)
  | 0, _, _, _ => .error .diverge
  | fuel + 1, fs, h, it => do
      let (fs, h, it, e) ← iterNextF mem paddr keep inner fs h it
      match e with
      | none => .ok (fs, h, it, [])
      | some f => do
          let (fs, h, it, es) ← iterRetryF inner fuel fs h it
          .ok (fs, h, it, f :: es)

/-- A loop over the terms by such a caller, up to the iterator `stop`: the terms it sees, and the exceptions. -/
def rangeLoopF (fuel : Nat) : Nat → List (Option IFault) → PHeap → DIter → DIter →
    Except Err (List Str × PHeap × DIter × List IFault)
  | 0, _, _, _, _ => .error .diverge
  | steps + 1, fs, h, it, stop =>
      if iterEq it stop then .ok ([], h, it, [])
      else do
        let (fs, h', it', es) ← iterRetryF mem paddr keep fuel fuel fs h it
        let (rs, h'', it'', es') ← rangeLoopF fuel steps fs h' it' stop
        .ok (it.value :: rs, h'', it'', es ++ es')

end

end Lev
