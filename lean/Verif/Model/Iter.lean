import Verif.Model.Dawg

/-!
# Iterating over a dictionary

Model of `/repo/src/liblevenshtein/collection/{prefix,dawg_iterator}.{h,cpp}` and of `Dawg::begin`, `Dawg::end`
(`dawg.cpp:59-65`).

Prefixes live in a memory of their own; `paddr k` is the address of the `k`-th prefix allocated, 0 is `nullptr`.
`_term_index` is a `Nat`.
-/

namespace Lev

/-- `Prefix` (`prefix.h:82-92`). -/
structure Prefix where
  node : Nat
  parent : Nat
  label : UInt8
deriving DecidableEq, Repr

/-- Memory of prefixes. -/
abbrev PMem := Nat → Option Prefix

/-- The heap of prefixes: contents, and how many were allocated so far. -/
structure PHeap where
  mem : PMem
  count : Nat

/-- `new Prefix(…)` (`prefix.cpp:8-18`). -/
def newPrefix (paddr : Nat → Nat) (p : Prefix) (h : PHeap) : Nat × PHeap :=
  (paddr h.count, { mem := fun a => if a = paddr h.count then some p else h.mem a, count := h.count + 1 })

/-- `delete prefix` (`dawg_iterator.cpp:19`). -/
def deletePrefix (a : Nat) (h : PHeap) : Except Err PHeap :=
  if a = 0 then .ok h
  else match h.mem a with
    | some _ => .ok { h with mem := fun b => if b = a then none else h.mem b }
    | none => .error .ub

/-- `Prefix::str` and `operator<<` (`prefix.cpp:34-45`). -/
def prefixStr (mem : PMem) : Nat → Nat → Except Err Str
  | 0, _ => .error .diverge
  | fuel + 1, a =>
      match mem a with
      | none => .error .ub
      | some p =>
          if p.parent = 0 then .ok []
          else do
            let s ← prefixStr mem fuel p.parent
            .ok (s ++ [p.label])

/-- `DawgIterator` (`dawg_iterator.h:68-81`). -/
structure DIter where
  prefixes : List Nat
  pending : List Nat
  value : Str
  index : Nat

/-- The calls of the lambda in `advance` (`dawg_iterator.cpp:48-52`). -/
def pushEdges (paddr : Nat → Nat) (parent : Nat) : List (UInt8 × Nat) → PHeap → DIter → PHeap × DIter
  | [], h, it => (h, it)
  | (label, target) :: es, h, it =>
      let r := newPrefix paddr { node := target, parent := parent, label := label } h
      pushEdges paddr parent es r.2
        { it with prefixes := it.prefixes ++ [r.1], pending := it.pending ++ [r.1] }

/-- The `do … while` loop of `advance` (`dawg_iterator.cpp:43-54`); also returns `prefix` and `node->is_final()`. -/
def iterLoop (mem : Mem) (paddr : Nat → Nat) : Nat → PHeap → DIter → Except Err (PHeap × DIter × Nat × Bool)
  | 0, _, _ => .error .diverge
  | fuel + 1, h, it =>
      match it.pending with
      | [] => .error .ub
      | a :: rest =>
          match h.mem a with
          | none => .error .ub
          | some p => do
              let nd ← deref mem p.node
              let r := pushEdges paddr a nd.edges h { it with pending := rest }
              if nd.final = false ∧ r.2.pending ≠ [] then iterLoop mem paddr fuel r.1 r.2
              else .ok (r.1, r.2, a, nd.final)

/-- `DawgIterator::advance` (`dawg_iterator.cpp:37-60`). -/
def iterAdvance (mem : Mem) (paddr : Nat → Nat) (fuel : Nat) (h : PHeap) (it : DIter) : Except Err (PHeap × DIter) :=
  if it.pending = [] then .ok (h, it)
  else do
    let (h, it, a, final) ← iterLoop mem paddr fuel h it
    if final then do
      let s ← prefixStr h.mem fuel a
      .ok (h, { it with value := s })
    else .ok (h, it)

/-- `DawgIterator(root)` (`dawg_iterator.cpp:6-11`), called by `Dawg::begin` (`dawg.cpp:59-61`). -/
def iterBegin (mem : Mem) (paddr : Nat → Nat) (fuel : Nat) (root : Nat) (h : PHeap) : Except Err (PHeap × DIter) :=
  let r := newPrefix paddr { node := root, parent := 0, label := 0 } h
  iterAdvance mem paddr fuel r.2 { prefixes := [r.1], pending := [r.1], value := [], index := 0 }

/-- `DawgIterator(term_index)` (`dawg_iterator.cpp:13-15`), called by `Dawg::end` (`dawg.cpp:63-65`). -/
def iterEnd (size : Nat) : DIter := { prefixes := [], pending := [], value := [], index := size }

/-- `operator++` (`dawg_iterator.cpp:23-27`). -/
def iterNext (mem : Mem) (paddr : Nat → Nat) (fuel : Nat) (h : PHeap) (it : DIter) : Except Err (PHeap × DIter) := do
  let (h, it) ← iterAdvance mem paddr fuel h it
  .ok (h, { it with index := it.index + 1 })

/-- `auto it = dawg.begin();` followed by `k` times `++it`. -/
def dictIterAt (mem : Mem) (paddr : Nat → Nat) (fuel : Nat) (root : Nat) : Nat → PHeap → Except Err (PHeap × DIter)
  | 0, h => iterBegin mem paddr fuel root h
  | k + 1, h => do
      let (h, it) ← dictIterAt mem paddr fuel root k h
      iterNext mem paddr fuel h it

/-- `operator==` (`dawg_iterator.cpp:33-35`). -/
def iterEq (it other : DIter) : Bool := it.index == other.index

/-- `~DawgIterator` (`dawg_iterator.cpp:17-21`): delete the prefixes in order. -/
def deletePrefixes : List Nat → PHeap → Except Err PHeap
  | [], h => .ok h
  | a :: as, h => do
      let h ← deletePrefix a h
      deletePrefixes as h

/-- `~DawgIterator`. -/
def iterDestroy (h : PHeap) (it : DIter) : Except Err PHeap := deletePrefixes it.prefixes h

/-- The loop of `for (const std::string &term : dawg)`. -/
def rangeLoop (mem : Mem) (paddr : Nat → Nat) (fuel : Nat) : Nat → PHeap → DIter → DIter →
    Except Err (List Str × PHeap × DIter)
  | 0, _, _, _ => .error .diverge
  | steps + 1, h, it, stop =>
      if iterEq it stop then .ok ([], h, it)
      else do
        let (h', it') ← iterNext mem paddr fuel h it
        let (rs, h'', it'') ← rangeLoop mem paddr fuel steps h' it' stop
        .ok (it.value :: rs, h'', it'')

/-- `for (const std::string &term : dawg) …`: the terms yielded, and memory after the iterators are gone. -/
def rangeFor (mem : Mem) (paddr : Nat → Nat) (fuel : Nat) (root size : Nat) (h : PHeap) :
    Except Err (List Str × PHeap) := do
  let (h, it) ← iterBegin mem paddr fuel root h
  let (rs, h, it) ← rangeLoop mem paddr fuel fuel h it (iterEnd size)
  let h ← iterDestroy h (iterEnd size)
  let h ← iterDestroy h it
  .ok (rs, h)

/-- What a heap of prefixes must be like: null is no prefix, and the allocator will hand out non-null addresses, each
once, at which nothing lives. -/
structure PAllocator (paddr : Nat → Nat) (h : PHeap) : Prop where
  nonnull : ∀ k, paddr k ≠ 0
  inj : ∀ j k, paddr j = paddr k → j = k
  null : h.mem 0 = none
  fresh : ∀ k, h.count ≤ k → h.mem (paddr k) = none

end Lev
