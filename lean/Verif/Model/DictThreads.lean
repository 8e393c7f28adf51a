import Verif.Model.Dawg

/-!
# Dictionaries in several threads

The functions of `Verif/Model/Dawg.lean` once more, as programs of single accesses to nodes: reading or writing one node,
allocating a node, giving one back.  Threads run such programs on one memory, and any thread can be interrupted by any other
between two accesses.  That the programs, run alone, do what the functions do is proved (`Verif/Proofs/DictThreadsRun.lean`).

* An access concerns a node as a whole, its map of edges included (`dawg_node.h:96-100`).
* `operator new` and `delete` are thread-safe; the allocator hands out any address at which no node lives, also one that a
  thread has given back before.
* All else (`SortedDawg` with its stack, its register of copies of nodes and its set of pointers, strings, local variables)
  belongs to one thread.
-/

namespace Lev

/-- A program of accesses to nodes. -/
inductive NProg (α : Type) where
  | ret (x : α)
  | fail (e : Err)
  /-- reading a node -/
  | read (a : Nat) (k : DNode → NProg α)
  /-- changing a node -/
  | write (a : Nat) (nd : DNode) (k : NProg α)
  /-- `new DawgNode()` -/
  | new (k : Nat → NProg α)
  /-- `delete node` -/
  | free (a : Nat) (k : NProg α)

/-- One program after the other. -/
def NProg.bind {α β : Type} : NProg α → (α → NProg β) → NProg β
  | .ret x, f => f x
  | .fail e, _ => .fail e
  | .read a k, f => .read a fun nd => (k nd).bind f
  | .write a nd k, f => .write a nd (k.bind f)
  | .new k, f => .new fun a => (k a).bind f
  | .free a k, f => .free a (k.bind f)

instance : Monad NProg where
  pure := .ret
  bind := .bind

/-- The program run alone; `addr` as in `Verif/Model/Dawg.lean`. -/
def NProg.run {α : Type} (addr : Nat → Nat) : NProg α → Heap → Except Err (α × Heap)
  | .ret x, h => .ok (x, h)
  | .fail e, _ => .error e
  | .read a k, h => (deref h.mem a).bind fun nd => (k nd).run addr h
  | .write a nd k, h => (deref h.mem a).bind fun _ => k.run addr { h with mem := h.mem.set a (some nd) }
  | .new k, h => (k (newNode addr h).1).run addr (newNode addr h).2
  | .free a k, h => (deref h.mem a).bind fun _ => k.run addr { h with mem := h.mem.set a none }

/-! ### The functions as programs

Each has the name of the function of `Verif/Model/Dawg.lean` whose text it repeats; the citations are there. -/

namespace NThr

open NProg

def deref (a : Nat) : NProg DNode := .read a .ret
def write (a : Nat) (nd : DNode) : NProg Unit := .write a nd (.ret ())
def newNode : NProg Nat := .new .ret

/-- `dawg_node.cpp:63-68` -/
def edgesEq (eq : DNode → DNode → NProg Bool) (other : DNode) : List (UInt8 × Nat) → NProg Bool
  | [] => ret true
  | (label, expected) :: es =>
      let actual := nodeTransition other label
      if actual = 0 then ret false
      else do
        let x ← deref expected
        let y ← deref actual
        let r ← eq x y
        if r then edgesEq eq other es else ret false

/-- `dawg_node.cpp:53-71` -/
def nodeEq : Nat → DNode → DNode → NProg Bool
  | 0, _, _ => fail .diverge
  | fuel + 1, x, y =>
      if x.final ≠ y.final then ret false
      else if x.edges.length ≠ y.edges.length then ret false
      else edgesEq (nodeEq fuel) y x.edges

/-- `dawg_node.cpp:99-105` -/
def edgesHash (hash : DNode → NProg UInt64) : List (UInt8 × Nat) → UInt64 → NProg UInt64
  | [], h => ret h
  | (label, target) :: es, h => do
      let h := murmur64A [label] h
      let x ← deref target
      let k ← hash x
      edgesHash hash es (murmur64A [lowByte k] h)

/-- `dawg_node.cpp:93-109` -/
def nodeHash : Nat → DNode → NProg UInt64
  | 0, _ => fail .diverge
  | fuel + 1, x => do
      let h ← edgesHash (nodeHash fuel) x.edges hashSeed
      ret (murmur64A [if x.final then 1 else 0] h)

/-- `delete node` -/
def deleteNode (a : Nat) : NProg Unit := if a = 0 then ret () else .free a (.ret ())

/-- `dawg_node.cpp:19-21` -/
def setFinal (a : Nat) : NProg Unit := do
  let nd ← deref a
  write a { nd with final := true }

/-- `dawg_node.cpp:41-46` -/
def addEdge (sgn : Bool) (source : Nat) (label : UInt8) (target : Nat) : NProg Unit := do
  let nd ← deref source
  deleteNode (nodeTransition nd label)
  let nd ← deref source
  write source { nd with edges := mapSet sgn label target nd.edges }

/-- `dawg.cpp:17-20` -/
def newDawg : NProg SDawg := do
  let a ← newNode
  ret { root := a, size := 0, unchecked := none, minimized := none, floating := none, prev := [] }

/-- The lookup in the map of `sorted_dawg.cpp:62` -/
def regFind (fuel : Nat) (hash : UInt64) (key : DNode) : List RegEntry → NProg (Option Nat)
  | [] => ret none
  | e :: es =>
      if e.hash = hash then do
        let r ← nodeEq fuel key e.key
        if r then ret (some e.val) else regFind fuel hash key es
      else regFind fuel hash key es

/-- `sorted_dawg.cpp:61-67` -/
def minimizedNode (fuel : Nat) (key : Nat) (d : SDawg) : NProg (Option Nat) := do
  let nd ← deref key
  match d.minimized with
  | none => fail .ub
  | some reg => do
      let hash ← nodeHash fuel nd
      regFind fuel hash nd reg

/-- The assignment to the map of `sorted_dawg.cpp:83` -/
def regSet (fuel : Nat) (hash : UInt64) (key : DNode) (val : Nat) : List RegEntry → NProg (List RegEntry)
  | [] => ret [{ hash := hash, key := key, val := val }]
  | e :: es =>
      if e.hash = hash then do
        let r ← nodeEq fuel key e.key
        if r then ret ({ e with val := val } :: es)
        else do
          let es' ← regSet fuel hash key val es
          ret (e :: es')
      else do
        let es' ← regSet fuel hash key val es
        ret (e :: es')

/-- `sorted_dawg.cpp:83` -/
def register (fuel : Nat) (target : Nat) (d : SDawg) : NProg SDawg := do
  let nd ← deref target
  match d.minimized with
  | none => fail .ub
  | some reg => do
      let hash ← nodeHash fuel nd
      let reg' ← regSet fuel hash nd target reg
      ret { d with minimized := some reg' }

/-- `sorted_dawg.cpp:72-84` -/
def minimizeStep (sgn : Bool) (fuel : Nat) (d : SDawg) : NProg SDawg :=
  match d.unchecked with
  | none => fail .ub
  | some [] => fail .ub
  | some (t :: rest) => do
      let d := { d with unchecked := some rest }
      match ← minimizedNode fuel t.target d with
      | some existing => do
          addEdge sgn t.source t.label existing
          ret d
      | none => do
          addEdge sgn t.source t.label t.target
          register fuel t.target d

/-- `sorted_dawg.cpp:70-85` -/
def minimizeLoop (sgn : Bool) (fuel : Nat) : Nat → SDawg → NProg SDawg
  | 0, d => ret d
  | k + 1, d => do
      let d ← minimizeStep sgn fuel d
      minimizeLoop sgn fuel k d

/-- `sorted_dawg.cpp:69-86` -/
def minimize (sgn : Bool) (fuel : Nat) (lower : Nat) (d : SDawg) : NProg SDawg :=
  match d.unchecked with
  | none => fail .ub
  | some st => minimizeLoop sgn fuel (st.length - lower) d

/-- `sorted_dawg.cpp:44-49` -/
def pushSuffix (source : Nat) (rest : Str) (d : SDawg) : NProg (Nat × SDawg) :=
  match rest with
  | [] => ret (source, d)
  | c :: rest =>
      match d.floating, d.unchecked with
      | some fl, some st => do
          let a ← newNode
          pushSuffix a rest
            { d with floating := some (a :: fl), unchecked := some ({ label := c, source := source, target := a } :: st) }
      | _, _ => fail .ub

/-- `sorted_dawg.cpp:40-42` -/
def suffixSource (d : SDawg) : NProg Nat :=
  match d.unchecked with
  | none => fail .ub
  | some [] => ret d.root
  | some (t :: _) => ret t.target

/-- `sorted_dawg.cpp:15-55` -/
def addTerm (sgn : Bool) (fuel : Nat) (term : Str) (d : SDawg) : NProg (Bool × SDawg) :=
  if strLt term d.prev then ret (false, d)
  else if term = [] then do
    setFinal d.root
    ret (true, { d with prev := term, size := d.size + 1 })
  else do
    let i := commonPrefix term d.prev
    let d ← minimize sgn fuel i d
    let source ← suffixSource d
    let r ← pushSuffix source (term.drop i) d
    setFinal r.1
    ret (true, { r.2 with prev := term, size := r.2.size + 1 })

/-- `sorted_dawg.cpp:57-59` -/
def finishDawg (sgn : Bool) (fuel : Nat) (d : SDawg) : NProg SDawg := minimize sgn fuel 0 d

/-- `dawg.cpp:32-39` -/
def allNodesLoop : Nat → List Nat → List Nat → NProg (List Nat)
  | _, [], nodes => ret nodes
  | 0, _ :: _, _ => fail .diverge
  | fuel + 1, a :: pending, nodes => do
      let nodes := if a ∈ nodes then nodes else a :: nodes
      let nd ← deref a
      allNodesLoop fuel (pending ++ nd.edges.map (·.2)) nodes

/-- `dawg.cpp:28-41` -/
def allNodes (fuel : Nat) (root : Nat) : NProg (List Nat) := allNodesLoop fuel [root] []

/-- `sorted_dawg.cpp:114-116`, `dawg.cpp:23-25` -/
def deleteAll : List Nat → NProg Unit
  | [] => ret ()
  | a :: as => do
      deleteNode a
      deleteAll as

/-- `sorted_dawg.cpp:98-121` -/
def cleanUp (fuel : Nat) (d : SDawg) : NProg SDawg :=
  let d' := { d with unchecked := none, minimized := none }
  match d.floating with
  | none => ret d'
  | some fl => do
      let nodes ← allNodes fuel d.root
      deleteAll (fl.filter (fun a => decide (a ∉ nodes)))
      ret { d' with floating := none }

/-- `sorted_dawg.cpp:11-13`, `dawg.cpp:22-26` -/
def destroyDawg (fuel : Nat) (d : SDawg) : NProg Unit := do
  let d ← cleanUp fuel d
  let nodes ← allNodes fuel d.root
  deleteAll nodes

/-- `sorted_dawg.cpp:128-135` -/
def buildLoop (sgn : Bool) (fuel : Nat) : List Str → SDawg → NProg (Option SDawg)
  | [], d => ret (some d)
  | term :: rest, d => do
      let r ← addTerm sgn fuel term d
      if r.1 then buildLoop sgn fuel rest r.2
      else do
        destroyDawg fuel r.2
        ret none

/-- `sorted_dawg.cpp:123-140` -/
def sortedDawg (sgn : Bool) (fuel : Nat) (terms : List Str) : NProg (Option SDawg) := do
  let d ← newDawg
  let r ← buildLoop sgn fuel terms (initDawg d)
  match r with
  | none => ret none
  | some d => do
      let d ← finishDawg sgn fuel d
      let d ← cleanUp fuel d
      ret (some d)

/-- `dawg.cpp:45-47` -/
def containsLoop : Str → Nat → Nat → NProg Nat
  | [], _, a => ret a
  | c :: rest, i, a =>
      if a = 0 then ret 0
      else do
        let nd ← deref a
        if i + 1 > 2147483647 then fail .ub
        else containsLoop rest (i + 1) (nodeTransition nd c)

/-- `dawg.cpp:43-49` -/
def containsTerm (root : Nat) (term : Str) : NProg Bool := do
  let a ← containsLoop term 0 root
  if a = 0 then ret false
  else do
    let nd ← deref a
    ret nd.final

end NThr

/-! ### What a thread does -/

/-- One statement of a thread.  The thread numbers the results of its calls of `sorted_dawg` from 0 on. -/
inductive DOp where
  /-- `Dawg *d = sorted_dawg(terms)` -/
  | build (terms : List Str)
  /-- `d->contains(term)`, a dictionary of the thread's own -/
  | has (i : Nat) (term : Str)
  /-- `d->contains(term)`, a dictionary built before the threads were started -/
  | hasShared (j : Nat) (term : Str)
  /-- `delete d`, a dictionary of the thread's own -/
  | drop (i : Nat)
deriving DecidableEq, Repr

/-- What a statement shows. -/
inductive DOut where
  /-- a dictionary (`true`) or a null pointer -/
  | built (b : Bool)
  | answer (b : Bool)
  | dropped
deriving DecidableEq, Repr

namespace NThr

open NProg

/-- One statement; `own` are the thread's dictionaries, `none` a null pointer or one that was destroyed.  The use of such a
one is undefined. -/
def statement (sgn : Bool) (fuel : Nat) (shared : List Nat) (own : List (Option SDawg)) :
    DOp → NProg (DOut × List (Option SDawg))
  | .build terms => do
      let r ← sortedDawg sgn fuel terms
      ret (.built r.isSome, own ++ [r])
  | .has i t =>
      match own[i]? with
      | some (some d) => do
          let b ← containsTerm d.root t
          ret (.answer b, own)
      | _ => fail .ub
  | .hasShared j t =>
      match shared[j]? with
      | some root => do
          let b ← containsTerm root t
          ret (.answer b, own)
      | none => fail .ub
  | .drop i =>
      match own[i]? with
      | some (some d) => do
          destroyDawg fuel d
          ret (.dropped, own.set i none)
      | _ => fail .ub

/-- The statements of a thread one after the other; what they show, and the dictionaries that are left. -/
def thread (sgn : Bool) (fuel : Nat) (shared : List Nat) : List (Option SDawg) → List DOp →
    NProg (List DOut × List (Option SDawg))
  | own, [] => ret ([], own)
  | own, op :: ops => do
      let r ← statement sgn fuel shared own op
      let s ← thread sgn fuel shared r.2 ops
      ret (r.1 :: s.1, s.2)

end NThr

/-! ### Threads -/

/-- Threads on one memory. -/
structure NSys (α : Type) where
  mem : Mem
  threads : List (NProg α)

/-- The next access of one of the threads is carried out. -/
inductive NStep {α : Type} : NSys α → NSys α → Prop
  | read {mem : Mem} {pre post : List (NProg α)} {a : Nat} {k : DNode → NProg α} {nd : DNode} : mem a = some nd →
      NStep ⟨mem, pre ++ .read a k :: post⟩ ⟨mem, pre ++ k nd :: post⟩
  | write {mem : Mem} {pre post : List (NProg α)} {a : Nat} {nd : DNode} {k : NProg α} : mem a ≠ none →
      NStep ⟨mem, pre ++ .write a nd k :: post⟩ ⟨mem.set a (some nd), pre ++ k :: post⟩
  | new {mem : Mem} {pre post : List (NProg α)} {a : Nat} {k : Nat → NProg α} : a ≠ 0 → mem a = none →
      NStep ⟨mem, pre ++ .new k :: post⟩ ⟨mem.set a (some { final := false, edges := [] }), pre ++ k a :: post⟩
  | free {mem : Mem} {pre post : List (NProg α)} {a : Nat} {k : NProg α} : mem a ≠ none →
      NStep ⟨mem, pre ++ .free a k :: post⟩ ⟨mem.set a none, pre ++ k :: post⟩

/-- Any number of steps. -/
inductive NSteps {α : Type} : NSys α → NSys α → Prop
  | refl {s : NSys α} : NSteps s s
  | tail {s s' s'' : NSys α} : NSteps s s' → NStep s' s'' → NSteps s s''

/-- The node that the next access of a thread concerns, and whether it changes it. -/
def NProg.next {α : Type} : NProg α → Option (Nat × Bool)
  | .read a _ => some (a, false)
  | .write a _ _ | .free a _ => some (a, true)
  | .ret _ | .fail _ | .new _ => none

/-- Undefined behaviour is next in one of the threads: an access to a node that does not live, or something else. -/
def NSys.Fault {α : Type} (s : NSys α) : Prop :=
  ∃ p ∈ s.threads, (∃ e, p = .fail e) ∨ ∃ a w, p.next = some (a, w) ∧ s.mem a = none

/-- Two threads are about to access the same node, and at least one of them to change it. -/
def NSys.Race {α : Type} (s : NSys α) : Prop :=
  ∃ (i j : Nat) (p q : NProg α) (a : Nat) (w : Bool), i ≠ j ∧ s.threads[i]? = some p ∧ s.threads[j]? = some q ∧
    p.next = some (a, w) ∧ q.next = some (a, true)

/-- All threads have finished. -/
def NSys.Done {α : Type} (s : NSys α) : Prop := ∀ p ∈ s.threads, ∃ x, p = .ret x

end Lev
