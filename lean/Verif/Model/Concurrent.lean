import Verif.Model.Distance

/-!
# Threads sharing one distance object

Each thread makes a sequence of `between` calls on one shared object.  A `get` locks the object's
`std::shared_mutex` in shared mode, looks the key up and unlocks it (`memoized_distance.cpp:9-17`); a
`set` locks it exclusively, writes and unlocks it (`memoized_distance.cpp:19-24`).  Locking and
accessing are separate steps, and a thread can be interrupted by any other thread between any two
steps.  Everything else a call does touches only its own local variables.
-/

namespace Lev

/-- Where a thread stands with respect to the mutex. -/
inductive Phase where
  /-- not holding the mutex -/
  | idle
  /-- inside `get`, holding the mutex in shared mode -/
  | reading
  /-- inside `set`, holding the mutex exclusively -/
  | writing
deriving DecidableEq, Repr

/-- A thread: its phase and the rest of its program. -/
structure Thread where
  phase : Phase
  prog : Prog (List Nat)

/-- The shared object and all threads.  `readers` and `writer` are the state of the
`std::shared_mutex` (`memoized_distance.h:60`). -/
structure Sys where
  memo : Memo
  readers : Nat
  writer : Bool
  threads : List Thread

/-- One step of one thread. -/
inductive SysStep : Sys → Sys → Prop
  /-- `std::shared_lock reader(mutex)` succeeds (`memoized_distance.cpp:10`). -/
  | lockShared (m r pre post key k) :
      SysStep ⟨m, r, false, pre ++ ⟨.idle, .get key k⟩ :: post⟩
        ⟨m, r + 1, false, pre ++ ⟨.reading, .get key k⟩ :: post⟩
  /-- The look-up and the release of the lock at the end of `get` (`memoized_distance.cpp:11-16`). -/
  | read (m r wr pre post key k) :
      SysStep ⟨m, r, wr, pre ++ ⟨.reading, .get key k⟩ :: post⟩
        ⟨m, r - 1, wr, pre ++ ⟨.idle, k (m.get key)⟩ :: post⟩
  /-- `std::unique_lock writer(mutex)` succeeds (`memoized_distance.cpp:21`). -/
  | lockUnique (m pre post key d k) :
      SysStep ⟨m, 0, false, pre ++ ⟨.idle, .set key d k⟩ :: post⟩
        ⟨m, 0, true, pre ++ ⟨.writing, .set key d k⟩ :: post⟩
  /-- The update and the release of the lock at the end of `set` (`memoized_distance.cpp:22-23`). -/
  | write (m r wr pre post key d k) :
      SysStep ⟨m, r, wr, pre ++ ⟨.writing, .set key d k⟩ :: post⟩
        ⟨m.set key d, r, false, pre ++ ⟨.idle, k⟩ :: post⟩

/-- A fresh object and one thread per list of calls. -/
def Sys.start (A : Algorithm) (clients : List (List (Str × Str))) : Sys :=
  ⟨[], 0, false, clients.map fun calls => ⟨.idle, callSeq A calls⟩⟩

/-- `SysSteps n s s'`: an execution of `n` steps. -/
inductive SysSteps : Nat → Sys → Sys → Prop
  | refl (s) : SysSteps 0 s s
  | tail {n s s' s''} : SysSteps n s s' → SysStep s' s'' → SysSteps (n + 1) s s''

/-- A data race: one thread is accessing the map while another one is writing it. -/
def Sys.Race (s : Sys) : Prop :=
  ∃ pre mid post t t', s.threads = pre ++ t :: mid ++ t' :: post ∧
    ((t.phase = .writing ∧ t'.phase ≠ .idle) ∨ (t.phase ≠ .idle ∧ t'.phase = .writing))

/-- All threads have made all their calls. -/
def Sys.Finished (s : Sys) : Prop := ∀ t ∈ s.threads, ∃ ds, t.prog = .ret ds

end Lev
