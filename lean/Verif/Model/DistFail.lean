import Verif.Model.Concurrent

/-!
# Distances that run out of memory

`std::bad_alloc` thrown by calls of `between`, in threads that share one distance object
(`/repo/src/liblevenshtein/distance/*.cpp`).  The library catches nothing, so the exception leaves the call with all
recursive calls it is in; the thread catches it there and makes its next call.

* A call may throw at any moment: copies of strings, keys (`standard_distance.cpp:10`, `:30-56`), a new entry of the map
  (`memoized_distance.cpp:22`).  More moments are allowed here than there are (looking a key up does not allocate, but
  locking a mutex may throw).
* `std::shared_lock` and `std::unique_lock` give the mutex back when an exception leaves their block.
* A map whose insertion fails is as before; the assignment of the distance to the new entry cannot fail.
-/

namespace Lev

/-- A thread: where it is with respect to the mutex, the rest of the call it is in, the calls it still has to make, and how
its calls ended: with a distance, or with an exception. -/
structure CThread where
  phase : Phase
  call : Option (Prog Nat)
  todo : List (Str × Str)
  ended : List (Option Nat)

/-- The shared object and all threads, as in `Sys`. -/
structure CSys where
  memo : Memo
  readers : Nat
  writer : Bool
  threads : List CThread

/-- The readers that are left when a thread gives the mutex back. -/
def readersLeft (p : Phase) (r : Nat) : Nat := if p = .reading then r - 1 else r

/-- Whether there is a writer when a thread gives the mutex back. -/
def writerLeft (p : Phase) (w : Bool) : Bool := if p = .writing then false else w

/-- One step of one thread. -/
inductive CStep (A : Algorithm) : CSys → CSys → Prop
  /-- `between` is called. -/
  | call (m r w pre post v u todo ended) :
      CStep A ⟨m, r, w, pre ++ ⟨.idle, none, (v, u) :: todo, ended⟩ :: post⟩
        ⟨m, r, w, pre ++ ⟨.idle, some (between A v u), todo, ended⟩ :: post⟩
  /-- The call returns. -/
  | ret (m r w pre post d todo ended) :
      CStep A ⟨m, r, w, pre ++ ⟨.idle, some (.ret d), todo, ended⟩ :: post⟩
        ⟨m, r, w, pre ++ ⟨.idle, none, todo, ended ++ [some d]⟩ :: post⟩
  /-- The call throws; locks are released. -/
  | throw (m r w pre post ph p todo ended) :
      CStep A ⟨m, r, w, pre ++ ⟨ph, some p, todo, ended⟩ :: post⟩
        ⟨m, readersLeft ph r, writerLeft ph w, pre ++ ⟨.idle, none, todo, ended ++ [none]⟩ :: post⟩
  /-- `std::shared_lock reader(mutex)` succeeds (`memoized_distance.cpp:10`). -/
  | lockShared (m r pre post key k todo ended) :
      CStep A ⟨m, r, false, pre ++ ⟨.idle, some (.get key k), todo, ended⟩ :: post⟩
        ⟨m, r + 1, false, pre ++ ⟨.reading, some (.get key k), todo, ended⟩ :: post⟩
  /-- The look-up and the release of the lock (`memoized_distance.cpp:11-16`). -/
  | read (m r w pre post key k todo ended) :
      CStep A ⟨m, r, w, pre ++ ⟨.reading, some (.get key k), todo, ended⟩ :: post⟩
        ⟨m, r - 1, w, pre ++ ⟨.idle, some (k (m.get key)), todo, ended⟩ :: post⟩
  /-- `std::unique_lock writer(mutex)` succeeds (`memoized_distance.cpp:21`). -/
  | lockUnique (m pre post key d k todo ended) :
      CStep A ⟨m, 0, false, pre ++ ⟨.idle, some (.set key d k), todo, ended⟩ :: post⟩
        ⟨m, 0, true, pre ++ ⟨.writing, some (.set key d k), todo, ended⟩ :: post⟩
  /-- The update and the release of the lock (`memoized_distance.cpp:22-23`). -/
  | write (m r w pre post key d k todo ended) :
      CStep A ⟨m, r, w, pre ++ ⟨.writing, some (.set key d k), todo, ended⟩ :: post⟩
        ⟨m.set key d, r, false, pre ++ ⟨.idle, some k, todo, ended⟩ :: post⟩

/-- Executions of `n` steps. -/
inductive CSteps (A : Algorithm) : Nat → CSys → CSys → Prop
  | refl (s) : CSteps A 0 s s
  | tail {n s s' s''} : CSteps A n s s' → CStep A s' s'' → CSteps A (n + 1) s s''

/-- A fresh object and one thread per list of calls. -/
def CSys.start (clients : List (List (Str × Str))) : CSys :=
  ⟨[], 0, false, clients.map fun calls => ⟨.idle, none, calls, []⟩⟩

/-- A data race: one thread is accessing the map while another one is writing it. -/
def CSys.Race (s : CSys) : Prop :=
  ∃ pre mid post t t', s.threads = pre ++ t :: mid ++ t' :: post ∧
    ((t.phase = .writing ∧ t'.phase ≠ .idle) ∨ (t.phase ≠ .idle ∧ t'.phase = .writing))

/-- The thread has made all its calls. -/
def CThread.Finished (t : CThread) : Prop := t.call = none ∧ t.todo = []

end Lev
