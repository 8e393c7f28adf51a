import Verif.Model.Concurrent
import Verif.Proofs.Distance

/-! Invariants of the interleaving semantics of `Verif/Model/Concurrent.lean`. -/

namespace Lev

open Spec

def Thread.isReading (t : Thread) : Bool := t.phase == .reading
def Thread.isWriting (t : Thread) : Bool := t.phase == .writing

/-- The mutex state says who is inside, and a thread inside is at the matching operation. -/
structure LockInv (s : Sys) : Prop where
  readers : s.readers = s.threads.countP Thread.isReading
  writers : s.threads.countP Thread.isWriting = if s.writer then 1 else 0
  excl : s.writer = true → s.readers = 0
  readAt : ∀ t ∈ s.threads, t.phase = .reading → ∃ key k, t.prog = .get key k
  writeAt : ∀ t ∈ s.threads, t.phase = .writing → ∃ key d k, t.prog = .set key d k

theorem LockInv.start (A : Algorithm) (clients : List (List (Str × Str))) : LockInv (Sys.start A clients) := by
  have h : ∀ t ∈ (Sys.start A clients).threads, t.phase = .idle := by
    intro t ht
    simp only [Sys.start, List.mem_map] at ht
    obtain ⟨c, _, rfl⟩ := ht
    rfl
  refine ⟨?_, ?_, by simp [Sys.start], ?_, ?_⟩
  · symm
    rw [show (Sys.start A clients).readers = 0 from rfl, List.countP_eq_zero]
    intro t ht; simp [Thread.isReading, h t ht]
  · rw [show (Sys.start A clients).writer = false from rfl]
    simp only [Bool.false_eq_true, if_false]
    rw [List.countP_eq_zero]
    intro t ht; simp [Thread.isWriting, h t ht]
  · intro t ht h'; rw [h t ht] at h'; cases h'
  · intro t ht h'; rw [h t ht] at h'; cases h'

theorem LockInv.step {s s' : Sys} (h : LockInv s) (hs : SysStep s s') : LockInv s' := by
  obtain ⟨h1, h2, h3, h4, h5⟩ := h
  have mem_swap : ∀ {pre post : List Thread} {t t' : Thread} {P : Thread → Prop},
      (∀ x ∈ pre ++ t :: post, P x) → P t' → ∀ x ∈ pre ++ t' :: post, P x := by
    intro pre post t t' P h ht' x hx
    simp only [List.mem_append, List.mem_cons] at hx h
    rcases hx with hx | rfl | hx
    · exact h x (.inl hx)
    · exact ht'
    · exact h x (.inr (.inr hx))
  cases hs with
  | lockShared m r pre post key k =>
    refine ⟨?_, ?_, by simp, mem_swap h4 (fun _ => ⟨key, k, rfl⟩), mem_swap h5 (by simp)⟩
    · simp [-List.countP_eq_zero, -Nat.add_eq_zero_iff, List.countP_append, List.countP_cons, Thread.isReading, Thread.isWriting] at *; omega
    · simpa [List.countP_append, List.countP_cons, Thread.isWriting] using h2
  | read m r wr pre post key k =>
    refine ⟨?_, ?_, ?_, mem_swap h4 (by simp), mem_swap h5 (by simp)⟩
    · simp [-List.countP_eq_zero, -Nat.add_eq_zero_iff, List.countP_append, List.countP_cons, Thread.isReading, Thread.isWriting] at *; omega
    · simpa [List.countP_append, List.countP_cons, Thread.isWriting] using h2
    · intro hw; have := h3 hw; simp at this ⊢; omega
  | lockUnique m pre post key d k =>
    refine ⟨?_, ?_, by simp, mem_swap h4 (by simp), mem_swap h5 (fun _ => ⟨key, d, k, rfl⟩)⟩
    · simp [-List.countP_eq_zero, -Nat.add_eq_zero_iff, List.countP_append, List.countP_cons, Thread.isReading, Thread.isWriting] at *; omega
    · simp [-List.countP_eq_zero, -Nat.add_eq_zero_iff, List.countP_append, List.countP_cons, Thread.isReading, Thread.isWriting] at *; omega
  | write m r wr pre post key d k =>
    refine ⟨?_, ?_, by simp, mem_swap h4 (by simp), mem_swap h5 (by simp)⟩
    · simp [-List.countP_eq_zero, -Nat.add_eq_zero_iff, List.countP_append, List.countP_cons, Thread.isReading, Thread.isWriting] at *; omega
    · simp [-List.countP_eq_zero, -Nat.add_eq_zero_iff, List.countP_append, List.countP_cons, Thread.isReading, Thread.isWriting] at *
      cases wr <;> simp [-List.countP_eq_zero, -Nat.add_eq_zero_iff] at h2 ⊢ <;> omega

theorem LockInv.steps {n : Nat} {s s' : Sys} (h : LockInv s) (hs : SysSteps n s s') : LockInv s' := by
  induction hs with
  | refl => exact h
  | tail _ hst ih => exact (ih h).step hst

theorem LockInv.no_race {s : Sys} (h : LockInv s) : ¬ s.Race := by
  rintro ⟨pre, mid, post, t, t', he, hp⟩
  obtain ⟨h1, h2, h3, -, -⟩ := h
  rw [he] at h1 h2
  simp only [List.countP_append, List.countP_cons, Thread.isReading, Thread.isWriting] at h1 h2
  have hw : s.writer = true := by
    rcases hp with ⟨ht, -⟩ | ⟨-, ht⟩
    · by_cases hw : s.writer = true
      · exact hw
      · simp [ht, hw] at h2
    · by_cases hw : s.writer = true
      · exact hw
      · simp [ht, hw] at h2
  have h3 := h3 hw
  simp only [hw, if_true] at h2
  rcases hp with ⟨ht, ht'⟩ | ⟨ht', ht⟩
  · simp only [ht] at h1 h2
    cases hph : t'.phase with
    | idle => exact ht' hph
    | reading => simp [hph] at h1; omega
    | writing => simp [hph] at h2; omega
  · simp only [ht] at h1 h2
    cases hph : t.phase with
    | idle => exact ht' hph
    | reading => simp [hph] at h1; omega
    | writing => simp [hph] at h2; omega

/-- Deadlock freedom: if some thread is not done, some thread can take a step. -/
theorem LockInv.progress {s : Sys} (h : LockInv s) (hf : ¬ s.Finished) : ∃ s', SysStep s s' := by
  obtain ⟨m, r, wr, ts⟩ := s
  -- a thread holding the mutex can always go on
  by_cases hin : ∃ t ∈ ts, t.phase ≠ .idle
  · obtain ⟨t, ht, hph⟩ := hin
    obtain ⟨pre, post, rfl⟩ := List.append_of_mem ht
    cases hph' : t.phase with
    | idle => exact absurd hph' hph
    | reading =>
      obtain ⟨key, k, hk⟩ := h.readAt t ht hph'
      obtain ⟨ph, pr⟩ := t
      simp only at hk hph'
      subst hk; subst hph'
      exact ⟨_, .read m r wr pre post key k⟩
    | writing =>
      obtain ⟨key, d, k, hk⟩ := h.writeAt t ht hph'
      obtain ⟨ph, pr⟩ := t
      simp only at hk hph'
      subst hk; subst hph'
      exact ⟨_, .write m r wr pre post key d k⟩
  · -- nobody holds it: it is free
    have hidle : ∀ t ∈ ts, t.phase = .idle := fun t ht => Classical.byContradiction fun hn => hin ⟨t, ht, hn⟩
    have hr : r = 0 := by
      have := h.readers
      simp only at this
      rw [this, List.countP_eq_zero]
      intro t ht; simp [Thread.isReading, hidle t ht]
    have hw : wr = false := by
      have := h.writers
      simp only at this
      have h0 : ts.countP Thread.isWriting = 0 := by
        rw [List.countP_eq_zero]; intro t ht; simp [Thread.isWriting, hidle t ht]
      rw [h0] at this
      cases wr
      · rfl
      · simp at this
    subst hr; subst hw
    obtain ⟨t, ht, hnr⟩ : ∃ t ∈ ts, ¬ ∃ ds, t.prog = .ret ds := by
      refine Classical.byContradiction fun hn => hf fun t ht => ?_
      exact Classical.byContradiction fun hn' => hn ⟨t, ht, hn'⟩
    obtain ⟨pre, post, rfl⟩ := List.append_of_mem ht
    have hph := hidle t ht
    obtain ⟨ph, pr⟩ := t
    simp only at hph hnr
    subst hph
    cases pr with
    | ret ds => exact absurd ⟨ds, rfl⟩ hnr
    | get key k => exact ⟨_, .lockShared m 0 pre post key k⟩
    | set key d k => exact ⟨_, .lockUnique m pre post key d k⟩

/-! ### Results -/

/-- Thread `i` is still on its way to the right results for its calls. -/
def ThreadsCorrect (A : Algorithm) : List (List (Str × Str)) → List Thread → Prop
  | [], [] => True
  | c :: cs, t :: ts => t.prog.Correct (GoodEntry A) (AllMin A c) ∧ ThreadsCorrect A cs ts
  | _, _ => False

theorem ThreadsCorrect.start (A : Algorithm) (clients : List (List (Str × Str))) :
    ThreadsCorrect A clients (clients.map fun calls => ⟨.idle, callSeq A calls⟩) := by
  induction clients with
  | nil => trivial
  | cons c cs ih => exact ⟨callSeq_correct A c, ih⟩

theorem ThreadsCorrect.replace {A : Algorithm} {cs : List (List (Str × Str))} {pre post : List Thread} {t t' : Thread}
    (h : ThreadsCorrect A cs (pre ++ t :: post))
    (ht : ∀ c, t.prog.Correct (GoodEntry A) (AllMin A c) → t'.prog.Correct (GoodEntry A) (AllMin A c)) :
    ThreadsCorrect A cs (pre ++ t' :: post) := by
  induction pre generalizing cs with
  | nil =>
    cases cs with
    | nil => exact h.elim
    | cons c cs => exact ⟨ht c h.1, h.2⟩
  | cons x pre ih =>
    cases cs with
    | nil => exact h.elim
    | cons c cs => exact ⟨h.1, ih h.2⟩

theorem ThreadsCorrect.mem {A : Algorithm} {cs : List (List (Str × Str))} {ts : List Thread} {t : Thread}
    (h : ThreadsCorrect A cs ts) (ht : t ∈ ts) : ∃ c, t.prog.Correct (GoodEntry A) (AllMin A c) := by
  induction ts generalizing cs with
  | nil => cases ht
  | cons x ts ih =>
    cases cs with
    | nil => exact h.elim
    | cons c cs =>
      rcases List.mem_cons.1 ht with rfl | ht
      · exact ⟨c, h.1⟩
      · exact ih h.2 ht

theorem results_step {A : Algorithm} {cs : List (List (Str × Str))} {s s' : Sys}
    (h : ThreadsCorrect A cs s.threads ∧ s.memo.Good (GoodEntry A)) (hs : SysStep s s') :
    ThreadsCorrect A cs s'.threads ∧ s'.memo.Good (GoodEntry A) := by
  obtain ⟨ht, hm⟩ := h
  cases hs with
  | lockShared => exact ⟨ht.replace fun c hc => hc, hm⟩
  | lockUnique => exact ⟨ht.replace fun c hc => hc, hm⟩
  | read m r wr pre post key k => exact ⟨ht.replace fun c hc => hc _ (hm.get key), hm⟩
  | write m r wr pre post key d k =>
    refine ⟨ht.replace fun c hc => hc.2, hm.set ?_⟩
    obtain ⟨c, hc⟩ := ht.mem (t := ⟨.writing, .set key d k⟩) (by simp)
    exact hc.1

theorem results_steps {A : Algorithm} {cs : List (List (Str × Str))} {n : Nat} {s s' : Sys}
    (h : ThreadsCorrect A cs s.threads ∧ s.memo.Good (GoodEntry A)) (hs : SysSteps n s s') :
    ThreadsCorrect A cs s'.threads ∧ s'.memo.Good (GoodEntry A) := by
  induction hs with
  | refl => exact h
  | tail _ hst ih => exact results_step (ih h) hst

theorem results_start (A : Algorithm) (clients : List (List (Str × Str))) :
    ThreadsCorrect A clients (Sys.start A clients).threads ∧ (Sys.start A clients).memo.Good (GoodEntry A) :=
  ⟨ThreadsCorrect.start A clients, fun _ h => by cases h⟩

/-! ### Termination -/

/-- The thread takes at most `n` more steps. -/
def Thread.Bounded (t : Thread) (n : Nat) : Prop :=
  ∃ m, t.prog.Bounded m ∧ if t.phase = .idle then 2 * m ≤ n else 2 * m ≤ n + 1

/-- All threads together take at most `n` more steps. -/
def ThreadsBounded : List Thread → Nat → Prop
  | [], _ => True
  | t :: ts, n => ∃ a b, t.Bounded a ∧ ThreadsBounded ts b ∧ a + b ≤ n

theorem ThreadsBounded.replace {pre post : List Thread} {t t' : Thread} {n : Nat}
    (h : ThreadsBounded (pre ++ t :: post) n)
    (ht : ∀ a, t.Bounded a → 0 < a ∧ t'.Bounded (a - 1)) :
    0 < n ∧ ThreadsBounded (pre ++ t' :: post) (n - 1) := by
  induction pre generalizing n with
  | nil =>
    obtain ⟨a, b, ha, hb, hab⟩ := h
    obtain ⟨ha', ht'⟩ := ht a ha
    exact ⟨by omega, a - 1, b, ht', hb, by omega⟩
  | cons x pre ih =>
    obtain ⟨a, b, ha, hb, hab⟩ := h
    obtain ⟨h0, hb'⟩ := ih hb
    exact ⟨by omega, a, b - 1, ha, hb', by omega⟩

theorem ThreadsBounded.step {s s' : Sys} {n : Nat} (h : ThreadsBounded s.threads n) (hs : SysStep s s') :
    0 < n ∧ ThreadsBounded s'.threads (n - 1) := by
  cases hs with
  | lockShared m r pre post key k =>
    refine h.replace fun a ha => ?_
    obtain ⟨b, hb, hab⟩ := ha
    have := hb.1
    simp only [if_true] at hab
    exact ⟨by omega, b, hb, by simp only [reduceCtorEq, if_false]; omega⟩
  | read m r wr pre post key k =>
    refine h.replace fun a ha => ?_
    obtain ⟨b, hb, hab⟩ := ha
    have := hb.1
    simp only [reduceCtorEq, if_false] at hab
    exact ⟨by omega, b - 1, hb.2 _, by simp only [if_true]; omega⟩
  | lockUnique m pre post key d k =>
    refine h.replace fun a ha => ?_
    obtain ⟨b, hb, hab⟩ := ha
    have := hb.1
    simp only [if_true] at hab
    exact ⟨by omega, b, hb, by simp only [reduceCtorEq, if_false]; omega⟩
  | write m r wr pre post key d k =>
    refine h.replace fun a ha => ?_
    obtain ⟨b, hb, hab⟩ := ha
    have := hb.1
    simp only [reduceCtorEq, if_false] at hab
    exact ⟨by omega, b - 1, hb.2, by simp only [if_true]; omega⟩

theorem ThreadsBounded.steps {s s' : Sys} {n k : Nat} (h : ThreadsBounded s.threads n) (hs : SysSteps k s s') :
    k ≤ n ∧ ThreadsBounded s'.threads (n - k) := by
  induction hs with
  | refl => exact ⟨by omega, h⟩
  | @tail k s s' s'' _ hst ih =>
    obtain ⟨h1, h2⟩ := ih h
    obtain ⟨h3, h4⟩ := h2.step hst
    exact ⟨by omega, by rw [show n - (k + 1) = n - k - 1 from by omega]; exact h4⟩

/-- Bound on the steps of all threads together. -/
def sysBound : List (List (Str × Str)) → Nat
  | [] => 0
  | c :: cs => 2 * seqBound c + sysBound cs

theorem ThreadsBounded.start (A : Algorithm) (clients : List (List (Str × Str))) :
    ThreadsBounded (Sys.start A clients).threads (sysBound clients) := by
  unfold Sys.start
  induction clients with
  | nil => trivial
  | cons c cs ih =>
    exact ⟨2 * seqBound c, sysBound cs, ⟨seqBound c, callSeq_bounded A c, by simp⟩, ih, Nat.le_refl _⟩

end Lev
