import Verif.Proofs.DistFail
import Verif.Props.Distance

/-!
# Property C92: distances that run out of memory

Threads share one distance object; each makes a list of calls.  Any call may throw at any moment, and its thread then goes on
with its next call.
-/

namespace Lev.Props

open Lev Spec

section
variable (A : Algorithm) (clients : List (List (Str × Str))) {n : Nat} {s : CSys}

/-- C92: whatever calls have thrown, in this thread or in others, a call that returns gives the answer of a fresh object.  The
calls of a thread end in their order, and each ends once. -/
theorem c92_answers (hs : CSteps A n (CSys.start clients) s) {i : Nat} {t : CThread} (ht : s.threads[i]? = some t) :
    ∃ calls, clients[i]? = some calls ∧ t.ended.length ≤ calls.length ∧ (t.Finished → t.ended.length = calls.length) ∧
      ∀ (j : Nat) c d, calls[j]? = some c → t.ended[j]? = some (some d) → d = answer A [] c.1 c.2 := by
  obtain ⟨hr, _⟩ := cright_steps ⟨CRight.start A clients, fun _ h => by cases h⟩ hs
  obtain ⟨calls, hc, past, h1, h2, h3⟩ := hr.get ht
  have hpre : past <+: calls := by
    revert h3
    split
    · intro h3; exact ⟨_, h3.symm⟩
    · rintro ⟨v, w, h3, _⟩; exact ⟨_, h3.symm⟩
  refine ⟨calls, hc, ?_, fun hf => ?_, fun j c d hj hd => ?_⟩
  · have := hpre.length_le; omega
  · rw [hf.1] at h3
    simp only at h3
    rw [h3, hf.2]; simp [h1]
  · have hj' : j < past.length := by
      have := (List.getElem?_eq_some_iff.1 hd).1
      omega
    obtain ⟨rest, rfl⟩ := hpre
    rw [List.getElem?_append_left hj'] at hj
    exact (h2 j c d hj hd).unique (answer_isMinCost A [] c.1 c.2)

/-- C92: the map is never written while another thread accesses it. -/
theorem c92_no_data_race (hs : CSteps A n (CSys.start clients) s) : ¬ s.Race := ((CLock.start clients).steps hs).no_race

/-- C92: an exception never leaves the object locked: as long as a thread has calls to make, some thread can go on, without
any further exception. -/
theorem c92_no_deadlock (hs : CSteps A n (CSys.start clients) s) (hf : ∃ t ∈ s.threads, ¬ t.Finished) :
    ∃ s', CStep A s s' ∧ s'.thrown = s.thrown :=
  ((CLock.start clients).steps hs).progress hf

/-- C92: every execution is finite. -/
theorem c92_executions_finite : ∃ N, ∀ n s, CSteps A n (CSys.start clients) s → n ≤ N :=
  ⟨_, fun _ _ h => ((CBounded.start clients).steps h).1⟩

/-- C92: when no thread is in a call, the mutex is free, and the object is as good as new: any further call returns the answer
of a fresh object. -/
theorem c92_afterwards (hs : CSteps A n (CSys.start clients) s) (hq : ∀ t ∈ s.threads, t.call = none) :
    s.readers = 0 ∧ s.writer = false ∧ ∀ v w, ((between A v w).run s.memo).1 = answer A [] v w := by
  have hl := (CLock.start clients).steps hs
  obtain ⟨h1, h2⟩ := hl.free fun t ht => CThread.idle_of_finished hl ht (hq t ht)
  obtain ⟨_, hm⟩ := cright_steps ⟨CRight.start A clients, fun _ h => by cases h⟩ hs
  exact ⟨h1, h2, fun v w => ((between_correct A v w).run hm).1.unique (answer_isMinCost A [] v w)⟩

end

/-- Two threads; the first throws while it holds the mutex, and the second goes on. -/
example : ∃ s, CSteps .standard 7 (CSys.start [[([], [97])], [([], [98])]]) s ∧ s.thrown = 1 ∧
    (∃ t ∈ s.threads, ¬ t.Finished) ∧ s.readers = 1 := by
  have h0 : CSteps .standard 0 (CSys.start [[([], [97])], [([], [98])]]) _ := .refl _
  have h1 := CSteps.tail h0 (.call [] 0 false [] [⟨.idle, none, [([], [98])], []⟩] [] [97] [] [])
  have e : ∀ w, between .standard [] w = .get (SymPair.make [] w) fun
      | some d => .ret d
      | none => setRet (SymPair.make [] w) w.length := by
    intro w
    rw [between, stdBetween.eq_def]
    congr 1
  rw [e] at h1
  have h2 := CSteps.tail h1 (.lockShared [] 0 [] [⟨.idle, none, [([], [98])], []⟩] _ _ [] [])
  have h3 := CSteps.tail h2 (.read [] 1 false [] [⟨.idle, none, [([], [98])], []⟩] _ _ [] [])
  have h4 := CSteps.tail h3 (.lockUnique [] [] [⟨.idle, none, [([], [98])], []⟩] (SymPair.make [] [97]) 1 (.ret 1) [] [])
  have h5 := CSteps.tail h4 (.throw [] 0 true [] [⟨.idle, none, [([], [98])], []⟩] .writing _ [] [])
  have h6 := CSteps.tail h5 (.call [] 0 false [⟨.idle, none, [], [none]⟩] [] [] [98] [] [])
  rw [e] at h6
  have h7 := CSteps.tail h6 (.lockShared [] 0 [⟨.idle, none, [], [none]⟩] [] _ _ [] [])
  exact ⟨_, h7, by simp [CSys.thrown], by simp [CThread.Finished], rfl⟩

end Lev.Props
