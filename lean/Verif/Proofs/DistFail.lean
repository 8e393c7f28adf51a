import Verif.Model.DistFail
import Verif.Proofs.Concurrent

/-! Invariants of `Verif/Model/DistFail.lean`. -/

namespace Lev

open Spec

def CThread.isReading (t : CThread) : Bool := t.phase == .reading
def CThread.isWriting (t : CThread) : Bool := t.phase == .writing

/-- As `LockInv`. -/
structure CLock (s : CSys) : Prop where
  readers : s.readers = s.threads.countP CThread.isReading
  writers : s.threads.countP CThread.isWriting = if s.writer then 1 else 0
  excl : s.writer = true → s.readers = 0
  readAt : ∀ t ∈ s.threads, t.phase = .reading → ∃ key k, t.call = some (.get key k)
  writeAt : ∀ t ∈ s.threads, t.phase = .writing → ∃ key d k, t.call = some (.set key d k)

theorem CLock.start (clients : List (List (Str × Str))) : CLock (CSys.start clients) := by
  have h : ∀ t ∈ (CSys.start clients).threads, t.phase = .idle := by
    intro t ht
    simp only [CSys.start, List.mem_map] at ht
    obtain ⟨c, _, rfl⟩ := ht
    rfl
  refine ⟨?_, ?_, by simp [CSys.start], ?_, ?_⟩
  · symm
    rw [show (CSys.start clients).readers = 0 from rfl, List.countP_eq_zero]
    intro t ht; simp [CThread.isReading, h t ht]
  · rw [show (CSys.start clients).writer = false from rfl]
    simp only [Bool.false_eq_true, if_false]
    rw [List.countP_eq_zero]
    intro t ht; simp [CThread.isWriting, h t ht]
  · intro t ht h'; rw [h t ht] at h'; cases h'
  · intro t ht h'; rw [h t ht] at h'; cases h'

theorem CLock.step {A : Algorithm} {s s' : CSys} (h : CLock s) (hs : CStep A s s') : CLock s' := by
  obtain ⟨h1, h2, h3, h4, h5⟩ := h
  have mem_swap : ∀ {pre post : List CThread} {t t' : CThread} {P : CThread → Prop},
      (∀ x ∈ pre ++ t :: post, P x) → P t' → ∀ x ∈ pre ++ t' :: post, P x := by
    intro pre post t t' P h ht' x hx
    simp only [List.mem_append, List.mem_cons] at hx h
    rcases hx with hx | rfl | hx
    · exact h x (.inl hx)
    · exact ht'
    · exact h x (.inr (.inr hx))
  cases hs with
  | call =>
    refine ⟨?_, ?_, h3, mem_swap h4 (by simp), mem_swap h5 (by simp)⟩
    · simpa [List.countP_append, List.countP_cons, CThread.isReading] using h1
    · simpa [List.countP_append, List.countP_cons, CThread.isWriting] using h2
  | ret =>
    refine ⟨?_, ?_, h3, mem_swap h4 (by simp), mem_swap h5 (by simp)⟩
    · simpa [List.countP_append, List.countP_cons, CThread.isReading] using h1
    · simpa [List.countP_append, List.countP_cons, CThread.isWriting] using h2
  | throw m r w pre post ph p todo ended =>
    cases ph with
    | idle =>
      refine ⟨?_, ?_, by simpa [readersLeft, writerLeft] using h3, mem_swap h4 (by simp), mem_swap h5 (by simp)⟩
      · simpa [readersLeft, List.countP_append, List.countP_cons, CThread.isReading] using h1
      · simpa [writerLeft, List.countP_append, List.countP_cons, CThread.isWriting] using h2
    | reading =>
      refine ⟨?_, ?_, ?_, mem_swap h4 (by simp), mem_swap h5 (by simp)⟩
      · simp [-List.countP_eq_zero, -Nat.add_eq_zero_iff, readersLeft, List.countP_append, List.countP_cons, CThread.isReading] at *
        omega
      · simpa [writerLeft, List.countP_append, List.countP_cons, CThread.isWriting] using h2
      · intro hw; have := h3 (by simpa [writerLeft] using hw); simp [readersLeft] at this ⊢; omega
    | writing =>
      refine ⟨?_, ?_, by simp [writerLeft], mem_swap h4 (by simp), mem_swap h5 (by simp)⟩
      · simpa [readersLeft, List.countP_append, List.countP_cons, CThread.isReading] using h1
      · simp [-List.countP_eq_zero, -Nat.add_eq_zero_iff, writerLeft, List.countP_append, List.countP_cons, CThread.isWriting] at *
        cases w <;> simp [-List.countP_eq_zero, -Nat.add_eq_zero_iff] at h2 ⊢ <;> omega
  | lockShared m r pre post key k =>
    refine ⟨?_, ?_, by simp, mem_swap h4 (fun _ => ⟨key, k, rfl⟩), mem_swap h5 (by simp)⟩
    · simp [-List.countP_eq_zero, -Nat.add_eq_zero_iff, List.countP_append, List.countP_cons, CThread.isReading, CThread.isWriting] at *; omega
    · simpa [List.countP_append, List.countP_cons, CThread.isWriting] using h2
  | read m r wr pre post key k =>
    refine ⟨?_, ?_, ?_, mem_swap h4 (by simp), mem_swap h5 (by simp)⟩
    · simp [-List.countP_eq_zero, -Nat.add_eq_zero_iff, List.countP_append, List.countP_cons, CThread.isReading, CThread.isWriting] at *; omega
    · simpa [List.countP_append, List.countP_cons, CThread.isWriting] using h2
    · intro hw; have := h3 hw; simp at this ⊢; omega
  | lockUnique m pre post key d k =>
    refine ⟨?_, ?_, by simp, mem_swap h4 (by simp), mem_swap h5 (fun _ => ⟨key, d, k, rfl⟩)⟩
    · simp [-List.countP_eq_zero, -Nat.add_eq_zero_iff, List.countP_append, List.countP_cons, CThread.isReading, CThread.isWriting] at *; omega
    · simp [-List.countP_eq_zero, -Nat.add_eq_zero_iff, List.countP_append, List.countP_cons, CThread.isReading, CThread.isWriting] at *; omega
  | write m r wr pre post key d k =>
    refine ⟨?_, ?_, by simp, mem_swap h4 (by simp), mem_swap h5 (by simp)⟩
    · simp [-List.countP_eq_zero, -Nat.add_eq_zero_iff, List.countP_append, List.countP_cons, CThread.isReading, CThread.isWriting] at *; omega
    · simp [-List.countP_eq_zero, -Nat.add_eq_zero_iff, List.countP_append, List.countP_cons, CThread.isReading, CThread.isWriting] at *
      cases wr <;> simp [-List.countP_eq_zero, -Nat.add_eq_zero_iff] at h2 ⊢ <;> omega

theorem CLock.steps {A : Algorithm} {n : Nat} {s s' : CSys} (h : CLock s) (hs : CSteps A n s s') : CLock s' := by
  induction hs with
  | refl => exact h
  | tail _ hst ih => exact (ih h).step hst

theorem CLock.no_race {s : CSys} (h : CLock s) : ¬ s.Race := by
  rintro ⟨pre, mid, post, t, t', he, hp⟩
  obtain ⟨h1, h2, h3, -, -⟩ := h
  rw [he] at h1 h2
  simp only [List.countP_append, List.countP_cons, CThread.isReading, CThread.isWriting] at h1 h2
  have hw : s.writer = true := by
    rcases hp with ⟨ht, -⟩ | ⟨-, ht⟩
    · by_cases hw : s.writer = true
      · exact hw
      · simp [ht, hw] at h2
    · by_cases hw : s.writer = true
      · exact hw
      · simp [ht, hw] at h2
  have h3 := h3 hw
  simp only [hw, if_true] at h2
  rcases hp with ⟨ht, ht'⟩ | ⟨ht', ht⟩
  · simp only [ht] at h1 h2
    cases hph : t'.phase with
    | idle => exact ht' hph
    | reading => simp [hph] at h1; omega
    | writing => simp [hph] at h2; omega
  · simp only [ht] at h1 h2
    cases hph : t.phase with
    | idle => exact ht' hph
    | reading => simp [hph] at h1; omega
    | writing => simp [hph] at h2; omega

/-- If no thread is inside, the mutex is free. -/
theorem CLock.free {s : CSys} (h : CLock s) (hidle : ∀ t ∈ s.threads, t.phase = .idle) : s.readers = 0 ∧ s.writer = false := by
  constructor
  · rw [h.readers, List.countP_eq_zero]
    intro t ht; simp [CThread.isReading, hidle t ht]
  · have h0 : s.threads.countP CThread.isWriting = 0 := by
      rw [List.countP_eq_zero]; intro t ht; simp [CThread.isWriting, hidle t ht]
    have := h.writers
    rw [h0] at this
    cases hw : s.writer
    · rfl
    · simp [hw] at this

theorem CThread.idle_of_finished {s : CSys} (h : CLock s) {t : CThread} (ht : t ∈ s.threads) (hf : t.call = none) :
    t.phase = .idle := by
  cases hph : t.phase with
  | idle => rfl
  | reading => obtain ⟨_, _, e⟩ := h.readAt t ht hph; rw [hf] at e; cases e
  | writing => obtain ⟨_, _, _, e⟩ := h.writeAt t ht hph; rw [hf] at e; cases e

/-- How many calls have thrown. -/
def CSys.thrown (s : CSys) : Nat := (s.threads.map fun t => t.ended.count none).sum

/-- Without any further exception, some thread can go on. -/
theorem CLock.progress {A : Algorithm} {s : CSys} (h : CLock s) (hf : ∃ t ∈ s.threads, ¬ t.Finished) :
    ∃ s', CStep A s s' ∧ s'.thrown = s.thrown := by
  obtain ⟨m, r, wr, ts⟩ := s
  by_cases hin : ∃ t ∈ ts, t.phase ≠ .idle
  · obtain ⟨t, ht, hph⟩ := hin
    obtain ⟨pre, post, rfl⟩ := List.append_of_mem ht
    cases hph' : t.phase with
    | idle => exact absurd hph' hph
    | reading =>
      obtain ⟨key, k, hk⟩ := h.readAt t ht hph'
      obtain ⟨ph, pr, _, _⟩ := t
      simp only at hk hph'
      subst hk; subst hph'
      exact ⟨_, .read m r wr pre post key k _ _, by simp [CSys.thrown]⟩
    | writing =>
      obtain ⟨key, d, k, hk⟩ := h.writeAt t ht hph'
      obtain ⟨ph, pr, _, _⟩ := t
      simp only at hk hph'
      subst hk; subst hph'
      exact ⟨_, .write m r wr pre post key d k _ _, by simp [CSys.thrown]⟩
  · have hidle : ∀ t ∈ ts, t.phase = .idle := fun t ht => Classical.byContradiction fun hn => hin ⟨t, ht, hn⟩
    obtain ⟨hr, hw⟩ := h.free hidle
    simp only at hr hw
    subst hr; subst hw
    obtain ⟨t, ht, hnr⟩ := hf
    obtain ⟨pre, post, rfl⟩ := List.append_of_mem ht
    have hph := hidle t ht
    obtain ⟨ph, pr, todo, ended⟩ := t
    simp only at hph hnr
    subst hph
    cases pr with
    | none =>
      cases todo with
      | nil => exact absurd ⟨rfl, rfl⟩ hnr
      | cons c todo => exact ⟨_, .call m 0 false pre post c.1 c.2 todo ended, by simp [CSys.thrown]⟩
    | some p =>
      cases p with
      | ret d => exact ⟨_, .ret m 0 false pre post d todo ended, by simp [CSys.thrown, List.count_append]⟩
      | get key k => exact ⟨_, .lockShared m 0 pre post key k todo ended, by simp [CSys.thrown]⟩
      | set key d k => exact ⟨_, .lockUnique m pre post key d k todo ended, by simp [CSys.thrown]⟩

/-! ### Results -/

/-- The thread has made the calls `past`, is perhaps in the next one, and has the rest to make. -/
def CThread.Right (A : Algorithm) (calls : List (Str × Str)) (t : CThread) : Prop :=
  ∃ past, past.length = t.ended.length ∧
    (∀ (i : Nat) (c : Str × Str) (d : Nat), past[i]? = some c → t.ended[i]? = some (some d) → IsMinCost A c.1 c.2 d) ∧
    match t.call with
    | none => calls = past ++ t.todo
    | some p => ∃ v w, calls = past ++ (v, w) :: t.todo ∧ p.Correct (GoodEntry A) (IsMinCost A v w)

/-- The same for all threads. -/
def CRight (A : Algorithm) : List (List (Str × Str)) → List CThread → Prop
  | [], [] => True
  | c :: cs, t :: ts => t.Right A c ∧ CRight A cs ts
  | _, _ => False

theorem CRight.start (A : Algorithm) (clients : List (List (Str × Str))) :
    CRight A clients (CSys.start clients).threads := by
  unfold CSys.start
  induction clients with
  | nil => trivial
  | cons c cs ih => exact ⟨⟨[], rfl, by simp, rfl⟩, ih⟩

theorem CRight.replace {A : Algorithm} {cs : List (List (Str × Str))} {pre post : List CThread} {t t' : CThread}
    (h : CRight A cs (pre ++ t :: post)) (ht : ∀ c, t.Right A c → t'.Right A c) : CRight A cs (pre ++ t' :: post) := by
  induction pre generalizing cs with
  | nil =>
    cases cs with
    | nil => exact h.elim
    | cons c cs => exact ⟨ht c h.1, h.2⟩
  | cons x pre ih =>
    cases cs with
    | nil => exact h.elim
    | cons c cs => exact ⟨h.1, ih h.2⟩

theorem CRight.mem {A : Algorithm} {cs : List (List (Str × Str))} {ts : List CThread} {t : CThread}
    (h : CRight A cs ts) (ht : t ∈ ts) : ∃ c, t.Right A c := by
  induction ts generalizing cs with
  | nil => cases ht
  | cons x ts ih =>
    cases cs with
    | nil => exact h.elim
    | cons c cs =>
      rcases List.mem_cons.1 ht with rfl | ht
      · exact ⟨c, h.1⟩
      · exact ih h.2 ht

theorem CRight.get {A : Algorithm} {cs : List (List (Str × Str))} {ts : List CThread} (h : CRight A cs ts) {i : Nat}
    {t : CThread} (ht : ts[i]? = some t) : ∃ c, cs[i]? = some c ∧ t.Right A c := by
  induction i generalizing cs ts with
  | zero =>
    cases ts with
    | nil => simp at ht
    | cons x ts =>
      cases cs with
      | nil => exact h.elim
      | cons c cs => simp at ht; subst ht; exact ⟨c, rfl, h.1⟩
  | succ i ih =>
    cases ts with
    | nil => simp at ht
    | cons x ts =>
      cases cs with
      | nil => exact h.elim
      | cons c cs => exact ih h.2 (by simpa using ht)

/-- One more call has ended. -/
theorem right_ended {A : Algorithm} {past : List (Str × Str)} {ended : List (Option Nat)} {v w : Str} {o : Option Nat}
    (hl : past.length = ended.length)
    (hr : ∀ (i : Nat) c d, past[i]? = some c → ended[i]? = some (some d) → IsMinCost A c.1 c.2 d)
    (ho : ∀ d, o = some d → IsMinCost A v w d) :
    ∀ (i : Nat) c d, (past ++ [(v, w)])[i]? = some c → (ended ++ [o])[i]? = some (some d) → IsMinCost A c.1 c.2 d := by
  intro i c d h1 h2
  by_cases hi : i < past.length
  · rw [List.getElem?_append_left hi] at h1
    rw [List.getElem?_append_left (by omega)] at h2
    exact hr i c d h1 h2
  · have hi' : i = past.length := by
      have := (List.getElem?_eq_some_iff.1 h1).1
      simp at this
      omega
    subst hi'
    rw [List.getElem?_append_right (Nat.le_refl _)] at h1
    rw [hl, List.getElem?_append_right (Nat.le_refl _)] at h2
    simp at h1 h2
    subst h1
    exact ho d h2

theorem cright_step {A : Algorithm} {cs : List (List (Str × Str))} {s s' : CSys}
    (h : CRight A cs s.threads ∧ s.memo.Good (GoodEntry A)) (hs : CStep A s s') :
    CRight A cs s'.threads ∧ s'.memo.Good (GoodEntry A) := by
  obtain ⟨ht, hm⟩ := h
  cases hs with
  | call m r w pre post v u todo ended =>
    refine ⟨ht.replace fun c hc => ?_, hm⟩
    obtain ⟨past, h1, h2, h3⟩ := hc
    exact ⟨past, h1, h2, v, u, h3, between_correct A v u⟩
  | ret m r w pre post d todo ended =>
    refine ⟨ht.replace fun c hc => ?_, hm⟩
    obtain ⟨past, h1, h2, v, u, h3, h4⟩ := hc
    simp only at h1 h2 h3
    refine ⟨past ++ [(v, u)], by simp [h1], right_ended h1 h2 (fun d' e => ?_), by simp [h3]⟩
    cases e
    exact h4
  | throw m r w pre post ph p todo ended =>
    refine ⟨ht.replace fun c hc => ?_, hm⟩
    obtain ⟨past, h1, h2, v, u, h3, h4⟩ := hc
    simp only at h1 h2 h3
    exact ⟨past ++ [(v, u)], by simp [h1], right_ended h1 h2 (fun d' e => by cases e), by simp [h3]⟩
  | lockShared => exact ⟨ht.replace fun c hc => hc, hm⟩
  | lockUnique => exact ⟨ht.replace fun c hc => hc, hm⟩
  | read m r wr pre post key k =>
    refine ⟨ht.replace fun c hc => ?_, hm⟩
    obtain ⟨past, h1, h2, v, u, h3, h4⟩ := hc
    exact ⟨past, h1, h2, v, u, h3, h4 _ (hm.get key)⟩
  | write m r wr pre post key d k todo ended =>
    refine ⟨ht.replace fun c hc => ?_, hm.set ?_⟩
    · obtain ⟨past, h1, h2, v, u, h3, h4⟩ := hc
      exact ⟨past, h1, h2, v, u, h3, h4.2⟩
    · obtain ⟨c, past, h1, h2, v, u, h3, h4⟩ := ht.mem (t := ⟨.writing, some (.set key d k), todo, ended⟩) (by simp)
      exact h4.1

theorem cright_steps {A : Algorithm} {cs : List (List (Str × Str))} {n : Nat} {s s' : CSys}
    (h : CRight A cs s.threads ∧ s.memo.Good (GoodEntry A)) (hs : CSteps A n s s') :
    CRight A cs s'.threads ∧ s'.memo.Good (GoodEntry A) := by
  induction hs with
  | refl => exact h
  | tail _ hst ih => exact cright_step (ih h) hst

/-! ### Termination -/

/-- Steps for calls that have not begun. -/
def todoBound : List (Str × Str) → Nat
  | [] => 0
  | (v, w) :: calls => 2 * opBound (v.length + w.length) + 2 + todoBound calls

/-- The thread takes at most `n` more steps. -/
def CThread.Bounded (t : CThread) (n : Nat) : Prop :=
  match t.call with
  | none => todoBound t.todo ≤ n
  | some p => ∃ m, p.Bounded m ∧ (if t.phase = .idle then 2 * m + 1 + todoBound t.todo ≤ n else 2 * m + todoBound t.todo ≤ n ∧ 0 < m)

/-- All threads together take at most `n` more steps. -/
def CBounded : List CThread → Nat → Prop
  | [], _ => True
  | t :: ts, n => ∃ a b, t.Bounded a ∧ CBounded ts b ∧ a + b ≤ n

theorem CBounded.replace {pre post : List CThread} {t t' : CThread} {n : Nat} (h : CBounded (pre ++ t :: post) n)
    (ht : ∀ a, t.Bounded a → 0 < a ∧ t'.Bounded (a - 1)) : 0 < n ∧ CBounded (pre ++ t' :: post) (n - 1) := by
  induction pre generalizing n with
  | nil =>
    obtain ⟨a, b, ha, hb, hab⟩ := h
    obtain ⟨ha', ht'⟩ := ht a ha
    exact ⟨by omega, a - 1, b, ht', hb, by omega⟩
  | cons x pre ih =>
    obtain ⟨a, b, ha, hb, hab⟩ := h
    obtain ⟨h0, hb'⟩ := ih hb
    exact ⟨by omega, a, b - 1, ha, hb', by omega⟩

theorem CBounded.step {A : Algorithm} {s s' : CSys} {n : Nat} (h : CBounded s.threads n) (hs : CStep A s s') :
    0 < n ∧ CBounded s'.threads (n - 1) := by
  cases hs with
  | call m r w pre post v u todo ended =>
    refine h.replace fun a ha => ?_
    simp only [CThread.Bounded, todoBound] at ha
    exact ⟨by omega, _, between_bounded A v u, by simp only [if_true]; omega⟩
  | ret m r w pre post d todo ended =>
    refine h.replace fun a ha => ?_
    obtain ⟨b, hb, hab⟩ := ha
    simp only [if_true] at hab
    exact ⟨by omega, by simp only [CThread.Bounded]; omega⟩
  | throw m r w pre post ph p todo ended =>
    refine h.replace fun a ha => ?_
    obtain ⟨b, hb, hab⟩ := ha
    simp only at hab
    split at hab
    · exact ⟨by omega, by simp only [CThread.Bounded]; omega⟩
    · exact ⟨by omega, by simp only [CThread.Bounded]; omega⟩
  | lockShared m r pre post key k =>
    refine h.replace fun a ha => ?_
    obtain ⟨b, hb, hab⟩ := ha
    have := hb.1
    simp only [if_true] at hab
    exact ⟨by omega, b, hb, by simp only [reduceCtorEq, if_false]; omega⟩
  | read m r wr pre post key k =>
    refine h.replace fun a ha => ?_
    obtain ⟨b, hb, hab⟩ := ha
    have := hb.1
    simp only [reduceCtorEq, if_false] at hab
    exact ⟨by omega, b - 1, hb.2 _, by simp only [if_true]; omega⟩
  | lockUnique m pre post key d k =>
    refine h.replace fun a ha => ?_
    obtain ⟨b, hb, hab⟩ := ha
    have := hb.1
    simp only [if_true] at hab
    exact ⟨by omega, b, hb, by simp only [reduceCtorEq, if_false]; omega⟩
  | write m r wr pre post key d k =>
    refine h.replace fun a ha => ?_
    obtain ⟨b, hb, hab⟩ := ha
    have := hb.1
    simp only [reduceCtorEq, if_false] at hab
    exact ⟨by omega, b - 1, hb.2, by simp only [if_true]; omega⟩

theorem CBounded.steps {A : Algorithm} {s s' : CSys} {n k : Nat} (h : CBounded s.threads n) (hs : CSteps A k s s') :
    k ≤ n ∧ CBounded s'.threads (n - k) := by
  induction hs with
  | refl => exact ⟨by omega, h⟩
  | @tail k s s' s'' _ hst ih =>
    obtain ⟨h1, h2⟩ := ih h
    obtain ⟨h3, h4⟩ := h2.step hst
    exact ⟨by omega, by rw [show n - (k + 1) = n - k - 1 from by omega]; exact h4⟩

theorem CBounded.start (clients : List (List (Str × Str))) :
    CBounded (CSys.start clients).threads (clients.map todoBound).sum := by
  unfold CSys.start
  induction clients with
  | nil => trivial
  | cons c cs ih => exact ⟨todoBound c, _, Nat.le_refl _, ih, Nat.le_refl _⟩

end Lev
