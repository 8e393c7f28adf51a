import Verif.Model.Depth
import Verif.Proofs.DistCost

/-!
How deep the recursion of `between` goes.
-/

namespace Lev

theorem flat_setRet (key : SymPair) (d : Nat) : (setRetC key d).flat = setRet key d := rfl

theorem stdBetweenC_flat (v w : Str) : (stdBetweenC v w).flat = stdBetween v w := by
  induction hn : v.length + w.length using Nat.strongRecOn generalizing v w with
  | _ n ih =>
  subst hn
  rw [stdBetween.eq_def, stdBetweenC.eq_def]
  simp only [CProg.flat]
  congr 1
  funext o
  cases o with
  | some d => rfl
  | none =>
  match v, w, ih with
  | [], w, _ => rfl
  | a :: v, [], _ => rfl
  | a0 :: s0, b0 :: t0, ih =>
    dsimp only
    have hl := discard_length a0 s0 b0 t0
    generalize discard a0 s0 b0 t0 = r at hl ⊢
    obtain ⟨a, x, b, y⟩ := r
    simp only at hl ⊢
    have key : ∀ {p q : Str} {f : Nat → CProg} {g : Nat → Prog Nat},
        p.length + q.length < (a0 :: s0).length + (b0 :: t0).length → (∀ d, (f d).flat = g d) →
        (CProg.call (stdBetweenC p q) f).flat = (stdBetween p q).bind g :=
      fun hl hf => by simp only [CProg.flat, ih _ hl _ _ rfl, hf]
    split
    · split <;> rfl
    refine key (by simp only [List.length_cons]; omega) fun d => ?_
    split
    · rfl
    refine key (by simp only [List.length_cons]; omega) fun d => ?_
    split
    · rfl
    refine key (by simp only [List.length_cons]; omega) fun d => ?_
    split <;> rfl

theorem transBetweenC_flat (v w : Str) : (transBetweenC v w).flat = transBetween v w := by
  induction hn : v.length + w.length using Nat.strongRecOn generalizing v w with
  | _ n ih =>
  subst hn
  rw [transBetween.eq_def, transBetweenC.eq_def]
  simp only [CProg.flat]
  congr 1
  funext o
  cases o with
  | some d => rfl
  | none =>
  match v, w, ih with
  | [], w, _ => rfl
  | a :: v, [], _ => rfl
  | a0 :: s0, b0 :: t0, ih =>
    dsimp only
    have hl := discard_length a0 s0 b0 t0
    generalize discard a0 s0 b0 t0 = r at hl ⊢
    obtain ⟨a, x, b, y⟩ := r
    simp only at hl ⊢
    have key : ∀ {p q : Str} {f : Nat → CProg} {g : Nat → Prog Nat},
        p.length + q.length < (a0 :: s0).length + (b0 :: t0).length → (∀ d, (f d).flat = g d) →
        (CProg.call (transBetweenC p q) f).flat = (transBetween p q).bind g :=
      fun hl hf => by simp only [CProg.flat, ih _ hl _ _ rfl, hf]
    have l1 := (suffixF_cons a x).1.length_le
    have l2 := (suffixF_cons b y).1.length_le
    split
    · split <;> rfl
    refine key (by simp only [List.length_cons]; omega) fun d => ?_
    split
    · rfl
    refine key (by simp only [List.length_cons]; omega) fun d => ?_
    split
    · rfl
    refine key (by simp only [List.length_cons]; omega) fun d => ?_
    split
    · rfl
    split
    · refine key (by simp only [List.length_cons]; omega) fun d => ?_
      split <;> rfl
    · rfl

theorem msBetweenC_flat (v w : Str) : (msBetweenC v w).flat = msBetween v w := by
  induction hn : v.length + w.length using Nat.strongRecOn generalizing v w with
  | _ n ih =>
  subst hn
  rw [msBetween.eq_def, msBetweenC.eq_def]
  simp only [CProg.flat]
  congr 1
  funext o
  cases o with
  | some d => rfl
  | none =>
  match v, w, ih with
  | [], w, _ => rfl
  | a :: v, [], _ => rfl
  | a0 :: s0, b0 :: t0, ih =>
    dsimp only
    have hl := discard_length a0 s0 b0 t0
    generalize discard a0 s0 b0 t0 = r at hl ⊢
    obtain ⟨a, x, b, y⟩ := r
    simp only at hl ⊢
    have key : ∀ {p q : Str} {f : Nat → CProg} {g : Nat → Prog Nat},
        p.length + q.length < (a0 :: s0).length + (b0 :: t0).length → (∀ d, (f d).flat = g d) →
        (CProg.call (msBetweenC p q) f).flat = (msBetween p q).bind g :=
      fun hl hf => by simp only [CProg.flat, ih _ hl _ _ rfl, hf]
    have l1 := (suffixF_cons a x).1.length_le
    have l2 := (suffixF_cons b y).1.length_le
    split
    · split <;> rfl
    refine key (by simp only [List.length_cons]; omega) fun d => ?_
    split
    · rfl
    refine key (by simp only [List.length_cons]; omega) fun d => ?_
    split
    · rfl
    refine key (by simp only [List.length_cons]; omega) fun d => ?_
    split
    · rfl
    split
    · refine key (by simp only [List.length_cons]; omega) fun d => ?_
      split
      · rfl
      split
      · refine key (by simp only [List.length_cons]; omega) fun d => ?_
        split <;> rfl
      · rfl
    · split
      · refine key (by simp only [List.length_cons]; omega) fun d => ?_
        split <;> rfl
      · rfl

theorem betweenC_flat (A : Algorithm) (v w : Str) : (betweenC A v w).flat = between A v w := by
  cases A
  · exact stdBetweenC_flat v w
  · exact transBetweenC_flat v w
  · exact msBetweenC_flat v w

/-! ### Upper bound -/

/-- At most `B` calls on the stack, whatever the memo. -/
def Shallow (B : Nat) (p : CProg) : Prop := ∀ m, p.depth m ≤ B

theorem Shallow.setRet {B : Nat} (hB : 1 ≤ B) (key : SymPair) (d : Nat) : Shallow B (setRetC key d) := fun _ => hB

theorem Shallow.call {B : Nat} {p : CProg} {f : Nat → CProg} (hp : Shallow B p) (hf : ∀ d, Shallow (B + 1) (f d)) :
    Shallow (B + 1) (.call p f) := fun m => by
  simp only [CProg.depth]
  exact Nat.max_le.2 ⟨by have := hp m; omega, hf _ _⟩

theorem Shallow.get {B : Nat} (hB : 1 ≤ B) {key : SymPair} {f : Option Nat → CProg} (hs : ∀ d, f (some d) = .ret d)
    (hn : Shallow B (f none)) : Shallow B (.get key f) := fun m => by
  simp only [CProg.depth]
  cases m.get key with
  | some d => rw [hs]; exact hB
  | none => exact hn m

theorem Shallow.mono {B C : Nat} {p : CProg} (h : Shallow B p) (hB : B ≤ C) : Shallow C p :=
  fun m => Nat.le_trans (h m) hB

theorem stdBetweenC_depth (v w : Str) : Shallow (max 1 (v.length + w.length)) (stdBetweenC v w) := by
  induction hn : v.length + w.length using Nat.strongRecOn generalizing v w with
  | _ n ih =>
  subst hn
  rw [stdBetweenC.eq_def]
  refine Shallow.get (by omega) (fun d => rfl) ?_
  match v, w, ih with
  | [], w, _ => exact .setRet (by omega) _ _
  | a :: v, [], _ => exact .setRet (by omega) _ _
  | a0 :: s0, b0 :: t0, ih =>
    dsimp only
    have hl := discard_length a0 s0 b0 t0
    generalize discard a0 s0 b0 t0 = r at hl ⊢
    obtain ⟨a, x, b, y⟩ := r
    simp only at hl ⊢
    rw [show max 1 ((a0 :: s0).length + (b0 :: t0).length) = s0.length + t0.length + 1 + 1 by
      simp only [List.length_cons]; omega]
    have key : ∀ {p q : Str} {f : Nat → CProg}, p.length + q.length < (a0 :: s0).length + (b0 :: t0).length →
        (∀ d, Shallow (s0.length + t0.length + 1 + 1) (f d)) →
        Shallow (s0.length + t0.length + 1 + 1) (.call (stdBetweenC p q) f) :=
      fun hl hf => .call ((ih _ hl _ _ rfl).mono (by simp only [List.length_cons] at hl; omega)) hf
    split
    · split <;> exact .setRet (by omega) _ _
    refine key (by simp only [List.length_cons]; omega) fun d => ?_
    split
    · exact .setRet (by omega) _ _
    refine key (by simp only [List.length_cons]; omega) fun d => ?_
    split
    · exact .setRet (by omega) _ _
    refine key (by simp only [List.length_cons]; omega) fun d => ?_
    split <;> exact .setRet (by omega) _ _

theorem transBetweenC_depth (v w : Str) : Shallow (max 1 (v.length + w.length)) (transBetweenC v w) := by
  induction hn : v.length + w.length using Nat.strongRecOn generalizing v w with
  | _ n ih =>
  subst hn
  rw [transBetweenC.eq_def]
  refine Shallow.get (by omega) (fun d => rfl) ?_
  match v, w, ih with
  | [], w, _ => exact .setRet (by omega) _ _
  | a :: v, [], _ => exact .setRet (by omega) _ _
  | a0 :: s0, b0 :: t0, ih =>
    dsimp only
    have hl := discard_length a0 s0 b0 t0
    generalize discard a0 s0 b0 t0 = r at hl ⊢
    obtain ⟨a, x, b, y⟩ := r
    simp only at hl ⊢
    rw [show max 1 ((a0 :: s0).length + (b0 :: t0).length) = s0.length + t0.length + 1 + 1 by
      simp only [List.length_cons]; omega]
    have key : ∀ {p q : Str} {f : Nat → CProg}, p.length + q.length < (a0 :: s0).length + (b0 :: t0).length →
        (∀ d, Shallow (s0.length + t0.length + 1 + 1) (f d)) →
        Shallow (s0.length + t0.length + 1 + 1) (.call (transBetweenC p q) f) :=
      fun hl hf => .call ((ih _ hl _ _ rfl).mono (by simp only [List.length_cons] at hl; omega)) hf
    have l1 := (suffixF_cons a x).1.length_le
    have l2 := (suffixF_cons b y).1.length_le
    split
    · split <;> exact .setRet (by omega) _ _
    refine key (by simp only [List.length_cons]; omega) fun d => ?_
    split
    · exact .setRet (by omega) _ _
    refine key (by simp only [List.length_cons]; omega) fun d => ?_
    split
    · exact .setRet (by omega) _ _
    refine key (by simp only [List.length_cons]; omega) fun d => ?_
    split
    · exact .setRet (by omega) _ _
    split
    · refine key (by simp only [List.length_cons]; omega) fun d => ?_
      split <;> exact .setRet (by omega) _ _
    · exact .setRet (by omega) _ _

theorem msBetweenC_depth (v w : Str) : Shallow (max 1 (v.length + w.length)) (msBetweenC v w) := by
  induction hn : v.length + w.length using Nat.strongRecOn generalizing v w with
  | _ n ih =>
  subst hn
  rw [msBetweenC.eq_def]
  refine Shallow.get (by omega) (fun d => rfl) ?_
  match v, w, ih with
  | [], w, _ => exact .setRet (by omega) _ _
  | a :: v, [], _ => exact .setRet (by omega) _ _
  | a0 :: s0, b0 :: t0, ih =>
    dsimp only
    have hl := discard_length a0 s0 b0 t0
    generalize discard a0 s0 b0 t0 = r at hl ⊢
    obtain ⟨a, x, b, y⟩ := r
    simp only at hl ⊢
    rw [show max 1 ((a0 :: s0).length + (b0 :: t0).length) = s0.length + t0.length + 1 + 1 by
      simp only [List.length_cons]; omega]
    have key : ∀ {p q : Str} {f : Nat → CProg}, p.length + q.length < (a0 :: s0).length + (b0 :: t0).length →
        (∀ d, Shallow (s0.length + t0.length + 1 + 1) (f d)) →
        Shallow (s0.length + t0.length + 1 + 1) (.call (msBetweenC p q) f) :=
      fun hl hf => .call ((ih _ hl _ _ rfl).mono (by simp only [List.length_cons] at hl; omega)) hf
    have l1 := (suffixF_cons a x).1.length_le
    have l2 := (suffixF_cons b y).1.length_le
    split
    · split <;> exact .setRet (by omega) _ _
    refine key (by simp only [List.length_cons]; omega) fun d => ?_
    split
    · exact .setRet (by omega) _ _
    refine key (by simp only [List.length_cons]; omega) fun d => ?_
    split
    · exact .setRet (by omega) _ _
    refine key (by simp only [List.length_cons]; omega) fun d => ?_
    split
    · exact .setRet (by omega) _ _
    split
    · refine key (by simp only [List.length_cons]; omega) fun d => ?_
      split
      · exact .setRet (by omega) _ _
      split
      · refine key (by simp only [List.length_cons]; omega) fun d => ?_
        split <;> exact .setRet (by omega) _ _
      · exact .setRet (by omega) _ _
    · split
      · refine key (by simp only [List.length_cons]; omega) fun d => ?_
        split <;> exact .setRet (by omega) _ _
      · exact .setRet (by omega) _ _

theorem betweenC_depth (A : Algorithm) (v w : Str) : Shallow (max 1 (v.length + w.length)) (betweenC A v w) := by
  cases A
  · exact stdBetweenC_depth v w
  · exact transBetweenC_depth v w
  · exact msBetweenC_depth v w

/-! ### The bound is attained -/

theorem discard_ne {a b : UInt8} (h : a ≠ b) (s t : Str) : discard a s b t = (a, s, b, t) := by
  cases s with
  | nil => rfl
  | cons a' s =>
    cases t with
    | nil => rfl
    | cons b' t => simp [discard, h]

/-- The first two calls, which all three variants make. -/
theorem betweenC_ne (A : Algorithm) {a b : UInt8} (h : a ≠ b) (s t : Str) :
    ∃ f : Nat → Nat → CProg, betweenC A (a :: s) (b :: t) = .get (SymPair.make (a :: s) (b :: t)) fun
      | some d => .ret d
      | none => .call (betweenC A s (b :: t)) fun d => if 0 = d then setRetC (SymPair.make (a :: s) (b :: t)) 1 else
          .call (betweenC A (a :: s) t) (f d) := by
  cases A
  · simp only [betweenC]
    refine ⟨?_, ?_⟩
    rotate_left
    · rw [stdBetweenC.eq_def]
      dsimp only
      simp only [discard_ne h, if_neg h]
      congr 1
      funext o
      cases o with
      | some d => rfl
      | none => rfl
  · simp only [betweenC]
    refine ⟨?_, ?_⟩
    rotate_left
    · rw [transBetweenC.eq_def]
      dsimp only
      simp only [discard_ne h, if_neg h]
      congr 1
      funext o
      cases o with
      | some d => rfl
      | none => rfl
  · simp only [betweenC]
    refine ⟨?_, ?_⟩
    rotate_left
    · rw [msBetweenC.eq_def]
      dsimp only
      simp only [discard_ne h, if_neg h]
      congr 1
      funext o
      cases o with
      | some d => rfl
      | none => rfl

/-- An empty first string: one entry. -/
theorem between_nil_run (A : Algorithm) (b : UInt8) (t : Str) (m : Memo) (hm : ∀ e ∈ m, e.1.first = [] ∧ e.2 ≠ 0) :
    ((between A [] (b :: t)).run m).1 ≠ 0 ∧ ∀ e ∈ ((between A [] (b :: t)).run m).2, e.1.first = [] ∧ e.2 ≠ 0 := by
  have he : between A [] (b :: t) = .get (SymPair.make [] (b :: t)) fun
      | some d => .ret d
      | none => setRet (SymPair.make [] (b :: t)) (t.length + 1) := by
    cases A <;> simp only [between]
    · rw [stdBetween.eq_def]; rfl
    · rw [transBetween.eq_def]; rfl
    · rw [msBetween.eq_def]; rfl
  rw [he]
  simp only [Prog.run]
  cases hg : m.get (SymPair.make [] (b :: t)) with
  | some d => exact ⟨(hm _ (Memo.get_mem hg)).2, hm⟩
  | none =>
    simp only [setRet, Prog.run]
    refine ⟨by omega, ?_⟩
    rw [Memo.set_new (Memo.get_none hg)]
    intro e hme
    rcases List.mem_append.1 hme with h | h
    · exact hm e h
    · simp only [List.mem_singleton] at h
      subst h
      refine ⟨?_, by simp⟩
      simp [SymPair.make]

theorem get_nonempty {m : Memo} (hm : ∀ e ∈ m, e.1.first = [] ∧ e.2 ≠ 0) (a b : UInt8) (s t : Str) :
    m.get (SymPair.make (a :: s) (b :: t)) = none := by
  cases hg : m.get (SymPair.make (a :: s) (b :: t)) with
  | none => rfl
  | some d =>
    have := (hm _ (Memo.get_mem hg)).1
    simp only [SymPair.make] at this
    split at this <;> simp at this

theorem depth_pos (p : CProg) (m : Memo) : 1 ≤ p.depth m := by
  induction p generalizing m with
  | ret r => exact Nat.le_refl _
  | get key k ih => exact ih _ m
  | set key d k ih => exact ih _
  | call p k ih _ => simp only [CProg.depth]; omega

theorem betweenC_deep_one (A : Algorithm) {a b : UInt8} (h : a ≠ b) (k : Nat) (m : Memo)
    (hm : ∀ e ∈ m, e.1.first = [] ∧ e.2 ≠ 0) : k + 2 ≤ (betweenC A [a] (List.replicate (k + 1) b)).depth m := by
  induction k generalizing m with
  | zero =>
    obtain ⟨f, hf⟩ := betweenC_ne A h [] []
    simp only [Nat.zero_add, List.replicate_one, hf, CProg.depth, get_nonempty hm]
    have := depth_pos (betweenC A [] [b]) m
    omega
  | succ k ih =>
    obtain ⟨f, hf⟩ := betweenC_ne A h [] (List.replicate (k + 1) b)
    obtain ⟨h1, h2⟩ := between_nil_run A b (List.replicate (k + 1) b) m hm
    rw [List.replicate_succ, hf]
    simp only [CProg.depth, get_nonempty hm, betweenC_flat]
    rw [if_neg (fun h => h1 h.symm)]
    simp only [CProg.depth]
    have := ih _ h2
    omega

theorem betweenC_deep (A : Algorithm) {a b : UInt8} (h : a ≠ b) (n k : Nat) :
    n + k + 2 ≤ (betweenC A (List.replicate (n + 1) a) (List.replicate (k + 1) b)).depth [] := by
  induction n with
  | zero => simpa using betweenC_deep_one A h k [] (by simp)
  | succ n ih =>
    obtain ⟨f, hf⟩ := betweenC_ne A h (List.replicate (n + 1) a) (List.replicate k b)
    rw [List.replicate_succ, List.replicate_succ (n := k), hf]
    simp only [CProg.depth, Memo.get]
    rw [List.replicate_succ (n := k)] at ih
    omega

end Lev
