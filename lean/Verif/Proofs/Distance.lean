import Verif.Model.Distance
import Verif.Proofs.Align

/-! Every call of the memoized distances computes the least alignment cost, whatever correct
entries the memo holds; and it performs a bounded number of memo operations. -/

namespace Lev

open Spec

/-- All results satisfy `Q` and all writes satisfy `good`, provided all reads do. -/
def Prog.Correct {R : Type} (good : SymPair → Nat → Prop) (Q : R → Prop) : Prog R → Prop
  | .ret r => Q r
  | .get key k => ∀ o, (∀ d, o = some d → good key d) → (k o).Correct good Q
  | .set key d k => good key d ∧ k.Correct good Q

theorem Prog.Correct.bind {R S : Type} {good : SymPair → Nat → Prop} {Q : R → Prop} {T : S → Prop}
    {p : Prog R} {f : R → Prog S} (hp : p.Correct good Q) (hf : ∀ r, Q r → (f r).Correct good T) :
    (p.bind f).Correct good T := by
  induction p with
  | ret r => exact hf r hp
  | get key k ih => exact fun o ho => ih o (hp o ho)
  | set key d k ih => exact ⟨hp.1, ih hp.2⟩

theorem Prog.Correct.mono {R : Type} {good : SymPair → Nat → Prop} {Q Q' : R → Prop}
    {p : Prog R} (hp : p.Correct good Q) (h : ∀ r, Q r → Q' r) : p.Correct good Q' := by
  induction p with
  | ret r => exact h r hp
  | get key k ih => exact fun o ho => ih o (hp o ho)
  | set key d k ih => exact ⟨hp.1, ih hp.2⟩

/-- At most `n` memo operations are performed, whatever the memo answers. -/
def Prog.Bounded {R : Type} : Prog R → Nat → Prop
  | .ret _, _ => True
  | .get _ k, n => 0 < n ∧ ∀ o, (k o).Bounded (n - 1)
  | .set _ _ k, n => 0 < n ∧ k.Bounded (n - 1)

theorem Prog.Bounded.mono {R : Type} {p : Prog R} {m n : Nat} (h : p.Bounded m) (hmn : m ≤ n) :
    p.Bounded n := by
  induction p generalizing m n with
  | ret r => trivial
  | get key k ih => exact ⟨by have := h.1; omega, fun o => ih o (h.2 o) (by omega)⟩
  | set key d k ih => exact ⟨by have := h.1; omega, ih h.2 (by omega)⟩

theorem Prog.Bounded.bind {R S : Type} {p : Prog R} {f : R → Prog S} {m n l : Nat}
    (hp : p.Bounded m) (hf : ∀ r, (f r).Bounded n) (hl : m + n ≤ l) : (p.bind f).Bounded l := by
  induction p generalizing m l with
  | ret r => exact (hf r).mono (by omega)
  | get key k ih =>
      obtain ⟨h1, h2⟩ := hp
      exact ⟨by omega, fun o => ih o (h2 o) (by omega)⟩
  | set key d k ih =>
      obtain ⟨h1, h2⟩ := hp
      exact ⟨by omega, ih h2 (by omega)⟩

/-! ### The memo -/

theorem SymPair.matches_iff (key k : SymPair) : SymPair.matches key k = true ↔ k = key := by
  constructor
  · intro h
    simp only [SymPair.matches, SymPair.eq, Bool.and_eq_true, beq_iff_eq] at h
    cases k; cases key; simp_all
  · rintro rfl; simp [SymPair.matches, SymPair.eq]

theorem Memo.get_mem {m : Memo} {key : SymPair} {d : Nat} (h : m.get key = some d) : (key, d) ∈ m := by
  induction m with
  | nil => simp [Memo.get] at h
  | cons e m ih =>
    obtain ⟨k, e⟩ := e
    simp only [Memo.get] at h
    split at h
    · rename_i hk
      rw [SymPair.matches_iff] at hk
      subst hk; simp_all
    · exact List.mem_cons_of_mem _ (ih h)

theorem Memo.mem_set {m : Memo} {key : SymPair} {d : Nat} {e : SymPair × Nat} (h : e ∈ m.set key d) :
    e ∈ m ∨ e = (key, d) := by
  induction m with
  | nil => simp only [Memo.set, List.mem_singleton] at h; exact Or.inr h
  | cons e' m ih =>
    obtain ⟨k, e'⟩ := e'
    simp only [Memo.set] at h
    split at h
    · rename_i hk
      rw [SymPair.matches_iff] at hk
      subst hk
      rcases List.mem_cons.1 h with h | h
      · exact Or.inr h
      · exact Or.inl (List.mem_cons_of_mem _ h)
    · rcases List.mem_cons.1 h with h | h
      · exact Or.inl (h ▸ List.mem_cons_self)
      · rcases ih h with h | h
        · exact Or.inl (List.mem_cons_of_mem _ h)
        · exact Or.inr h

/-- Every entry of the memo is good. -/
def Memo.Good (good : SymPair → Nat → Prop) (m : Memo) : Prop := ∀ e ∈ m, good e.1 e.2

theorem Memo.Good.get {good : SymPair → Nat → Prop} {m : Memo} (h : m.Good good) (key : SymPair) :
    ∀ d, m.get key = some d → good key d := fun _ hd => h _ (Memo.get_mem hd)

theorem Memo.Good.set {good : SymPair → Nat → Prop} {m : Memo} (h : m.Good good) {key : SymPair} {d : Nat}
    (hd : good key d) : (m.set key d).Good good := by
  intro e he
  rcases Memo.mem_set he with he | rfl
  · exact h e he
  · exact hd

theorem Prog.Correct.run {R : Type} {good : SymPair → Nat → Prop} {Q : R → Prop} {p : Prog R}
    (hp : p.Correct good Q) {m : Memo} (hm : m.Good good) :
    Q (p.run m).1 ∧ (p.run m).2.Good good := by
  induction p generalizing m with
  | ret r => exact ⟨hp, hm⟩
  | get key k ih => exact ih _ (hp _ (hm.get key)) hm
  | set key d k ih => exact ih hp.2 (hm.set hp.1)

/-! ### The recursion -/

/-- The memo entry that is right for variant `A`. -/
def GoodEntry (A : Algorithm) (key : SymPair) (d : Nat) : Prop := IsMinCost A key.first key.second d

theorem goodEntry_make {A : Algorithm} {v w : Str} {d : Nat} :
    GoodEntry A (SymPair.make v w) d ↔ IsMinCost A v w d := by
  unfold GoodEntry SymPair.make
  split
  · exact Iff.rfl
  · exact ⟨IsMinCost.symm, IsMinCost.symm⟩

theorem setRet_correct {A : Algorithm} {v w : Str} {d : Nat} (h : IsMinCost A v w d) :
    (setRet (SymPair.make v w) d).Correct (GoodEntry A) (IsMinCost A v w) :=
  ⟨goodEntry_make.2 h, h⟩

section
variable {α : Type} {A : Algorithm}

theorem isMinCost_nil_left (w : List α) : IsMinCost A [] w w.length :=
  ⟨align_nil_left w, fun _ h => Nat.le_of_eq h.nil_left_le.symm⟩

theorem isMinCost_nil_right (v : List α) : IsMinCost A v [] v.length := (isMinCost_nil_left v).symm

theorem isMinCost_cons (a : α) {v w : List α} {d : Nat} :
    IsMinCost A (a :: v) (a :: w) d ↔ IsMinCost A v w d := by
  constructor
  · intro h
    exact isMinCost_of_le h.1.le.discard (fun c hc => h.le_iff.1 (hc.keep a))
  · intro h
    exact isMinCost_of_le (h.1.le.keep a) (fun c hc => h.le_iff.1 hc.discard)

theorem not_align_zero {a b : α} {v w : List α} (hab : a ≠ b) {c : Nat} (h : Align A (a :: v) (b :: w) c) :
    1 ≤ c := by
  rcases Nat.eq_zero_or_pos c with h0 | h0
  · subst h0; have := h.eq_of_zero; simp_all
  · exact h0

theorem isMinCost_one {a b : α} {v w : List α} (hab : a ≠ b) (h : AlignLe A (a :: v) (b :: w) 1) :
    IsMinCost A (a :: v) (b :: w) 1 :=
  isMinCost_of_le h (fun _ ⟨_, h1, h2⟩ => Nat.le_trans (not_align_zero hab h2) h1)

theorem align_mismatch_std {a b : α} {v w : List α} (hab : a ≠ b) {c : Nat}
    (h : Align .standard (a :: v) (b :: w) c) :
    ∃ c', c = c' + 1 ∧ (Align .standard v (b :: w) c' ∨ Align .standard (a :: v) w c' ∨ Align .standard v w c') := by
  cases h with
  | keep => exact absurd rfl hab
  | sub _ _ h => exact ⟨_, rfl, .inr (.inr h)⟩
  | ins _ h => exact ⟨_, rfl, .inr (.inl h)⟩
  | del _ h => exact ⟨_, rfl, .inl h⟩
  | swap h => cases h
  | merge h => cases h
  | split h => cases h

theorem isMinCost_std {a b : α} {v w : List α} (hab : a ≠ b) {d1 d2 d3 : Nat}
    (h1 : IsMinCost .standard v (b :: w) d1) (h2 : IsMinCost .standard (a :: v) w d2)
    (h3 : IsMinCost .standard v w d3) :
    IsMinCost .standard (a :: v) (b :: w) (1 + min (min d1 d2) d3) := by
  refine isMinCost_of_le ?_ ?_
  · rcases Nat.le_total d1 d2 with h | h <;> rcases Nat.le_total (min d1 d2) d3 with h' | h'
    · exact h1.1.le.del a (by omega)
    · exact h3.1.le.sub a b (by omega)
    · exact h2.1.le.ins b (by omega)
    · exact h3.1.le.sub a b (by omega)
  · rintro c ⟨c', hc, h⟩
    obtain ⟨k, rfl, h | h | h⟩ := align_mismatch_std hab h
    · have := h1.2 _ h; omega
    · have := h2.2 _ h; omega
    · have := h3.2 _ h; omega

theorem isMinCost_trans {a b : α} {v w : List α} (hab : a ≠ b) {d1 d2 d3 : Nat}
    (h1 : IsMinCost .transposition v (b :: w) d1) (h2 : IsMinCost .transposition (a :: v) w d2)
    (h3 : IsMinCost .transposition v w d3) :
    (∀ v' w' d4, v = b :: v' → w = a :: w' → IsMinCost .transposition v' w' d4 →
      IsMinCost .transposition (a :: v) (b :: w) (1 + min (min (min d1 d2) d3) d4)) ∧
    ((∀ v' w', ¬ (v = b :: v' ∧ w = a :: w')) →
      IsMinCost .transposition (a :: v) (b :: w) (1 + min (min d1 d2) d3)) := by
  have up : AlignLe .transposition (a :: v) (b :: w) (1 + min (min d1 d2) d3) := by
    rcases Nat.le_total d1 d2 with h | h <;> rcases Nat.le_total (min d1 d2) d3 with h' | h'
    · exact h1.1.le.del a (by omega)
    · exact h3.1.le.sub a b (by omega)
    · exact h2.1.le.ins b (by omega)
    · exact h3.1.le.sub a b (by omega)
  have low : ∀ c, Align .transposition (a :: v) (b :: w) c →
      1 + min (min d1 d2) d3 ≤ c ∨ ∃ v' w' c', v = b :: v' ∧ w = a :: w' ∧ c = c' + 1 ∧
        Align .transposition v' w' c' := by
    intro c h
    cases h with
    | keep => exact absurd rfl hab
    | sub _ _ h => have := h3.2 _ h; left; omega
    | ins _ h => have := h2.2 _ h; left; omega
    | del _ h => have := h1.2 _ h; left; omega
    | swap _ _ _ h => exact .inr ⟨_, _, _, rfl, rfl, rfl, h⟩
    | merge h => cases h
    | split h => cases h
  constructor
  · rintro v' w' d4 rfl rfl h4
    refine isMinCost_of_le ?_ ?_
    · rcases Nat.le_total (min (min d1 d2) d3) d4 with h | h
      · exact up.mono (by omega)
      · exact (h4.1.le.swap rfl a b (Nat.le_refl _)).mono (by omega)
    · rintro c ⟨c', hc, h⟩
      rcases low c' h with h | ⟨v'', w'', k, e1, e2, rfl, h⟩
      · omega
      · cases e1; cases e2; have := h4.2 _ h; omega
  · intro hno
    refine isMinCost_of_le up ?_
    rintro c ⟨c', hc, h⟩
    rcases low c' h with h | ⟨v'', w'', k, e1, e2, rfl, h⟩
    · omega
    · exact absurd ⟨e1, e2⟩ (hno _ _)

/-- The options of the merge-and-split recursion that go beyond the standard ones. -/
theorem isMinCost_ms {a b : α} {v w : List α} (hab : a ≠ b) {d1 d2 d3 m : Nat}
    (h1 : IsMinCost .mergeAndSplit v (b :: w) d1) (h2 : IsMinCost .mergeAndSplit (a :: v) w d2)
    (h3 : IsMinCost .mergeAndSplit v w d3)
    (hm : m = d1 ∨ m = d2 ∨ m = d3 ∨ (∃ b' w', w = b' :: w' ∧ IsMinCost .mergeAndSplit v w' m) ∨
      ∃ a' v', v = a' :: v' ∧ IsMinCost .mergeAndSplit v' w m)
    (hm1 : m ≤ d1) (hm2 : m ≤ d2) (hm3 : m ≤ d3)
    (hsplit : ∀ b' w', w = b' :: w' → ∃ d, IsMinCost .mergeAndSplit v w' d ∧ m ≤ d)
    (hmerge : ∀ a' v', v = a' :: v' → ∃ d, IsMinCost .mergeAndSplit v' w d ∧ m ≤ d) :
    IsMinCost .mergeAndSplit (a :: v) (b :: w) (1 + m) := by
  refine isMinCost_of_le ?_ ?_
  · rcases hm with rfl | rfl | rfl | ⟨b', w', rfl, h⟩ | ⟨a', v', rfl, h⟩
    · exact h1.1.le.del a (by omega)
    · exact h2.1.le.ins b (by omega)
    · exact h3.1.le.sub a b (by omega)
    · exact h.1.le.split rfl a b b' (by omega)
    · exact h.1.le.merge rfl a a' b (by omega)
  · rintro c ⟨c', hc, h⟩
    cases h with
    | keep => exact absurd rfl hab
    | sub _ _ h => have := h3.2 _ h; omega
    | ins _ h => have := h2.2 _ h; omega
    | del _ h => have := h1.2 _ h; omega
    | swap h => cases h
    | merge _ _ _ _ h => obtain ⟨d, hd, hd'⟩ := hmerge _ _ rfl; have := hd.2 _ h; omega
    | split _ _ _ _ h => obtain ⟨d, hd, hd'⟩ := hsplit _ _ rfl; have := hd.2 _ h; omega

end

theorem discard_spec {A : Algorithm} (a : UInt8) (s : Str) (b : UInt8) (t : Str) {d : Nat} :
    let r := discard a s b t
    (IsMinCost A (a :: s) (b :: t) d ↔ IsMinCost A (r.1 :: r.2.1) (r.2.2.1 :: r.2.2.2) d) ∧
    (r.1 = r.2.2.1 → r.2.1 = [] ∨ r.2.2.2 = []) := by
  induction s generalizing a b t with
  | nil => simp [discard]
  | cons a' s ih =>
    cases t with
    | nil => simp [discard]
    | cons b' t =>
      simp only [discard]
      split
      · rename_i hab
        subst hab
        refine ⟨?_, (ih a' b' t).2⟩
        rw [isMinCost_cons]
        exact (ih a' b' t).1
      · rename_i hab
        exact ⟨Iff.rfl, fun h => absurd h hab⟩

/-- Shared end of the two "equal characters" branches. -/
theorem equal_branch {A : Algorithm} {v w : Str} {a : UInt8} {s t : Str}
    (hiff : ∀ d, IsMinCost A v w d ↔ IsMinCost A (a :: s) (a :: t) d) (h : s = [] ∨ t = []) :
    (if s = [] then setRet (SymPair.make v w) t.length else setRet (SymPair.make v w) s.length).Correct
      (GoodEntry A) (IsMinCost A v w) := by
  split
  · rename_i hs
    subst hs
    exact setRet_correct ((hiff _).2 ((isMinCost_cons a).2 (isMinCost_nil_left t)))
  · rename_i hs
    rcases h with h | h
    · exact absurd h hs
    · subst h
      exact setRet_correct ((hiff _).2 ((isMinCost_cons a).2 (isMinCost_nil_right s)))

theorem updMin_eq (m d : Nat) : updMin m d = min m d := by
  unfold updMin
  split <;> omega

theorem suffixF_one (a : UInt8) (x : Str) : suffixF (a :: x) 1 = x.drop 1 := by
  unfold suffixF
  split
  · simp
  · rename_i h
    cases x with
    | nil => rfl
    | cons y x => simp at h

theorem stdBetween_correct (v w : Str) :
    (stdBetween v w).Correct (GoodEntry .standard) (IsMinCost .standard v w) := by
  induction hn : v.length + w.length using Nat.strongRecOn generalizing v w with
  | _ n ih =>
  subst hn
  rw [stdBetween.eq_def]
  intro o ho
  cases o with
  | some d => exact goodEntry_make.1 (ho d rfl)
  | none =>
  match v, w with
  | [], w => exact setRet_correct (isMinCost_nil_left w)
  | a :: v, [] => exact setRet_correct (isMinCost_nil_right (a :: v))
  | a0 :: s0, b0 :: t0 =>
    dsimp only
    have hl := discard_length a0 s0 b0 t0
    have hspec := fun d => discard_spec (A := .standard) a0 s0 b0 t0 (d := d)
    simp only at hspec
    generalize discard a0 s0 b0 t0 = r at hl hspec ⊢
    obtain ⟨a, s, b, t⟩ := r
    simp only at hl hspec ⊢
    have hiff := fun d => (hspec d).1
    split
    · rename_i hab
      subst hab
      exact equal_branch hiff ((hspec 0).2 rfl)
    · rename_i hab
      have one : AlignLe .standard (a :: s) (b :: t) 1 →
          (setRet (SymPair.make (a0 :: s0) (b0 :: t0)) 1).Correct (GoodEntry .standard)
            (IsMinCost .standard (a0 :: s0) (b0 :: t0)) :=
        fun h => setRet_correct ((hiff 1).2 (isMinCost_one hab h))
      refine (ih _ ?_ s (b :: t) rfl).bind fun d1 h1 => ?_
      · simp only [List.length_cons]; omega
      split
      · rename_i h0; subst h0; exact one (h1.1.le.del a (by omega))
      refine (ih _ ?_ (a :: s) t rfl).bind fun d2 h2 => ?_
      · simp only [List.length_cons]; omega
      split
      · rename_i h0; subst h0; exact one (h2.1.le.ins b (by omega))
      refine (ih _ ?_ s t rfl).bind fun d3 h3 => ?_
      · simp only [List.length_cons]; omega
      split
      · rename_i h0; subst h0; exact one (h3.1.le.sub a b (by omega))
      rw [updMin_eq, updMin_eq]
      exact setRet_correct ((hiff _).2 (isMinCost_std hab h1 h2 h3))

theorem transBetween_correct (v w : Str) :
    (transBetween v w).Correct (GoodEntry .transposition) (IsMinCost .transposition v w) := by
  induction hn : v.length + w.length using Nat.strongRecOn generalizing v w with
  | _ n ih =>
  subst hn
  rw [transBetween.eq_def]
  intro o ho
  cases o with
  | some d => exact goodEntry_make.1 (ho d rfl)
  | none =>
  match v, w with
  | [], w => exact setRet_correct (isMinCost_nil_left w)
  | a :: v, [] => exact setRet_correct (isMinCost_nil_right (a :: v))
  | a0 :: s0, b0 :: t0 =>
    dsimp only
    have hl := discard_length a0 s0 b0 t0
    have hspec := fun d => discard_spec (A := .transposition) a0 s0 b0 t0 (d := d)
    simp only at hspec
    generalize discard a0 s0 b0 t0 = r at hl hspec ⊢
    obtain ⟨a, s, b, t⟩ := r
    simp only at hl hspec ⊢
    have hiff := fun d => (hspec d).1
    split
    · rename_i hab
      subst hab
      exact equal_branch hiff ((hspec 0).2 rfl)
    · rename_i hab
      have one : AlignLe .transposition (a :: s) (b :: t) 1 →
          (setRet (SymPair.make (a0 :: s0) (b0 :: t0)) 1).Correct (GoodEntry .transposition)
            (IsMinCost .transposition (a0 :: s0) (b0 :: t0)) :=
        fun h => setRet_correct ((hiff 1).2 (isMinCost_one hab h))
      refine (ih _ ?_ s (b :: t) rfl).bind fun d1 h1 => ?_
      · simp only [List.length_cons]; omega
      split
      · rename_i h0; subst h0; exact one (h1.1.le.del a (by omega))
      refine (ih _ ?_ (a :: s) t rfl).bind fun d2 h2 => ?_
      · simp only [List.length_cons]; omega
      split
      · rename_i h0; subst h0; exact one (h2.1.le.ins b (by omega))
      refine (ih _ ?_ s t rfl).bind fun d3 h3 => ?_
      · simp only [List.length_cons]; omega
      split
      · rename_i h0; subst h0; exact one (h3.1.le.sub a b (by omega))
      simp only [updMin_eq, suffixF_one]
      have key := isMinCost_trans hab h1 h2 h3
      split
      · rename_i hswap
        obtain ⟨-, -, hy, hx⟩ := hswap
        match s, t, hx, hy with
        | a' :: s', b' :: t', hx, hy =>
        simp at hx hy
        subst hx; subst hy
        simp only [List.drop_succ_cons, List.drop_zero]
        refine (ih _ ?_ s' t' rfl).bind fun d4 h4 => ?_
        · simp only [List.length_cons] at *; omega
        split
        · rename_i h0; subst h0; exact one (h4.1.le.swap rfl a a' (by omega))
        exact setRet_correct ((hiff _).2 (key.1 s' t' d4 rfl rfl h4))
      · rename_i hswap
        refine setRet_correct ((hiff _).2 (key.2 ?_))
        rintro v' w' ⟨rfl, rfl⟩
        simp at hswap

theorem msBetween_correct (v w : Str) :
    (msBetween v w).Correct (GoodEntry .mergeAndSplit) (IsMinCost .mergeAndSplit v w) := by
  induction hn : v.length + w.length using Nat.strongRecOn generalizing v w with
  | _ n ih =>
  subst hn
  rw [msBetween.eq_def]
  intro o ho
  cases o with
  | some d => exact goodEntry_make.1 (ho d rfl)
  | none =>
  match v, w with
  | [], w => exact setRet_correct (isMinCost_nil_left w)
  | a :: v, [] => exact setRet_correct (isMinCost_nil_right (a :: v))
  | a0 :: s0, b0 :: t0 =>
    dsimp only
    have hl := discard_length a0 s0 b0 t0
    have hspec := fun d => discard_spec (A := .mergeAndSplit) a0 s0 b0 t0 (d := d)
    simp only at hspec
    generalize discard a0 s0 b0 t0 = r at hl hspec ⊢
    obtain ⟨a, s, b, t⟩ := r
    simp only at hl hspec ⊢
    have hiff := fun d => (hspec d).1
    split
    · rename_i hab
      subst hab
      exact equal_branch hiff ((hspec 0).2 rfl)
    · rename_i hab
      have one : AlignLe .mergeAndSplit (a :: s) (b :: t) 1 →
          (setRet (SymPair.make (a0 :: s0) (b0 :: t0)) 1).Correct (GoodEntry .mergeAndSplit)
            (IsMinCost .mergeAndSplit (a0 :: s0) (b0 :: t0)) :=
        fun h => setRet_correct ((hiff 1).2 (isMinCost_one hab h))
      refine (ih _ ?_ s (b :: t) rfl).bind fun d1 h1 => ?_
      · simp only [List.length_cons]; omega
      split
      · rename_i h0; subst h0; exact one (h1.1.le.del a (by omega))
      refine (ih _ ?_ (a :: s) t rfl).bind fun d2 h2 => ?_
      · simp only [List.length_cons]; omega
      split
      · rename_i h0; subst h0; exact one (h2.1.le.ins b (by omega))
      refine (ih _ ?_ s t rfl).bind fun d3 h3 => ?_
      · simp only [List.length_cons]; omega
      split
      · rename_i h0; subst h0; exact one (h3.1.le.sub a b (by omega))
      simp only [updMin_eq, suffixF_one]
      -- the last part, for any minimum `m` over the options looked at so far
      have after : ∀ m, (m = d1 ∨ m = d2 ∨ m = d3 ∨
            (∃ b' w', t = b' :: w' ∧ IsMinCost .mergeAndSplit s w' m)) →
          m ≤ d1 → m ≤ d2 → m ≤ d3 →
          (∀ b' w', t = b' :: w' → ∃ d, IsMinCost .mergeAndSplit s w' d ∧ m ≤ d) →
          (if (a :: s).length > 1 then
              (msBetween (s.drop 1) t).bind fun d =>
              if 0 = d then setRet (SymPair.make (a0 :: s0) (b0 :: t0)) 1 else
              setRet (SymPair.make (a0 :: s0) (b0 :: t0)) (1 + min m d)
            else setRet (SymPair.make (a0 :: s0) (b0 :: t0)) (1 + m)).Correct
            (GoodEntry .mergeAndSplit) (IsMinCost .mergeAndSplit (a0 :: s0) (b0 :: t0)) := by
        intro m hm hm1 hm2 hm3 hsplit
        split
        · rename_i hlen
          match s, hlen with
          | a' :: s', hlen =>
          refine (ih _ ?_ s' t rfl).bind fun d5 h5 => ?_
          · simp only [List.length_cons] at *; omega
          split
          · rename_i h0; subst h0; exact one (h5.1.le.merge rfl a a' b (by omega))
          refine setRet_correct ((hiff _).2 (isMinCost_ms hab h1 h2 h3 ?_ (by omega) (by omega)
            (by omega) ?_ ?_))
          · rcases Nat.le_total m d5 with h | h
            · rw [Nat.min_eq_left h]
              rcases hm with h | h | h | h
              · exact .inl h
              · exact .inr (.inl h)
              · exact .inr (.inr (.inl h))
              · exact .inr (.inr (.inr (.inl h)))
            · rw [Nat.min_eq_right h]
              exact .inr (.inr (.inr (.inr ⟨a', s', rfl, h5⟩)))
          · intro b' w' e
            obtain ⟨d, hd, hd'⟩ := hsplit b' w' e
            exact ⟨d, hd, by omega⟩
          · intro a'' v' e
            cases e
            exact ⟨d5, h5, by omega⟩
        · rename_i hlen
          have hs : s = [] := by
            cases s with
            | nil => rfl
            | cons _ _ => simp at hlen
          subst hs
          refine setRet_correct ((hiff _).2 (isMinCost_ms hab h1 h2 h3 ?_ hm1 hm2 hm3 hsplit ?_))
          · rcases hm with h | h | h | h
            · exact .inl h
            · exact .inr (.inl h)
            · exact .inr (.inr (.inl h))
            · exact .inr (.inr (.inr (.inl h)))
          · intro a' v' e; cases e
      split
      · rename_i hlen
        match t, hlen with
        | b' :: t', hlen =>
        refine (ih _ ?_ s t' rfl).bind fun d4 h4 => ?_
        · simp only [List.length_cons] at *; omega
        split
        · rename_i h0; subst h0; exact one (h4.1.le.split rfl a b b' (by omega))
        refine after (min (min (min d1 d2) d3) d4) ?_ (by omega) (by omega) (by omega) ?_
        · rcases Nat.le_total (min (min d1 d2) d3) d4 with h | h
          · rw [Nat.min_eq_left h]
            have : min (min d1 d2) d3 = d1 ∨ min (min d1 d2) d3 = d2 ∨ min (min d1 d2) d3 = d3 := by
              omega
            rcases this with h | h | h
            · exact .inl h
            · exact .inr (.inl h)
            · exact .inr (.inr (.inl h))
          · rw [Nat.min_eq_right h]
            exact .inr (.inr (.inr ⟨b', t', rfl, h4⟩))
        · intro b'' w' e
          cases e
          exact ⟨d4, h4, by omega⟩
      · rename_i hlen
        have ht : t = [] := by
          cases t with
          | nil => rfl
          | cons _ _ => simp at hlen
        subst ht
        refine after (min (min d1 d2) d3) ?_ (by omega) (by omega) (by omega) ?_
        · have : min (min d1 d2) d3 = d1 ∨ min (min d1 d2) d3 = d2 ∨ min (min d1 d2) d3 = d3 := by
            omega
          rcases this with h | h | h
          · exact .inl h
          · exact .inr (.inl h)
          · exact .inr (.inr (.inl h))
        · intro b' w' e; cases e

theorem between_correct (A : Algorithm) (v w : Str) :
    (between A v w).Correct (GoodEntry A) (IsMinCost A v w) := by
  cases A
  · exact stdBetween_correct v w
  · exact transBetween_correct v w
  · exact msBetween_correct v w

/-- Elementwise: `ds` lists the least alignment costs of `calls`. -/
def AllMin (A : Algorithm) : List (Str × Str) → List Nat → Prop
  | [], [] => True
  | (v, w) :: calls, d :: ds => IsMinCost A v w d ∧ AllMin A calls ds
  | _, _ => False

theorem callSeq_correct (A : Algorithm) (calls : List (Str × Str)) :
    (callSeq A calls).Correct (GoodEntry A) (AllMin A calls) := by
  induction calls with
  | nil => trivial
  | cons c calls ih =>
    obtain ⟨v, w⟩ := c
    exact (between_correct A v w).bind fun d hd => ih.bind fun ds hds => ⟨hd, hds⟩

/-! ### Number of memo operations -/

theorem setRet_bounded (key : SymPair) (d : Nat) {n : Nat} (hn : 0 < n) : (setRet key d).Bounded n :=
  ⟨hn, trivial⟩

/-- Bound on the memo operations of one call for total input length `n`. -/
def opBound (n : Nat) : Nat := 2 * 6 ^ n

theorem opBound_pos (n : Nat) : 2 ≤ opBound n := by
  have : 0 < 6 ^ n := Nat.pow_pos (by decide)
  unfold opBound; omega

theorem opBound_mono {m n : Nat} (h : m ≤ n) : opBound m ≤ opBound n := by
  unfold opBound
  have : 6 ^ m ≤ 6 ^ n := Nat.pow_le_pow_right (by decide) h
  omega

theorem opBound_succ (n : Nat) : opBound (n + 1) = 6 * opBound n := by
  unfold opBound
  rw [Nat.pow_succ]; omega

theorem Prog.Bounded.bindRec {p : Prog Nat} {f : Nat → Prog Nat} {n b l : Nat} {m : Nat}
    (hp : p.Bounded (opBound m)) (hm : m ≤ n) (hf : ∀ r, (f r).Bounded b) (hl : opBound n + b ≤ l) :
    (p.bind f).Bounded l := (hp.mono (opBound_mono hm)).bind hf hl

theorem stdBetween_bounded (v w : Str) : (stdBetween v w).Bounded (opBound (v.length + w.length)) := by
  induction hn : v.length + w.length using Nat.strongRecOn generalizing v w with
  | _ n ih =>
  subst hn
  rw [stdBetween.eq_def]
  refine ⟨by have := opBound_pos (v.length + w.length); omega, fun o => ?_⟩
  cases o with
  | some d => trivial
  | none =>
  match v, w with
  | [], w => exact setRet_bounded _ _ (by have := opBound_pos (([] : Str).length + w.length); omega)
  | a :: v, [] => exact setRet_bounded _ _ (by have := opBound_pos ((a :: v).length + ([] : Str).length); omega)
  | a0 :: s0, b0 :: t0 =>
    dsimp only
    have hl := discard_length a0 s0 b0 t0
    generalize discard a0 s0 b0 t0 = r at hl ⊢
    obtain ⟨a, s, b, t⟩ := r
    simp only at hl ⊢
    have hN : (a0 :: s0).length + (b0 :: t0).length = (s0.length + t0.length + 1) + 1 := by
      simp only [List.length_cons]; omega
    rw [hN, opBound_succ]
    rw [hN] at ih
    have hp := opBound_pos (s0.length + t0.length + 1)
    split
    · split <;> exact setRet_bounded _ _ (by omega)
    · generalize hB : opBound (s0.length + t0.length + 1) = B at hp ⊢
      refine Prog.Bounded.bindRec (n := s0.length + t0.length + 1) (b := 2 * B + 1) (ih _ ?_ s (b :: t) rfl) ?_ (fun d1 => ?_) (by omega)
      · simp only [List.length_cons]; omega
      · simp only [List.length_cons]; omega
      split
      · exact setRet_bounded _ _ (by omega)
      refine Prog.Bounded.bindRec (n := s0.length + t0.length + 1) (b := B + 1) (ih _ ?_ (a :: s) t rfl) ?_ (fun d1 => ?_) (by omega)
      · simp only [List.length_cons]; omega
      · simp only [List.length_cons]; omega
      split
      · exact setRet_bounded _ _ (by omega)
      refine Prog.Bounded.bindRec (n := s0.length + t0.length + 1) (b := 1) (ih _ ?_ s t rfl) ?_ (fun d1 => ?_) (by omega)
      · omega
      · omega
      split <;> exact setRet_bounded _ _ (by omega)

theorem suffixF_length (u : Str) (t : Nat) : (suffixF u t).length ≤ u.length - 1 := by
  unfold suffixF
  split
  · simp only [List.length_drop]; omega
  · simp

theorem transBetween_bounded (v w : Str) : (transBetween v w).Bounded (opBound (v.length + w.length)) := by
  induction hn : v.length + w.length using Nat.strongRecOn generalizing v w with
  | _ n ih =>
  subst hn
  rw [transBetween.eq_def]
  refine ⟨by have := opBound_pos (v.length + w.length); omega, fun o => ?_⟩
  cases o with
  | some d => trivial
  | none =>
  match v, w with
  | [], w => exact setRet_bounded _ _ (by have := opBound_pos (([] : Str).length + w.length); omega)
  | a :: v, [] => exact setRet_bounded _ _ (by have := opBound_pos ((a :: v).length + ([] : Str).length); omega)
  | a0 :: s0, b0 :: t0 =>
    dsimp only
    have hl := discard_length a0 s0 b0 t0
    generalize discard a0 s0 b0 t0 = r at hl ⊢
    obtain ⟨a, s, b, t⟩ := r
    simp only at hl ⊢
    have hN : (a0 :: s0).length + (b0 :: t0).length = (s0.length + t0.length + 1) + 1 := by
      simp only [List.length_cons]; omega
    rw [hN, opBound_succ]
    rw [hN] at ih
    have hp := opBound_pos (s0.length + t0.length + 1)
    split
    · split <;> exact setRet_bounded _ _ (by omega)
    · generalize hB : opBound (s0.length + t0.length + 1) = B at hp ⊢
      refine Prog.Bounded.bindRec (n := s0.length + t0.length + 1) (b := 3 * B + 1) (ih _ ?_ s (b :: t) rfl) ?_ (fun d1 => ?_) (by omega)
      · simp only [List.length_cons]; omega
      · simp only [List.length_cons]; omega
      split
      · exact setRet_bounded _ _ (by omega)
      refine Prog.Bounded.bindRec (n := s0.length + t0.length + 1) (b := 2 * B + 1) (ih _ ?_ (a :: s) t rfl) ?_ (fun d1 => ?_) (by omega)
      · simp only [List.length_cons]; omega
      · simp only [List.length_cons]; omega
      split
      · exact setRet_bounded _ _ (by omega)
      refine Prog.Bounded.bindRec (n := s0.length + t0.length + 1) (b := B + 1) (ih _ ?_ s t rfl) ?_ (fun d1 => ?_) (by omega)
      · omega
      · omega
      split
      · exact setRet_bounded _ _ (by omega)
      split
      · have e1 := suffixF_length (a :: s) 1
        have e2 := suffixF_length (b :: t) 1
        simp only [List.length_cons] at e1 e2
        refine Prog.Bounded.bindRec (n := s0.length + t0.length + 1) (b := 1) (ih _ ?_ _ _ rfl) ?_ (fun d1 => ?_) (by omega)
        · omega
        · omega
        split <;> exact setRet_bounded _ _ (by omega)
      · exact setRet_bounded _ _ (by omega)

theorem msBetween_bounded (v w : Str) : (msBetween v w).Bounded (opBound (v.length + w.length)) := by
  induction hn : v.length + w.length using Nat.strongRecOn generalizing v w with
  | _ n ih =>
  subst hn
  rw [msBetween.eq_def]
  refine ⟨by have := opBound_pos (v.length + w.length); omega, fun o => ?_⟩
  cases o with
  | some d => trivial
  | none =>
  match v, w with
  | [], w => exact setRet_bounded _ _ (by have := opBound_pos (([] : Str).length + w.length); omega)
  | a :: v, [] => exact setRet_bounded _ _ (by have := opBound_pos ((a :: v).length + ([] : Str).length); omega)
  | a0 :: s0, b0 :: t0 =>
    dsimp only
    have hl := discard_length a0 s0 b0 t0
    generalize discard a0 s0 b0 t0 = r at hl ⊢
    obtain ⟨a, s, b, t⟩ := r
    simp only at hl ⊢
    have hN : (a0 :: s0).length + (b0 :: t0).length = (s0.length + t0.length + 1) + 1 := by
      simp only [List.length_cons]; omega
    rw [hN, opBound_succ]
    rw [hN] at ih
    have hp := opBound_pos (s0.length + t0.length + 1)
    have e1 := suffixF_length (a :: s) 1
    have e2 := suffixF_length (b :: t) 1
    simp only [List.length_cons] at e1 e2
    split
    · split <;> exact setRet_bounded _ _ (by omega)
    · generalize hB : opBound (s0.length + t0.length + 1) = B at hp ⊢
      refine Prog.Bounded.bindRec (n := s0.length + t0.length + 1) (b := 4 * B + 1) (ih _ ?_ s (b :: t) rfl) ?_ (fun d1 => ?_) (by omega)
      · simp only [List.length_cons]; omega
      · simp only [List.length_cons]; omega
      split
      · exact setRet_bounded _ _ (by omega)
      refine Prog.Bounded.bindRec (n := s0.length + t0.length + 1) (b := 3 * B + 1) (ih _ ?_ (a :: s) t rfl) ?_ (fun d1 => ?_) (by omega)
      · simp only [List.length_cons]; omega
      · simp only [List.length_cons]; omega
      split
      · exact setRet_bounded _ _ (by omega)
      refine Prog.Bounded.bindRec (n := s0.length + t0.length + 1) (b := 2 * B + 1) (ih _ ?_ s t rfl) ?_ (fun d1 => ?_) (by omega)
      · omega
      · omega
      split
      · exact setRet_bounded _ _ (by omega)
      have after : ∀ m, (if (a :: s).length > 1 then
              (msBetween (suffixF (a :: s) 1) t).bind fun d =>
              if 0 = d then setRet (SymPair.make (a0 :: s0) (b0 :: t0)) 1 else
              setRet (SymPair.make (a0 :: s0) (b0 :: t0)) (1 + updMin m d)
            else setRet (SymPair.make (a0 :: s0) (b0 :: t0)) (1 + m)).Bounded (B + 1) := by
        intro m
        split
        · refine Prog.Bounded.bindRec (n := s0.length + t0.length + 1) (b := 1) (ih _ ?_ _ _ rfl) ?_ (fun d1 => ?_) (by omega)
          · omega
          · omega
          split <;> exact setRet_bounded _ _ (by omega)
        · exact setRet_bounded _ _ (by omega)
      split
      · refine Prog.Bounded.bindRec (n := s0.length + t0.length + 1) (b := B + 1) (ih _ ?_ _ _ rfl) ?_ (fun d1 => ?_) (by omega)
        · omega
        · omega
        split
        · exact setRet_bounded _ _ (by omega)
        · exact after _
      · exact (after _).mono (by omega)

theorem between_bounded (A : Algorithm) (v w : Str) :
    (between A v w).Bounded (opBound (v.length + w.length)) := by
  cases A
  · exact stdBetween_bounded v w
  · exact transBetween_bounded v w
  · exact msBetween_bounded v w

/-- Bound for a sequence of calls. -/
def seqBound : List (Str × Str) → Nat
  | [] => 0
  | (v, w) :: calls => opBound (v.length + w.length) + seqBound calls

theorem callSeq_bounded (A : Algorithm) (calls : List (Str × Str)) :
    (callSeq A calls).Bounded (seqBound calls) := by
  induction calls with
  | nil => trivial
  | cons c calls ih =>
    obtain ⟨v, w⟩ := c
    refine (between_bounded A v w).bind (n := seqBound calls) (fun d => ?_) (Nat.le_refl _)
    exact ih.bind (n := 0) (fun ds => trivial) (by omega)

end Lev
