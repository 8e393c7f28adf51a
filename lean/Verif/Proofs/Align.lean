import Verif.Spec.Edit

/-! Helper lemmas about alignments (`Lev.Spec.Align`). -/

namespace Lev.Spec

variable {α : Type} {A : Algorithm}

/-- There is an alignment of cost at most `c`. -/
def AlignLe (A : Algorithm) (v w : List α) (c : Nat) : Prop := ∃ c', c' ≤ c ∧ Align A v w c'

theorem Align.le {v w : List α} {c : Nat} (h : Align A v w c) : AlignLe A v w c := ⟨c, Nat.le_refl _, h⟩

theorem AlignLe.mono {v w : List α} {c d : Nat} (h : AlignLe A v w c) (hd : c ≤ d) : AlignLe A v w d := by
  obtain ⟨c', h1, h2⟩ := h; exact ⟨c', by omega, h2⟩

theorem AlignLe.nil {c : Nat} : AlignLe A ([] : List α) [] c := ⟨0, by omega, .nil⟩

theorem AlignLe.keep {v w : List α} {c : Nat} (a : α) (h : AlignLe A v w c) : AlignLe A (a :: v) (a :: w) c := by
  obtain ⟨c', h1, h2⟩ := h; exact ⟨c', h1, h2.keep a⟩

theorem AlignLe.sub {v w : List α} {c d : Nat} (a b : α) (h : AlignLe A v w c) (hd : c + 1 ≤ d) :
    AlignLe A (a :: v) (b :: w) d := by
  obtain ⟨c', h1, h2⟩ := h; exact ⟨c' + 1, by omega, h2.sub a b⟩

theorem AlignLe.ins {v w : List α} {c d : Nat} (b : α) (h : AlignLe A v w c) (hd : c + 1 ≤ d) :
    AlignLe A v (b :: w) d := by
  obtain ⟨c', h1, h2⟩ := h; exact ⟨c' + 1, by omega, h2.ins b⟩

theorem AlignLe.del {v w : List α} {c d : Nat} (a : α) (h : AlignLe A v w c) (hd : c + 1 ≤ d) :
    AlignLe A (a :: v) w d := by
  obtain ⟨c', h1, h2⟩ := h; exact ⟨c' + 1, by omega, h2.del a⟩

theorem AlignLe.swap {v w : List α} {c d : Nat} (hA : A = .transposition) (a b : α) (h : AlignLe A v w c)
    (hd : c + 1 ≤ d) : AlignLe A (a :: b :: v) (b :: a :: w) d := by
  obtain ⟨c', h1, h2⟩ := h; exact ⟨c' + 1, by omega, h2.swap hA a b⟩

theorem AlignLe.merge {v w : List α} {c d : Nat} (hA : A = .mergeAndSplit) (a b e : α) (h : AlignLe A v w c)
    (hd : c + 1 ≤ d) : AlignLe A (a :: b :: v) (e :: w) d := by
  obtain ⟨c', h1, h2⟩ := h; exact ⟨c' + 1, by omega, h2.merge hA a b e⟩

theorem AlignLe.split {v w : List α} {c d : Nat} (hA : A = .mergeAndSplit) (a b e : α) (h : AlignLe A v w c)
    (hd : c + 1 ≤ d) : AlignLe A (a :: v) (b :: e :: w) d := by
  obtain ⟨c', h1, h2⟩ := h; exact ⟨c' + 1, by omega, h2.split hA a b e⟩

theorem Align.symm {v w : List α} {c : Nat} (h : Align A v w c) : Align A w v c := by
  induction h with
  | nil => exact .nil
  | keep a _ ih => exact ih.keep a
  | sub a b _ ih => exact ih.sub b a
  | ins b _ ih => exact ih.del b
  | del a _ ih => exact ih.ins a
  | swap hA a b _ ih => exact ih.swap hA b a
  | merge hA a b d _ ih => exact ih.split hA d a b
  | split hA a b d _ ih => exact ih.merge hA b d a

theorem AlignLe.symm {v w : List α} {c : Nat} (h : AlignLe A v w c) : AlignLe A w v c := by
  obtain ⟨c', h1, h2⟩ := h; exact ⟨c', h1, h2.symm⟩

theorem align_nil_left (w : List α) : Align A [] w w.length := by
  induction w with
  | nil => exact .nil
  | cons b w ih => exact ih.ins b

theorem align_nil_right (v : List α) : Align A v [] v.length := (align_nil_left v).symm

theorem Align.nil_left_le {w : List α} {c : Nat} (h : Align A [] w c) : c = w.length := by
  induction w generalizing c with
  | nil => cases h; rfl
  | cons b w ih => cases h with
    | ins _ h => simp [ih h]

theorem Align.nil_right_le {v : List α} {c : Nat} (h : Align A v [] c) : c = v.length := h.symm.nil_left_le

theorem align_refl (v : List α) : Align A v v 0 := by
  induction v with
  | nil => exact .nil
  | cons a v ih => exact ih.keep a

theorem Align.eq_of_zero {v w : List α} (h : Align A v w 0) : v = w := by
  generalize hc : 0 = c at h
  induction h with
  | nil => rfl
  | keep a _ ih => rw [ih hc]
  | _ => omega

/-- Dropping the first character on the left costs at most one. -/
theorem Align.tail_left {v w : List α} {c : Nat} (h : Align A v w c) :
    ∀ a v', v = a :: v' → AlignLe A v' w (c + 1) := by
  induction h with
  | nil => intro a v' h; cases h
  | keep a h ih => intro x v' e; cases e; exact h.le.ins a (by omega)
  | sub a b h ih => intro x v' e; cases e; exact h.le.ins b (by omega)
  | ins b h ih => intro x v' e; exact (ih x v' e).ins b (by omega)
  | del a h ih => intro x v' e; cases e; exact h.le.mono (by omega)
  | swap hA a b h ih => intro x v' e; cases e; exact (h.le.ins a (Nat.le_refl _)).keep b |>.mono (by omega)
  | merge hA a b d h ih => intro x v' e; cases e; exact h.le.sub b d (by omega)
  | split hA a b d h ih =>
      intro x v' e; cases e; exact (h.le.ins d (Nat.le_refl _)).ins b (by omega)

theorem AlignLe.tail_left {v w : List α} {c : Nat} {a : α} (h : AlignLe A (a :: v) w c) :
    AlignLe A v w (c + 1) := by
  obtain ⟨c', h1, h2⟩ := h; exact (h2.tail_left a v rfl).mono (by omega)

theorem AlignLe.tail_right {v w : List α} {c : Nat} {a : α} (h : AlignLe A v (a :: w) c) :
    AlignLe A v w (c + 1) := h.symm.tail_left.symm

/-- Equal first characters can be discarded. -/
theorem AlignLe.discard {v w : List α} {c : Nat} {a : α} (h : AlignLe A (a :: v) (a :: w) c) :
    AlignLe A v w c := by
  obtain ⟨c', h1, h2⟩ := h
  refine AlignLe.mono ?_ h1
  cases h2 with
  | keep _ h => exact h.le
  | sub _ _ h => exact h.le.mono (by omega)
  | ins _ h => exact h.le.tail_left
  | del _ h => exact h.le.tail_right
  | swap hA _ _ h => exact (h.le.keep _).mono (by omega)
  | merge hA _ _ _ h => exact h.le.del _ (by omega)
  | split hA _ _ _ h => exact h.le.ins _ (by omega)

theorem AlignLe.discard_prefix {v w : List α} {c : Nat} (z : List α) (h : AlignLe A (z ++ v) (z ++ w) c) :
    AlignLe A v w c := by
  induction z with
  | nil => exact h
  | cons a z ih => exact ih h.discard

theorem AlignLe.keep_prefix {v w : List α} {c : Nat} (z : List α) (h : AlignLe A v w c) :
    AlignLe A (z ++ v) (z ++ w) c := by
  induction z with
  | nil => exact h
  | cons a z ih => exact ih.keep a

theorem Align.append {v w v' w' : List α} {c c' : Nat} (h : Align A v w c) (h' : Align A v' w' c') :
    Align A (v ++ v') (w ++ w') (c + c') := by
  induction h with
  | nil => simpa using h'
  | keep a _ ih => exact ih.keep a
  | sub a b _ ih => rw [Nat.add_right_comm]; exact ih.sub a b
  | ins b _ ih => rw [Nat.add_right_comm]; exact ih.ins b
  | del a _ ih => rw [Nat.add_right_comm]; exact ih.del a
  | swap hA a b _ ih => rw [Nat.add_right_comm]; exact ih.swap hA a b
  | merge hA a b d _ ih => rw [Nat.add_right_comm]; exact ih.merge hA a b d
  | split hA a b d _ ih => rw [Nat.add_right_comm]; exact ih.split hA a b d

theorem Align.reverse {v w : List α} {c : Nat} (h : Align A v w c) : Align A v.reverse w.reverse c := by
  induction h with
  | nil => exact .nil
  | keep a _ ih => simpa using ih.append (Align.nil.keep a)
  | sub a b _ ih => simpa using ih.append (Align.nil.sub a b)
  | ins b _ ih => simpa using ih.append (Align.nil.ins b)
  | del a _ ih => simpa using ih.append (Align.nil.del a)
  | swap hA a b _ ih => simpa using ih.append (Align.nil.swap hA b a)
  | merge hA a b d _ ih => simpa using ih.append (Align.nil.merge hA b a d)
  | split hA a b d _ ih => simpa using ih.append (Align.nil.split hA a d b)

theorem AlignLe.reverse {v w : List α} {c : Nat} (h : AlignLe A v w c) :
    AlignLe A v.reverse w.reverse c := by
  obtain ⟨c', h1, h2⟩ := h; exact ⟨c', h1, h2.reverse⟩

theorem AlignLe.discard_suffix {v w : List α} {c : Nat} (z : List α) (h : AlignLe A (v ++ z) (w ++ z) c) :
    AlignLe A v w c := by
  have := h.reverse
  rw [List.reverse_append, List.reverse_append] at this
  simpa using this.discard_prefix.reverse

theorem AlignLe.keep_suffix {v w : List α} {c : Nat} (z : List α) (h : AlignLe A v w c) :
    AlignLe A (v ++ z) (w ++ z) c := by
  obtain ⟨c', h1, h2⟩ := h
  exact ⟨c', h1, by simpa using h2.append (align_refl z)⟩

/-! ### Bounds -/

theorem alignLe_max (v w : List α) : AlignLe A v w (max v.length w.length) := by
  induction v generalizing w with
  | nil => exact (align_nil_left w).le.mono (by simp)
  | cons a v ih =>
    cases w with
    | nil => exact (align_nil_right (a :: v)).le.mono (by simp)
    | cons b w => exact (ih w).sub a b (by simp)

theorem Align.length_bounds {v w : List α} {c : Nat} (h : Align A v w c) :
    v.length ≤ w.length + c ∧ w.length ≤ v.length + c := by
  induction h with
  | nil => simp
  | _ => simp at *; omega

theorem Align.of_standard {v w : List α} {c : Nat} (h : Align .standard v w c) : Align A v w c := by
  induction h with
  | nil => exact .nil
  | keep a _ ih => exact ih.keep a
  | sub a b _ ih => exact ih.sub a b
  | ins b _ ih => exact ih.ins b
  | del a _ ih => exact ih.del a
  | swap h => cases h
  | merge h => cases h
  | split h => cases h

theorem Align.to_standard {v w : List α} {c : Nat} (h : Align A v w c) : AlignLe .standard v w (2 * c) := by
  induction h with
  | nil => exact .nil
  | keep a _ ih => exact ih.keep a
  | sub a b _ ih => exact ih.sub a b (by omega)
  | ins b _ ih => exact ih.ins b (by omega)
  | del a _ ih => exact ih.del a (by omega)
  | swap h a b _ ih => exact (ih.sub b a (Nat.le_refl _)).sub a b (by omega)
  | merge h a b d _ ih => exact (ih.del b (Nat.le_refl _)).sub a d (by omega)
  | split h a b d _ ih => exact (ih.ins d (Nat.le_refl _)).sub a b (by omega)

/-! ### Existence and uniqueness of the minimum -/

theorem IsMinCost.unique {v w : List α} {c d : Nat} (hc : IsMinCost A v w c) (hd : IsMinCost A v w d) : c = d :=
  Nat.le_antisymm (hc.2 _ hd.1) (hd.2 _ hc.1)

theorem IsMinCost.symm {v w : List α} {c : Nat} (h : IsMinCost A v w c) : IsMinCost A w v c :=
  ⟨h.1.symm, fun _ h' => h.2 _ h'.symm⟩

theorem IsMinCost.le_iff {v w : List α} {c d : Nat} (h : IsMinCost A v w d) : AlignLe A v w c ↔ d ≤ c :=
  ⟨fun ⟨_, h1, h2⟩ => Nat.le_trans (h.2 _ h2) h1, fun h' => h.1.le.mono h'⟩

theorem isMinCost_of_le {v w : List α} {d : Nat} (h : AlignLe A v w d) (h' : ∀ c, AlignLe A v w c → d ≤ c) :
    IsMinCost A v w d := by
  obtain ⟨c, h1, h2⟩ := h
  have := h' c h2.le
  have : c = d := by omega
  subst this
  exact ⟨h2, fun c hc => h' c hc.le⟩

/-! ### Operation sequences and alignments -/

theorem Step.cons {v w : List α} (a : α) (h : Step A v w) : Step A (a :: v) (a :: w) := by
  cases h with
  | ins p s x => exact .ins (a :: p) s x
  | del p s x => exact .del (a :: p) s x
  | sub p s x y => exact .sub (a :: p) s x y
  | swap h p s x y => exact .swap h (a :: p) s x y
  | merge h p s x y z => exact .merge h (a :: p) s x y z
  | split h p s x y z => exact .split h (a :: p) s x y z

theorem Reach.cons {v w : List α} {k : Nat} (a : α) (h : Reach A k v w) : Reach A k (a :: v) (a :: w) := by
  induction h with
  | refl v => exact .refl _
  | step h _ ih => exact .step (h.cons a) ih

theorem Align.reach {v w : List α} {c : Nat} (h : Align A v w c) : Reach A c v w := by
  induction h with
  | nil => exact .refl _
  | keep a _ ih => exact ih.cons a
  | sub a b _ ih => exact .step (.sub [] _ a b) (ih.cons b)
  | ins b _ ih => exact .step (.ins [] _ b) (ih.cons b)
  | del a _ ih => exact .step (.del [] _ a) ih
  | swap h a b _ ih => exact .step (.swap h [] _ a b) ((ih.cons a).cons b)
  | merge h a b d _ ih => exact .step (.merge h [] _ a b d) (ih.cons d)
  | split h a b d _ ih => exact .step (.split h [] _ a b d) ((ih.cons d).cons b)

/-- One operation, located by walking from the left. -/
inductive StepS (A : Algorithm) : List α → List α → Prop
  | ins (s : List α) (a : α) : StepS A s (a :: s)
  | del (s : List α) (a : α) : StepS A (a :: s) s
  | sub (s : List α) (a b : α) : StepS A (a :: s) (b :: s)
  | swap (h : A = .transposition) (s : List α) (a b : α) : StepS A (a :: b :: s) (b :: a :: s)
  | merge (h : A = .mergeAndSplit) (s : List α) (a b c : α) : StepS A (a :: b :: s) (c :: s)
  | split (h : A = .mergeAndSplit) (s : List α) (a b c : α) : StepS A (a :: s) (b :: c :: s)
  | there {v w : List α} (a : α) : StepS A v w → StepS A (a :: v) (a :: w)

theorem StepS.prepend {v w : List α} (p : List α) (h : StepS A v w) : StepS A (p ++ v) (p ++ w) := by
  induction p with
  | nil => exact h
  | cons a p ih => exact ih.there a

theorem Step.toS {v w : List α} (h : Step A v w) : StepS A v w := by
  cases h with
  | ins p s x => exact (StepS.ins s x).prepend p
  | del p s x => exact (StepS.del s x).prepend p
  | sub p s x y => exact (StepS.sub s x y).prepend p
  | swap h p s x y => exact (StepS.swap h s x y).prepend p
  | merge h p s x y z => exact (StepS.merge h s x y z).prepend p
  | split h p s x y z => exact (StepS.split h s x y z).prepend p

/-- Replacing the first character on the right costs at most one. -/
theorem Align.sub_head (hA : A ≠ .transposition) {x y : List α} {c : Nat} (h : Align A x y c) :
    ∀ a s, y = a :: s → ∀ b, AlignLe A x (b :: s) (c + 1) := by
  induction h with
  | nil => intro a s e; cases e
  | keep a h ih => intro _ s e b; cases e; exact h.le.sub a b (by omega)
  | sub a _ h ih => intro _ s e b; cases e; exact h.le.sub a b (by omega)
  | ins _ h ih => intro _ s e b; cases e; exact h.le.ins b (by omega)
  | del a h ih => intro _ s e b; exact (ih _ s e b).del a (by omega)
  | swap h' => exact absurd h' hA
  | merge hA a a' d h ih => intro _ s e b; cases e; exact h.le.merge hA a a' b (by omega)
  | split hA a _ d h ih => intro _ s e b; cases e; exact h.le.split hA a b d (by omega)

theorem Align.split_head (hA : A = .mergeAndSplit) {x y : List α} {c : Nat} (h : Align A x y c) :
    ∀ a s, y = a :: s → ∀ b d, AlignLe A x (b :: d :: s) (c + 1) := by
  induction h with
  | nil => intro a s e; cases e
  | keep a h ih => intro _ s e b d; cases e; exact h.le.split hA a b d (by omega)
  | sub a _ h ih => intro _ s e b d; cases e; exact h.le.split hA a b d (by omega)
  | ins _ h ih => intro _ s e b d; cases e; exact (h.le.ins d (Nat.le_refl _)).ins b (by omega)
  | del a h ih => intro _ s e b d; exact (ih _ s e b d).del a (by omega)
  | swap h' => subst hA; cases h'
  | merge hA a a' _ h ih =>
      intro _ s e b d; cases e; exact (h.le.sub a' d (Nat.le_refl _)).sub a b (by omega)
  | split hA a _ f h ih =>
      intro _ s e b d; cases e; exact (h.le.ins f (Nat.le_refl _)).split hA a b d (by omega)

/-- Inserting one character anywhere on the right costs at most one. -/
theorem Align.ins_any (hA : A ≠ .transposition) {x y : List α} {c : Nat} (h : Align A x y c) :
    ∀ p s, y = p ++ s → ∀ b, AlignLe A x (p ++ b :: s) (c + 1) := by
  induction h with
  | nil => intro p s e b; simp at e; obtain ⟨rfl, rfl⟩ := e; exact AlignLe.nil.ins b (Nat.le_refl _)
  | @keep v w c a h ih =>
    intro p s e b
    cases p with
    | nil => simp at e; subst e; exact ((h.keep a).le.ins b (Nat.le_refl _))
    | cons a' p => simp at e; obtain ⟨rfl, rfl⟩ := e; exact (ih p s rfl b).keep a
  | @sub v w c a a2 h ih =>
    intro p s e b
    cases p with
    | nil => simp at e; subst e; exact ((h.sub a a2).le.ins b (Nat.le_refl _))
    | cons a' p => simp at e; obtain ⟨rfl, rfl⟩ := e; exact (ih p s rfl b).sub a _ (by omega)
  | @ins v w c a2 h ih =>
    intro p s e b
    cases p with
    | nil => simp at e; subst e; exact ((h.ins a2).le.ins b (Nat.le_refl _))
    | cons a' p => simp at e; obtain ⟨rfl, rfl⟩ := e; exact (ih p s rfl b).ins _ (by omega)
  | del a h ih => intro p s e b; exact (ih p s e b).del a (by omega)
  | swap h' => exact absurd h' hA
  | @merge v w c hA' a a2 d h ih =>
    intro p s e b
    cases p with
    | nil => simp at e; subst e; exact ((h.merge hA' a a2 d).le.ins b (Nat.le_refl _))
    | cons a' p => simp at e; obtain ⟨rfl, rfl⟩ := e; exact (ih p s rfl b).merge hA' a a2 _ (by omega)
  | @split v w c hA' a a2 d h ih =>
    intro p s e b
    match p with
    | [] => simp at e; subst e; exact ((h.split hA' a a2 d).le.ins b (Nat.le_refl _))
    | [a'] =>
      simp at e; obtain ⟨rfl, rfl⟩ := e
      exact (h.le.ins d (Nat.le_refl _)).split hA' a a2 b (by omega)
    | a' :: d' :: p =>
      simp at e; obtain ⟨rfl, rfl, rfl⟩ := e; exact (ih p s rfl b).split hA' a _ _ (by omega)

theorem AlignLe.ins_snd_left (hA : A ≠ .transposition) {x y : List α} {a b : α} {c : Nat}
    (h : AlignLe A (a :: x) y c) : AlignLe A (a :: b :: x) y (c + 1) := by
  obtain ⟨c', h1, h2⟩ := h
  exact ((h2.symm.ins_any hA [a] x rfl b).symm).mono (by omega)

/-- If `x` aligns with `b :: s`, then one more character on the left, merged in front, costs at most one. -/
theorem Align.merge_front (hA : A = .mergeAndSplit) {x y : List α} {c : Nat} (h : Align A x y c) :
    ∀ b s, y = b :: s → ∀ a d, AlignLe A (a :: x) (d :: s) (c + 1) := by
  have hA' : A ≠ .transposition := by subst hA; simp
  induction h with
  | nil => intro b s e; cases e
  | keep z h ih => intro _ s e a d; cases e; exact h.le.merge hA a z d (by omega)
  | sub z _ h ih => intro _ s e a d; cases e; exact h.le.merge hA a z d (by omega)
  | ins _ h ih => intro _ s e a d; cases e; exact h.le.sub a d (by omega)
  | del z h ih =>
      intro b s e a d
      exact (ih b s e a d).ins_snd_left hA'
  | swap h' => subst hA; cases h'
  | merge hA z z' _ h ih =>
      intro _ s e a d; cases e
      exact (h.le.del z' (Nat.le_refl _)).merge hA a z d (by omega)
  | split hA z _ f h ih =>
      intro _ s e a d; cases e
      exact (h.le.sub z f (Nat.le_refl _)).sub a d (by omega)

theorem Align.merge_head (hA : A = .mergeAndSplit) {x y : List α} {c : Nat} (h : Align A x y c) :
    ∀ a b s, y = a :: b :: s → ∀ d, AlignLe A x (d :: s) (c + 1) := by
  have hA' : A ≠ .transposition := by subst hA; simp
  induction h with
  | nil => intro a b s e; cases e
  | keep z h ih => intro _ b s e d; cases e; exact h.merge_front hA b s rfl z d
  | sub z _ h ih => intro _ b s e d; cases e; exact (h.merge_front hA b s rfl z d).mono (by omega)
  | ins _ h ih => intro _ b s e d; cases e; exact (h.sub_head hA' b s rfl d).mono (by omega)
  | del z h ih => intro a b s e d; exact (ih a b s e d).del z (by omega)
  | swap h' => subst hA; cases h'
  | merge _ z z' _ h ih =>
      intro _ b s e d; cases e
      exact (h.merge_front hA b s rfl z' d).del z (by omega)
  | split _ z _ f h ih => intro _ b s e d; cases e; exact h.le.sub z d (by omega)

/-- One operation changes the least alignment cost by at most one (not so with transpositions). -/
theorem Align.step (hA : A ≠ .transposition) {x y : List α} {c : Nat} (h : Align A x y c) :
    ∀ z, StepS A y z → AlignLe A x z (c + 1) := by
  have head : ∀ {x y : List α} {c : Nat}, Align A x y c → ∀ z, StepS A y z →
      (∀ a y' z', y = a :: y' → z = a :: z' → StepS A y' z' → AlignLe A x z (c + 1)) →
      AlignLe A x z (c + 1) := by
    intro x y c h z hs hthere
    cases hs with
    | ins s a => exact h.le.ins a (Nat.le_refl _)
    | del s a => exact h.le.tail_right
    | sub s a b => exact h.sub_head hA a s rfl b
    | swap h' => exact absurd h' hA
    | merge h' s a b d => exact h.merge_head h' a b s rfl d
    | split h' s a b d => exact h.split_head h' a s rfl b d
    | there a hs => exact hthere a _ _ rfl rfl hs
  induction h with
  | nil => intro z hs; exact head .nil z hs (fun _ _ _ e => by cases e)
  | keep a h ih =>
    intro z hs; refine head (h.keep a) z hs ?_
    intro _ y' z' e e' hs'; cases e; subst e'; exact (ih z' hs').keep a
  | sub a b h ih =>
    intro z hs; refine head (h.sub a b) z hs ?_
    intro _ y' z' e e' hs'; cases e; subst e'; exact (ih z' hs').sub a b (by omega)
  | ins b h ih =>
    intro z hs; refine head (h.ins b) z hs ?_
    intro _ y' z' e e' hs'; cases e; subst e'; exact (ih z' hs').ins b (by omega)
  | del a h ih => intro z hs; exact (ih z hs).del a (by omega)
  | swap h' => exact absurd h' hA
  | merge h' a b d h ih =>
    intro z hs; refine head (h.merge h' a b d) z hs ?_
    intro _ y' z' e e' hs'; cases e; subst e'; exact (ih z' hs').merge h' a b d (by omega)
  | @split v w c h' a b d h ih =>
    intro z hs; refine head (h.split h' a b d) z hs ?_
    intro _ y' z' e e' hs'; cases e; subst e'
    cases hs' with
    | ins s f => exact (h.le.ins d (Nat.le_refl _)).split h' a b f (by omega)
    | del s f => exact h.le.sub a b (by omega)
    | sub s f g => exact h.le.split h' a b g (by omega)
    | swap h'' => exact absurd h'' hA
    | merge _ s f g k => exact (h.sub_head hA g s rfl k).sub a b (by omega)
    | split _ s f g k => exact (h.le.ins k (Nat.le_refl _)).split h' a b g (by omega)
    | there f hs'' => exact (ih _ hs'').split h' a b d (by omega)

theorem AlignLe.reach (hA : A ≠ .transposition) {x y z : List α} {c k : Nat} (h : AlignLe A x y c)
    (hr : Reach A k y z) : AlignLe A x z (c + k) := by
  induction hr generalizing c with
  | refl v => exact h
  | step hs _ ih =>
    obtain ⟨c', h1, h2⟩ := h
    exact (ih (h2.step hA _ hs.toS)).mono (by omega)

theorem IsMinCost.isMinOps (hA : A ≠ .transposition) {v w : List α} {d : Nat} (h : IsMinCost A v w d) :
    IsMinOps A v w d := by
  refine ⟨h.1.reach, fun k hk => ?_⟩
  have := AlignLe.reach (c := 0) hA (align_refl v).le hk
  simpa using h.le_iff.1 this

theorem Reach.trans {u v w : List α} {j k : Nat} (h : Reach A j u v) (h' : Reach A k v w) : Reach A (j + k) u w := by
  induction h with
  | refl => simpa using h'
  | step hs _ ih => rw [Nat.add_right_comm]; exact .step hs (ih h')

theorem Step.alignLe {v w : List α} (h : Step A v w) : AlignLe A v w 1 := by
  cases h with
  | ins p s a => exact .keep_prefix p (.ins a (align_refl s).le (by omega))
  | del p s a => exact .keep_prefix p (.del a (align_refl s).le (by omega))
  | sub p s a b => exact .keep_prefix p (.sub a b (align_refl s).le (by omega))
  | swap h p s a b => exact .keep_prefix p (.swap h a b (align_refl s).le (by omega))
  | merge h p s a b c => exact .keep_prefix p (.merge h a b c (align_refl s).le (by omega))
  | split h p s a b c => exact .keep_prefix p (.split h a b c (align_refl s).le (by omega))

end Lev.Spec
