import Verif.Model.Transition

/-! Lemmas about `merge`, `unsubsume`, `sort` and `compare` on states. -/

namespace Lev

/-! ### `merge` -/

/-- `a` and `b` are the same position for the algorithm (STANDARD does not look at the flag). -/
def SamePos (A : Algorithm) (a b : Pos) : Prop :=
  a.index = b.index ∧ a.errors = b.errors ∧ (A ≠ .standard → a.special = b.special)

/-- `a` comes after `b` in a state built by `merge`: fewer errors, or a smaller index, or no flag. -/
def Below (A : Algorithm) (a b : Pos) : Prop :=
  a.errors < b.errors ∨ (a.errors = b.errors ∧ (a.index < b.index ∨
    (a.index = b.index ∧ A ≠ .standard ∧ a.special = false ∧ b.special = true)))

theorem mergeWalks_iff (A : Algorithm) (a b : Pos) : mergeWalks A a b = true ↔ Below A a b := by
  cases A <;> simp [mergeWalks, Below, and_assoc]

theorem mergeDiffers_iff (A : Algorithm) (a b : Pos) : mergeDiffers A a b = false ↔ SamePos A a b := by
  cases A <;> simp only [mergeDiffers, SamePos, Bool.or_eq_false_iff, bne_eq_false_iff_eq, and_assoc]
  · exact ⟨fun h => ⟨h.1.symm, h.2.symm, by simp⟩, fun h => ⟨h.1.symm, h.2.1.symm⟩⟩
  all_goals
    exact ⟨fun h => ⟨h.1.symm, h.2.1.symm, fun _ => h.2.2.symm⟩,
      fun h => ⟨h.1.symm, h.2.1.symm, (h.2.2 (by simp)).symm⟩⟩

theorem Below.trans {A : Algorithm} {a b c : Pos} (h : Below A a b) (h' : Below A b c) : Below A a c := by
  unfold Below at *
  rcases h with h | ⟨h1, h | ⟨h2, h3, h4, h5⟩⟩ <;> rcases h' with h' | ⟨h1', h' | ⟨h2', h3', h4', h5'⟩⟩
  all_goals first
    | (left; omega)
    | (right; exact ⟨by omega, .inl (by omega)⟩)
    | (rw [h4'] at h5; cases h5)

theorem Below.irrefl {A : Algorithm} {a : Pos} (h : Below A a a) : False := by
  unfold Below at h
  rcases h with h | ⟨h1, h | ⟨h2, h3, h4, h5⟩⟩
  · omega
  · omega
  · rw [h4] at h5; cases h5

theorem Below.ne {A : Algorithm} {a b : Pos} (h : Below A a b) (hs : SamePos A a b) : False := by
  unfold Below at h
  obtain ⟨s1, s2, s3⟩ := hs
  rcases h with h | ⟨h1, h | ⟨h2, h3, h4, h5⟩⟩
  · omega
  · omega
  · have := s3 h3; rw [h4, h5] at this; cases this

theorem below_total (A : Algorithm) (a b : Pos) : Below A a b ∨ SamePos A a b ∨ Below A b a := by
  unfold Below SamePos
  rcases Nat.lt_trichotomy a.errors b.errors with h | h | h
  · exact .inl (.inl h)
  · rcases Nat.lt_trichotomy a.index b.index with h' | h' | h'
    · exact .inl (.inr ⟨h, .inl h'⟩)
    · by_cases hA : A = .standard
      · exact .inr (.inl ⟨h', h, fun h => absurd hA h⟩)
      · cases ha : a.special <;> cases hb : b.special <;> simp [h, h', hA]
    · exact .inr (.inr (.inr ⟨h.symm, .inl h'⟩))
  · exact .inr (.inr (.inl h))

/-- The order in which `merge` keeps a state. -/
def Desc (A : Algorithm) (l : List Pos) : Prop := l.Pairwise (fun a b => Below A b a)

theorem mem_mergeOne_of_mem {A : Algorithm} {a p : Pos} {l : List Pos} (h : p ∈ l) : p ∈ mergeOne A a l := by
  induction l with
  | nil => simp at h
  | cons b l ih =>
    simp only [mergeOne]
    split
    · rcases List.mem_cons.1 h with rfl | h
      · simp
      · exact List.mem_cons_of_mem _ (ih h)
    · split
      · exact List.mem_cons_of_mem _ h
      · exact h

theorem mem_of_mem_mergeOne {A : Algorithm} {a p : Pos} {l : List Pos} (h : p ∈ mergeOne A a l) :
    p = a ∨ p ∈ l := by
  induction l with
  | nil => simp only [mergeOne, List.mem_singleton] at h; exact .inl h
  | cons b l ih =>
    simp only [mergeOne] at h
    split at h
    · rcases List.mem_cons.1 h with rfl | h
      · exact .inr (by simp)
      · rcases ih h with h | h
        · exact .inl h
        · exact .inr (List.mem_cons_of_mem _ h)
    · split at h
      · rcases List.mem_cons.1 h with rfl | h
        · exact .inl rfl
        · exact .inr h
      · exact .inr h

theorem same_mem_mergeOne (A : Algorithm) (a : Pos) (l : List Pos) : ∃ p, p ∈ mergeOne A a l ∧ SamePos A a p := by
  induction l with
  | nil => exact ⟨a, by simp [mergeOne], rfl, rfl, fun _ => rfl⟩
  | cons b l ih =>
    simp only [mergeOne]
    split
    · obtain ⟨p, hp, hs⟩ := ih
      exact ⟨p, List.mem_cons_of_mem _ hp, hs⟩
    · split
      · exact ⟨a, by simp, rfl, rfl, fun _ => rfl⟩
      · next h => exact ⟨b, by simp, (mergeDiffers_iff A a b).1 (by simpa using h)⟩

theorem mergeOne_desc {A : Algorithm} {a : Pos} {l : List Pos} (h : Desc A l) : Desc A (mergeOne A a l) := by
  induction l with
  | nil => simp [mergeOne, Desc]
  | cons b l ih =>
    have h' := List.pairwise_cons.1 h
    simp only [mergeOne]
    split
    · next hw =>
      refine List.pairwise_cons.2 ⟨fun p hp => ?_, ih h'.2⟩
      rcases mem_of_mem_mergeOne hp with rfl | hp
      · exact (mergeWalks_iff A _ b).1 hw
      · exact h'.1 p hp
    · next hw =>
      split
      · next hd =>
        have hba : Below A b a := by
          rcases below_total A a b with h1 | h1 | h1
          · exact absurd ((mergeWalks_iff A a b).2 h1) hw
          · rw [(mergeDiffers_iff A a b).2 h1] at hd; cases hd
          · exact h1
        refine List.pairwise_cons.2 ⟨fun p hp => ?_, h⟩
        rcases List.mem_cons.1 hp with rfl | hp
        · exact hba
        · exact (h'.1 p hp).trans hba
      · exact h

/-- A position that is already there is not inserted. -/
theorem mergeOne_of_mem {A : Algorithm} {a b : Pos} {l : List Pos} (h : Desc A l) (hb : b ∈ l)
    (hs : SamePos A a b) : mergeOne A a l = l := by
  induction l with
  | nil => simp at hb
  | cons c l ih =>
    have h' := List.pairwise_cons.1 h
    simp only [mergeOne]
    rcases List.mem_cons.1 hb with rfl | hb
    · rw [if_neg, if_neg]
      · rw [(mergeDiffers_iff A a b).2 hs]; simp
      · intro hw; exact ((mergeWalks_iff A a b).1 hw).ne hs
    · have hc := h'.1 b hb
      have : Below A a c := by
        unfold Below at hc ⊢
        obtain ⟨s1, s2, s3⟩ := hs
        rcases hc with hc | ⟨h1, hc | ⟨h2, h3, h4, h5⟩⟩
        · left; omega
        · right; exact ⟨by omega, .inl (by omega)⟩
        · right; exact ⟨by omega, .inr ⟨by omega, h3, by rw [s3 h3, h4], h5⟩⟩
      rw [if_pos ((mergeWalks_iff A a c).2 this), ih h'.2 hb]

theorem mergeAll_desc {A : Algorithm} {l ps : List Pos} (h : Desc A l) : Desc A (mergeAll A l ps) := by
  induction ps generalizing l with
  | nil => exact h
  | cons a ps ih => exact ih (mergeOne_desc h)

theorem mergeAll_length {A : Algorithm} {a : Pos} {l : List Pos} :
    (mergeOne A a l).length = l.length ∨ (mergeOne A a l).length = l.length + 1 := by
  induction l with
  | nil => simp [mergeOne]
  | cons b l ih =>
    simp only [mergeOne]
    split
    · simp only [List.length_cons]; omega
    · split <;> simp

theorem mem_mergeAll {A : Algorithm} {l ps : List Pos} (P : Pos → Prop)
    (hP : ∀ a b, P a → P b → SamePos A a b → a = b) (hl : ∀ p ∈ l, P p) (hps : ∀ p ∈ ps, P p) (p : Pos) :
    p ∈ mergeAll A l ps ↔ p ∈ l ∨ p ∈ ps := by
  induction ps generalizing l with
  | nil => simp [mergeAll]
  | cons a ps ih =>
    have ha : P a := hps a (by simp)
    have hmem : ∀ b, b ∈ mergeOne A a l ↔ b = a ∨ b ∈ l := by
      intro b
      refine ⟨mem_of_mem_mergeOne, ?_⟩
      rintro (rfl | h)
      · obtain ⟨c, hc, hs⟩ := same_mem_mergeOne A b l
        rcases mem_of_mem_mergeOne hc with hcb | hcl
        · rw [hcb] at hc; exact hc
        · exact (hP b c ha (hl c hcl) hs).symm ▸ mem_mergeOne_of_mem hcl
      · exact mem_mergeOne_of_mem h
    have := ih (l := mergeOne A a l) (fun b hb => by
      rcases (hmem b).1 hb with rfl | h
      · exact ha
      · exact hl b h) (fun b hb => hps b (by simp [hb]))
    show p ∈ mergeAll A (mergeOne A a l) ps ↔ _
    rw [this, hmem]
    simp only [List.mem_cons]
    constructor
    · rintro ((h | h) | h) <;> simp [h]
    · rintro (h | h | h) <;> simp [h]

/-! ### `unsubsume` -/

theorem unsubInner_id {sub : Pos → Pos → Bool} {outer : Pos} {l : List Pos}
    (h : ∀ p ∈ l, ¬ outer.errors < p.errors) : unsubInner sub outer l = l := by
  induction l with
  | nil => rfl
  | cons a l ih =>
    simp only [unsubInner]
    rw [if_neg (h a (by simp)), ih (fun p hp => h p (by simp [hp]))]

/-- On a state ordered by descending errors `unsubsume` removes nothing. -/
theorem unsubsume_id {sub : Pos → Pos → Bool} {l : List Pos}
    (h : l.Pairwise (fun a b => ¬ a.errors < b.errors)) : unsubsume sub l = l := by
  induction l with
  | nil => rw [unsubsume.eq_def]
  | cons a l ih =>
    have h' := List.pairwise_cons.1 h
    rw [unsubsume.eq_def]
    simp only
    rw [unsubInner_id h'.1, ih h'.2]

theorem Desc.errors {A : Algorithm} {l : List Pos} (h : Desc A l) :
    l.Pairwise (fun a b => ¬ a.errors < b.errors) :=
  h.imp fun hab => by unfold Below at hab; omega

/-! ### `sort` -/

variable {α : Type}

theorem mergeSorted_nil_left (cmp : α → α → Int) (u : List α) : mergeSorted cmp [] u = u := by
  rw [mergeSorted.eq_def]

theorem mergeSorted_nil_right (cmp : α → α → Int) (l : List α) : mergeSorted cmp l [] = l := by
  rw [mergeSorted.eq_def]; cases l <;> rfl

theorem mergeSorted_cons (cmp : α → α → Int) (a : α) (l : List α) (b : α) (u : List α) :
    mergeSorted cmp (a :: l) (b :: u) =
      if cmp a b < 1 then a :: mergeSorted cmp l (b :: u) else b :: mergeSorted cmp (a :: l) u := by
  rw [mergeSorted.eq_def]

/-- A comparator that is a total preorder. -/
structure TotalPre (cmp : α → α → Int) : Prop where
  total : ∀ a b, cmp a b < 1 ∨ cmp b a < 1
  trans : ∀ a b c, cmp a b < 1 → cmp b c < 1 → cmp a c < 1

theorem mergeSorted_perm (cmp : α → α → Int) (l u : List α) : (mergeSorted cmp l u).Perm (l ++ u) := by
  induction l generalizing u with
  | nil => rw [mergeSorted_nil_left]; exact .refl _
  | cons a l ihl =>
    induction u with
    | nil => rw [mergeSorted_nil_right]; simp
    | cons b u ihu =>
      rw [mergeSorted_cons]
      split
      · exact (ihl (b :: u)).cons a
      · exact (ihu.cons b).trans List.perm_middle.symm

theorem mergeSorted_sorted {cmp : α → α → Int} (hc : TotalPre cmp) {l u : List α}
    (hl : l.Pairwise (fun a b => cmp a b < 1)) (hu : u.Pairwise (fun a b => cmp a b < 1)) :
    (mergeSorted cmp l u).Pairwise (fun a b => cmp a b < 1) := by
  induction l generalizing u with
  | nil => rw [mergeSorted_nil_left]; exact hu
  | cons a l ihl =>
    induction u with
    | nil => rw [mergeSorted_nil_right]; exact hl
    | cons b u ihu =>
      have hl' := List.pairwise_cons.1 hl
      have hu' := List.pairwise_cons.1 hu
      rw [mergeSorted_cons]
      split
      · next hab =>
        refine List.pairwise_cons.2 ⟨fun p hp => ?_, ihl hl'.2 hu⟩
        have := (mergeSorted_perm cmp l (b :: u)).mem_iff.1 hp
        rcases List.mem_append.1 this with h | h
        · exact hl'.1 p h
        · rcases List.mem_cons.1 h with rfl | h
          · exact hab
          · exact hc.trans _ _ _ hab (hu'.1 p h)
      · next hab =>
        have hba : cmp b a < 1 := (hc.total a b).resolve_left hab
        refine List.pairwise_cons.2 ⟨fun p hp => ?_, ihu hu'.2⟩
        have := (mergeSorted_perm cmp (a :: l) u).mem_iff.1 hp
        rcases List.mem_append.1 this with h | h
        · rcases List.mem_cons.1 h with rfl | h
          · exact hba
          · exact hc.trans _ _ _ hba (hl'.1 p h)
        · exact hu'.1 p h

/-- Stability of one merge: elements that tie with each other keep their order. -/
theorem mergeSorted_filter {cmp : α → α → Int} (hc : TotalPre cmp) (P : α → Bool)
    (hP : ∀ a b, P a = true → P b = true → cmp a b < 1) {l u : List α}
    (hl : l.Pairwise (fun a b => cmp a b < 1)) :
    (mergeSorted cmp l u).filter P = l.filter P ++ u.filter P := by
  induction l generalizing u with
  | nil => rw [mergeSorted_nil_left]; simp
  | cons a l ihl =>
    induction u with
    | nil => rw [mergeSorted_nil_right]; simp
    | cons b u ihu =>
      have hl' := List.pairwise_cons.1 hl
      rw [mergeSorted_cons]
      split
      · rw [List.filter_cons, ihl hl'.2, List.filter_cons (x := a)]
        split <;> simp
      · next hab =>
        rw [List.filter_cons, ihu, List.filter_cons (x := b)]
        by_cases hb : P b = true
        · have hnil : (a :: l).filter P = [] := by
            rw [List.filter_eq_nil_iff]
            intro y hy hPy
            apply hab
            rcases List.mem_cons.1 hy with rfl | hy
            · exact hP _ _ hPy hb
            · exact hc.trans _ _ _ (hl'.1 y hy) (hP _ _ hPy hb)
          rw [hnil]; simp [hb]
        · simp [hb]

theorem mergeSort_short (cmp : α → α → Int) {l : List α} (h : l.length < 2) : mergeSort cmp l = l := by
  rw [mergeSort.eq_def, dif_pos h]

theorem mergeSort_long (cmp : α → α → Int) {l : List α} (h : ¬ l.length < 2) :
    mergeSort cmp l = mergeSorted cmp (mergeSort cmp (l.take ((l.length - 1) / 2 + 1)))
      (mergeSort cmp (l.drop ((l.length - 1) / 2 + 1))) := by
  rw [mergeSort.eq_def, dif_neg h]

theorem mergeSort_perm (cmp : α → α → Int) (l : List α) : (mergeSort cmp l).Perm l := by
  induction hn : l.length using Nat.strongRecOn generalizing l with
  | ind k ih =>
    by_cases h : l.length < 2
    · rw [mergeSort_short cmp h]
    · rw [mergeSort_long cmp h]
      refine (mergeSorted_perm _ _ _).trans ?_
      have h1 := ih _ (by simp; omega) (l.take ((l.length - 1) / 2 + 1)) rfl
      have h2 := ih _ (by simp; omega) (l.drop ((l.length - 1) / 2 + 1)) rfl
      exact (h1.append h2).trans (by rw [List.take_append_drop])

theorem mergeSort_sorted {cmp : α → α → Int} (hc : TotalPre cmp) (l : List α) :
    (mergeSort cmp l).Pairwise (fun a b => cmp a b < 1) := by
  induction hn : l.length using Nat.strongRecOn generalizing l with
  | ind k ih =>
    by_cases h : l.length < 2
    · rw [mergeSort_short cmp h]
      match l, h with
      | [], _ => exact .nil
      | [a], _ => exact List.pairwise_singleton _ _
      | a :: b :: l, h => simp at h; omega
    · rw [mergeSort_long cmp h]
      have h1 := ih _ (by simp; omega) (l.take ((l.length - 1) / 2 + 1)) rfl
      have h2 := ih _ (by simp; omega) (l.drop ((l.length - 1) / 2 + 1)) rfl
      exact mergeSorted_sorted hc h1 h2

theorem mergeSort_filter {cmp : α → α → Int} (hc : TotalPre cmp) (P : α → Bool)
    (hP : ∀ a b, P a = true → P b = true → cmp a b < 1) (l : List α) :
    (mergeSort cmp l).filter P = l.filter P := by
  induction hn : l.length using Nat.strongRecOn generalizing l with
  | ind k ih =>
    by_cases h : l.length < 2
    · rw [mergeSort_short cmp h]
    · rw [mergeSort_long cmp h, mergeSorted_filter hc P hP (mergeSort_sorted hc _),
        ih _ (by simp; omega) (l.take ((l.length - 1) / 2 + 1)) rfl,
        ih _ (by simp; omega) (l.drop ((l.length - 1) / 2 + 1)) rfl,
        ← List.filter_append, List.take_append_drop]

theorem mergeSorted_map {β : Type} (f : α → β) (cmp : β → β → Int) (l u : List α) :
    (mergeSorted (fun a b => cmp (f a) (f b)) l u).map f = mergeSorted cmp (l.map f) (u.map f) := by
  induction l generalizing u with
  | nil => simp [mergeSorted_nil_left]
  | cons a l ihl =>
    induction u with
    | nil => simp [mergeSorted_nil_right]
    | cons b u ihu =>
      rw [mergeSorted_cons, List.map_cons, List.map_cons, mergeSorted_cons]
      split
      · rw [List.map_cons, ihl, List.map_cons]
      · rw [List.map_cons, ihu, List.map_cons]

/-- Sorting by a key. -/
theorem mergeSort_map {β : Type} (f : α → β) (cmp : β → β → Int) (l : List α) :
    (mergeSort (fun a b => cmp (f a) (f b)) l).map f = mergeSort cmp (l.map f) := by
  induction hn : l.length using Nat.strongRecOn generalizing l with
  | ind k ih =>
    by_cases h : l.length < 2
    · rw [mergeSort_short _ h, mergeSort_short _ (by simpa using h)]
    · rw [mergeSort_long _ h, mergeSort_long cmp (l := l.map f) (by simpa using h), mergeSorted_map,
        ih _ (by simp; omega) (l.take ((l.length - 1) / 2 + 1)) rfl,
        ih _ (by simp; omega) (l.drop ((l.length - 1) / 2 + 1)) rfl]
      simp

/-! ### `compare` -/

/-- The order that `compare` describes. -/
def PosLe (A : Algorithm) (a b : Pos) : Prop :=
  a.index < b.index ∨ (a.index = b.index ∧ (a.errors < b.errors ∨ (a.errors = b.errors ∧
    (A = .standard ∨ a.special = false ∨ b.special = true))))

theorem comparePos_lt_one_iff (A : Algorithm) (a b : Pos) : comparePos A a b < 1 ↔ PosLe A a b := by
  unfold comparePos PosLe
  cases A <;> simp only
  all_goals
    rcases Nat.lt_trichotomy a.index b.index with h | h | h
    · simp [h]
    · rcases Nat.lt_trichotomy a.errors b.errors with h' | h' | h'
      · simp [h, h']
      · cases a.special <;> cases b.special <;> simp [h, h']
      · have : ¬ a.errors < b.errors := by omega
        have h2 : ¬ a.errors = b.errors := by omega
        simp [h, h', this, h2]
    · have : ¬ a.index < b.index := by omega
      have h2 : ¬ a.index = b.index := by omega
      simp [h, this, h2]

theorem posLe_total (A : Algorithm) (a b : Pos) : PosLe A a b ∨ PosLe A b a := by
  unfold PosLe
  cases a.special <;> cases b.special <;> cases A <;> simp <;> omega

theorem PosLe.trans {A : Algorithm} {a b c : Pos} (h : PosLe A a b) (h' : PosLe A b c) : PosLe A a c := by
  unfold PosLe at *
  rcases h with h | ⟨h1, h | ⟨h2, h3⟩⟩ <;> rcases h' with h' | ⟨h1', h' | ⟨h2', h3'⟩⟩
  all_goals first
    | (left; omega)
    | (right; exact ⟨by omega, .inl (by omega)⟩)
    | skip
  refine .inr ⟨by omega, .inr ⟨by omega, ?_⟩⟩
  rcases h3 with h3 | h3 | h3
  · exact .inl h3
  · exact .inr (.inl h3)
  · rcases h3' with h3' | h3' | h3'
    · exact .inl h3'
    · rw [h3] at h3'; cases h3'
    · exact .inr (.inr h3')

theorem PosLe.antisymm {A : Algorithm} {a b : Pos} (h : PosLe A a b) (h' : PosLe A b a) : SamePos A a b := by
  unfold PosLe SamePos at *
  refine ⟨by omega, by omega, fun hA => ?_⟩
  have h1 : a.special = false ∨ b.special = true := by
    rcases h with h | ⟨h1, h | ⟨h2, h3⟩⟩
    · omega
    · omega
    · exact h3.resolve_left hA
  have h2 : b.special = false ∨ a.special = true := by
    rcases h' with h | ⟨h1, h | ⟨h2, h3⟩⟩
    · omega
    · omega
    · exact h3.resolve_left hA
  rcases h1 with h1 | h1 <;> rcases h2 with h2 | h2 <;> simp_all

theorem comparePos_totalPre (A : Algorithm) : TotalPre (comparePos A) where
  total a b := by simp only [comparePos_lt_one_iff]; exact posLe_total A a b
  trans a b c := by simp only [comparePos_lt_one_iff]; exact PosLe.trans

end Lev
