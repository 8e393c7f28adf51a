import Verif.Proofs.StateProps
import Verif.Model.Query

/-!
# Properties C45–C51, C53 (intersections), C54: positions and states

`ReachState A n q w l`: a query `(q, n)` holds the state `l` after it has read `w`.
-/

namespace Lev.Props

open Lev Spec

/-! ### C45 -/

/-- C45: every reachable state is non-empty, strictly ascending for the comparator, free of duplicates, and its
positions lie in the query and within the error budget; a further transition never fails. -/
theorem c45_states_well_formed {A : Algorithm} {n : Nat} {q w : Str} {l : List Pos} (h : ReachState A n q w l)
    (hn : n < 2 ^ 64) (hq : QueryFits n q) (hw : w.length < 2 ^ 62) :
    l ≠ [] ∧ l.Pairwise (fun a b => comparePos A a b < 0) ∧ l.Nodup ∧
      (∀ p ∈ l, p.index ≤ q.length ∧ p.errors ≤ n) ∧
      ∀ x hd tl, l = hd :: tl → ∃ cv r,
        charVec x q (if windowMax n < wsub q.length hd.index then windowMax n else wsub q.length hd.index) hd.index
          = .ok cv ∧ stateTrans A n q.length l cv = .ok r := by
  have hn' : n ≤ sizeMax := by have := sizeMax_val; omega
  have hs := h.sem hn' hq (by omega)
  refine ⟨hs.inv.ne, hs.inv.sorted.imp fun ⟨h1, h2⟩ => comparePos_lt_zero h1 h2,
    hs.inv.sorted.imp fun ⟨_, h2⟩ heq => h2 (by rw [heq]; exact ⟨rfl, rfl, fun _ => rfl⟩),
    fun p hp => ⟨(hs.inv.ok p hp).index_le, (hs.inv.ok p hp).errors_le⟩, ?_⟩
  rintro x hd tl rfl
  have hsm : Small n q w.length := ⟨hn', hq, by omega⟩
  have hhd := hs.inv.ok hd (by simp)
  obtain ⟨cv, hcv, hwin⟩ := charVec_window (x := x) hsm hhd.index_le
    (by have := hhd.behind; have := hhd.errors_le; omega)
  rcases hs.trans q.length hsm hwin with ⟨ht, _⟩ | ⟨l', ht, _⟩
  · exact ⟨cv, none, hcv, ht⟩
  · exact ⟨cv, some l', hcv, ht⟩

/-- The state after reading "bb" for the query ("ab", 2). -/
theorem exState_reach : ReachState .standard 2 [97, 98] [98, 98]
    [⟨0, 2, false⟩, ⟨1, 2, false⟩, ⟨2, 1, false⟩, ⟨2, 2, false⟩] :=
  .step (w := [98]) (hd := ⟨0, 1, false⟩) (tl := [⟨1, 1, false⟩, ⟨2, 1, false⟩]) (cv := [false, true])
    (.step (w := []) (hd := ⟨0, 0, false⟩) (tl := []) (cv := [false, true]) .init
      (by decide +kernel) (by decide +kernel)) (by decide +kernel) (by decide +kernel)

/-! ### C46 -/

/-- C46: `sort` permutes the positions, puts them in ascending order, and leaves equal ones (of any class of
equal positions) in their original order. -/
theorem c46_sort_stable (cmp : Pos → Pos → Int) (total : ∀ a b, cmp a b ≤ 0 ∨ cmp b a ≤ 0)
    (trans : ∀ a b c, cmp a b ≤ 0 → cmp b c ≤ 0 → cmp a c ≤ 0) (l : List Pos) :
    (mergeSort cmp l).Perm l ∧ (mergeSort cmp l).Pairwise (fun a b => cmp a b ≤ 0) ∧
      ∀ a, (mergeSort cmp l).filter (fun b => cmp a b ≤ 0 && cmp b a ≤ 0) =
        l.filter (fun b => cmp a b ≤ 0 && cmp b a ≤ 0) := by
  have key : ∀ a b, cmp a b < 1 ↔ cmp a b ≤ 0 := fun a b => by omega
  have hc : TotalPre cmp := ⟨fun a b => by rw [key, key]; exact total a b,
    fun a b c => by rw [key, key, key]; exact trans a b c⟩
  refine ⟨mergeSort_perm cmp l, (mergeSort_sorted hc l).imp fun h => (key _ _).1 h, fun a => ?_⟩
  refine mergeSort_filter hc _ (fun b c hb hc' => ?_) l
  simp only [Bool.and_eq_true, decide_eq_true_eq] at hb hc'
  rw [key]
  exact trans b a c hb.2 hc'.1

/-- The comparators of the library are such orders. -/
theorem c46_library_comparators (A : Algorithm) : (∀ a b, comparePos A a b ≤ 0 ∨ comparePos A b a ≤ 0) ∧
    ∀ a b c, comparePos A a b ≤ 0 → comparePos A b c ≤ 0 → comparePos A a c ≤ 0 := by
  have h := comparePos_totalPre A
  have key : ∀ a b, comparePos A a b < 1 ↔ comparePos A a b ≤ 0 := fun a b => by omega
  exact ⟨fun a b => by rw [← key, ← key]; exact h.total a b,
    fun a b c => by rw [← key, ← key, ← key]; exact h.trans a b c⟩

example : mergeSort (comparePos .standard) [⟨2, 1, false⟩, ⟨0, 2, true⟩, ⟨0, 2, false⟩, ⟨0, 1, false⟩] =
    [⟨0, 1, false⟩, ⟨0, 2, true⟩, ⟨0, 2, false⟩, ⟨2, 1, false⟩] := by decide +kernel

/-! ### C47 -/

/-- What tells positions apart: errors, index and, except for STANDARD, the flag. -/
def posKey (A : Algorithm) (p : Pos) : Nat × Nat × Nat :=
  (p.errors, p.index, if A = .standard then 0 else if p.special then 1 else 0)

/-- Lexicographic order of keys. -/
def keyLt (k l : Nat × Nat × Nat) : Prop :=
  k.1 < l.1 ∨ (k.1 = l.1 ∧ (k.2.1 < l.2.1 ∨ (k.2.1 = l.2.1 ∧ k.2.2 < l.2.2)))

theorem below_iff_key (A : Algorithm) (a b : Pos) : Below A a b ↔ keyLt (posKey A a) (posKey A b) := by
  unfold Below keyLt posKey
  simp only
  cases A <;> cases a.special <;> cases b.special <;> simp

theorem same_iff_key (A : Algorithm) (a b : Pos) : SamePos A a b ↔ posKey A a = posKey A b := by
  unfold SamePos posKey
  simp only [Prod.mk.injEq]
  cases A <;> cases a.special <;> cases b.special <;> simp [and_comm]

theorem mergeOne_sublist (A : Algorithm) (a : Pos) (l : List Pos) : l.Sublist (mergeOne A a l) := by
  induction l with
  | nil => simp
  | cons b l ih =>
    simp only [mergeOne]
    split
    · exact ih.cons_cons b
    · split
      · exact List.sublist_cons_self a (b :: l)
      · exact List.Sublist.refl _

theorem mergeOne_keys (A : Algorithm) (a : Pos) (l : List Pos) (k : Nat × Nat × Nat) :
    (∃ p ∈ mergeOne A a l, posKey A p = k) ↔ (∃ p ∈ l, posKey A p = k) ∨ posKey A a = k := by
  constructor
  · rintro ⟨p, hp, rfl⟩
    rcases mem_of_mem_mergeOne hp with rfl | hp
    · exact .inr rfl
    · exact .inl ⟨p, hp, rfl⟩
  · rintro (⟨p, hp, rfl⟩ | rfl)
    · exact ⟨p, mem_mergeOne_of_mem hp, rfl⟩
    · obtain ⟨p, hp, hs⟩ := same_mem_mergeOne A a l
      exact ⟨p, hp, ((same_iff_key A a p).1 hs).symm⟩

/-- C47 (on lists; the memory side is C52): merging into a state that is strictly descending by key leaves it
strictly descending, keeps all its positions in place, adds nothing else than given positions, and afterwards a key
is present iff it was present or is that of a given position. -/
theorem c47_merge (A : Algorithm) (state ps : List Pos)
    (h : state.Pairwise (fun a b => keyLt (posKey A b) (posKey A a))) :
    (mergeAll A state ps).Pairwise (fun a b => keyLt (posKey A b) (posKey A a)) ∧
    state.Sublist (mergeAll A state ps) ∧
    (∀ p ∈ mergeAll A state ps, p ∈ state ∨ p ∈ ps) ∧
    ∀ k, (∃ p ∈ mergeAll A state ps, posKey A p = k) ↔ (∃ p ∈ state, posKey A p = k) ∨ ∃ p ∈ ps, posKey A p = k := by
  have hd : Desc A state := h.imp fun hab => (below_iff_key _ _ _).2 hab
  refine ⟨(mergeAll_desc hd).imp fun hab => (below_iff_key _ _ _).1 hab, ?_, ?_, ?_⟩
  · clear h hd
    induction ps generalizing state with
    | nil => exact List.Sublist.refl _
    | cons a ps ih => exact (mergeOne_sublist A a state).trans (ih _)
  · clear h hd
    induction ps generalizing state with
    | nil => exact fun p hp => .inl hp
    | cons a ps ih =>
      intro p hp
      rcases ih (mergeOne A a state) p hp with h | h
      · rcases mem_of_mem_mergeOne h with rfl | h
        · exact .inr (by simp)
        · exact .inl h
      · exact .inr (by simp [h])
  · clear h hd
    induction ps generalizing state with
    | nil => simp [mergeAll]
    | cons a ps ih =>
      intro k
      have := ih (mergeOne A a state) k
      rw [mergeOne_keys] at this
      simp only [mergeAll, List.foldl_cons, List.mem_cons, exists_eq_or_imp] at this ⊢
      rw [this, or_assoc]

example : mergeAll .transposition [⟨2, 2, true⟩, ⟨2, 2, false⟩, ⟨0, 1, false⟩] [⟨2, 2, false⟩, ⟨1, 1, true⟩] =
    [⟨2, 2, true⟩, ⟨2, 2, false⟩, ⟨1, 1, true⟩, ⟨0, 1, false⟩] := by decide

/-! ### C48 -/

/-- The documented purpose of `unsubsume`: no reachable state has a position subsumed by another one of the state
with fewer errors. -/
def C48_full : Prop := ∀ A n q w l, ReachState A n q w l →
  ∀ a ∈ l, ∀ b ∈ l, a.errors < b.errors → subsumes A a b q.length = false

/-- C48: the documented claim is false: after "bb" the query ("ab", 2) holds both (2,1) and (1,2). -/
theorem c48_documented_claim_false : ¬ C48_full := by
  intro h
  have h1 := h _ _ _ _ _ exState_reach ⟨2, 1, false⟩ (by simp) ⟨1, 2, false⟩ (by simp) (by decide)
  revert h1
  decide +kernel

theorem transLoop_desc {A : Algorithm} {n offset : Nat} {cv : List Bool} {l acc r : List Pos}
    (hd : Desc A acc) (h : transLoop A n cv offset l acc = .ok r) : Desc A r := by
  induction l generalizing acc with
  | nil => simp only [transLoop, Except.ok.injEq] at h; exact h ▸ hd
  | cons p l ih =>
    simp only [transLoop, bind, Except.bind] at h
    split at h
    · cases h
    · exact ih (mergeAll_desc hd) h

/-- C48, what happens instead: in every transition, from any state with any vector, `unsubsume` removes nothing,
whatever the subsumption predicate is. -/
theorem c48_unsubsume_removes_nothing {A : Algorithm} {n offset : Nat} {cv : List Bool} {l next : List Pos}
    (h : transLoop A n cv offset l [] = .ok next) (sub : Pos → Pos → Bool) : unsubsume sub next = next :=
  unsubsume_id (transLoop_desc (by simp [Desc]) h).errors

example : transLoop .standard 2 [false, true] 0 [⟨0, 1, false⟩, ⟨1, 1, false⟩, ⟨2, 1, false⟩] [] =
    .ok [⟨2, 2, false⟩, ⟨1, 2, false⟩, ⟨0, 2, false⟩, ⟨2, 1, false⟩] := by decide +kernel

/-! ### C49 -/

/-- C49: on a state with ascending errors `unsubsume` is the sieve that goes through the positions once, keeping a
position unless one kept before, with fewer errors, subsumes it. -/
theorem c49_unsubsume_is_sieve (sub : Pos → Pos → Bool) (l : List Pos)
    (h : l.Pairwise (fun a b => a.errors ≤ b.errors)) : unsubsume sub l = sieve sub [] l := by
  have hall : l.filter (fun p => !([] : List Pos).any (fun a => decide (a.errors < p.errors) && sub a p)) = l := by
    simp
  rw [sieve_eq [] h, hall, List.nil_append]

theorem sieve_spec (sub : Pos → Pos → Bool) (kept l : List Pos) :
    kept.Sublist (sieve sub kept l) ∧ (sieve sub kept l).Sublist (kept ++ l) ∧
    (∀ p ∈ l, p ∉ sieve sub kept l → ∃ a ∈ sieve sub kept l, a.errors < p.errors ∧ sub a p = true) := by
  induction l generalizing kept with
  | nil => simp [sieve]
  | cons p l ih =>
    simp only [sieve]
    split
    · next hk =>
      obtain ⟨h1, h2, h3⟩ := ih kept
      refine ⟨h1, h2.trans ?_, ?_⟩
      · exact List.Sublist.append_left (List.sublist_cons_self p l) kept
      · intro x hx hnx
        rcases List.mem_cons.1 hx with rfl | hx
        · obtain ⟨a, ha, hab⟩ := List.any_eq_true.1 hk
          simp only [Bool.and_eq_true, decide_eq_true_eq] at hab
          exact ⟨a, h1.mem ha, hab⟩
        · exact h3 x hx hnx
    · obtain ⟨h1, h2, h3⟩ := ih (kept ++ [p])
      refine ⟨(List.sublist_append_left kept [p]).trans h1, by simpa using h2, ?_⟩
      intro x hx hnx
      rcases List.mem_cons.1 hx with rfl | hx
      · exact absurd (h1.mem (by simp)) hnx
      · exact h3 x hx hnx

theorem sieve_pairwise (sub : Pos → Pos → Bool) (kept l : List Pos)
    (hk : kept.Pairwise (fun a b => ¬ (a.errors < b.errors ∧ sub a b = true))) :
    (sieve sub kept l).Pairwise (fun a b => ¬ (a.errors < b.errors ∧ sub a b = true)) := by
  induction l generalizing kept with
  | nil => exact hk
  | cons p l ih =>
    simp only [sieve]
    split
    · exact ih kept hk
    · next hp =>
      refine ih _ (List.pairwise_append.2 ⟨hk, by simp, ?_⟩)
      rintro a ha b hb ⟨h1, h2⟩
      simp only [List.mem_singleton] at hb
      subst hb
      exact hp (List.any_eq_true.2 ⟨a, ha, by simp [h1, h2]⟩)

/-- C49, in other words: the result is a subsequence of the state; no kept position is subsumed by a kept one with
fewer errors; every position left out is subsumed by a kept one with fewer errors. -/
theorem c49_unsubsume_ascending (sub : Pos → Pos → Bool) (l : List Pos)
    (h : l.Pairwise (fun a b => a.errors ≤ b.errors)) :
    (unsubsume sub l).Sublist l ∧
    (∀ a ∈ unsubsume sub l, ∀ b ∈ unsubsume sub l, a.errors < b.errors → sub a b = false) ∧
    ∀ p ∈ l, p ∉ unsubsume sub l → ∃ a ∈ unsubsume sub l, a.errors < p.errors ∧ sub a p = true := by
  rw [c49_unsubsume_is_sieve sub l h]
  obtain ⟨_, h2, h3⟩ := sieve_spec sub [] l
  refine ⟨by simpa using h2, ?_, h3⟩
  have h4 := sieve_pairwise sub [] l (by simp)
  have h5 : (sieve sub [] l).Pairwise (fun a b => a.errors ≤ b.errors) :=
    List.Pairwise.sublist (by simpa using h2) h
  intro a ha b hb hlt
  have h6 := List.pairwise_and_iff.2 ⟨h4, h5⟩
  generalize sieve sub [] l = r at *
  clear h3 h4 h5 h2
  induction r with
  | nil => cases ha
  | cons x r ih =>
    have h7 := List.pairwise_cons.1 h6
    rcases List.mem_cons.1 ha with rfl | ha'
    · rcases List.mem_cons.1 hb with rfl | hb
      · omega
      · have := (h7.1 b hb).1
        rcases Bool.eq_false_or_eq_true (sub a b) with h8 | h8
        · exact absurd ⟨hlt, h8⟩ this
        · exact h8
    · rcases List.mem_cons.1 hb with rfl | hb'
      · have := (h7.1 a ha').2; omega
      · exact ih (List.nil_sublist _) ha' hb' h7.2

example : unsubsume (fun a b => subsumes .standard a b 0) [⟨2, 1, false⟩, ⟨0, 2, false⟩, ⟨1, 2, false⟩, ⟨2, 2, false⟩]
    = [⟨2, 1, false⟩, ⟨0, 2, false⟩] := by decide +kernel

/-! ### C50 -/

/-- C50: `compare` is a total order on positions up to the equality of the algorithm, with values -1, 0 and 1. -/
theorem c50_compare_total_order (A : Algorithm) :
    (∀ a b, comparePos A a b = -1 ∨ comparePos A a b = 0 ∨ comparePos A a b = 1) ∧
    (∀ a b, comparePos A a b = 0 ↔ posKey A a = posKey A b) ∧
    (∀ a b, comparePos A a b = - comparePos A b a) ∧
    (∀ a b c, comparePos A a b ≤ 0 → comparePos A b c ≤ 0 → comparePos A a c ≤ 0) := by
  have hval : ∀ a b, (comparePos A a b = -1 ∨ comparePos A a b = 0 ∨ comparePos A a b = 1) ∧
      (comparePos A a b = 0 ↔ posKey A a = posKey A b) ∧ (comparePos A a b = - comparePos A b a) := by
    intro a b
    unfold comparePos posKey
    rcases Nat.lt_trichotomy a.index b.index with h | h | h
    · rw [if_pos h, if_neg (show ¬ b.index < a.index by omega), if_pos (show b.index > a.index from h)]
      simp; omega
    · rw [if_neg (by omega), if_neg (by omega)]
      rw [if_neg (show ¬ b.index < a.index by omega), if_neg (show ¬ b.index > a.index by omega)]
      rcases Nat.lt_trichotomy a.errors b.errors with h' | h' | h'
      · rw [if_pos h', if_neg (show ¬ b.errors < a.errors by omega), if_pos (show b.errors > a.errors from h')]
        simp; omega
      · rw [if_neg (by omega), if_neg (by omega)]
        rw [if_neg (show ¬ b.errors < a.errors by omega), if_neg (show ¬ b.errors > a.errors by omega)]
        cases A <;> cases a.special <;> cases b.special <;> simp [h, h']
      · rw [if_neg (by omega), if_pos (show a.errors > b.errors from h'), if_pos (show b.errors < a.errors from h')]
        simp; omega
    · rw [if_neg (by omega), if_pos (show a.index > b.index from h), if_pos (show b.index < a.index from h)]
      simp; omega
  exact ⟨fun a b => (hval a b).1, fun a b => (hval a b).2.1, fun a b => (hval a b).2.2,
    (c46_library_comparators A).2⟩

example : comparePos .transposition ⟨1, 2, true⟩ ⟨1, 2, false⟩ = 1 ∧ comparePos .standard ⟨1, 2, true⟩ ⟨1, 2, false⟩ = 0 := by
  decide

/-! ### C51 -/

/-- The documented meaning of `subsumes`: what can be completed from `b` within `c` errors in total can be completed
from `a` within `c` errors. -/
def SubsumedBy (A : Algorithm) (q : Str) (a b : Pos) : Prop :=
  ∀ u k c, Completes A q b.index b.special u k → b.errors + k ≤ c →
    ∃ k', Completes A q a.index a.special u k' ∧ a.errors + k' ≤ c

/-- The documented claim, for positions in the query. -/
def C51_full (A : Algorithm) : Prop := ∀ (q : Str) (a b : Pos) (n : Nat), a.index ≤ q.length → b.index ≤ q.length →
  a.errors ≤ n → b.errors ≤ n → subsumes A a b n = true → SubsumedBy A q a b

/-- C51 is false for STANDARD: (0,1) "subsumes" (0,0) because 0-1 wraps around. -/
theorem c51_standard_false : ¬ C51_full .standard := by
  intro h
  obtain ⟨k', _, h2⟩ := h [97] ⟨0, 1, false⟩ ⟨0, 0, false⟩ 1 (by simp) (by simp) (by decide) (by decide) (by decide +kernel)
    [97] 0 0 (.keep 97 .nil) (by decide)
  simp at h2

/-- C51 is false for TRANSPOSITION even if errors are ordered as intended: the flag of the second position is never
read, so (0,1) "subsumes" (0,1) with a swap half done. -/
theorem c51_transposition_false : ¬ ∀ (q : Str) (a b : Pos) (n : Nat), a.index ≤ q.length → b.index ≤ q.length →
    a.errors ≤ b.errors → b.errors ≤ n → subsumes .transposition a b n = true → SubsumedBy .transposition q a b := by
  intro h
  obtain ⟨k', h1, h2⟩ := h [97, 98] ⟨0, 1, false⟩ ⟨0, 1, true⟩ 2 (by simp) (by simp) (by decide) (by decide)
    (by decide +kernel) [97] 0 1 ⟨97, 98, [], [], rfl, rfl, .nil⟩ (by decide)
  have h3 : k' = 0 := by simp at h2; omega
  subst h3
  have := Align.eq_of_zero (show Align .transposition ([97, 98] : Str) [97] 0 from h1)
  simp at this

/-- C51 is false for MERGE_AND_SPLIT in the same way. -/
theorem c51_mergeAndSplit_false : ¬ ∀ (q : Str) (a b : Pos) (n : Nat), a.index ≤ q.length → b.index ≤ q.length →
    a.errors ≤ b.errors → b.errors ≤ n → subsumes .mergeAndSplit a b n = true → SubsumedBy .mergeAndSplit q a b := by
  intro h
  obtain ⟨k', h1, h2⟩ := h [97] ⟨0, 1, false⟩ ⟨0, 1, true⟩ 2 (by simp) (by simp) (by decide) (by decide)
    (by decide +kernel) [98] 0 1 ⟨97, [], 98, [], rfl, rfl, .nil⟩ (by decide)
  have h3 : k' = 0 := by simp at h2; omega
  subst h3
  have := Align.eq_of_zero (show Align .mergeAndSplit ([97] : Str) [98] 0 from h1)
  simp at this

theorem drop_gap (q : Str) {i j : Nat} (h : i ≤ j) (hj : j ≤ q.length) :
    ∃ z, q.drop i = z ++ q.drop j ∧ z.length = j - i := by
  refine ⟨(q.drop i).take (j - i), ?_, ?_⟩
  · have := List.take_append_drop (j - i) (q.drop i)
    rw [List.drop_drop, show i + (j - i) = j by omega] at this
    exact this.symm
  · simp; omega

theorem align_shift {A : Algorithm} {q u : Str} {i j e f k c : Nat} (hi : i ≤ q.length) (hj : j ≤ q.length)
    (hef : e + (if i < j then j - i else i - j) ≤ f) (h : Align A (q.drop j) u k) (hc : f + k ≤ c) :
    ∃ k', Align A (q.drop i) u k' ∧ e + k' ≤ c := by
  by_cases hlt : i < j
  · rw [if_pos hlt] at hef
    obtain ⟨z, hz, hzl⟩ := drop_gap q (Nat.le_of_lt hlt) hj
    obtain ⟨k', h1, h2⟩ := alignLe_del_prefix (z := z) h.le (Nat.le_refl _)
    exact ⟨k', by rw [hz]; exact h2, by omega⟩
  · rw [if_neg hlt] at hef
    obtain ⟨z, hz, hzl⟩ := drop_gap q (show j ≤ i by omega) hi
    rw [hz] at h
    obtain ⟨k', h1, h2⟩ := alignLe_tail h.le
    exact ⟨k', h2, by omega⟩

theorem wsub_le_of_le {a b : Nat} (h : b ≤ a) (ha : a < 2 ^ 64) : wsub a b = a - b :=
  wsub_eq h (by have := sizeW_val; omega)

/-- C51, the part that holds (missing: positions with different flags, and more errors on the left): for every
algorithm `subsumes` is sound if the flags agree and the first position has at most as many errors. -/
theorem c51_same_flag_sound_partial {A : Algorithm} {q : Str} {a b : Pos} {n : Nat}
    (hq : q.length < 2 ^ 64) (ha : a.index ≤ q.length) (hb : b.index ≤ q.length) (hbn : b.errors < 2 ^ 64)
    (hflag : a.special = b.special) (hroom : a.special = true → a.index < q.length)
    (herr : a.errors ≤ b.errors) (h : subsumes A a b n = true) : SubsumedBy A q a b := by
  have habs : (if a.index < b.index then wsub b.index a.index else wsub a.index b.index) =
      (if a.index < b.index then b.index - a.index else a.index - b.index) := by
    split
    · exact wsub_le_of_le (by omega) (by omega)
    · exact wsub_le_of_le (by omega) (by omega)
  have herr' : wsub b.errors a.errors = b.errors - a.errors := wsub_le_of_le herr hbn
  intro u k c hu hc
  obtain ⟨i, e, s⟩ := a
  obtain ⟨j, f, t⟩ := b
  simp only at *
  subst hflag
  cases s with
  | false =>
    have hle : e + (if i < j then j - i else i - j) ≤ f := by
      cases A <;> simp only [subsumes, Bool.false_eq_true, if_false, Bool.false_and, decide_eq_true_eq, habs,
        herr'] at h <;> omega
    exact align_shift ha hb hle hu hc
  | true =>
    cases A with
    | standard => exact hu.elim
    | transposition =>
      have hij : i = j := by simpa [subsumes] using h
      subst hij
      exact ⟨k, hu, by omega⟩
    | mergeAndSplit =>
      have hle : e + (if i < j then j - i else i - j) ≤ f := by
        simp only [subsumes, Bool.not_true, Bool.and_false, Bool.false_eq_true, if_false, decide_eq_true_eq, habs,
          herr'] at h
        omega
      obtain ⟨x, v, y, u', h1, rfl, h3⟩ := hu
      have hjl : j < q.length := by
        have := congrArg List.length h1
        simp at this; omega
      have hv : v = q.drop (j + 1) := by rw [← List.drop_drop, h1]; rfl
      rw [hv] at h3
      obtain ⟨k', h4, h5⟩ := align_shift (i := i + 1) (by have := hroom rfl; omega) (by omega)
        (by simp only [Nat.add_lt_add_iff_right, Nat.add_sub_add_right]; omega) h3 hc
      have hi := hroom rfl
      obtain ⟨x', v', h6⟩ : ∃ x' v', q.drop i = x' :: v' := by
        cases h7 : q.drop i with
        | nil => have := congrArg List.length h7; simp at this; omega
        | cons x' v' => exact ⟨x', v', rfl⟩
      refine ⟨k', ⟨x', v', y, u', h6, rfl, ?_⟩, h5⟩
      have : v' = q.drop (i + 1) := by rw [← List.drop_drop, h6]; rfl
      rw [this]; exact h4

example : subsumes .mergeAndSplit ⟨1, 0, true⟩ ⟨2, 1, true⟩ 3 = true ∧
    subsumes .standard ⟨2, 1, false⟩ ⟨1, 2, false⟩ 3 = true := by decide +kernel

/-! ### C54 -/

/-- C54: `characteristic_vector(x, term, k, i)` for a window inside the term. -/
theorem c54_characteristic_vector (x : UInt8) (term : Str) (k i : Nat) (hk : k < 2 ^ 31)
    (h : i + k ≤ term.length) (hl : term.length < 2 ^ 64) :
    ∃ cv, charVec x term k i = .ok cv ∧ cv.length = k ∧
      ∀ j, j < k → ∃ c, term[i + j]? = some c ∧ cv[j]? = some (x == c) := by
  have hloop := cvLoop_eq (x := x) (term := term) (i := i) (r := k) (j := 0) (by omega)
    (by have := sizeW_val; omega)
  refine ⟨_, by unfold charVec; rw [if_pos (by omega)]; exact hloop, ?_, ?_⟩
  · simp; omega
  · intro j hj
    refine ⟨term[i + j], List.getElem?_eq_getElem (by omega), ?_⟩
    simp [hj, List.getElem?_eq_getElem (show i + j < term.length by omega)]

/-- C54: `index_of(cv, k, i)` for a window inside the vector returns the first set entry or `SIZE_MAX`. -/
theorem c54_index_of (cv : List Bool) (k i : Nat) (h : i + k ≤ cv.length) (hl : cv.length < 2 ^ 64) :
    ∃ r, indexOf cv k i = .ok r ∧
      ((r = 2 ^ 64 - 1 ∧ ∀ j, j < k → cv[i + j]? = some false) ∨
       (r < k ∧ cv[i + r]? = some true ∧ ∀ j, j < r → cv[i + j]? = some false)) := by
  obtain ⟨r, h1, h2⟩ := indexOfLoop_spec cv i (by have := sizeW_val; omega) k 0 (by omega)
  refine ⟨r, h1, ?_⟩
  rcases h2 with ⟨h3, h4⟩ | ⟨_, h4, h5, h6⟩
  · exact .inl ⟨by rw [h3, sizeMax_val], fun j hj => h4 j (by omega) (by omega)⟩
  · exact .inr ⟨by omega, h5, fun j hj => h6 j (by omega) hj⟩

/-- C54: a query asks only for windows inside the term and vector: building the vector and all reads of it in a
transition succeed in every reachable state. -/
theorem c54_reads_in_range {A : Algorithm} {n : Nat} {q w : Str} {hd : Pos} {tl : List Pos}
    (h : ReachState A n q w (hd :: tl)) (hn : n < 2 ^ 64) (hq : QueryFits n q) (hw : w.length < 2 ^ 62)
    (x : UInt8) : ∃ cv r,
      charVec x q (if windowMax n < wsub q.length hd.index then windowMax n else wsub q.length hd.index) hd.index
        = .ok cv ∧ stateTrans A n q.length (hd :: tl) cv = .ok r :=
  (c45_states_well_formed h hn hq hw).2.2.2.2 x hd tl rfl

example : charVec 98 [97, 98, 98, 99] 3 1 = .ok [true, true, false] ∧ indexOf [false, true, false, true] 3 1 = .ok 0 := by
  decide +kernel

end Lev.Props
