import Verif.Proofs.BuildCost

/-!
How many nodes have the same hash code.
-/

namespace Lev

open Spec

theorem clashes_perm {l l' : List UInt64} (h : l.Perm l') : clashes l = clashes l' := by
  induction h with
  | nil => rfl
  | cons x h ih => simp only [clashes, ih, h.count_eq]
  | swap x y l =>
    simp only [clashes, List.count_cons]
    by_cases hxy : x = y
    · simp [hxy]
    · have hyx : ¬ y = x := fun h => hxy h.symm
      simp [hxy, hyx]; omega
  | trans _ _ ih1 ih2 => exact ih1.trans ih2

theorem sum_perm {l l' : List Nat} (h : l.Perm l') : l.sum = l'.sum := by
  induction h with
  | nil => rfl
  | cons x _ ih => simp [ih]
  | swap x y l => simp; omega
  | trans _ _ ih1 ih2 => exact ih1.trans ih2

theorem clashes_sub (code : Nat → UInt64) {L R : List Nat} (hL : L.Nodup) (hs : ∀ x ∈ L, x ∈ R) :
    clashes (L.map code) ≤ clashes (R.map code) ∧ ∀ k, (L.map code).count k ≤ (R.map code).count k := by
  induction L generalizing R with
  | nil => simp [clashes]
  | cons x L ih =>
    have hx := List.nodup_cons.1 hL
    have hp := List.perm_cons_erase (hs x (by simp))
    obtain ⟨h1, h2⟩ := ih (R := R.erase x) hx.2 (fun y hy => by
      have hne : y ≠ x := by rintro rfl; exact hx.1 hy
      rw [List.mem_erase_of_ne hne]; exact hs y (by simp [hy]))
    rw [clashes_perm (hp.map code)]
    refine ⟨?_, fun k => ?_⟩
    · have := h2 (code x)
      simp only [List.map_cons, clashes]; omega
    · rw [(hp.map code).count_eq]
      simp only [List.map_cons, List.count_cons]
      have := h2 k
      omega

/-- Taking one code out. -/
theorem clashes_split (c : UInt64) (l : List UInt64) :
    2 * clashes l + l.count c = 2 * clashes (l.filter (fun x => decide (x ≠ c))) + l.count c * l.count c ∧
    l.length = (l.filter (fun x => decide (x ≠ c))).length + l.count c := by
  induction l with
  | nil => simp [clashes]
  | cons x l ih =>
    obtain ⟨h1, h2⟩ := ih
    by_cases hx : x = c
    · subst hx
      have hf : (x :: l).filter (fun y => decide (y ≠ x)) = l.filter (fun y => decide (y ≠ x)) := by simp
      have e : (l.count x + 1) * (l.count x + 1) = l.count x * l.count x + 2 * l.count x + 1 := by
        rw [Nat.add_mul, Nat.mul_add]; omega
      rw [hf, List.count_cons_self, clashes, List.length_cons, e]
      omega
    · have hf : (x :: l).filter (fun y => decide (y ≠ c)) = x :: l.filter (fun y => decide (y ≠ c)) := by
        simp [hx]
      have hc : (l.filter (fun y => decide (y ≠ c))).count x = l.count x := by
        rw [List.count_filter (by simp [hx])]
      rw [hf, clashes, clashes, hc, List.count_cons_of_ne hx, List.length_cons, List.length_cons]
      omega

theorem square_bound (m n : Nat) : 2 * (m * n) + n ≤ n * n + m * (m + 1) := by
  rcases Nat.le_total n m with h | h
  · obtain ⟨k, rfl⟩ := Nat.exists_eq_add_of_le h
    have e1 : (n + k) * n = n * n + k * n := Nat.add_mul _ _ _
    have e2 : (n + k) * (n + k + 1) = n * n + k * n + k * n + k * k + n + k := by
      rw [Nat.mul_add, Nat.mul_add, e1, Nat.add_mul n k k, Nat.mul_comm n k]
      omega
    rw [e1, e2]
    omega
  · obtain ⟨k, rfl⟩ := Nat.exists_eq_add_of_le h
    have e1 : m * (m + k) = m * m + m * k := Nat.mul_add _ _ _
    have e2 : (m + k) * (m + k) = m * m + m * k + m * k + k * k := by
      rw [Nat.mul_add, Nat.add_mul, Nat.add_mul, Nat.mul_comm k m]
      omega
    have e3 : m * (m + 1) = m * m + m := by rw [Nat.mul_add]; omega
    rw [e1, e2, e3]
    have : k ≤ k * k := Nat.le_mul_self k
    omega

/-- If few codes are possible, there are many clashes. -/
theorem clashes_bound (codes l : List UInt64) (h : ∀ x ∈ l, x ∈ codes) (m : Nat) :
    2 * (m * l.length) ≤ 2 * clashes l + codes.length * (m * (m + 1)) := by
  induction codes generalizing l with
  | nil =>
    cases l with
    | nil => simp
    | cons x l => exact absurd (h x (by simp)) (by simp)
  | cons c codes ih =>
    have ih := ih (l.filter (fun x => decide (x ≠ c))) (by
      intro x hx
      simp only [List.mem_filter, decide_eq_true_eq] at hx
      have := h x hx.1
      simp only [List.mem_cons] at this
      exact this.resolve_left hx.2)
    obtain ⟨h1, h2⟩ := clashes_split c l
    have h3 := square_bound m (l.count c)
    rw [List.length_cons, Nat.add_mul, h2, Nat.mul_add]
    omega

/-! ### The codes of nodes with the same labels -/

/-- All bytes. -/
def everyByte : List UInt8 := (List.range 256).map UInt8.ofNat

theorem mem_everyByte (b : UInt8) : b ∈ everyByte :=
  List.mem_map.2 ⟨b.toNat, List.mem_range.2 b.toNat_lt, by simp⟩

theorem everyByte_length : everyByte.length = 256 := by
  rw [everyByte, List.length_map, List.length_range]

attribute [irreducible] everyByte

/-- What the loop over edges with the labels `ls` can arrive at. -/
def codesOf : List UInt8 → UInt64 → List UInt64
  | [], h => [h]
  | l :: ls, h => everyByte.flatMap fun x => codesOf ls (mixByte x (mixByte l h))

theorem flatMap_length {α β : Type} (f : α → List β) (n : Nat) (l : List α) (h : ∀ x ∈ l, (f x).length = n) :
    (l.flatMap f).length = l.length * n := by
  induction l with
  | nil => simp
  | cons x l ih =>
    rw [List.flatMap_cons, List.length_append, h x (by simp), ih fun y hy => h y (by simp [hy]), List.length_cons,
      Nat.add_mul]
    omega

theorem codesOf_length (ls : List UInt8) (h : UInt64) : (codesOf ls h).length = 256 ^ ls.length := by
  induction ls generalizing h with
  | nil => rfl
  | cons l ls ih =>
    rw [codesOf, flatMap_length _ _ _ fun x _ => ih _]
    rw [everyByte_length, List.length_cons, Nat.pow_succ, Nat.mul_comm]

theorem hashWith_mem (F : Forest) (h : UInt64) :
    F.hashWith mixByte hashSeed h ∈ codesOf (F.toList.map (·.1)) h := by
  induction F generalizing h with
  | nil => simp [Forest.hashWith, Forest.toList, codesOf]
  | cons l f k r _ ih =>
    rw [Forest.hashWith, Forest.toList, List.map_cons, codesOf, List.mem_flatMap]
    generalize lowByte (mixByte (cond f 1 0) (k.hashWith mixByte hashSeed hashSeed)) = x
    exact ⟨x, mem_everyByte x, ih _⟩

/-- The codes of nodes with a given flag and given labels. -/
def nodeCodes (b : Bool) (ls : List UInt8) : List UInt64 := (codesOf ls hashSeed).map (mixByte (cond b 1 0))

theorem treeHash_mem (b : Bool) (F : Forest) : treeHash b F ∈ nodeCodes b (F.toList.map (·.1)) := by
  rw [treeHash, nodeCodes]
  exact List.mem_map_of_mem (hashWith_mem F _)

theorem Unf.labels {mem : Mem} {es : List (UInt8 × Nat)} {F : Forest} (h : Unf mem es F) :
    F.toList.map (·.1) = es.map (·.1) := by
  induction h with
  | nil => rfl
  | cons _ _ _ _ ih => simp [Forest.toList, ih]

end Lev
