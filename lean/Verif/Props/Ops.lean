import Verif.Props.Query

/-!
# Property C65: the guarantee of the README, in terms of elementary operations

`README.md:171-190`: a candidate "is guaranteed to require no more than max_distance operations to transform it into the
query_term", and the distance is the "minimum number of operations required".
-/

namespace Lev.Props

open Lev Spec

/-- C65: for all three algorithms, a candidate with its distance `d ≤ max_distance` is a term of the dictionary, and `d`
operations turn it into the query term. -/
theorem c65_candidates_need_at_most_distance_operations {sgn : Bool} {mem : Mem} {root : Nat} {A : Algorithm} {q : Str}
    {n : Nat} (hd : Dictionary sgn mem root) (hq : QueryFits n q) (hn : n < 2 ^ 64) :
    ∃ rs, Yields A updCandidate mem root q n rs ∧
      ∀ t d, (t, d) ∈ rs → Accepts mem root t ∧ d ≤ n ∧ Reach A d t q := by
  obtain ⟨rs, h1, h2⟩ := query_exact A hd hq hn
  refine ⟨rs, h1, fun t d ht => ?_⟩
  obtain ⟨a, b, c⟩ := (h2 t d).1 ht
  exact ⟨a, c, b.1.symm.reach⟩

/-- C65: STANDARD and MERGE_AND_SPLIT miss no term: every term that some sequence of at most `n` operations turns into
the query term is yielded, with the length of the shortest such sequence. -/
theorem c65_no_term_missed {sgn : Bool} {mem : Mem} {root : Nat} {A : Algorithm} (hA : A ≠ .transposition) {q : Str}
    {n : Nat} (hd : Dictionary sgn mem root) (hq : QueryFits n q) (hn : n < 2 ^ 64) :
    ∃ rs, Yields A updCandidate mem root q n rs ∧
      ∀ t k, Accepts mem root t → Reach A k t q → k ≤ n → ∃ d, d ≤ k ∧ (t, d) ∈ rs ∧ IsMinOps A t q d := by
  obtain ⟨rs, h1, h2⟩ := query_exact A hd hq hn
  refine ⟨rs, h1, fun t k ht hr hk => ?_⟩
  have hc := cost_spec A q t
  have hm := hc.symm.isMinOps hA
  have hle := hm.2 k hr
  exact ⟨cost A q t, hle, (h2 _ _).2 ⟨ht, hc, by omega⟩, hm⟩

/-- The claim for TRANSPOSITION. -/
def C65_transposition_full : Prop := ∀ (sgn : Bool) (mem : Mem) (root : Nat) (q : Str) (n : Nat),
  Dictionary sgn mem root → QueryFits n q → n < 2 ^ 64 →
    ∃ rs, Yields .transposition updCandidate mem root q n rs ∧
      ∀ t k, Accepts mem root t → Reach .transposition k t q → k ≤ n → ∃ d, (t, d) ∈ rs

/-- A dictionary with the only term "ABC". -/
def abcMem : Mem := fun a => match a with
  | 1 => some ⟨false, [(65, 2)]⟩
  | 2 => some ⟨false, [(66, 3)]⟩
  | 3 => some ⟨false, [(67, 4)]⟩
  | 4 => some ⟨true, []⟩
  | _ => none

theorem abcMem_dict (sgn : Bool) : Dictionary sgn abcMem 1 := by
  refine ⟨4, by decide, ?_⟩
  have h4 : DictNode sgn abcMem 1 4 := .mk (nd := ⟨true, []⟩) rfl (by simp) (by simp)
  have h3 : DictNode sgn abcMem 2 3 := .mk (nd := ⟨false, [(67, 4)]⟩) rfl (by simp) (by
    intro c b h; simp at h; rw [h.2]; exact h4)
  have h2 : DictNode sgn abcMem 3 2 := .mk (nd := ⟨false, [(66, 3)]⟩) rfl (by simp) (by
    intro c b h; simp at h; rw [h.2]; exact h3)
  exact .mk (nd := ⟨false, [(65, 2)]⟩) rfl (by simp) (by intro c b h; simp at h; rw [h.2]; exact h2)

/-- C65: TRANSPOSITION does miss terms: "ABC" becomes "CA" by two operations (delete B, swap), but the query ("CA", 2)
does not yield it. -/
theorem c65_transposition_misses_terms : ¬ C65_transposition_full := by
  intro h
  obtain ⟨rs, ⟨N, hN⟩, hrs⟩ := h true abcMem 1 [67, 65] 2 (abcMem_dict true) (by decide) (by decide)
  have hacc : Accepts abcMem 1 [65, 66, 67] :=
    .step (nd := ⟨false, [(65, 2)]⟩) (b := 2) rfl (by simp) (.step (nd := ⟨false, [(66, 3)]⟩) (b := 3) rfl (by simp)
      (.step (nd := ⟨false, [(67, 4)]⟩) (b := 4) rfl (by simp) (.here (nd := ⟨true, []⟩) rfl rfl)))
  obtain ⟨d, hd⟩ := hrs [65, 66, 67] 2 hacc
    (.step (.del [65] [67] 66) (.step (.swap rfl [] [] 65 67) (.refl _))) (by decide)
  obtain ⟨rs', h1, h2⟩ := c33_transposition_query_exact (q := [67, 65]) (n := 2) (abcMem_dict true) (by decide) (by decide)
  obtain rfl := Yields.unique ⟨N, hN⟩ h1
  obtain ⟨_, h3, h4⟩ := (h2 _ _).1 hd
  have h5 := (answer_isMinCost .transposition [] [67, 65] [65, 66, 67]).unique h3
  rw [answer_eq_eval] at h5
  have : d = 3 := by rw [← h5]; decide
  omega

/-- C65, what holds for TRANSPOSITION (missing from the full claim: the terms between `2 / 3 * n` and `n` operations): no
term is missed that `k` operations turn into the query term if `3 / 2 * k`, rounded down, is at most `n`. In particular
none is missed for `n = 1`. -/
theorem c65_transposition_partial {sgn : Bool} {mem : Mem} {root : Nat} {q : Str}
    {n : Nat} (hd : Dictionary sgn mem root) (hq : QueryFits n q) (hn : n < 2 ^ 64) :
    ∃ rs, Yields .transposition updCandidate mem root q n rs ∧
      ∀ t k, Accepts mem root t → Reach .transposition k t q → 3 * k / 2 ≤ n → ∃ d, d ≤ 3 * k / 2 ∧ (t, d) ∈ rs := by
  obtain ⟨rs, h1, h2⟩ := query_exact .transposition hd hq hn
  refine ⟨rs, h1, fun t k ht hr hk => ?_⟩
  have hc := cost_spec .transposition q t
  obtain ⟨c, h3, h4⟩ := reach_alignLe_three_halves hr
  have := hc.le_iff.1 h3.symm
  exact ⟨cost .transposition q t, by omega, (h2 _ _).2 ⟨ht, hc, by omega⟩⟩

example : transduce .transposition updCandidate ([], 0) abcMem 1 [67, 65] 2 100 = .ok [] ∧
    transduce .transposition updCandidate ([], 0) abcMem 1 [67, 65] 3 100 = .ok [([65, 66, 67], 3)] ∧
    transduce .transposition updCandidate ([], 0) abcMem 1 [66, 65, 67] 1 100 = .ok [([65, 66, 67], 1)] := by
  decide +kernel

end Lev.Props
