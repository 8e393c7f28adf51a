import Verif.Proofs.Checked
import Verif.Props.Distance

/-!
# Properties C32–C41, C43, C44: queries

The dictionary is any graph in memory of the shape `Dictionary` (live nodes, no cycle, edges sorted, no term of
2^62 or more characters); its terms are the strings `Accepts mem root`.  `Yields A upd mem root q n rs` says that
iterating `Transducer<A, _>(root)(q, n)` ends, without undefined behaviour, after yielding `rs`.  `QueryFits n q` says that `q` has fewer than 2^31 characters, or `n` is below 2^30 and `q` has fewer than 2^62.
-/

namespace Lev.Props

open Lev Spec

/-! ### A dictionary for the examples: "", "ab", "abc", "cb", "cbc", sharing nodes -/

/-- The memory of the example. -/
def exMem : Mem := fun a => match a with
  | 0 => some ⟨true, [(97, 1), (99, 1)]⟩
  | 1 => some ⟨false, [(98, 2)]⟩
  | 2 => some ⟨true, [(99, 3)]⟩
  | 3 => some ⟨true, []⟩
  | _ => none

theorem exMem_dict (sgn : Bool) : Dictionary sgn exMem 0 := by
  refine ⟨4, by decide, ?_⟩
  have h3 : DictNode sgn exMem 1 3 := .mk (nd := ⟨true, []⟩) rfl (by simp) (by simp)
  have h2 : DictNode sgn exMem 2 2 := .mk (nd := ⟨true, [(99, 3)]⟩) rfl (by simp) (by
    intro c b h; simp at h; rw [h.2]; exact h3)
  have h1 : DictNode sgn exMem 3 1 := .mk (nd := ⟨false, [(98, 2)]⟩) rfl (by simp) (by
    intro c b h; simp at h; rw [h.2]; exact h2)
  exact .mk (nd := ⟨true, [(97, 1), (99, 1)]⟩) rfl (by cases sgn <;> simp [charLt, charKey]) (by
    intro c b h; simp at h; rcases h with h | h <;> (rw [h.2]; exact h1))

example : Accepts exMem 0 [97, 98] ∧ ¬ Accepts exMem 0 [97] := by
  constructor
  · exact .step (nd := ⟨true, [(97, 1), (99, 1)]⟩) (b := 1) rfl (by simp)
      (.step (nd := ⟨false, [(98, 2)]⟩) (b := 2) rfl (by simp) (.here (nd := ⟨true, [(99, 3)]⟩) rfl rfl))
  · intro h
    cases h with
    | step hm hb h =>
      cases hm
      simp at hb
      rw [hb] at h
      cases h with
      | here hm hf => cases hm; cases hf

/-! ### C32, C33, C34 -/

/-- For every algorithm: exactly the terms within the distance, with the least alignment cost as distance. -/
theorem query_exact {sgn : Bool} {mem : Mem} {root : Nat} (A : Algorithm) {q : Str} {n : Nat}
    (hd : Dictionary sgn mem root) (hq : QueryFits n q) (hn : n < 2 ^ 64) :
    ∃ rs, Yields A updCandidate mem root q n rs ∧
      ∀ t d, (t, d) ∈ rs ↔ Accepts mem root t ∧ IsMinCost A q t d ∧ d ≤ n := by
  obtain ⟨nd, F, h⟩ := hd.tree
  refine ⟨_, h.yields (by have := sizeMax_val; omega) (by omega) updCandidate, fun t d => ?_⟩
  rw [← h.mem_allOut t d]
  simp [updCandidate]

/-- C32: the STANDARD transducer. -/
theorem c32_standard_query_exact {sgn : Bool} {mem : Mem} {root : Nat} {q : Str} {n : Nat}
    (hd : Dictionary sgn mem root) (hq : QueryFits n q) (hn : n < 2 ^ 64) :
    ∃ rs, Yields .standard updCandidate mem root q n rs ∧
      ∀ t d, (t, d) ∈ rs ↔ Accepts mem root t ∧ IsMinOps .standard q t d ∧ d ≤ n := by
  obtain ⟨rs, h1, h2⟩ := query_exact .standard hd hq hn
  refine ⟨rs, h1, fun t d => ?_⟩
  rw [h2]
  constructor
  · rintro ⟨a, b, c⟩; exact ⟨a, b.isMinOps (by decide), c⟩
  · rintro ⟨a, b, c⟩
    refine ⟨a, ?_, c⟩
    have h3 := cost_spec .standard q t
    have h4 := h3.isMinOps (by decide)
    have : cost .standard q t = d := Nat.le_antisymm (h4.2 _ b.1) (b.2 _ h4.1)
    exact this ▸ h3

example : transduce .standard updCandidate ([], 0) exMem 0 [97, 99] 1 100 =
    .ok [([97, 98], 1), ([97, 98, 99], 1)] := by decide +kernel

/-- C33: the TRANSPOSITION transducer (distance: least cost of an alignment with swaps, C03). -/
theorem c33_transposition_query_exact {sgn : Bool} {mem : Mem} {root : Nat} {q : Str} {n : Nat}
    (hd : Dictionary sgn mem root) (hq : QueryFits n q) (hn : n < 2 ^ 64) :
    ∃ rs, Yields .transposition updCandidate mem root q n rs ∧
      ∀ t d, (t, d) ∈ rs ↔ Accepts mem root t ∧ IsMinCost .transposition q t d ∧ d ≤ n :=
  query_exact .transposition hd hq hn

example : transduce .transposition updCandidate ([], 0) exMem 0 [98, 97] 1 100 = .ok [([97, 98], 1)] := by decide +kernel

/-- C34: the MERGE_AND_SPLIT transducer. -/
theorem c34_mergeAndSplit_query_exact {sgn : Bool} {mem : Mem} {root : Nat} {q : Str} {n : Nat}
    (hd : Dictionary sgn mem root) (hq : QueryFits n q) (hn : n < 2 ^ 64) :
    ∃ rs, Yields .mergeAndSplit updCandidate mem root q n rs ∧
      ∀ t d, (t, d) ∈ rs ↔ Accepts mem root t ∧ IsMinOps .mergeAndSplit q t d ∧ d ≤ n := by
  obtain ⟨rs, h1, h2⟩ := query_exact .mergeAndSplit hd hq hn
  refine ⟨rs, h1, fun t d => ?_⟩
  rw [h2]
  constructor
  · rintro ⟨a, b, c⟩; exact ⟨a, b.isMinOps (by decide), c⟩
  · rintro ⟨a, b, c⟩
    refine ⟨a, ?_, c⟩
    have h3 := cost_spec .mergeAndSplit q t
    have h4 := h3.isMinOps (by decide)
    have : cost .mergeAndSplit q t = d := Nat.le_antisymm (h4.2 _ b.1) (b.2 _ h4.1)
    exact this ▸ h3

example : transduce .mergeAndSplit updCandidate ([], 0) exMem 0 [120] 1 100 =
    .ok [([], 1), ([97, 98], 1), ([99, 98], 1)] := by decide +kernel

/-! ### C35 -/

/-- C35: no term is yielded twice. -/
theorem c35_no_duplicates {sgn : Bool} {mem : Mem} {root : Nat} {A : Algorithm} {q : Str} {n : Nat}
    (hd : Dictionary sgn mem root) (hq : QueryFits n q) (hn : n < 2 ^ 64) {rs : List (Str × Nat)}
    (hy : Yields A updCandidate mem root q n rs) : (rs.map Prod.fst).Nodup := by
  obtain ⟨nd, F, h⟩ := hd.tree
  have := hy.unique (h.yields (by have := sizeMax_val; omega) (by omega) updCandidate)
  subst this
  simp only [updCandidate, List.map_id']
  refine List.pairwise_map.2 (h.allOut_order.imp fun hab heq => ?_)
  rw [heq] at hab
  exact shortLex_irrefl hab

/-! ### C36 -/

/-- C36: a transducer yielding strings yields the terms of the candidates, in the same order. -/
theorem c36_string_results {sgn : Bool} {mem : Mem} {root : Nat} {A : Algorithm} {q : Str} {n : Nat}
    (hd : Dictionary sgn mem root) (hq : QueryFits n q) (hn : n < 2 ^ 64) :
    ∃ rs, Yields A updCandidate mem root q n rs ∧ Yields A updString mem root q n (rs.map Prod.fst) := by
  obtain ⟨nd, F, h⟩ := hd.tree
  have hn' : n ≤ sizeMax := by have := sizeMax_val; omega
  refine ⟨_, h.yields hn' (by omega) updCandidate, ?_⟩
  have := h.yields (A := A) hn' (q := q) (by omega) updString
  simpa [updCandidate, updString] using this

example : transduce .standard updString [] exMem 0 [97, 99] 1 100 = .ok [[97, 98], [97, 98, 99]] := by decide +kernel

/-! ### C37 -/

/-- C37: candidates come by length, and within a length in the lexicographic order of the platform's `char`. -/
theorem c37_order {sgn : Bool} {mem : Mem} {root : Nat} {A : Algorithm} {q : Str} {n : Nat}
    (hd : Dictionary sgn mem root) (hq : QueryFits n q) (hn : n < 2 ^ 64) {rs : List (Str × Nat)}
    (hy : Yields A updCandidate mem root q n rs) :
    rs.Pairwise (fun a b => shortLex sgn a.1 b.1) := by
  obtain ⟨nd, F, h⟩ := hd.tree
  have := hy.unique (h.yields (by have := sizeMax_val; omega) (by omega) updCandidate)
  subst this
  simpa [updCandidate] using h.allOut_order

/-! ### C38 -/

/-- C38: a query terminates: there are results `rs` such that, with enough steps allowed per increment, the query
is complete exactly from the `rs.length`-th increment on, for ever, and before that the candidate is the one due. -/
theorem c38_terminates_and_stays_finished {sgn : Bool} {mem : Mem} {root : Nat} {A : Algorithm} {q : Str} {n : Nat}
    (hd : Dictionary sgn mem root) (hq : QueryFits n q) (hn : n < 2 ^ 64) :
    ∃ rs N, Yields A updCandidate mem root q n rs ∧ ∀ fuel, N ≤ fuel → ∀ dflt : Str × Nat, ∃ Q,
      queryBegin (listBackend A n q.length) mem updCandidate fuel dflt () root initialState q n = .ok ((), Q) ∧
      ∀ k, ∃ Q', queryAdvances (listBackend A n q.length) mem updCandidate fuel k () Q = .ok ((), Q') ∧
        (Q'.complete = true ↔ rs.length ≤ k) ∧ ∀ r, rs[k]? = some r → Q'.cand = r := by
  obtain ⟨nd, F, h⟩ := hd.tree
  have hn' : n ≤ sizeMax := by have := sizeMax_val; omega
  have hy := h.yields (A := A) hn' hq updCandidate
  simp only [updCandidate, List.map_id'] at hy
  refine ⟨_, F.wt + 3, hy, fun fuel hf dflt => ?_⟩
  have hB := listBackend_ok A n q.length
  obtain ⟨m1, Q, P, ch, heq, hinv, hwork, hgrow, hcase⟩ :=
    queryBegin_spec (upd := updCandidate) (s0 := initialState) (m := ()) hB hn' hq h.height fuel dflt h.node h.unf
      (Nat.le_refl _) rfl (by omega)
  refine ⟨Q, heq, fun k => ?_⟩
  obtain ⟨m2, Q', P', ch', heq', _, _, _, _, hiff, hcand⟩ :=
    queryAdvances_spec (upd := updCandidate) hB hn' hq h.height fuel k hinv (by omega) (by
      rcases hcase with ⟨a1, _⟩ | ⟨_, _, a3, a4, _⟩
      · simp [a1]
      · exact fun _ => ⟨a3, a4⟩)
  refine ⟨Q', heq', ?_, ?_⟩
  · rw [hiff]
    rcases hcase with ⟨a1, t, d, a2, _⟩ | ⟨a1, a2, rfl, rfl, _⟩
    · rw [a2]; simp [a1]; omega
    · rw [a2]; simp [a1]
  · intro r hr
    rcases hcase with ⟨a1, t, d, a2, a3, _⟩ | ⟨a1, a2, rfl, rfl, _⟩
    · rw [a2] at hr
      cases k with
      | zero =>
        simp only [queryAdvances] at heq'
        cases heq'
        simp at hr
        rw [a3, ← hr, updCandidate]
      | succ k => exact hcand r (by omega) (by simpa using hr)
    · rw [a2] at hr; simp at hr

/-! ### C39 -/

/-- C39: whatever `max_distance` is, the query also finishes when every addition, subtraction and multiplication of
`std::size_t` values is checked (`Verif/Model/Checked.lean`): no intermediate result wraps around, nothing is read
outside a characteristic vector, and the checked run yields what the unchecked one does. -/
theorem c39_no_wraparound {sgn : Bool} {mem : Mem} {root : Nat} {A : Algorithm} {q : Str} {n : Nat} {R : Type}
    (upd : Str → Nat → R) (hd : Dictionary sgn mem root) (hq : QueryFits n q) (hn : n < 2 ^ 64) :
    ∃ rs, YieldsChecked A upd mem root q n rs ∧ Yields A upd mem root q n rs := by
  obtain ⟨nd, F, h⟩ := hd.tree
  have hs := sizeMax_val
  exact ⟨_, h.yieldsChecked (by omega) hq upd, h.yields (by omega) hq upd⟩

-- the checks do detect a wraparound: a state that is not sorted by index
example : stateTransC .standard 1 3 [⟨2, 0, false⟩, ⟨1, 1, false⟩] [true, false] = .error .wrap := by
  decide +kernel

example : transduceC .transposition updString [] exMem 0 [98] (2 ^ 64 - 1) 100 =
    .ok [[], [97, 98], [99, 98], [97, 98, 99], [99, 98, 99]] := by decide +kernel

/-- C39 (outcome level): whatever `max_distance` is, the query finishes without reading outside a characteristic
vector, and its result is that of the query computed with unbounded integers: the terms whose exact distance is at
most `n`.  In particular with `SIZE_MAX` the result is the whole dictionary. -/
theorem c39_no_wraparound_result {sgn : Bool} {mem : Mem} {root : Nat} {A : Algorithm} {q : Str} {n : Nat}
    (hd : Dictionary sgn mem root) (hq : QueryFits n q) (hn : n < 2 ^ 64) :
    ∃ rs, Yields A updCandidate mem root q n rs ∧
      (∀ t d, (t, d) ∈ rs ↔ Accepts mem root t ∧ IsMinCost A q t d ∧ d ≤ n) ∧
      (n = 2 ^ 64 - 1 → ∀ t, Accepts mem root t → ∃ d, (t, d) ∈ rs) := by
  obtain ⟨rs, h1, h2⟩ := query_exact A hd hq hn
  refine ⟨rs, h1, h2, fun hmax t ht => ⟨cost A q t, (h2 _ _).2 ⟨ht, cost_spec A q t, ?_⟩⟩⟩
  obtain ⟨nd, F, h⟩ := hd.tree
  have hle : cost A q t ≤ max q.length t.length := (cost_spec A q t).le_iff.1 (alignLe_max q t)
  obtain ⟨it, hit, _, hp⟩ := (h.mem_walk t).2 ht
  have hqlt := hq.lt
  have hlen : t.length < 2 ^ 62 := by
    have := h.height
    rw [← hp]
    exact Nat.lt_of_le_of_lt (walk_height h hit) this
  omega

example : transduce .transposition updString [] exMem 0 [98] (2 ^ 64 - 1) 100 =
    .ok [[], [97, 98], [99, 98], [97, 98, 99], [99, 98, 99]] := by decide +kernel

/-! ### C40 -/

/-- C40: the results for `n` are those for `m ≥ n` with distance at most `n`, in the same order. -/
theorem c40_monotone {sgn : Bool} {mem : Mem} {root : Nat} {A : Algorithm} {q : Str} {n m : Nat}
    (hd : Dictionary sgn mem root) (hq : QueryFits m q) (hnm : n ≤ m) (hm : m < 2 ^ 64)
    {rs : List (Str × Nat)} (hy : Yields A updCandidate mem root q m rs) :
    Yields A updCandidate mem root q n (rs.filter (fun r => r.2 ≤ n)) := by
  obtain ⟨nd, F, h⟩ := hd.tree
  have hs := sizeMax_val
  have := hy.unique (h.yields (by omega) hq updCandidate)
  subst this
  have h1 := h.yields (A := A) (n := n) (q := q) (by omega) (hq.le hnm) updCandidate
  simp only [updCandidate, List.map_id'] at h1 ⊢
  rwa [allOut_filter hnm] at h1

/-! ### C41 -/

/-- C41: a query with distance zero looks up the term. -/
theorem c41_distance_zero {sgn : Bool} {mem : Mem} {root : Nat} {A : Algorithm} {q : Str}
    (hd : Dictionary sgn mem root) (hlen : q.length < 2 ^ 62) :
    (Accepts mem root q → Yields A updCandidate mem root q 0 [(q, 0)]) ∧
    (¬ Accepts mem root q → Yields A updCandidate mem root q 0 []) := by
  have hq : QueryFits 0 q := ⟨hlen, .inr (by decide)⟩
  obtain ⟨rs, h1, h2⟩ := query_exact A hd hq (n := 0) (by decide)
  have h3 := c35_no_duplicates hd hq (by decide) h1
  have h4 : ∀ r ∈ rs, r = (q, 0) := by
    rintro ⟨t, d⟩ hr
    obtain ⟨_, hc, hz⟩ := (h2 t d).1 hr
    obtain rfl : d = 0 := by omega
    rw [hc.1.eq_of_zero]
  constructor
  · intro hacc
    have h5 : (q, 0) ∈ rs := (h2 q 0).2 ⟨hacc, ⟨align_refl q, fun _ _ => by omega⟩, Nat.le_refl _⟩
    have : rs = [(q, 0)] := by
      match rs, h3, h4, h5 with
      | [r], _, h4, _ => rw [h4 r (by simp)]
      | r :: r' :: rest, h3, h4, _ =>
        rw [h4 r (by simp), h4 r' (by simp)] at h3
        simp at h3
    rw [← this]; exact h1
  · intro hacc
    have : rs = [] := by
      match rs, h2, h4 with
      | [], _, _ => rfl
      | r :: rest, h2, h4 =>
        have h6 := h4 r (by simp)
        exact absurd ((h2 q 0).1 (by simp [h6])).1 hacc
    rw [← this]; exact h1

example : transduce .mergeAndSplit updCandidate ([], 0) exMem 0 [97, 98] 0 100 = .ok [([97, 98], 0)] ∧
    transduce .mergeAndSplit updCandidate ([], 0) exMem 0 [97] 0 100 = .ok [] := by decide +kernel

/-! ### C43 -/

/-- C43: the empty term is yielded iff it is in the dictionary and `|q| ≤ n`: once, first, with distance `|q|`. -/
theorem c43_empty_term {sgn : Bool} {mem : Mem} {root : Nat} {A : Algorithm} {q : Str} {n : Nat}
    (hd : Dictionary sgn mem root) (hq : QueryFits n q) (hn : n < 2 ^ 64) {rs : List (Str × Nat)}
    (hy : Yields A updCandidate mem root q n rs) :
    (Accepts mem root [] ∧ q.length ≤ n → ∃ rest, rs = ([], q.length) :: rest ∧ ∀ d, ([], d) ∉ rest) ∧
    (¬ (Accepts mem root [] ∧ q.length ≤ n) → ∀ d, ([], d) ∉ rs) := by
  obtain ⟨nd, F, h⟩ := hd.tree
  have := hy.unique (h.yields (by have := sizeMax_val; omega) (by omega) updCandidate)
  subst this
  simp only [updCandidate, List.map_id']
  have hnil : ∀ d, IsMinCost A q [] d ↔ d = q.length := fun d =>
    ⟨fun hc => hc.unique (isMinCost_nil_right q), fun hc => hc ▸ isMinCost_nil_right q⟩
  constructor
  · rintro ⟨hacc, hle⟩
    have hmem : (([] : Str), q.length) ∈ allOut A n q nd F :=
      (h.mem_allOut _ _).2 ⟨hacc, isMinCost_nil_right q, hle⟩
    have hord := h.allOut_order (A := A) (n := n) (q := q)
    cases hl : allOut A n q nd F with
    | nil => rw [hl] at hmem; cases hmem
    | cons r rest =>
      rw [hl] at hmem hord
      have ho := List.pairwise_cons.1 hord
      have key : ∀ s d, (([] : Str), d) ∈ rest → shortLex sgn s [] → False := by
        rintro s d - (h' | ⟨_, h'⟩)
        · simp at h'
        · cases h'
      rcases List.mem_cons.1 hmem with rfl | hm
      · exact ⟨rest, rfl, fun d hd' => key _ d hd' (ho.1 _ hd')⟩
      · exact (key _ _ hm (ho.1 _ hm)).elim
  · intro hno d hmem
    obtain ⟨h1, h2, h3⟩ := (h.mem_allOut _ _).1 hmem
    rw [(hnil d).1 h2] at h3
    exact hno ⟨h1, h3⟩

/-! ### C44 -/

/-- C44: the distance reported is what `between` of the corresponding distance object returns for the term and the
query, in either order, whatever was asked before on that object. -/
theorem c44_agrees_with_distance {sgn : Bool} {mem : Mem} {root : Nat} {A : Algorithm} {q : Str} {n : Nat}
    (hd : Dictionary sgn mem root) (hq : QueryFits n q) (hn : n < 2 ^ 64) {rs : List (Str × Nat)}
    (hy : Yields A updCandidate mem root q n rs) {t : Str} {d : Nat} (hmem : (t, d) ∈ rs)
    (history : List (Str × Str)) : answer A history t q = d ∧ answer A history q t = d := by
  obtain ⟨rs', h1, h2⟩ := query_exact A hd hq hn
  have := hy.unique h1
  subst this
  obtain ⟨_, hc, _⟩ := (h2 t d).1 hmem
  exact ⟨(answer_isMinCost A history t q).unique hc.symm, (answer_isMinCost A history q t).unique hc⟩

end Lev.Props
