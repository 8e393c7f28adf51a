import Verif.Proofs.TransIdeal

/-! The position transitions of the code equal the ideal ones on the positions that occur. -/

namespace Lev

section
variable {n : Nat} {q : Str} {x : UInt8} {offset m : Nat} {cv : List Bool} {p : Pos}

theorem drop_len_nil {q : Str} {i : Nat} (h : i ≤ q.length) (hv : q.drop i = []) : i = q.length := by
  have := congrArg List.length hv
  simp at this; omega

theorem drop_len_one {q : Str} {i : Nat} {c : UInt8} (hv : q.drop i = [c]) : i + 1 = q.length := by
  have := congrArg List.length hv
  simp at this; omega

theorem drop_len_two {q : Str} {i : Nat} {c d : UInt8} {v : Str} (hv : q.drop i = c :: d :: v) :
    i + 2 ≤ q.length := by
  have := congrArg List.length hv
  simp at this; omega

/-- Facts about the window at a position that occurs. -/
theorem window_facts {A : Algorithm} (h : Window n q x offset m cv) (hs : Small n q m)
    (hp : PosOk A n q m p) (hi : offset ≤ p.index) :
    wsub p.index offset = p.index - offset ∧
    wadd p.index 1 = p.index + 1 ∧ wadd p.index 2 = p.index + 2 ∧
    wadd (p.index - offset) 1 = p.index - offset + 1 ∧
    wadd (p.index - offset) 2 = p.index - offset + 2 ∧
    p.index - offset + 1 ≤ 2 * n + 1 ∧
    (p.errors < n → p.index - offset + 2 ≤ 2 * n + 1) ∧
    (p.special = true → p.index - offset + 2 ≤ 2 * n) ∧
    (p.errors < n → wadd p.errors 1 = p.errors + 1) := by
  have hw := sizeW_val
  have hm := sizeMax_val
  have h1 := hp.index_le
  have h2 := hp.errors_le
  have h3 := hp.ahead
  have h4 := hp.behind
  have h5 := hs.q_lt
  have h6 := hs.n_le
  have h7 := h.offset_ge
  have h8 := hs.m_lt
  refine ⟨wsub_eq hi (by omega), wadd_eq (by omega), wadd_eq (by omega), wadd_eq (by omega),
    wadd_eq (by omega), by omega, by omega, ?_, fun h => wadd_eq (by omega)⟩
  intro hsp
  have := hp.special_alg hsp
  omega

theorem Window.atIndex {A : Algorithm} (h : Window n q x offset m cv) (hs : Small n q m)
    (hp : PosOk A n q m p) (hi : offset ≤ p.index) (hlt : p.index < q.length) :
    cvAt cv (p.index - offset) = .ok (decide ((q.drop p.index).head? = some x)) := by
  have hl := h.length
  have hf := window_facts h hs hp hi
  rw [h.at (by omega), show offset + (p.index - offset) = p.index by omega]

theorem findIn_one (x c : UInt8) (k : Nat) : findIn x [c] (k + 1) = if c = x then some 0 else none := by
  cases k <;> simp [findIn]

theorem posTransStd_eq (h : Window n q x offset m cv) (hs : Small n q m)
    (hp : PosOk .standard n q m p) (hi : offset ≤ p.index) :
    posTransStd n p cv offset = .ok (idealStd n x (q.drop p.index) p.index p.errors) := by
  have hl := h.length
  have hf := window_facts h hs hp hi
  obtain ⟨f1, f2, f3, f4, f5, f6, f7, f8, f9⟩ := hf
  have h1 := hp.index_le
  have h2 := hp.errors_le
  have h3 := hp.ahead
  have h4 := hp.behind
  have h5 := hs.q_lt
  have h8 := hs.m_lt
  have h9 := hp.small
  have hw := sizeW_val
  have hmx := sizeMax_val
  have hat := h.atIndex hs hp hi
  unfold posTransStd
  simp only [f1, f4, f5]
  by_cases he : p.errors < n
  · have hsearch := search_eq h hs he hi h3
    simp only at hsearch
    specialize f7 he
    specialize f9 he
    simp only [he, if_true, f9, f2, idealStd]
    match hv : q.drop p.index with
    | [] =>
      have := drop_len_nil h1 hv
      rw [if_neg (by omega), if_neg (by omega)]
      rfl
    | [c] =>
      have := drop_len_one hv
      rw [if_neg (by omega), if_pos (by omega), hat (by omega), hv, findIn_one]
      by_cases hc : c = x <;> simp [-List.head?_drop, hc, bind, Except.bind, pure, Except.pure]
    | c :: d :: v =>
      have := drop_len_two hv
      rw [if_pos (by omega), hsearch (by omega), hv]
      cases hfi : findIn x (c :: d :: v) (n - p.errors + 1) with
      | none =>
        simp [bind, Except.bind, pure, Except.pure, sizeMax]
      | some j =>
        have hj := findIn_lt hfi
        rw [← hv, List.length_drop] at hj
        cases j with
        | zero => simp [bind, Except.bind, pure, Except.pure]
        | succ j =>
          have w1 : wadd p.index (j + 1) = p.index + (j + 1) := wadd_eq (by omega)
          have w2 : wadd (p.index + (j + 1)) 1 = p.index + (j + 1) + 1 := wadd_eq (by omega)
          have w3 : wadd p.errors (j + 1) = p.errors + (j + 1) := wadd_eq (by omega)
          have w4 : j + 1 ≠ sizeMax := by omega
          simp [bind, Except.bind, pure, Except.pure, w1, w2, w3, w4]
  · have hen : p.errors = n := by omega
    simp only [he, if_false, f2, idealStd]
    by_cases hlt : p.index < q.length
    · rw [if_pos ⟨hen, by omega⟩, hat hlt]
      by_cases hc : (q.drop p.index).head? = some x <;>
        simp [-List.head?_drop, hc, bind, Except.bind, pure, Except.pure, hen]
    · have hv : q.drop p.index = [] := List.drop_eq_nil_of_le (by omega)
      rw [if_neg (by omega), hv]
      rfl

theorem posTransTrans_eq (h : Window n q x offset m cv) (hs : Small n q m)
    (hp : PosOk .transposition n q m p) (hi : offset ≤ p.index) :
    posTransTrans n p cv offset = .ok (idealTrans n x (q.drop p.index) p.index p.errors p.special) := by
  have hl := h.length
  have hf := window_facts h hs hp hi
  obtain ⟨f1, f2, f3, f4, f5, f6, f7, f8, f9⟩ := hf
  have h1 := hp.index_le
  have h2 := hp.errors_le
  have h3 := hp.ahead
  have h4 := hp.behind
  have h5 := hs.q_lt
  have h8 := hs.m_lt
  have h9 := hp.small
  have hw := sizeW_val
  have hmx := sizeMax_val
  have hat := h.atIndex hs hp hi
  unfold posTransTrans
  simp only [f1, f4, f5]
  by_cases ht : p.special = true
  · have h6 := hp.special_alg ht
    have h7 := hp.special_trans ht rfl
    specialize f8 ht
    rw [if_neg (by omega), hat (by omega)]
    simp only [idealTrans, ht, if_true, f3]
    by_cases he : p.errors < n
    · rw [if_pos (by omega), if_pos (by omega)]
      by_cases hc : (q.drop p.index).head? = some x <;>
        simp [-List.head?_drop, hc, bind, Except.bind, pure, Except.pure]
    · rw [if_neg (by omega), if_neg (by simp), if_pos (by simp; omega)]
      have hen : p.errors = n := by omega
      by_cases hc : (q.drop p.index).head? = some x <;>
        simp [-List.head?_drop, hc, bind, Except.bind, pure, Except.pure, hen]
  · have ht : p.special = false := by simpa using ht
    by_cases he : p.errors < n
    · have hsearch := search_eq h hs he hi h3
      simp only at hsearch
      specialize f7 he
      specialize f9 he
      -- both branches of the code (no error yet, some errors) do the same
      have hcase : ∀ (X Y Z : Except Err (List Pos)), (p.errors = 0 → X = Y) →
          (if p.errors = 0 ∧ 0 < n then X else if 1 ≤ p.errors ∧ p.errors < n then Y else Z) = Y := by
        intro X Y Z hXY
        by_cases h0 : p.errors = 0
        · rw [if_pos ⟨h0, by omega⟩, hXY h0]
        · rw [if_neg (by omega), if_pos (by omega)]
      refine (hcase _ _ _ ?_).trans ?_
      · intro h0
        have w0 : ∀ j, j < sizeW → wadd 0 j = j := fun j hj => by rw [wadd_eq (by omega)]; omega
        split
        · simp only [ht, h0, Bool.not_false, if_true, w0 1 (by omega)]
          rw [h0] at hsearch
          have hex : ∃ j, j < sizeW ∧ indexOf cv (if maxSkip n 0 < wsub cv.length (p.index - offset)
              then maxSkip n 0 else wsub cv.length (p.index - offset)) (p.index - offset) = .ok j := by
            refine ⟨_, ?_, hsearch (by omega)⟩
            split
            · next d hd =>
              have := (findIn_lt hd).2
              rw [List.length_drop] at this
              omega
            · omega
          obtain ⟨j, hjlt, hj⟩ := hex
          rw [hj]
          simp only [bind, Except.bind]
          rw [w0 _ hjlt]
        · split
          · simp only [h0, w0 1 (by omega)]
          · simp only [h0, w0 1 (by omega)]
      simp only [he, if_true, f9, f2, f3, idealTrans, ht, Bool.not_false, if_false, Bool.false_eq_true]
      match hv : q.drop p.index with
      | [] =>
        have := drop_len_nil h1 hv
        rw [if_neg (by omega), if_neg (by omega)]
        rfl
      | [c] =>
        have := drop_len_one hv
        rw [if_neg (by omega), if_pos (by omega), hat (by omega), hv, findIn_one]
        by_cases hc : c = x <;> simp [-List.head?_drop, hc, bind, Except.bind, pure, Except.pure]
      | c :: d :: v =>
        have := drop_len_two hv
        rw [if_pos (by omega), hsearch (by omega), hv]
        cases hfi : findIn x (c :: d :: v) (n - p.errors + 1) with
        | none =>
          simp [bind, Except.bind, pure, Except.pure, sizeMax]
        | some j =>
          have hj := findIn_lt hfi
          rw [← hv, List.length_drop] at hj
          match j with
          | 0 => simp [bind, Except.bind, pure, Except.pure]
          | 1 => simp [bind, Except.bind, pure, Except.pure]
          | j + 2 =>
            have w1 : wadd p.index (j + 2) = p.index + (j + 2) := wadd_eq (by omega)
            have w2 : wadd (p.index + (j + 2)) 1 = p.index + (j + 2) + 1 := wadd_eq (by omega)
            have w3 : wadd p.errors (j + 2) = p.errors + (j + 2) := wadd_eq (by omega)
            have w4 : j + 2 ≠ sizeMax := by omega
            simp [bind, Except.bind, pure, Except.pure, w1, w2, w3, w4]
    · have hen : p.errors = n := by omega
      rw [if_neg (by omega), if_neg (by omega)]
      simp only [he, if_false, f2, idealTrans, ht, Bool.false_eq_true]
      by_cases hlt : p.index < q.length
      · rw [if_pos (by simp; omega), hat hlt]
        by_cases hc : (q.drop p.index).head? = some x <;>
          simp [-List.head?_drop, hc, bind, Except.bind, pure, Except.pure, hen]
      · have hv : q.drop p.index = [] := List.drop_eq_nil_of_le (by omega)
        rw [if_neg (by omega), if_neg (by simp), hv]
        rfl

theorem posTransMS_eq (h : Window n q x offset m cv) (hs : Small n q m)
    (hp : PosOk .mergeAndSplit n q m p) (hi : offset ≤ p.index) :
    posTransMS n p cv offset = .ok (idealMS n x (q.drop p.index) p.index p.errors p.special) := by
  have hl := h.length
  have hf := window_facts h hs hp hi
  obtain ⟨f1, f2, f3, f4, f5, f6, f7, f8, f9⟩ := hf
  have h1 := hp.index_le
  have h2 := hp.errors_le
  have h3 := hp.ahead
  have h4 := hp.behind
  have h5 := hs.q_lt
  have hat := h.atIndex hs hp hi
  unfold posTransMS
  simp only [f1, f4, f5]
  by_cases ht : p.special = true
  · have h6 := hp.special_alg ht
    have h7 := hp.special_ms ht rfl
    specialize f8 ht
    rw [if_neg (by omega)]
    simp only [idealMS, ht, if_true, f2]
    by_cases he : p.errors < n
    · rw [if_pos he]
      split
      · rfl
      · rw [if_pos (by omega)]; rfl
    · rw [if_neg he, if_pos (by omega)]; rfl
  · have ht : p.special = false := by simpa using ht
    by_cases he : p.errors < n
    · specialize f7 he
      specialize f9 he
      have hcase : ∀ (X Y Z : Except Err (List Pos)), (p.errors = 0 → X = Y) →
          (if p.errors = 0 ∧ 0 < n then X else if p.errors < n then Y else Z) = Y := by
        intro X Y Z hXY
        by_cases h0 : p.errors = 0
        · rw [if_pos ⟨h0, by omega⟩, hXY h0]
        · rw [if_neg (by omega), if_pos he]
      refine (hcase _ _ _ ?_).trans ?_
      · intro h0
        simp only [ht, Bool.not_false, if_true]
      simp only [he, if_true, f9, f2, f3, idealMS, ht, Bool.not_false, if_false, Bool.false_eq_true]
      match hv : q.drop p.index with
      | [] =>
        have := drop_len_nil h1 hv
        rw [if_neg (by omega), if_neg (by omega)]
        rfl
      | [c] =>
        have := drop_len_one hv
        rw [if_neg (by omega), if_pos (by omega), hat (by omega), hv]
        by_cases hc : c = x <;> simp [-List.head?_drop, hc, bind, Except.bind, pure, Except.pure]
      | c :: d :: v =>
        have := drop_len_two hv
        rw [if_pos (by omega), hat (by omega), hv]
        by_cases hc : c = x <;> simp [-List.head?_drop, hc, bind, Except.bind, pure, Except.pure]
    · have hen : p.errors = n := by omega
      simp only [he, if_false, f2, idealMS, ht, Bool.false_eq_true, Bool.not_false, if_true]
      rw [if_neg (by omega)]
      by_cases hlt : p.index < q.length
      · rw [if_pos (by omega), hat hlt]
        by_cases hc : (q.drop p.index).head? = some x <;>
          simp [-List.head?_drop, hc, bind, Except.bind, pure, Except.pure, hen]
      · have hv : q.drop p.index = [] := List.drop_eq_nil_of_le (by omega)
        rw [if_neg (by omega), hv]
        rfl

theorem posTrans_eq {A : Algorithm} (h : Window n q x offset m cv) (hs : Small n q m)
    (hp : PosOk A n q m p) (hi : offset ≤ p.index) :
    posTrans A n p cv offset = .ok (idealPos A n q x p) := by
  cases A with
  | standard => exact posTransStd_eq h hs hp hi
  | transposition => exact posTransTrans_eq h hs hp hi
  | mergeAndSplit => exact posTransMS_eq h hs hp hi

/-- Every new position is fine one character later. -/
theorem idealPos_ok {A : Algorithm} (hp : PosOk A n q m p) {p' : Pos} (hmem : p' ∈ idealPos A n q x p) :
    PosOk A n q (m + 1) p' := by
  have h1 := hp.index_le
  have h2 := hp.errors_le
  have h3 := hp.ahead
  have h4 := hp.behind
  have h5 := hp.small
  have key : ∀ (v : Str), q.drop p.index = v → p.index + v.length = q.length := by
    intro v hv; have := congrArg List.length hv; simp at this; omega
  cases A with
  | standard =>
    have hnsp : p.special = false := by
      cases hsp : p.special with
      | false => rfl
      | true => exact absurd rfl (hp.special_alg hsp).1
    simp only [idealPos, idealStd] at hmem
    split at hmem
    · split at hmem
      · simp only [List.mem_singleton] at hmem
        subst hmem
        constructor <;> simp <;> omega
      · next c v hv =>
        have hk := key _ hv
        simp only [List.length_cons] at hk
        split at hmem
        · simp only [List.mem_singleton] at hmem
          subst hmem
          constructor <;> simp <;> omega
        · next j hj =>
          have := findIn_lt hj
          rw [List.length_drop] at this
          simp only [List.mem_cons, List.not_mem_nil, or_false] at hmem
          rcases hmem with rfl | rfl | rfl <;> constructor <;> simp <;> omega
        · simp only [List.mem_cons, List.not_mem_nil, or_false] at hmem
          rcases hmem with rfl | rfl <;> constructor <;> simp <;> omega
    · split at hmem
      · next hh =>
        have : p.index < q.length := by
          refine Nat.lt_of_not_le fun hcon => ?_
          rw [List.drop_eq_nil_of_le hcon] at hh
          simp at hh
        simp only [List.mem_singleton] at hmem
        subst hmem
        constructor <;> simp <;> omega
      · simp at hmem
  | transposition =>
    simp only [idealPos, idealTrans] at hmem
    split at hmem
    · next ht =>
      have h6 := hp.special_alg ht
      have h7 := hp.special_trans ht rfl
      split at hmem
      · simp only [List.mem_singleton] at hmem
        subst hmem
        constructor <;> simp <;> omega
      · simp at hmem
    · split at hmem
      · split at hmem
        · simp only [List.mem_singleton] at hmem
          subst hmem
          constructor <;> simp <;> omega
        · next c v hv =>
          have hk := key _ hv
          simp only [List.length_cons] at hk
          split at hmem
          · simp only [List.mem_singleton] at hmem
            subst hmem
            constructor <;> simp <;> omega
          · next hj =>
            have := findIn_lt hj
            rw [List.length_drop] at this
            simp only [List.mem_cons, List.not_mem_nil, or_false] at hmem
            rcases hmem with rfl | rfl | rfl | rfl <;> constructor <;> simp <;> omega
          · next j hj =>
            have := findIn_lt hj
            rw [List.length_drop] at this
            simp only [List.mem_cons, List.not_mem_nil, or_false] at hmem
            rcases hmem with rfl | rfl | rfl <;> constructor <;> simp <;> omega
          · simp only [List.mem_cons, List.not_mem_nil, or_false] at hmem
            rcases hmem with rfl | rfl <;> constructor <;> simp <;> omega
      · split at hmem
        · next hh =>
          have : p.index < q.length := by
            refine Nat.lt_of_not_le fun hcon => ?_
            rw [List.drop_eq_nil_of_le hcon] at hh
            simp at hh
          simp only [List.mem_singleton] at hmem
          subst hmem
          constructor <;> simp <;> omega
        · simp at hmem
  | mergeAndSplit =>
    simp only [idealPos, idealMS] at hmem
    split at hmem
    · next ht =>
      have h6 := hp.special_alg ht
      have h7 := hp.special_ms ht rfl
      simp only [List.mem_singleton] at hmem
      subst hmem
      constructor <;> simp <;> omega
    · split at hmem
      · split at hmem
        · simp only [List.mem_singleton] at hmem
          subst hmem
          constructor <;> simp <;> omega
        · next c hv =>
          have hk := key _ hv
          simp only [List.length_cons, List.length_nil] at hk
          split at hmem <;> simp only [List.mem_cons, List.not_mem_nil, or_false] at hmem
          · subst hmem
            constructor <;> simp <;> omega
          · rcases hmem with rfl | rfl | rfl <;> constructor <;> simp <;> omega
        · next c d v hv =>
          have hk := key _ hv
          simp only [List.length_cons] at hk
          split at hmem <;> simp only [List.mem_cons, List.not_mem_nil, or_false] at hmem
          · subst hmem
            constructor <;> simp <;> omega
          · rcases hmem with rfl | rfl | rfl | rfl <;> constructor <;> simp <;> omega
      · split at hmem
        · next hh =>
          have : p.index < q.length := by
            refine Nat.lt_of_not_le fun hcon => ?_
            rw [List.drop_eq_nil_of_le hcon] at hh
            simp at hh
          simp only [List.mem_singleton] at hmem
          subst hmem
          constructor <;> simp <;> omega
        · simp at hmem

end

end Lev
