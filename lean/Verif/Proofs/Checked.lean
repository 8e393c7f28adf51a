import Verif.Model.Checked
import Verif.Proofs.QueryAll

/-!
Nothing wraps around in a query: the functions with checked arithmetic succeed on the states that occur.
-/

namespace Lev

open Spec

theorem addC_eq {a b : Nat} (h : a + b < sizeW) : addC a b = .ok (a + b) := by
  have := sizeW_val
  have := sizeMax_val
  unfold addC
  rw [if_pos (by omega)]

theorem subC_eq {a b : Nat} (h : b ≤ a) : subC a b = .ok (a - b) := by
  unfold subC
  rw [if_pos h]

theorem maxSkipC_eq {n e : Nat} (he : e < n) (hn : n ≤ sizeMax) : maxSkipC n e = .ok (maxSkip n e) := by
  have hw := sizeW_val
  have hm := sizeMax_val
  unfold maxSkipC maxSkip
  rw [subC_eq (by omega), wsub_eq (by omega) (by omega)]
  simp only [bind, Except.bind, pure, Except.pure]
  split
  · rw [addC_eq (by omega), wadd_eq (by omega)]
  · rfl

theorem indexOfLoopC_eq {cv : List Bool} {i : Nat} (r : Nat) :
    ∀ j, i + j + r < sizeW → indexOfLoopC cv i r j = indexOfLoop cv i r j := by
  induction r with
  | zero => intro j _; rfl
  | succ r ih =>
    intro j h
    rw [indexOfLoopC, indexOfLoop, addC_eq (by omega), wadd_eq (by omega), wadd_eq (by omega)]
    simp only [bind, Except.bind]
    cases cvAt cv (i + j) with
    | error e => rfl
    | ok b =>
      cases b with
      | true => rfl
      | false =>
        simp only [Bool.false_eq_true, if_false]
        rw [addC_eq (by omega)]
        exact ih (j + 1) (by omega)

section
variable {n : Nat} {q : Str} {x : UInt8} {offset m : Nat} {cv : List Bool} {p : Pos}

/-- Facts about the window at a position that occurs, for checked arithmetic. -/
theorem windowC_facts {A : Algorithm} (hs : Small n q m)
    (hp : PosOk A n q m p) (hi : offset ≤ p.index) :
    subC p.index offset = .ok (p.index - offset) ∧
    addC p.index 1 = .ok (p.index + 1) ∧ addC p.index 2 = .ok (p.index + 2) ∧
    addC (p.index - offset) 1 = .ok (p.index - offset + 1) ∧
    addC (p.index - offset) 2 = .ok (p.index - offset + 2) ∧
    (p.errors < n → addC p.errors 1 = .ok (p.errors + 1)) := by
  have hw := sizeW_val
  have hm := sizeMax_val
  have h1 := hp.index_le
  have h5 := hs.q_lt
  have h6 := hs.n_le
  exact ⟨subC_eq hi, addC_eq (by omega), addC_eq (by omega), addC_eq (by omega),
    addC_eq (by omega), fun h => addC_eq (by omega)⟩

/-- The search, with checked arithmetic. -/
theorem searchC_eq {i e : Nat} (h : Window n q x offset m cv) (hs : Small n q m) (he : e < n)
    (hi : offset ≤ i) (hia : i ≤ m + e) (hw2 : i - offset + 2 ≤ cv.length) :
    ∃ a b, maxSkipC n e = .ok a ∧ subC cv.length (i - offset) = .ok b ∧
      indexOfC cv (if a < b then a else b) (i - offset) =
        .ok (match findIn x (q.drop i) (n - e + 1) with
          | some d => d
          | none => sizeMax) := by
  have hs' := search_eq h hs he hi hia hw2
  have hl := h.length
  have hw := sizeW_val
  have hm := sizeMax_val
  have hq := hs.q_lt
  refine ⟨_, _, maxSkipC_eq he hs.n_le, subC_eq (by omega), ?_⟩
  rw [wsub_eq (by omega) (by omega)] at hs'
  refine Eq.trans ?_ hs'
  unfold indexOfC indexOf
  exact indexOfLoopC_eq _ _ (by split <;> omega)

theorem posTransStdC_eq (h : Window n q x offset m cv) (hs : Small n q m)
    (hp : PosOk .standard n q m p) (hi : offset ≤ p.index) :
    posTransStdC n p cv offset = .ok (idealStd n x (q.drop p.index) p.index p.errors) := by
  have hl := h.length
  obtain ⟨_, _, _, _, _, f6, f7, f8, _⟩ := window_facts h hs hp hi
  obtain ⟨f1, f2, f3, f4, f5, f9⟩ := windowC_facts hs hp hi
  have h1 := hp.index_le
  have h2 := hp.errors_le
  have h3 := hp.ahead
  have h4 := hp.behind
  have h5 := hs.q_lt
  have h8 := hs.m_lt
  have h9 := hp.small
  have hw := sizeW_val
  have hmx := sizeMax_val
  have hat := h.atIndex hs hp hi
  unfold posTransStdC
  simp only [f1, f4, f5, bind, Except.bind]
  by_cases he : p.errors < n
  · have hsearch := searchC_eq h hs he hi h3
    specialize f7 he
    specialize f9 he
    simp only [he, if_true, f9, f2, idealStd]
    match hv : q.drop p.index with
    | [] =>
      have := drop_len_nil h1 hv
      rw [if_neg (by omega), if_neg (by omega)]
      rfl
    | [c] =>
      have := drop_len_one hv
      rw [if_neg (by omega), if_pos (by omega), hat (by omega), hv, findIn_one]
      by_cases hc : c = x <;> simp [-List.head?_drop, hc, pure, Except.pure]
    | c :: d :: v =>
      have := drop_len_two hv
      obtain ⟨a, b, s1, s2, s3⟩ := hsearch (by omega)
      rw [if_pos (by omega)]
      simp only [s1, s2, s3]
      rw [hv]
      cases hfi : findIn x (c :: d :: v) (n - p.errors + 1) with
      | none =>
        simp [pure, Except.pure, sizeMax]
      | some j =>
        have hj := findIn_lt hfi
        rw [← hv, List.length_drop] at hj
        cases j with
        | zero => simp [pure, Except.pure]
        | succ j =>
          have w1 : addC p.index (j + 1) = .ok (p.index + (j + 1)) := addC_eq (by omega)
          have w2 : addC (p.index + (j + 1)) 1 = .ok (p.index + (j + 1) + 1) := addC_eq (by omega)
          have w3 : addC p.errors (j + 1) = .ok (p.errors + (j + 1)) := addC_eq (by omega)
          have w4 : j + 1 ≠ sizeMax := by omega
          simp [pure, Except.pure, w1, w2, w3, w4]
  · have hen : p.errors = n := by omega
    simp only [he, if_false, f2, idealStd]
    by_cases hlt : p.index < q.length
    · rw [if_pos ⟨hen, by omega⟩, hat hlt]
      by_cases hc : (q.drop p.index).head? = some x <;>
        simp [-List.head?_drop, hc, pure, Except.pure, hen]
    · have hv : q.drop p.index = [] := List.drop_eq_nil_of_le (by omega)
      rw [if_neg (by omega), hv]
      rfl

theorem posTransTransC_eq (h : Window n q x offset m cv) (hs : Small n q m)
    (hp : PosOk .transposition n q m p) (hi : offset ≤ p.index) :
    posTransTransC n p cv offset = .ok (idealTrans n x (q.drop p.index) p.index p.errors p.special) := by
  have hl := h.length
  obtain ⟨_, _, _, _, _, f6, f7, f8, _⟩ := window_facts h hs hp hi
  obtain ⟨f1, f2, f3, f4, f5, f9⟩ := windowC_facts hs hp hi
  have h1 := hp.index_le
  have h2 := hp.errors_le
  have h3 := hp.ahead
  have h4 := hp.behind
  have h5 := hs.q_lt
  have h8 := hs.m_lt
  have h9 := hp.small
  have hw := sizeW_val
  have hmx := sizeMax_val
  have hat := h.atIndex hs hp hi
  unfold posTransTransC
  simp only [f1, f4, f5, bind, Except.bind]
  by_cases ht : p.special = true
  · have h6 := hp.special_alg ht
    have h7 := hp.special_trans ht rfl
    specialize f8 ht
    rw [if_neg (by omega), hat (by omega)]
    simp only [idealTrans, ht, if_true, f3]
    by_cases he : p.errors < n
    · rw [if_pos (by omega), if_pos (by omega)]
      by_cases hc : (q.drop p.index).head? = some x <;>
        simp [-List.head?_drop, hc, pure, Except.pure]
    · rw [if_neg (by omega), if_neg (by simp), if_pos (by simp; omega)]
      have hen : p.errors = n := by omega
      by_cases hc : (q.drop p.index).head? = some x <;>
        simp [-List.head?_drop, hc, pure, Except.pure, hen]
  · have ht : p.special = false := by simpa using ht
    by_cases he : p.errors < n
    · have hsearch := searchC_eq h hs he hi h3
      specialize f7 he
      specialize f9 he
      -- both branches of the code (no error yet, some errors) do the same
      have hcase : ∀ (X Y Z : Except Err (List Pos)), (p.errors = 0 → X = Y) →
          (if p.errors = 0 ∧ 0 < n then X else if 1 ≤ p.errors ∧ p.errors < n then Y else Z) = Y := by
        intro X Y Z hXY
        by_cases h0 : p.errors = 0
        · rw [if_pos ⟨h0, by omega⟩, hXY h0]
        · rw [if_neg (by omega), if_pos (by omega)]
      refine (hcase _ _ _ ?_).trans ?_
      · intro h0
        have w0 : ∀ j, j < sizeW → addC 0 j = .ok j := fun j hj => by rw [addC_eq (by omega)]; simp
        split
        · simp only [ht, h0, Bool.not_false, if_true, w0 1 (by omega)]
          rw [h0] at hsearch
          obtain ⟨a, b, s1, s2, s3⟩ := hsearch (by omega)
          have hex : ∃ j, j < sizeW ∧ indexOfC cv (if a < b then a else b) (p.index - offset) = .ok j := by
            refine ⟨_, ?_, s3⟩
            split
            · next d hd =>
              have := (findIn_lt hd).2
              rw [List.length_drop] at this
              omega
            · omega
          obtain ⟨j, hjlt, hj⟩ := hex
          simp only [s1, s2, hj, w0 j hjlt]
        · split
          · simp only [h0, w0 1 (by omega)]
          · simp only [h0, w0 1 (by omega)]
      simp only [he, if_true, f9, f2, f3, idealTrans, ht, Bool.not_false, if_false, Bool.false_eq_true]
      match hv : q.drop p.index with
      | [] =>
        have := drop_len_nil h1 hv
        rw [if_neg (by omega), if_neg (by omega)]
        rfl
      | [c] =>
        have := drop_len_one hv
        rw [if_neg (by omega), if_pos (by omega), hat (by omega), hv, findIn_one]
        by_cases hc : c = x <;> simp [-List.head?_drop, hc, pure, Except.pure]
      | c :: d :: v =>
        have := drop_len_two hv
        obtain ⟨a, b, s1, s2, s3⟩ := hsearch (by omega)
        rw [if_pos (by omega)]
        simp only [s1, s2, s3]
        rw [hv]
        cases hfi : findIn x (c :: d :: v) (n - p.errors + 1) with
        | none =>
          simp [pure, Except.pure, sizeMax]
        | some j =>
          have hj := findIn_lt hfi
          rw [← hv, List.length_drop] at hj
          match j with
          | 0 => simp [pure, Except.pure]
          | 1 => simp [pure, Except.pure]
          | j + 2 =>
            have w1 : addC p.index (j + 2) = .ok (p.index + (j + 2)) := addC_eq (by omega)
            have w2 : addC (p.index + (j + 2)) 1 = .ok (p.index + (j + 2) + 1) := addC_eq (by omega)
            have w3 : addC p.errors (j + 2) = .ok (p.errors + (j + 2)) := addC_eq (by omega)
            have w4 : j + 2 ≠ sizeMax := by omega
            simp [pure, Except.pure, w1, w2, w3, w4]
    · have hen : p.errors = n := by omega
      rw [if_neg (by omega), if_neg (by omega)]
      simp only [he, if_false, f2, idealTrans, ht, Bool.false_eq_true]
      by_cases hlt : p.index < q.length
      · rw [if_pos (by simp; omega), hat hlt]
        by_cases hc : (q.drop p.index).head? = some x <;>
          simp [-List.head?_drop, hc, pure, Except.pure, hen]
      · have hv : q.drop p.index = [] := List.drop_eq_nil_of_le (by omega)
        rw [if_neg (by omega), if_neg (by simp), hv]
        rfl

theorem posTransMSC_eq (h : Window n q x offset m cv) (hs : Small n q m)
    (hp : PosOk .mergeAndSplit n q m p) (hi : offset ≤ p.index) :
    posTransMSC n p cv offset = .ok (idealMS n x (q.drop p.index) p.index p.errors p.special) := by
  have hl := h.length
  obtain ⟨_, _, _, _, _, f6, f7, f8, _⟩ := window_facts h hs hp hi
  obtain ⟨f1, f2, f3, f4, f5, f9⟩ := windowC_facts hs hp hi
  have h1 := hp.index_le
  have h2 := hp.errors_le
  have h3 := hp.ahead
  have h4 := hp.behind
  have h5 := hs.q_lt
  have hat := h.atIndex hs hp hi
  unfold posTransMSC
  simp only [f1, f4, f5, bind, Except.bind]
  by_cases ht : p.special = true
  · have h6 := hp.special_alg ht
    have h7 := hp.special_ms ht rfl
    specialize f8 ht
    rw [if_neg (by omega)]
    simp only [idealMS, ht, if_true, f2]
    by_cases he : p.errors < n
    · rw [if_pos he]
      split
      · rfl
      · rw [if_pos (by omega)]; rfl
    · rw [if_neg he, if_pos (by omega)]; rfl
  · have ht : p.special = false := by simpa using ht
    by_cases he : p.errors < n
    · specialize f7 he
      specialize f9 he
      have hcase : ∀ (X Y Z : Except Err (List Pos)), (p.errors = 0 → X = Y) →
          (if p.errors = 0 ∧ 0 < n then X else if p.errors < n then Y else Z) = Y := by
        intro X Y Z hXY
        by_cases h0 : p.errors = 0
        · rw [if_pos ⟨h0, by omega⟩, hXY h0]
        · rw [if_neg (by omega), if_pos he]
      refine (hcase _ _ _ ?_).trans ?_
      · intro h0
        simp only [ht, Bool.not_false, if_true]
      simp only [he, if_true, f9, f2, f3, idealMS, ht, Bool.not_false, if_false, Bool.false_eq_true]
      match hv : q.drop p.index with
      | [] =>
        have := drop_len_nil h1 hv
        rw [if_neg (by omega), if_neg (by omega)]
        rfl
      | [c] =>
        have := drop_len_one hv
        rw [if_neg (by omega), if_pos (by omega), hat (by omega), hv]
        by_cases hc : c = x <;> simp [-List.head?_drop, hc, pure, Except.pure]
      | c :: d :: v =>
        have := drop_len_two hv
        rw [if_pos (by omega), hat (by omega), hv]
        by_cases hc : c = x <;> simp [-List.head?_drop, hc, pure, Except.pure]
    · have hen : p.errors = n := by omega
      simp only [he, if_false, f2, idealMS, ht, Bool.false_eq_true, Bool.not_false, if_true]
      rw [if_neg (by omega)]
      by_cases hlt : p.index < q.length
      · rw [if_pos (by omega), hat hlt]
        by_cases hc : (q.drop p.index).head? = some x <;>
          simp [-List.head?_drop, hc, pure, Except.pure, hen]
      · have hv : q.drop p.index = [] := List.drop_eq_nil_of_le (by omega)
        rw [if_neg (by omega), hv]
        rfl

theorem posTransC_eq {A : Algorithm} (h : Window n q x offset m cv) (hs : Small n q m)
    (hp : PosOk A n q m p) (hi : offset ≤ p.index) :
    posTransC A n p cv offset = posTrans A n p cv offset := by
  rw [posTrans_eq h hs hp hi]
  cases A with
  | standard => exact posTransStdC_eq h hs hp hi
  | transposition => exact posTransTransC_eq h hs hp hi
  | mergeAndSplit => exact posTransMSC_eq h hs hp hi

end

/-! ### States -/

theorem unsubInnerC_id {sub : Pos → Pos → Except Err Bool} {outer : Pos} {l : List Pos}
    (h : ∀ p ∈ l, ¬ outer.errors < p.errors) : unsubInnerC sub outer l = .ok l := by
  induction l with
  | nil => rfl
  | cons a l ih =>
    rw [unsubInnerC, if_neg (h a (by simp)), ih fun p hp => h p (by simp [hp])]
    rfl

/-- On a state ordered by descending errors `subsumes` is never called. -/
theorem unsubsumeC_id {sub : Pos → Pos → Except Err Bool} {l : List Pos}
    (h : l.Pairwise (fun a b => ¬ a.errors < b.errors)) : unsubsumeC sub l.length l = .ok l := by
  induction l with
  | nil => rfl
  | cons a l ih =>
    rw [List.pairwise_cons] at h
    rw [List.length_cons, unsubsumeC, unsubInnerC_id h.1]
    simp only [bind, Except.bind, ih h.2]
    rfl

theorem transLoopC_eq {A : Algorithm} {n : Nat} {q : Str} {x : UInt8} {m offset : Nat} {cv : List Bool}
    (hwin : Window n q x offset m cv) (hs : Small n q m) (ps acc : List Pos)
    (hps : ∀ p ∈ ps, PosOk A n q m p ∧ offset ≤ p.index) :
    transLoopC A n cv offset ps acc = transLoop A n cv offset ps acc := by
  induction ps generalizing acc with
  | nil => rfl
  | cons p ps ih =>
    have h0 := hps p (by simp)
    rw [transLoopC, transLoop, posTransC_eq hwin hs h0.1 h0.2]
    congr 1
    funext new
    exact ih _ fun p hp => hps p (by simp [hp])

theorem stateTransC_eq {A : Algorithm} {n : Nat} {q : Str} {x : UInt8} {m : Nat} {hd : Pos} {tl : List Pos}
    {cv : List Bool} (len : Nat) (h : StateInv A n q m (hd :: tl)) (hs : Small n q m)
    (hwin : Window n q x hd.index m cv) :
    stateTransC A n len (hd :: tl) cv = stateTrans A n len (hd :: tl) cv := by
  obtain ⟨r, hr, hdesc, _⟩ := transLoop_eq (A := A) hwin hs (hd :: tl) []
    (fun p hp => ⟨h.ok p hp, h.head_le p hp⟩) (by simp) (by simp [Desc])
  have hrC := transLoopC_eq (A := A) hwin hs (hd :: tl) [] (fun p hp => ⟨h.ok p hp, h.head_le p hp⟩)
  rw [hr] at hrC
  simp only [stateTransC, stateTrans, hr, hrC, bind, Except.bind, unsubsume_id hdesc.errors,
    unsubsumeC_id hdesc.errors]
  cases r <;> rfl

theorem stateDistLoopC_eq {A : Algorithm} {len : Nat} (l : List Pos) (m : Nat)
    (h : ∀ p ∈ l, p.index ≤ len ∧ len - p.index + p.errors < sizeW) (hlen : len < sizeW) :
    stateDistLoopC A len l m = .ok (l.foldl (fun m p => if A ≠ .standard ∧ p.special then m
      else
        let d := wadd (wsub len p.index) p.errors
        if d < m then d else m) m) := by
  induction l generalizing m with
  | nil => rfl
  | cons p l ih =>
    have h0 := h p (by simp)
    rw [stateDistLoopC, List.foldl_cons, wsub_eq h0.1 hlen, wadd_eq h0.2, subC_eq h0.1]
    simp only [bind, Except.bind, addC_eq h0.2]
    split <;> exact ih _ fun p hp => h p (by simp [hp])

theorem stateDistC_eq {A : Algorithm} {n m : Nat} {q : Str} {l : List Pos} (h : StateInv A n q m l)
    (hs : Small n q m) : stateDistC A l q.length = .ok (stateDist A l q.length) := by
  have hw := sizeW_val
  have := hs.q_lt
  have := hs.m_lt
  refine stateDistLoopC_eq l sizeMax (fun p hp => ?_) (by omega)
  have h1 := (h.ok p hp).index_le
  have h2 := (h.ok p hp).small
  omega

theorem cvLoopC_eq {x : UInt8} {term : Str} {i : Nat} (r : Nat) :
    ∀ j, i + j + r < sizeW → cvLoopC x term i r j = cvLoop x term i r j := by
  induction r with
  | zero => intro j _; rfl
  | succ r ih =>
    intro j h
    rw [cvLoopC, cvLoop, addC_eq (by omega), wadd_eq (by omega), ih (j + 1) (by omega)]
    rfl

theorem windowMaxC_eq {n : Nat} : windowMaxC n = .ok (windowMax n) := by
  have hw := sizeW_val
  have hm := sizeMax_val
  unfold windowMaxC windowMax
  rw [subC_eq (by omega)]
  simp only [bind, Except.bind]
  split
  · have : mulC 2 n = .ok (2 * n) := by unfold mulC; rw [if_pos (by omega)]
    rw [this, Nat.mod_eq_of_lt (by omega), wadd_eq (by omega)]
    exact addC_eq (by omega)
  · rfl

/-! ### Queries -/

/-- The representation of states in the list backend. -/
def RepL : Unit → List Pos → List Pos → Prop := fun _ s l => s = l

section
variable {R : Type} {A : Algorithm} {n : Nat} {q : Str} {mem : Mem} {upd : Str → Nat → R} {s0 : List Pos} {D : Nat}

theorem queryIterC_eq (hn : n ≤ sizeMax) (hq : Spec.QueryFits n q) (hD : D < 2 ^ 62)
    {m : Unit} {Q : Query (List Pos) R} {P ch : List Item} (h : QueryInv A n q RepL mem s0 D m Q P ch) :
    queryIterC (checkedBackend A n q.length) mem upd m Q = queryIter (listBackend A n q.length) mem upd m Q := by
  have hw := sizeW_val
  have hqlt := hq.lt
  unfold queryIterC queryIter
  cases hes : Q.edges with
  | nil =>
    have hpend := h.pending
    cases hp : Q.pending with
    | nil => rfl
    | cons I rest =>
      rw [hp] at hpend
      cases hpend with
      | @cons _ it _ P0 hI hrest =>
        obtain ⟨l, hl, hsem⟩ := hI.state
        cases hl
        cases hs : I.state with
        | nil => exact absurd hs hsem.inv.ne
        | cons hd tl =>
          have hle := (hsem.inv.ok hd (by rw [hs]; simp)).index_le
          simp only [checkedBackend, listBackend, hs, bind, Except.bind, h.term, subC_eq hle,
            wsub_eq hle (by omega)]
  | cons e es =>
    obtain ⟨label, target⟩ := e
    rcases h.cur with hc | ⟨I, it, F, hd, tl, h1, h2, h3, h4, h5, h6, h7, h8, h9, h10⟩
    · rw [hes] at hc; simp at hc
    · rw [hes] at h4
      cases h4 with
      | @cons _ _ nd _ kids rest hmt hkids hrest =>
        have hlen : it.path.length < 2 ^ 62 := by have := h2.height; omega
        have hsm : Small n q it.path.length := ⟨hn, hq, hlen⟩
        have hhd := h8.inv.ok hd (by simp)
        obtain ⟨cv, hcv, hwin⟩ := charVec_window (x := label) hsm hhd.index_le
          (by have := hhd.behind; have := hhd.errors_le; omega)
        have hcvq : charVec label q Q.k Q.i = .ok cv := by rw [h9, h10]; exact hcv
        have hcvC : charVecC label q Q.k Q.i = .ok cv := by
          rw [← hcvq]
          unfold charVec charVecC
          have hk : Q.k ≤ q.length - hd.index := by
            rw [h10, wsub_eq hhd.index_le (by omega)]
            split <;> omega
          have := hhd.index_le
          split
          · exact cvLoopC_eq _ _ (by omega)
          · rfl
        have hst : I.state = hd :: tl := h7
        simp only [h1, h.term, hcvq, hcvC, bind, Except.bind, checkedBackend, listBackend, hst,
          stateTransC_eq q.length h8.inv hsm hwin]
        rcases h8.trans q.length hsm hwin with ⟨ht, _⟩ | ⟨l', ht, hsem'⟩
        · simp only [ht, Except.map]
        · have hlen' : (it.path ++ [label]).length < 2 ^ 62 := by
            simp only [Forest.height] at h6; simp; omega
          simp only [ht, Except.map, stateDistC_eq hsem'.inv ⟨hn, hq, hlen'⟩]

theorem queryLoopC_eq (hn : n ≤ sizeMax) (hq : Spec.QueryFits n q) (hD : D < 2 ^ 62) (fuel : Nat)
    {m : Unit} {Q : Query (List Pos) R} {P ch : List Item} (h : QueryInv A n q RepL mem s0 D m Q P ch)
    (hne : Q.edges ≠ [] ∨ Q.pending ≠ []) :
    queryLoopC (checkedBackend A n q.length) mem upd fuel m Q =
      queryLoop (listBackend A n q.length) mem upd fuel m Q := by
  induction fuel generalizing m Q P ch with
  | zero => rfl
  | succ fuel ih =>
    rw [queryLoopC, queryLoop, queryIterC_eq hn hq hD h]
    obtain ⟨m1, Q1, stop, P1, ch1, heq, hinv, _⟩ :=
      queryIter_spec (upd := upd) (listBackend_ok A n q.length) hn hq hD h hne
    rw [heq]
    simp only [bind, Except.bind]
    split
    · rfl
    · split
      · rfl
      · next he => exact ih hinv (QueryInv.more he)

theorem queryAdvanceC_eq (hn : n ≤ sizeMax) (hq : Spec.QueryFits n q) (hD : D < 2 ^ 62) (fuel : Nat)
    {m : Unit} {Q : Query (List Pos) R} {P ch : List Item} (h : QueryInv A n q RepL mem s0 D m Q P ch) :
    queryAdvanceC (checkedBackend A n q.length) mem upd fuel m Q =
      queryAdvance (listBackend A n q.length) mem upd fuel m Q := by
  have h' : QueryInv A n q RepL mem s0 D m { Q with complete := true } P ch :=
    ⟨h.term, h.maxD, h.a, h.pending, h.pendingOwn, h.cur⟩
  unfold queryAdvanceC queryAdvance
  split
  · rfl
  · next he => exact queryLoopC_eq hn hq hD fuel h' (QueryInv.more he)

theorem queryCollectC_eq (hn : n ≤ sizeMax) (hq : Spec.QueryFits n q) (hD : D < 2 ^ 62) (fuel : Nat)
    {m : Unit} {Q : Query (List Pos) R} {P ch : List Item} (h : QueryInv A n q RepL mem s0 D m Q P ch)
    (hf : workOf P ch + 2 ≤ fuel) :
    queryCollectC (checkedBackend A n q.length) mem upd fuel m Q =
      queryCollect (listBackend A n q.length) mem upd fuel m Q := by
  induction fuel generalizing m Q P ch with
  | zero => rfl
  | succ fuel ih =>
    rw [queryCollectC, queryCollect]
    split
    · rfl
    · rw [queryAdvanceC_eq hn hq hD fuel h]
      obtain ⟨m1, Q1, P1, ch1, heq, hinv, _, hadv⟩ :=
        queryAdvance_spec (upd := upd) (listBackend_ok A n q.length) hn hq hD fuel h (by omega)
      rw [heq]
      simp only [bind, Except.bind]
      rcases hadv with ⟨_, a2, _⟩ | ⟨a1, _⟩
      · rw [ih hinv (by omega)]
      · obtain ⟨f, rfl⟩ : ∃ f, fuel = f + 1 := ⟨fuel - 1, by omega⟩
        simp only [queryCollectC, queryCollect, a1, if_true]

theorem queryAllC_eq (hn : n ≤ sizeMax) (hq : Spec.QueryFits n q) (fuel : Nat) (dflt : R)
    {m : Unit} {root : Nat} {nd : DNode} {F : Forest}
    (hm : mem root = some nd) (hu : Unf mem nd.edges F) (hh : F.height < 2 ^ 62) (hf : F.wt + 3 ≤ fuel) :
    queryAllC (checkedBackend A n q.length) mem upd fuel dflt m root initialState q n =
      queryAll (listBackend A n q.length) mem upd fuel dflt m root initialState q n := by
  have hinv0 : QueryInv A n q RepL mem initialState F.height m
      ({ pending := [Inter.root root initialState], edges := [], owned := [], complete := false,
         cur := none, cand := dflt, term := q, maxD := n, a := windowMax n, k := 0, i := 0 } :
        Query (List Pos) R) [rootItem nd F] [] := by
    refine ⟨rfl, rfl, rfl, .cons ⟨rfl, ⟨_, rfl, initialState_sem A n q⟩, ⟨nd, hm, rfl, hu⟩, ?_⟩ .nil, ?_,
      .inl ⟨rfl, rfl⟩⟩
    · simp [rootItem]
    · intro I hI
      simp only [List.mem_singleton] at hI
      subst hI
      exact .inl rfl
  have hb : queryBeginC (checkedBackend A n q.length) mem upd fuel dflt m root initialState q n =
      queryBegin (listBackend A n q.length) mem upd fuel dflt m root initialState q n := by
    unfold queryBeginC queryBegin
    have hdr : deref mem root = .ok nd := by unfold deref; rw [hm]
    simp only [hdr, bind, Except.bind, windowMaxC_eq]
    split
    · rfl
    · exact queryAdvanceC_eq hn hq hh fuel hinv0
  unfold queryAllC queryAll
  rw [hb]
  obtain ⟨m1, Q, P, ch, heq, hinv, hwork, _⟩ :=
    queryBegin_spec (upd := upd) (s0 := initialState) (m := m) (listBackend_ok A n q.length) hn hq hh fuel dflt hm hu
      (Nat.le_refl _) rfl (by omega)
  rw [heq]
  simp only [bind, Except.bind]
  exact queryCollectC_eq hn hq hh fuel hinv (by omega)

theorem Tree.yieldsChecked {sgn : Bool} {root : Nat} {nd : DNode} {F : Forest} (h : Tree sgn mem root nd F)
    (hn : n ≤ sizeMax) (hq : Spec.QueryFits n q) (upd : Str → Nat → R) :
    YieldsChecked A upd mem root q n ((allOut A n q nd F).map (fun r => upd r.1 r.2)) := by
  refine ⟨F.wt + 3, fun fuel hf dflt => ?_⟩
  obtain ⟨m', heq, _⟩ := queryAll_spec (upd := upd) (s0 := initialState) (m := ()) (listBackend_ok A n q.length) hn hq
    fuel dflt h.node h.unf h.height rfl hf
  unfold transduceC
  rw [queryAllC_eq hn hq fuel dflt h.node h.unf h.height hf, heq]
  rfl

end

end Lev
