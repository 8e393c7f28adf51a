import Verif.Model.Transition
import Verif.Spec.Dict

/-!
The position transitions of the code, computed from a window of the query with `size_t` arithmetic,
equal transitions that look at the query itself with natural numbers, for the positions that occur.
-/

namespace Lev

theorem wadd_eq {a b : Nat} (h : a + b < sizeW) : wadd a b = a + b := Nat.mod_eq_of_lt h

theorem wsub_eq {a b : Nat} (hb : b ≤ a) (ha : a < sizeW) : wsub a b = a - b := by
  unfold wsub
  rw [Nat.mod_eq_of_lt (show b < sizeW by omega), show a + (sizeW - b) = (a - b) + sizeW by omega,
    Nat.add_mod_right, Nat.mod_eq_of_lt (by omega)]

theorem sizeW_val : sizeW = 18446744073709551616 := rfl
theorem sizeMax_val : sizeMax = 18446744073709551615 := rfl

/-- Index of the first `x` among the first `k` characters. -/
def findIn (x : UInt8) : Str → Nat → Option Nat
  | [], _ => none
  | _, 0 => none
  | c :: v, k + 1 => if c = x then some 0 else (findIn x v k).map (· + 1)

theorem findIn_lt {x : UInt8} {v : Str} {k j : Nat} (h : findIn x v k = some j) : j < k ∧ j < v.length := by
  induction v generalizing k j with
  | nil => simp [findIn] at h
  | cons c v ih =>
    cases k with
    | zero => simp [findIn] at h
    | succ k =>
      simp only [findIn] at h
      split at h
      · simp at h; subst h; simp
      · simp only [Option.map_eq_some_iff] at h
        obtain ⟨j', h', rfl⟩ := h
        have := ih h'
        simp only [List.length_cons]; omega

/-- Transition of STANDARD in terms of the rest `v` of the query at `i`. -/
def idealStd (n : Nat) (x : UInt8) (v : Str) (i e : Nat) : List Pos :=
  if e < n then
    match v with
    | [] => [⟨i, e + 1, false⟩]
    | _ :: _ =>
      match findIn x v (n - e + 1) with
      | some 0 => [⟨i + 1, e, false⟩]
      | some (j + 1) => [⟨i, e + 1, false⟩, ⟨i + 1, e + 1, false⟩, ⟨i + (j + 1) + 1, e + (j + 1), false⟩]
      | none => [⟨i, e + 1, false⟩, ⟨i + 1, e + 1, false⟩]
  else if v.head? = some x then [⟨i + 1, e, false⟩] else []

/-- Transition of TRANSPOSITION. -/
def idealTrans (n : Nat) (x : UInt8) (v : Str) (i e : Nat) (t : Bool) : List Pos :=
  if t then
    if v.head? = some x then [⟨i + 2, e, false⟩] else []
  else if e < n then
    match v with
    | [] => [⟨i, e + 1, false⟩]
    | _ :: _ =>
      match findIn x v (n - e + 1) with
      | some 0 => [⟨i + 1, e, false⟩]
      | some 1 => [⟨i, e + 1, false⟩, ⟨i, e + 1, true⟩, ⟨i + 1, e + 1, false⟩, ⟨i + 2, e + 1, false⟩]
      | some (j + 2) => [⟨i, e + 1, false⟩, ⟨i + 1, e + 1, false⟩, ⟨i + (j + 2) + 1, e + (j + 2), false⟩]
      | none => [⟨i, e + 1, false⟩, ⟨i + 1, e + 1, false⟩]
  else if v.head? = some x then [⟨i + 1, e, false⟩] else []

/-- Transition of MERGE_AND_SPLIT. -/
def idealMS (n : Nat) (x : UInt8) (v : Str) (i e : Nat) (s : Bool) : List Pos :=
  if s then [⟨i + 1, e, false⟩]
  else if e < n then
    match v with
    | [] => [⟨i, e + 1, false⟩]
    | [c] => if c = x then [⟨i + 1, e, false⟩]
        else [⟨i, e + 1, false⟩, ⟨i, e + 1, true⟩, ⟨i + 1, e + 1, false⟩]
    | c :: _ :: _ => if c = x then [⟨i + 1, e, false⟩]
        else [⟨i, e + 1, false⟩, ⟨i, e + 1, true⟩, ⟨i + 1, e + 1, false⟩, ⟨i + 2, e + 1, false⟩]
  else if v.head? = some x then [⟨i + 1, e, false⟩] else []

def idealPos (A : Algorithm) (n : Nat) (q : Str) (x : UInt8) (p : Pos) : List Pos :=
  match A with
  | .standard => idealStd n x (q.drop p.index) p.index p.errors
  | .transposition => idealTrans n x (q.drop p.index) p.index p.errors p.special
  | .mergeAndSplit => idealMS n x (q.drop p.index) p.index p.errors p.special

/-- What is true of every position of a state after `m` dictionary characters. -/
structure PosOk (A : Algorithm) (n : Nat) (q : Str) (m : Nat) (p : Pos) : Prop where
  index_le : p.index ≤ q.length
  errors_le : p.errors ≤ n
  ahead : p.index ≤ m + p.errors
  behind : m ≤ p.index + p.errors
  small : p.errors ≤ m + p.index
  special_alg : p.special = true → A ≠ .standard ∧ 1 ≤ p.errors ∧ p.index + 2 ≤ m + p.errors
  special_trans : p.special = true → A = .transposition → p.index + 2 ≤ q.length
  special_ms : p.special = true → A = .mergeAndSplit → p.index + 1 ≤ q.length

/-- Strings are short enough and `max_distance` is a `size_t`. -/
structure Small (n : Nat) (q : Str) (m : Nat) : Prop where
  n_le : n ≤ sizeMax
  q_fits : Spec.QueryFits n q
  m_lt : m < 2 ^ 62

theorem Small.q_lt {n m : Nat} {q : Str} (h : Small n q m) : q.length < 2 ^ 62 := h.q_fits.lt

/-- The window of the query that a characteristic vector describes. -/
structure Window (n : Nat) (q : Str) (x : UInt8) (offset m : Nat) (cv : List Bool) : Prop where
  cv_eq : cv = ((q.drop offset).take (2 * n + 1)).map (fun c => c == x)
  offset_le : offset ≤ q.length
  offset_ge : m ≤ offset + n

theorem Window.length {n : Nat} {q : Str} {x : UInt8} {offset m : Nat} {cv : List Bool}
    (h : Window n q x offset m cv) : cv.length = min (2 * n + 1) (q.length - offset) := by
  rw [h.cv_eq]; simp

theorem Window.at {n : Nat} {q : Str} {x : UInt8} {offset m : Nat} {cv : List Bool}
    (h : Window n q x offset m cv) {k : Nat} (hk : k < cv.length) :
    cvAt cv k = .ok (decide ((q.drop (offset + k)).head? = some x)) := by
  have hl := h.length
  have : cv[k]? = some (decide ((q.drop (offset + k)).head? = some x)) := by
    rw [h.cv_eq, List.getElem?_map, List.getElem?_take_of_lt (by omega), List.getElem?_drop,
      List.head?_drop]
    have hlt : offset + k < q.length := by omega
    rw [List.getElem?_eq_getElem hlt]
    simp only [Option.map_some, Option.some.injEq]
    by_cases hx : q[offset + k] = x <;> simp [hx]
  unfold cvAt
  rw [this]

theorem indexOfLoop_eq {n : Nat} {q : Str} {x : UInt8} {offset m : Nat} {cv : List Bool}
    (h : Window n q x offset m cv) (hq : q.length < 2 ^ 62) (r : Nat) :
    ∀ j hh, hh + j + r ≤ cv.length →
    indexOfLoop cv hh r j = .ok (match findIn x (q.drop (offset + hh + j)) r with
      | some d => j + d
      | none => sizeMax) := by
  induction r with
  | zero =>
    intro j hh _
    simp only [indexOfLoop]
    cases q.drop (offset + hh + j) <;> simp [findIn]
  | succ r ih =>
    intro j hh hle
    have hl := h.length
    have hw := sizeW_val
    have hlt : offset + (hh + j) < q.length := by omega
    rw [indexOfLoop, wadd_eq (by omega), h.at (by omega), wadd_eq (by omega), ih (j + 1) hh (by omega)]
    rw [show offset + hh + j = offset + (hh + j) by omega,
      show offset + hh + (j + 1) = offset + (hh + j) + 1 by omega,
      ← List.drop_drop (i := 1) (l := q)]
    rw [List.drop_eq_getElem_cons hlt]
    simp only [List.head?_cons, Option.some.injEq, List.drop_succ_cons, List.drop_zero, findIn]
    by_cases hx : q[offset + (hh + j)] = x
    · simp [hx, bind, Except.bind, pure, Except.pure]
    · simp only [hx, decide_false, bind, Except.bind, if_false, Bool.false_eq_true]
      cases findIn x (q.drop (offset + (hh + j) + 1)) r with
      | none => rfl
      | some d => simp; omega

/-- Looking further than the query is long finds nothing more. -/
theorem findIn_min (x : UInt8) (v : Str) (k : Nat) : findIn x v (min k v.length) = findIn x v k := by
  induction v generalizing k with
  | nil => simp [findIn]
  | cons c v ih =>
    cases k with
    | zero => simp [findIn]
    | succ k =>
      rw [List.length_cons, Nat.add_min_add_right]
      simp only [findIn, ih]

theorem maxSkip_eq {n e : Nat} (he : e < n) (hn : n ≤ sizeMax) : maxSkip n e = min (n - e + 1) sizeMax := by
  have hw := sizeW_val
  have hm := sizeMax_val
  unfold maxSkip
  rw [wsub_eq (by omega) (by omega)]
  split
  · rw [wadd_eq (by omega)]; omega
  · omega

/-- The search for the next match, as the code does it. -/
theorem search_eq {n : Nat} {q : Str} {x : UInt8} {offset m i e : Nat} {cv : List Bool}
    (h : Window n q x offset m cv) (hs : Small n q m) (he : e < n) (hi : offset ≤ i) (hia : i ≤ m + e)
    (hw2 : i - offset + 2 ≤ cv.length) :
    (let a := maxSkip n e
     let b := wsub cv.length (i - offset)
     let k := if a < b then a else b
     indexOf cv k (i - offset)) =
    .ok (match findIn x (q.drop i) (n - e + 1) with
      | some d => d
      | none => sizeMax) := by
  have hl := h.length
  have hw := sizeW_val
  have hm := sizeMax_val
  have hog := h.offset_ge
  have := hs.q_lt
  have := hs.n_le
  simp only
  rw [maxSkip_eq he hs.n_le, wsub_eq (by omega) (by omega)]
  have hk : (if min (n - e + 1) sizeMax < cv.length - (i - offset) then min (n - e + 1) sizeMax
      else cv.length - (i - offset)) = min (n - e + 1) (q.length - i) := by
    have hM : q.length < sizeMax := by omega
    clear hm hw
    generalize sizeMax = M at *
    split <;> omega
  rw [hk]
  have key := indexOfLoop_eq h hs.q_lt (min (n - e + 1) (q.length - i)) 0 (i - offset) (by omega)
  unfold indexOf
  rw [key]
  rw [show offset + (i - offset) + 0 = i by omega]
  have := findIn_min x (q.drop i) (n - e + 1)
  rw [List.length_drop] at this
  rw [this]
  cases findIn x (q.drop i) (n - e + 1) <;> simp

end Lev
