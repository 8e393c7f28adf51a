import Verif.Proofs.StateSem
import Verif.Spec.Position

/-!
Lemmas for the properties of the state operations.
-/

namespace Lev

open Spec

/-! ### Reachable states -/

/-- `l` is the state a query holds after reading `w`: from the initial state by the transitions of
`LazyQuery::advance`. -/
inductive ReachState (A : Algorithm) (n : Nat) (q : Str) : Str → List Pos → Prop
  | init : ReachState A n q [] initialState
  | step {w : Str} {hd : Pos} {tl : List Pos} {x : UInt8} {cv : List Bool} {l' : List Pos} :
      ReachState A n q w (hd :: tl) →
      charVec x q (if windowMax n < wsub q.length hd.index then windowMax n else wsub q.length hd.index) hd.index
        = .ok cv →
      stateTrans A n q.length (hd :: tl) cv = .ok (some l') → ReachState A n q (w ++ [x]) l'

theorem ReachState.sem {A : Algorithm} {n : Nat} {q w : Str} {l : List Pos} (h : ReachState A n q w l)
    (hn : n ≤ sizeMax) (hq : Spec.QueryFits n q) (hw : w.length ≤ 2 ^ 62) : StateSem A n q w l := by
  induction h with
  | init => exact initialState_sem A n q
  | @step w hd tl x cv l' _ hcv ht ih =>
    simp only [List.length_append, List.length_cons, List.length_nil] at hw
    have hsem := ih (by omega)
    have hsm : Small n q w.length := ⟨hn, hq, by omega⟩
    have hhd := hsem.inv.ok hd (by simp)
    obtain ⟨cv', hcv', hwin⟩ := charVec_window (x := x) hsm hhd.index_le
      (by have := hhd.behind; have := hhd.errors_le; omega)
    rw [hcv] at hcv'
    obtain rfl := Except.ok.inj hcv'
    rcases hsem.trans q.length hsm hwin with ⟨ht', _⟩ | ⟨l'', ht', hsem'⟩
    · rw [ht] at ht'; cases ht'
    · rw [ht] at ht'
      cases ht'
      exact hsem'

theorem comparePos_lt_zero {A : Algorithm} {a b : Pos} (h : PosLe A a b) (hne : ¬ SamePos A a b) :
    comparePos A a b < 0 := by
  have h1 := (comparePos_lt_one_iff A a b).2 h
  rcases Int.lt_trichotomy (comparePos A a b) 0 with h2 | h2 | h2
  · exact h2
  · exfalso
    apply hne
    have e1 : a.index = b.index := by
      unfold comparePos at h2
      rcases Nat.lt_trichotomy a.index b.index with h | h | h
      · simp [h] at h2
      · exact h
      · rw [if_neg (by omega), if_pos h] at h2; cases h2
    have e2 : a.errors = b.errors := by
      unfold comparePos at h2
      rw [if_neg (by omega), if_neg (by omega)] at h2
      rcases Nat.lt_trichotomy a.errors b.errors with h | h | h
      · simp [h] at h2
      · exact h
      · rw [if_neg (by omega), if_pos h] at h2; cases h2
    unfold comparePos at h2
    rw [if_neg (by omega), if_neg (by omega), if_neg (by omega), if_neg (by omega)] at h2
    refine ⟨by omega, by omega, fun hA => ?_⟩
    cases A
    · exact absurd rfl hA
    all_goals
      revert h2
      cases a.special <;> cases b.special <;> simp
  · omega

/-! ### `unsubsume` on states with ascending errors -/

theorem unsubInner_filter {sub : Pos → Pos → Bool} {outer : Pos} {l : List Pos}
    (h : l.Pairwise (fun a b => a.errors ≤ b.errors)) :
    unsubInner sub outer l = l.filter (fun p => !(decide (outer.errors < p.errors) && sub outer p)) := by
  induction l with
  | nil => rfl
  | cons a l ih =>
    have h' := List.pairwise_cons.1 h
    simp only [unsubInner]
    split
    · next hlt =>
      refine List.filter_congr fun p hp => ?_
      have : outer.errors < p.errors := by
        rcases List.mem_cons.1 hp with rfl | hp
        · exact hlt
        · have := h'.1 p hp; omega
      simp [this]
    · next hlt =>
      rw [List.filter_cons, ih h'.2]
      simp [hlt]

/-- The sieve of C49: a position is kept unless one kept before, with fewer errors, subsumes it. -/
def sieve (sub : Pos → Pos → Bool) (kept : List Pos) : List Pos → List Pos
  | [] => kept
  | p :: rest =>
      if kept.any (fun a => decide (a.errors < p.errors) && sub a p) then sieve sub kept rest
      else sieve sub (kept ++ [p]) rest

theorem unsubsume_cons (sub : Pos → Pos → Bool) (outer : Pos) (rest : List Pos) :
    unsubsume sub (outer :: rest) = outer :: unsubsume sub (unsubInner sub outer rest) := by
  rw [unsubsume.eq_def]

theorem sieve_eq {sub : Pos → Pos → Bool} {l : List Pos} (kept : List Pos)
    (h : l.Pairwise (fun a b => a.errors ≤ b.errors)) :
    sieve sub kept l = kept ++ unsubsume sub
      (l.filter (fun p => !kept.any (fun a => decide (a.errors < p.errors) && sub a p))) := by
  induction l generalizing kept with
  | nil => simp [sieve, unsubsume]
  | cons p l ih =>
    have h' := List.pairwise_cons.1 h
    simp only [sieve]
    split
    · next hk => rw [ih kept h'.2, List.filter_cons]; simp [hk]
    · next hk =>
      rw [ih (kept ++ [p]) h'.2, List.filter_cons]
      simp only [hk, Bool.not_false, if_true]
      rw [unsubsume_cons]
      simp only [List.append_assoc, List.singleton_append]
      rw [unsubInner_filter (h'.2.filter _), List.filter_filter]
      congr 3
      refine List.filter_congr fun a _ => ?_
      simp only [List.any_append, List.any_cons, List.any_nil, Bool.or_false, Bool.not_or]
      rw [Bool.and_comm]

/-! ### `index_of` and `characteristic_vector` -/

theorem indexOfLoop_spec (cv : List Bool) (i : Nat) (hl : cv.length < sizeW) (r j : Nat) (h : i + j + r ≤ cv.length) :
    ∃ res, indexOfLoop cv i r j = .ok res ∧
      ((res = sizeMax ∧ ∀ k, j ≤ k → k < j + r → cv[i + k]? = some false) ∨
       (j ≤ res ∧ res < j + r ∧ cv[i + res]? = some true ∧ ∀ k, j ≤ k → k < res → cv[i + k]? = some false)) := by
  induction r generalizing j with
  | zero => exact ⟨sizeMax, rfl, .inl ⟨rfl, fun k h1 h2 => by omega⟩⟩
  | succ r ih =>
    have hlt : i + j < cv.length := by omega
    have hat : cvAt cv (wadd i j) = .ok cv[i + j] := by
      rw [wadd_eq (by omega)]
      unfold cvAt
      rw [List.getElem?_eq_getElem hlt]
    cases hb : cv[i + j] with
    | true =>
      refine ⟨j, ?_, .inr ⟨by omega, by omega, by rw [List.getElem?_eq_getElem hlt, hb], fun k h1 h2 => by omega⟩⟩
      simp only [indexOfLoop, hat, hb, bind, Except.bind, if_true]
      rfl
    | false =>
      obtain ⟨res, h1, h2⟩ := ih (j + 1) (by omega)
      have hf : cv[i + j]? = some false := by rw [List.getElem?_eq_getElem hlt, hb]
      refine ⟨res, ?_, ?_⟩
      · simp only [indexOfLoop, hat, hb, bind, Except.bind]
        rw [wadd_eq (by omega)]
        exact h1
      · rcases h2 with ⟨h3, h4⟩ | ⟨h3, h4, h5, h6⟩
        · refine .inl ⟨h3, fun k h5 h6 => ?_⟩
          by_cases hk : k = j
          · rw [hk]; exact hf
          · exact h4 k (by omega) (by omega)
        · refine .inr ⟨by omega, by omega, h5, fun k h7 h8 => ?_⟩
          by_cases hk : k = j
          · rw [hk]; exact hf
          · exact h6 k (by omega) (by omega)

/-! ### Subsumption -/

theorem alignLe_tail {A : Algorithm} {z v w : Str} {c : Nat} (h : AlignLe A (z ++ v) w c) :
    AlignLe A v w (c + z.length) := by
  induction z generalizing c with
  | nil => exact h
  | cons a z ih =>
    have := ih (AlignLe.tail_left (a := a) h)
    simp only [List.length_cons]
    exact AlignLe.mono this (by omega)

end Lev
