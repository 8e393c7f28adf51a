import Verif.Proofs.TransEq
import Verif.Proofs.Align

/-!
What a position promises (`PAcc`), and that one transition keeps exactly that promise.
-/

namespace Lev

open Spec

/-- What is left to do at the rest `v` of the query: read `u` at cost at most `k`.  A special position of
TRANSPOSITION is in the middle of a swap, one of MERGE_AND_SPLIT in the middle of a split. -/
def Rem (A : Algorithm) (v : Str) (sp : Bool) (u : Str) (k : Nat) : Prop :=
  match sp, A with
  | false, _ => AlignLe A v u k
  | true, .standard => False
  | true, .transposition => ∃ a b v' u', v = a :: b :: v' ∧ u = a :: u' ∧ AlignLe A v' u' k
  | true, .mergeAndSplit => ∃ a v' y u', v = a :: v' ∧ u = y :: u' ∧ AlignLe A v' u' k

/-- From position `p` the rest `u` of a dictionary term can be read with at most `c` errors in all. -/
def PAcc (A : Algorithm) (q : Str) (p : Pos) (u : Str) (c : Nat) : Prop :=
  ∃ k, p.errors + k ≤ c ∧ Rem A (q.drop p.index) p.special u k

theorem findIn_some {x : UInt8} {v : Str} {k j : Nat} (h : findIn x v k = some j) :
    ∃ z v3, v = z ++ x :: v3 ∧ z.length = j ∧ x ∉ z := by
  induction v generalizing k j with
  | nil => simp [findIn] at h
  | cons c v ih =>
    cases k with
    | zero => simp [findIn] at h
    | succ k =>
      simp only [findIn] at h
      split at h
      · next hc => simp at h; subst h; exact ⟨[], v, by simp [hc], rfl, by simp⟩
      · next hc =>
        simp only [Option.map_eq_some_iff] at h
        obtain ⟨j', h', rfl⟩ := h
        obtain ⟨z, v3, rfl, rfl, hz⟩ := ih h'
        exact ⟨c :: z, v3, rfl, rfl, by simp [hz, Ne.symm hc]⟩

theorem findIn_append {x : UInt8} {z v3 : Str} {k : Nat} (hz : x ∉ z) (hk : z.length < k) :
    findIn x (z ++ x :: v3) k = some z.length := by
  induction z generalizing k with
  | nil =>
    cases k with
    | zero => simp at hk
    | succ k => simp [findIn]
  | cons c z ih =>
    cases k with
    | zero => simp at hk
    | succ k =>
      simp only [List.mem_cons, not_or] at hz
      simp only [List.length_cons, Nat.add_lt_add_iff_right] at hk
      simp [findIn, Ne.symm hz.1, ih hz.2 hk]

theorem drop_succ_of_cons {q v : Str} {i : Nat} {c : UInt8} (h : q.drop i = c :: v) : q.drop (i + 1) = v := by
  rw [← List.drop_drop, h]; rfl

theorem drop_add_of_append {q z v : Str} {i : Nat} (h : q.drop i = z ++ v) : q.drop (i + z.length) = v := by
  rw [← List.drop_drop, h]; simp

theorem alignLe_del_prefix {A : Algorithm} {z v w : Str} {c d : Nat} (h : AlignLe A v w c)
    (hd : c + z.length ≤ d) : AlignLe A (z ++ v) w d := by
  induction z generalizing d with
  | nil => exact h.mono (by simpa using hd)
  | cons a z ih =>
    simp only [List.length_cons] at hd
    exact (ih (d := d - 1) (by omega)).del a (by omega)

/-! ### Soundness -/

theorem idealStd_sound {A : Algorithm} {n : Nat} {q u : Str} {x : UInt8} {i e c : Nat} {p' : Pos}
    (hmem : p' ∈ idealStd n x (q.drop i) i e) (h : PAcc A q p' u c) : PAcc A q ⟨i, e, false⟩ (x :: u) c := by
  obtain ⟨k, hk, hr⟩ := h
  unfold idealStd at hmem
  split at hmem
  · split at hmem
    · simp only [List.mem_singleton] at hmem
      subst hmem
      exact ⟨k + 1, by simp at hk ⊢; omega, AlignLe.ins x hr (Nat.le_refl _)⟩
    · next a v hv =>
      split at hmem
      · next hj =>
        obtain ⟨z, v3, hz, hl, _⟩ := findIn_some hj
        simp only [List.length_eq_zero_iff] at hl
        subst hl
        simp only [List.mem_singleton] at hmem
        subst hmem
        simp only [Rem, drop_succ_of_cons hz] at hr
        refine ⟨k, hk, ?_⟩
        show AlignLe A (q.drop i) _ k
        rw [hz]; exact AlignLe.keep x hr
      · next j hj =>
        obtain ⟨z, v3, hz, hl, _⟩ := findIn_some hj
        simp only [List.mem_cons, List.not_mem_nil, or_false] at hmem
        rcases hmem with rfl | rfl | rfl
        · exact ⟨k + 1, by simp at hk ⊢; omega, AlignLe.ins x hr (Nat.le_refl _)⟩
        · simp only [Rem, drop_succ_of_cons hv] at hr
          refine ⟨k + 1, by simp at hk ⊢; omega, ?_⟩
          show AlignLe A (q.drop i) _ _
          rw [hv]; exact AlignLe.sub a x hr (Nat.le_refl _)
        · have hz' : q.drop (i + (j + 1) + 1) = v3 := by
            have := drop_add_of_append (z := z ++ [x]) (v := v3) (q := q) (i := i) (by simpa using hz)
            rw [← this]; simp; congr 1; omega
          simp only [Rem, hz'] at hr
          refine ⟨k + (j + 1), by simp at hk ⊢; omega, ?_⟩
          show AlignLe A (q.drop i) _ _
          rw [hz]
          exact alignLe_del_prefix (AlignLe.keep x hr) (by omega)
      · simp only [List.mem_cons, List.not_mem_nil, or_false] at hmem
        rcases hmem with rfl | rfl
        · exact ⟨k + 1, by simp at hk ⊢; omega, AlignLe.ins x hr (Nat.le_refl _)⟩
        · simp only [Rem, drop_succ_of_cons hv] at hr
          refine ⟨k + 1, by simp at hk ⊢; omega, ?_⟩
          show AlignLe A (q.drop i) _ _
          rw [hv]; exact AlignLe.sub a x hr (Nat.le_refl _)
  · split at hmem
    · next hh =>
      simp only [List.mem_singleton] at hmem
      subst hmem
      obtain ⟨v, hv⟩ : ∃ v, q.drop i = x :: v := by
        cases hv : q.drop i with
        | nil => rw [hv] at hh; simp at hh
        | cons a v => rw [hv] at hh; simp at hh; exact ⟨v, by rw [hh]⟩
      simp only [Rem, drop_succ_of_cons hv] at hr
      refine ⟨k, hk, ?_⟩
      show AlignLe A (q.drop i) _ k
      rw [hv]; exact AlignLe.keep x hr
    · simp at hmem

theorem head_cons {q : Str} {i : Nat} {x : UInt8} (hh : (q.drop i).head? = some x) :
    ∃ v, q.drop i = x :: v := by
  cases hv : q.drop i with
  | nil => rw [hv] at hh; simp at hh
  | cons a v => rw [hv] at hh; simp at hh; exact ⟨v, by rw [hh]⟩

theorem idealTrans_sound {n : Nat} {q u : Str} {x : UInt8} {i e c : Nat} {t : Bool} {p' : Pos}
    (ht : t = true → i + 2 ≤ q.length)
    (hmem : p' ∈ idealTrans n x (q.drop i) i e t) (h : PAcc .transposition q p' u c) :
    PAcc .transposition q ⟨i, e, t⟩ (x :: u) c := by
  cases t with
  | true =>
    simp only [idealTrans, if_true] at hmem
    split at hmem
    · next hh =>
      obtain ⟨v, hv⟩ := head_cons hh
      simp only [List.mem_singleton] at hmem
      subst hmem
      obtain ⟨k, hk, hr⟩ := h
      have hlen := congrArg List.length hv
      simp only [List.length_drop, List.length_cons] at hlen
      have := ht rfl
      cases v with
      | nil => simp at hlen; omega
      | cons b v =>
        refine ⟨k, hk, ?_⟩
        have hd : q.drop (i + 2) = v := by
          have := drop_add_of_append (z := [x, b]) (v := v) (q := q) (i := i) (by simpa using hv)
          simpa using this
        simp only [Rem, hd] at hr
        exact ⟨x, b, v, u, hv, rfl, hr⟩
    · simp at hmem
  | false =>
    -- all but the two positions of a swap are those of STANDARD
    have hstd : p' ∈ idealStd n x (q.drop i) i e ∨
        (p' = ⟨i, e + 1, true⟩ ∧ ∃ a v, q.drop i = a :: x :: v) := by
      simp only [idealTrans, if_false, Bool.false_eq_true] at hmem
      unfold idealStd
      split at hmem
      · rename_i hen
        simp only [if_pos hen]
        split at hmem
        · rename_i hv; simp only [hv] at hmem ⊢; exact .inl hmem
        · rename_i a v hv
          simp only [hv] at hmem ⊢
          split at hmem
          · rename_i hj; simp only [hj]; exact .inl hmem
          · rename_i hj
            simp only [hj]
            obtain ⟨z, v3, hz, hl, _⟩ := findIn_some hj
            simp only [List.mem_cons, List.not_mem_nil, or_false] at hmem ⊢
            rcases hmem with rfl | rfl | rfl | rfl
            · exact .inl (.inl rfl)
            · right
              refine ⟨rfl, ?_⟩
              match z, hl with
              | [b], _ => exact ⟨b, v3, by rw [hz]; rfl⟩
            · exact .inl (.inr (.inl rfl))
            · exact .inl (.inr (.inr rfl))
          · rename_i j hj
            simp only [hj]
            exact .inl hmem
          · rename_i hj
            simp only [hj]
            exact .inl hmem
      · rename_i hen
        simp only [if_neg hen]
        exact .inl hmem
    rcases hstd with hstd | ⟨rfl, a, v, hv⟩
    · exact idealStd_sound hstd h
    · obtain ⟨k, hk, a', b', v', u', hv', rfl, hr⟩ := h
      simp only at hk hv'
      rw [hv] at hv'
      simp only [List.cons.injEq] at hv'
      obtain ⟨rfl, rfl, rfl⟩ := hv'
      refine ⟨k + 1, by simp; omega, ?_⟩
      show AlignLe _ (q.drop i) _ _
      rw [hv]
      exact AlignLe.swap rfl _ _ hr (Nat.le_refl _)

theorem idealMS_sound {n : Nat} {q u : Str} {x : UInt8} {i e c : Nat} {s : Bool} {p' : Pos}
    (ht : s = true → i + 1 ≤ q.length)
    (hmem : p' ∈ idealMS n x (q.drop i) i e s) (h : PAcc .mergeAndSplit q p' u c) :
    PAcc .mergeAndSplit q ⟨i, e, s⟩ (x :: u) c := by
  obtain ⟨k, hk, hr⟩ := h
  cases s with
  | true =>
    simp only [idealMS, if_true, List.mem_singleton] at hmem
    subst hmem
    have := ht rfl
    cases hv : q.drop i with
    | nil =>
      have := congrArg List.length hv
      simp at this; omega
    | cons a v =>
      simp only [Rem, drop_succ_of_cons hv] at hr
      exact ⟨k, hk, a, v, x, u, hv, rfl, hr⟩
  | false =>
    simp only [idealMS, if_false, Bool.false_eq_true] at hmem
    have goal : ∀ k', e + k' ≤ c → AlignLe .mergeAndSplit (q.drop i) (x :: u) k' →
        PAcc .mergeAndSplit q ⟨i, e, false⟩ (x :: u) c := fun k' h1 h2 => ⟨k', h1, h2⟩
    split at hmem
    · split at hmem
      · simp only [List.mem_singleton] at hmem
        subst hmem
        simp only at hk
        exact goal (k + 1) (by omega) (AlignLe.ins x hr (Nat.le_refl _))
      · next a hv =>
        split at hmem
        · next ha =>
          subst ha
          simp only [List.mem_singleton] at hmem
          subst hmem
          simp only [Rem, drop_succ_of_cons hv] at hr hk
          exact goal k (by omega) (by rw [hv]; exact AlignLe.keep a hr)
        · simp only [List.mem_cons, List.not_mem_nil, or_false] at hmem
          rcases hmem with rfl | rfl | rfl
          · simp only at hk
            exact goal (k + 1) (by omega) (AlignLe.ins x hr (Nat.le_refl _))
          · obtain ⟨a', v', y, u', hv', rfl, hr⟩ := hr
            simp only at hk hv'
            exact goal (k + 1) (by omega) (by rw [hv']; exact AlignLe.split rfl _ _ _ hr (Nat.le_refl _))
          · simp only [Rem, drop_succ_of_cons hv] at hr hk
            exact goal (k + 1) (by omega) (by rw [hv]; exact AlignLe.sub _ _ hr (Nat.le_refl _))
      · next a b v hv =>
        split at hmem
        · next ha =>
          subst ha
          simp only [List.mem_singleton] at hmem
          subst hmem
          simp only [Rem, drop_succ_of_cons hv] at hr hk
          exact goal k (by omega) (by rw [hv]; exact AlignLe.keep a hr)
        · simp only [List.mem_cons, List.not_mem_nil, or_false] at hmem
          rcases hmem with rfl | rfl | rfl | rfl
          · simp only at hk
            exact goal (k + 1) (by omega) (AlignLe.ins x hr (Nat.le_refl _))
          · obtain ⟨a', v', y, u', hv', rfl, hr⟩ := hr
            simp only at hk hv'
            exact goal (k + 1) (by omega) (by rw [hv']; exact AlignLe.split rfl _ _ _ hr (Nat.le_refl _))
          · simp only [Rem, drop_succ_of_cons hv] at hr hk
            exact goal (k + 1) (by omega) (by rw [hv]; exact AlignLe.sub _ _ hr (Nat.le_refl _))
          · have hd : q.drop (i + 2) = v := by
              have := drop_add_of_append (z := [a, b]) (v := v) (q := q) (i := i) (by simpa using hv)
              simpa using this
            simp only [Rem, hd] at hr hk
            exact goal (k + 1) (by omega) (by rw [hv]; exact AlignLe.merge rfl _ _ _ hr (Nat.le_refl _))
    · split at hmem
      · next hh =>
        obtain ⟨v, hv⟩ := head_cons hh
        simp only [List.mem_singleton] at hmem
        subst hmem
        simp only [Rem, drop_succ_of_cons hv] at hr hk
        exact goal k (by omega) (by rw [hv]; exact AlignLe.keep x hr)
      · simp at hmem

theorem idealPos_sound {A : Algorithm} {n m : Nat} {q u : Str} {x : UInt8} {c : Nat} {p p' : Pos}
    (hp : PosOk A n q m p) (hmem : p' ∈ idealPos A n q x p) (h : PAcc A q p' u c) :
    PAcc A q p (x :: u) c := by
  obtain ⟨i, e, s⟩ := p
  cases A with
  | standard =>
    have hnsp : s = false := by
      cases hsp : s with
      | false => rfl
      | true => exact absurd rfl (hp.special_alg hsp).1
    subst hnsp
    exact idealStd_sound hmem h
  | transposition => exact idealTrans_sound (fun hs => hp.special_trans hs rfl) hmem h
  | mergeAndSplit => exact idealMS_sound (fun hs => hp.special_ms hs rfl) hmem h

/-! ### Completeness -/

/-- How an alignment can read the character `x`, up to the first occurrence of `x` in `v`. -/
theorem align_head {A : Algorithm} (hA : A ≠ .mergeAndSplit) {x : UInt8} {v u : Str} {c : Nat}
    (h : Align A v (x :: u) c) :
    (1 ≤ c ∧ AlignLe A v u (c - 1)) ∨
    (∃ a v', v = a :: v' ∧ 1 ≤ c ∧ AlignLe A v' u (c - 1)) ∨
    (∃ z v3, v = z ++ x :: v3 ∧ x ∉ z ∧ z.length ≤ c ∧ AlignLe A v3 u (c - z.length)) ∨
    (A = .transposition ∧ ∃ a v2 u', v = a :: x :: v2 ∧ u = a :: u' ∧ 1 ≤ c ∧ AlignLe A v2 u' (c - 1)) := by
  induction v generalizing c with
  | nil =>
    cases h with
    | ins _ h => exact .inl ⟨by omega, h.le⟩
  | cons a v ih =>
    cases h with
    | keep _ h => exact .inr (.inr (.inl ⟨[], v, rfl, by simp, by simp, h.le⟩))
    | sub _ _ h => exact .inr (.inl ⟨a, v, rfl, by omega, h.le⟩)
    | ins _ h => exact .inl ⟨by omega, h.le⟩
    | @del _ _ c' _ h =>
      rcases ih h with ⟨h1, h2⟩ | ⟨b, v', rfl, h1, h2⟩ | ⟨z, v3, rfl, hz, h1, h2⟩ | ⟨hA', b, v2, u', rfl, rfl, h1, h2⟩
      · exact .inr (.inl ⟨a, v, rfl, by omega, h2.mono (by omega)⟩)
      · exact .inr (.inl ⟨a, _, rfl, by omega, h2.del b (by omega)⟩)
      · by_cases ha : a = x
        · subst ha
          refine .inr (.inr (.inl ⟨[], _, rfl, by simp, by simp, ?_⟩))
          exact alignLe_del_prefix (h2.del a (Nat.le_refl _)) (by simp; omega)
        · exact .inr (.inr (.inl ⟨a :: z, v3, rfl, by simp [hz, Ne.symm ha], by simpa using h1,
            h2.mono (by simp)⟩))
      · exact .inr (.inl ⟨a, _, rfl, by omega, AlignLe.keep b (h2.del x (by omega))⟩)
    | swap hA' _ _ h => exact .inr (.inr (.inr ⟨hA', a, _, _, rfl, rfl, by omega, h.le⟩))
    | merge hA' => exact absurd hA' hA
    | split hA' => exact absurd hA' hA

/-- How a merge-and-split alignment can read the character `x`. -/
theorem align_head_ms {A : Algorithm} (hA : A = .mergeAndSplit) {x : UInt8} {v u : Str} {c : Nat}
    (h : Align A v (x :: u) c) :
    (∃ v', v = x :: v' ∧ AlignLe A v' u c) ∨
    (1 ≤ c ∧ AlignLe A v u (c - 1)) ∨
    (∃ a v', v = a :: v' ∧ 1 ≤ c ∧ AlignLe A v' u (c - 1)) ∨
    (∃ a b v2, v = a :: b :: v2 ∧ 1 ≤ c ∧ AlignLe A v2 u (c - 1)) ∨
    (∃ a v' y u', v = a :: v' ∧ u = y :: u' ∧ 1 ≤ c ∧ AlignLe A v' u' (c - 1)) := by
  induction v generalizing c with
  | nil =>
    cases h with
    | ins _ h => exact .inr (.inl ⟨by omega, h.le⟩)
  | cons a v ih =>
    cases h with
    | keep _ h => exact .inl ⟨v, rfl, h.le⟩
    | sub _ _ h => exact .inr (.inr (.inl ⟨a, v, rfl, by omega, h.le⟩))
    | ins _ h => exact .inr (.inl ⟨by omega, h.le⟩)
    | @del _ _ c' _ h =>
      rcases ih h with ⟨v', rfl, h2⟩ | ⟨h1, h2⟩ | ⟨b, v', rfl, h1, h2⟩ | ⟨b, d, v2, rfl, h1, h2⟩ |
        ⟨b, v', y, u', rfl, rfl, h1, h2⟩
      · exact .inr (.inr (.inr (.inl ⟨a, x, v', rfl, by omega, h2⟩)))
      · exact .inr (.inr (.inl ⟨a, v, rfl, by omega, h2.mono (by omega)⟩))
      · exact .inr (.inr (.inr (.inl ⟨a, b, v', rfl, by omega, h2.mono (by omega)⟩)))
      · exact .inr (.inr (.inr (.inl ⟨a, b, _, rfl, by omega, h2.del d (by omega)⟩)))
      · exact .inr (.inr (.inl ⟨a, _, rfl, by omega, h2.sub b y (by omega)⟩))
    | swap hA' => subst hA; cases hA'
    | merge _ _ _ _ h => exact .inr (.inr (.inr (.inl ⟨a, _, _, rfl, by omega, h.le⟩)))
    | split _ _ _ _ h => exact .inr (.inr (.inr (.inr ⟨a, _, _, _, rfl, rfl, by omega, h.le⟩)))

/-- A transposition-like transition: what `idealStd` and `idealTrans` offer for a non-special position. -/
theorem nonspecial_complete {A : Algorithm} (hA : A ≠ .mergeAndSplit) {n : Nat} {q u : Str} {x : UInt8}
    {i e c : Nat} (hc : c ≤ n) (h : PAcc A q ⟨i, e, false⟩ (x :: u) c) :
    ∃ p', p' ∈ (match A with
      | .transposition => idealTrans n x (q.drop i) i e false
      | _ => idealStd n x (q.drop i) i e) ∧ PAcc A q p' u c := by
  obtain ⟨k, hk, hr⟩ := h
  simp only at hk
  change AlignLe A (q.drop i) (x :: u) k at hr
  by_cases hx : ∃ v, q.drop i = x :: v
  · obtain ⟨v, hv⟩ := hx
    rw [hv] at hr
    have hd := hr.discard
    refine ⟨⟨i + 1, e, false⟩, ?_, ⟨k, hk, ?_⟩⟩
    · have h0 : findIn x (x :: v) (n - e + 1) = some 0 := by simp [findIn]
      cases A <;> simp [idealTrans, idealStd, hv, h0]
    · show AlignLe A (q.drop (i + 1)) u k
      rw [drop_succ_of_cons hv]; exact hd
  · have hhead : ¬ (q.drop i).head? = some x := fun hh => hx (head_cons hh)
    by_cases he : e < n
    · -- a first and a second candidate are always offered
      have m1 : (⟨i, e + 1, false⟩ : Pos) ∈ (match A with
          | .transposition => idealTrans n x (q.drop i) i e false
          | _ => idealStd n x (q.drop i) i e) := by
        match hv : q.drop i with
        | [] => cases A <;> simp [idealTrans, idealStd, he]
        | a :: v =>
          match hf : findIn x (a :: v) (n - e + 1) with
          | none => cases A <;> simp [idealTrans, idealStd, he, hf]
          | some 0 =>
            obtain ⟨z, v3, hz, hl, _⟩ := findIn_some hf
            simp only [List.length_eq_zero_iff] at hl
            subst hl
            exact absurd ⟨v3, by rw [hv, hz]; rfl⟩ hx
          | some 1 => cases A <;> simp [idealTrans, idealStd, he, hf]
          | some (j + 2) => cases A <;> simp [idealTrans, idealStd, he, hf]
      have m2 : ∀ a v, q.drop i = a :: v → (⟨i + 1, e + 1, false⟩ : Pos) ∈ (match A with
          | .transposition => idealTrans n x (q.drop i) i e false
          | _ => idealStd n x (q.drop i) i e) := by
        intro a v hv
        rw [hv]
        match hf : findIn x (a :: v) (n - e + 1) with
        | none => cases A <;> simp [idealTrans, idealStd, he, hf]
        | some 0 =>
          obtain ⟨z, v3, hz, hl, _⟩ := findIn_some hf
          simp only [List.length_eq_zero_iff] at hl
          subst hl
          exact absurd ⟨v3, by rw [hv, hz]; rfl⟩ hx
        | some 1 => cases A <;> simp [idealTrans, idealStd, he, hf]
        | some (j + 2) => cases A <;> simp [idealTrans, idealStd, he, hf]
      obtain ⟨k', hk', hal⟩ := hr
      rcases align_head hA hal with ⟨h1, h2⟩ | ⟨a, v', hv, h1, h2⟩ | ⟨z, v3, hv, hz, h1, h2⟩ |
        ⟨rfl, a, v2, u', hv, rfl, h1, h2⟩
      · exact ⟨_, m1, k' - 1, by simp; omega, h2⟩
      · refine ⟨_, m2 a v' hv, k' - 1, by simp; omega, ?_⟩
        show AlignLe A (q.drop (i + 1)) u _
        rw [drop_succ_of_cons hv]; exact h2
      · have hf : findIn x (q.drop i) (n - e + 1) = some z.length := by
          rw [hv]; exact findIn_append hz (by omega)
        have hd : q.drop (i + z.length + 1) = v3 := by
          have := drop_add_of_append (z := z ++ [x]) (v := v3) (q := q) (i := i) (by simpa using hv)
          rw [← this]; simp; congr 1
        refine ⟨⟨i + z.length + 1, e + z.length, false⟩, ?_, k' - z.length, by simp; omega, ?_⟩
        · cases z with
          | nil => exact absurd ⟨v3, hv⟩ hx
          | cons b z =>
            rw [hv] at hf ⊢
            simp only [List.cons_append, List.length_cons] at hf ⊢
            cases A with
            | mergeAndSplit => exact absurd rfl hA
            | standard => simp [idealStd, he, hf]
            | transposition =>
              cases z with
              | nil =>
                simp only [List.length_nil, List.nil_append] at hf ⊢
                simp [idealTrans, he, hf]
              | cons d z =>
                simp only [List.length_cons, List.cons_append] at hf ⊢
                simp [idealTrans, he, hf]
        · show AlignLe A (q.drop (i + z.length + 1)) u _
          rw [hd]; exact h2
      · by_cases hax : a = x
        · subst hax; exact absurd ⟨_, hv⟩ hx
        · have hf : findIn x (q.drop i) (n - e + 1) = some 1 := by
            rw [hv]; exact findIn_append (z := [a]) (by simpa using Ne.symm hax) (by simp; omega)
          refine ⟨⟨i, e + 1, true⟩, ?_, k' - 1, by simp; omega, ?_⟩
          · rw [hv] at hf ⊢
            simp [idealTrans, he, hf]
          · exact ⟨a, x, v2, u', hv, rfl, h2⟩
    · obtain ⟨k', hk', hal⟩ := hr
      have : k' = 0 := by omega
      subst this
      exact absurd ⟨u, hal.eq_of_zero⟩ hx

theorem idealMS_complete {n : Nat} {q u : Str} {x : UInt8} {i e c : Nat} {s : Bool} (hc : c ≤ n)
    (h : PAcc .mergeAndSplit q ⟨i, e, s⟩ (x :: u) c) :
    ∃ p', p' ∈ idealMS n x (q.drop i) i e s ∧ PAcc .mergeAndSplit q p' u c := by
  obtain ⟨k, hk, hr⟩ := h
  simp only at hk
  cases s with
  | true =>
    obtain ⟨a, v', y, u', hv, hu, hr⟩ := hr
    simp only [List.cons.injEq] at hu hv
    obtain ⟨rfl, rfl⟩ := hu
    refine ⟨⟨i + 1, e, false⟩, by simp [idealMS], k, hk, ?_⟩
    show AlignLe _ (q.drop (i + 1)) u _
    rw [drop_succ_of_cons hv]; exact hr
  | false =>
    change AlignLe _ (q.drop i) (x :: u) k at hr
    by_cases hx : ∃ v, q.drop i = x :: v
    · obtain ⟨v, hv⟩ := hx
      rw [hv] at hr
      have hd := hr.discard
      refine ⟨⟨i + 1, e, false⟩, ?_, ⟨k, hk, ?_⟩⟩
      · cases v <;> simp [idealMS, hv]
      · show AlignLe _ (q.drop (i + 1)) u k
        rw [drop_succ_of_cons hv]; exact hd
    · by_cases he : e < n
      · have m1 : (⟨i, e + 1, false⟩ : Pos) ∈ idealMS n x (q.drop i) i e false := by
          match hv : q.drop i with
          | [] => simp [idealMS, he]
          | [a] =>
            have : a ≠ x := fun h => hx ⟨[], by rw [hv, h]⟩
            simp [idealMS, he, this]
          | a :: b :: v =>
            have : a ≠ x := fun h => hx ⟨_, by rw [hv, h]⟩
            simp [idealMS, he, this]
        have m2 : ∀ a v, q.drop i = a :: v → (⟨i + 1, e + 1, false⟩ : Pos) ∈ idealMS n x (q.drop i) i e false ∧
            (⟨i, e + 1, true⟩ : Pos) ∈ idealMS n x (q.drop i) i e false := by
          intro a v hv
          have : a ≠ x := fun h => hx ⟨_, by rw [hv, h]⟩
          rw [hv]
          cases v <;> simp [idealMS, he, this]
        obtain ⟨k', hk', hal⟩ := hr
        rcases align_head_ms rfl hal with ⟨v', hv, h2⟩ | ⟨h1, h2⟩ | ⟨a, v', hv, h1, h2⟩ |
          ⟨a, b, v2, hv, h1, h2⟩ | ⟨a, v', y, u', hv, rfl, h1, h2⟩
        · exact absurd ⟨_, hv⟩ hx
        · exact ⟨_, m1, k' - 1, by simp; omega, h2⟩
        · refine ⟨_, (m2 a v' hv).1, k' - 1, by simp; omega, ?_⟩
          show AlignLe _ (q.drop (i + 1)) u _
          rw [drop_succ_of_cons hv]; exact h2
        · have hd : q.drop (i + 2) = v2 := by
            have := drop_add_of_append (z := [a, b]) (v := v2) (q := q) (i := i) (by simpa using hv)
            simpa using this
          have : a ≠ x := fun h => hx ⟨_, by rw [hv, h]⟩
          refine ⟨⟨i + 2, e + 1, false⟩, ?_, k' - 1, by simp; omega, ?_⟩
          · rw [hv]; simp [idealMS, he, this]
          · show AlignLe _ (q.drop (i + 2)) u _
            rw [hd]; exact h2
        · exact ⟨_, (m2 a v' hv).2, k' - 1, by simp; omega, a, v', y, u', hv, rfl, h2⟩
      · obtain ⟨k', hk', hal⟩ := hr
        have : k' = 0 := by omega
        subst this
        exact absurd ⟨u, hal.eq_of_zero⟩ hx

theorem idealPos_complete {A : Algorithm} {n m : Nat} {q u : Str} {x : UInt8} {c : Nat} {p : Pos}
    (hp : PosOk A n q m p) (hc : c ≤ n) (h : PAcc A q p (x :: u) c) :
    ∃ p', p' ∈ idealPos A n q x p ∧ PAcc A q p' u c := by
  obtain ⟨i, e, s⟩ := p
  cases A with
  | standard =>
    have hnsp : s = false := by
      cases hsp : s with
      | false => rfl
      | true => exact absurd rfl (hp.special_alg hsp).1
    subst hnsp
    exact nonspecial_complete (by simp) hc h
  | transposition =>
    cases s with
    | false => exact nonspecial_complete (A := .transposition) (by simp) hc h
    | true =>
      obtain ⟨k, hk, a, b, v', u', hv, hu, hr⟩ := h
      simp only [List.cons.injEq] at hu hv hk
      obtain ⟨rfl, rfl⟩ := hu
      refine ⟨⟨i + 2, e, false⟩, by simp [idealPos, idealTrans, hv], k, hk, ?_⟩
      have hd : q.drop (i + 2) = v' := by
        have := drop_add_of_append (z := [x, b]) (v := v') (q := q) (i := i) (by simpa using hv)
        simpa using this
      show AlignLe _ (q.drop (i + 2)) u _
      rw [hd]; exact hr
  | mergeAndSplit => exact idealMS_complete hc h

end Lev
