import Verif.Proofs.StateHeapSort

/-!
How deep `merge_sort` and the destructors of positions recurse.
-/

namespace Lev

/-- `merge_sort` with too few levels. -/
theorem mergeSortLoop_short {first : Bool} {cmp : Pos → Pos → Int} {fuel : Nat} {m : SMem} {l : Cells}
    (hfin : m.Finite) (h : PLinked m.pos l 0) (hn : (addrs l).Nodup) (hfu : fuel = 0 ∨ 2 ^ (fuel - 1) < l.length) :
    mergeSortLoop first cmp fuel (hd l 0) m = .error .diverge := by
  induction fuel generalizing m l with
  | zero => rfl
  | succ fuel ih =>
    simp only [Nat.add_one_ne_zero, false_or, Nat.add_sub_cancel] at hfu
    match l, h, hn, hfu with
    | [], h, hn, hfu => simp at hfu
    | [(x, p)], h, hn, hfu =>
      have := Nat.one_le_two_pow (n := fuel)
      simp only [List.length_cons, List.length_nil] at hfu
      omega
    | (x, p) :: (y, q) :: l, h, hn, hfu =>
      have hx : m.pos x = some ⟨p, y⟩ := h.2.1
      have hx0 : x ≠ 0 := h.1
      have hy0 : y ≠ 0 := h.2.2.1
      obtain ⟨l1, w, r, U, e1, e2, e3⟩ := findMiddle_ok hfin h hn (by simp)
      have e1' : (x, p) :: (y, q) :: l = (l1 ++ [(w, r)]) ++ U := by rw [e1]; simp
      have hh := h
      rw [e1'] at hh
      obtain ⟨g1, g2⟩ := PLinked.append.1 hh
      have hw : m.pos w = some ⟨r, hd U 0⟩ := (PLinked.append.1 g1).2.2.1
      have hn' := hn
      rw [e1', addrs_append] at hn'
      obtain ⟨n1, n2, n3⟩ := List.nodup_append.1 hn'
      have k1 : setNext w 0 m = _ := setNext_ok hw
      have kO : Only (addrs ((x, p) :: (y, q) :: l)) 0 m ⟨upd1 m.pos w (some ⟨r, 0⟩), m.st, m.count⟩ :=
        Only.setNext (by rw [e1']; simp) hw
      have kL : PLinked (upd1 m.pos w (some ⟨r, 0⟩)) (l1 ++ [(w, r)]) 0 := g1.relink n1
      have kU : PLinked (upd1 m.pos w (some ⟨r, 0⟩)) U 0 := PLinked.frame g2 fun a ha =>
        upd1_ne _ _ (by rintro rfl; exact n3 a (by simp) a ha rfl)
      have kfin := kO.finite hfin
      have hlen : l1.length + 1 + U.length = ((x, p) :: (y, q) :: l).length := by rw [e1']; simp; omega
      have hhd : hd (l1 ++ [(w, r)]) 0 = x := by
        have : hd ((l1 ++ [(w, r)]) ++ U) 0 = x := by rw [← e1']; rfl
        cases l1 <;> simpa using this
      have hhx : hd ((x, p) :: (y, q) :: l) 0 = x := rfl
      rw [hhx] at e3 ⊢
      have hlow : fuel = 0 ∨ 2 ^ (fuel - 1) < (l1 ++ [(w, r)]).length := by
        cases fuel with
        | zero => exact .inl rfl
        | succ f =>
          have hpow : 2 ^ (f + 1) = 2 ^ f * 2 := Nat.pow_succ ..
          simp only [List.length_cons, List.length_append, List.length_nil, Nat.add_sub_cancel] at *
          right; omega
      simp only [mergeSortLoop, hx0, if_false, getCell_ok hx, hy0, e3, getCell_ok hw, k1, bind, Except.bind]
      cases first with
      | true =>
        have a1 := ih kfin kL n1 hlow
        rw [hhd] at a1
        simp only [if_true, a1]
      | false =>
        simp only [Bool.false_eq_true, if_false]
        by_cases hup : fuel = 0 ∨ 2 ^ (fuel - 1) < U.length
        · rw [ih kfin kU n2 hup]
        · obtain ⟨m1, RU, b1, b2, b3, b4, b5, b6⟩ := mergeSortLoop_ok (first := false) (cmp := cmp) (s := 0) kfin kU n2
            (fuel := fuel) (by omega)
          have kL' : PLinked m1.pos (l1 ++ [(w, r)]) 0 :=
            PLinked.frame kL fun a ha => b5.pos a fun hc => n3 a ha a hc rfl
          have a1 := ih (b5.finite kfin) kL' n1 hlow
          rw [hhd] at a1
          simp only [b1, a1]

/-- The destructors with too few levels. -/
theorem deletePosLoop_short {fuel : Nat} {l : Cells} {m : SMem} (h : PLinked m.pos l 0) (hfu : fuel ≤ l.length) :
    deletePosLoop fuel (hd l 0) m = .error .diverge := by
  induction fuel generalizing l with
  | zero => rfl
  | succ fuel ih =>
    cases l with
    | nil => simp at hfu
    | cons x l =>
      obtain ⟨x, p⟩ := x
      obtain ⟨h1, h2, h3⟩ := h
      simp only [List.length_cons] at hfu
      simp only [deletePosLoop, hd_cons, h1, if_false, getCell_ok h2, ih h3 (by omega), bind, Except.bind]

end Lev
