import Verif.Proofs.StateHeap

/-!
Sorting a state in memory.
-/

namespace Lev

theorem findMiddleLoop_ok {m : SMem} {fuel : Nat} {sl fl : Cells} (hs : PLinked m.pos sl 0) (hf : PLinked m.pos fl 0)
    (hne : fl ≠ []) (hle : fl.length ≤ sl.length) (hfu : fl.length ≤ fuel) :
    ∃ l1 x p l2, sl = l1 ++ (x, p) :: l2 ∧ l1.length = (fl.length - 1) / 2 ∧
      findMiddleLoop m fuel (hd sl 0) (hd fl 0) = .ok x := by
  induction fuel generalizing sl fl with
  | zero => exact absurd (List.length_eq_zero_iff.1 (Nat.le_zero.1 hfu)) hne
  | succ fuel ih =>
    cases sl with
    | nil => exact absurd (List.length_eq_zero_iff.1 (Nat.le_zero.1 hle)) hne
    | cons x sl =>
      obtain ⟨x, p⟩ := x
      obtain ⟨hs1, hs2, hs3⟩ := hs
      match fl, hf, hne, hle, hfu with
      | [(a, pa)], hf, _, _, _ =>
        refine ⟨[], x, p, sl, rfl, by simp, ?_⟩
        simp [findMiddleLoop, getCell_ok hf.2.1, bind, Except.bind]
      | [(a, pa), (b, pb)], hf, _, _, _ =>
        refine ⟨[], x, p, sl, rfl, by simp, ?_⟩
        have h1 : m.pos a = some ⟨pa, b⟩ := hf.2.1
        have h2 : m.pos b = some ⟨pb, 0⟩ := hf.2.2.2.1
        simp [findMiddleLoop, getCell_ok h1, getCell_ok h2, hf.2.2.1, bind, Except.bind]
      | (a, pa) :: (b, pb) :: (c, pc) :: fl, hf, _, hle, hfu =>
        simp only [List.length_cons] at hle hfu
        obtain ⟨l1, y, q, l2, e1, e2, e3⟩ := ih (sl := sl) (fl := (c, pc) :: fl) hs3 hf.2.2.2.2 (by simp)
          (by simp only [List.length_cons]; omega) (by simp only [List.length_cons]; omega)
        refine ⟨(x, p) :: l1, y, q, l2, by rw [e1]; rfl, ?_, ?_⟩
        · simp only [List.length_cons] at e2 ⊢; omega
        · have h1 : m.pos a = some ⟨pa, b⟩ := hf.2.1
          have h2 : m.pos b = some ⟨pb, c⟩ := hf.2.2.2.1
          simp only [hd_cons] at e3
          simp only [findMiddleLoop, hd_cons, getCell_ok h1, getCell_ok h2, getCell_ok hs2, bind, Except.bind, ne_eq,
            hf.2.2.1, hf.2.2.2.2.1, not_false_eq_true, if_true]
          exact e3

theorem findMiddle_ok {m : SMem} {l : Cells} (hfin : m.Finite) (h : PLinked m.pos l 0) (hn : (addrs l).Nodup)
    (hne : l ≠ []) :
    ∃ l1 x p l2, l = l1 ++ (x, p) :: l2 ∧ l1.length = (l.length - 1) / 2 ∧ findMiddle (hd l 0) m = .ok x := by
  have := linked_length hfin h hn
  exact findMiddleLoop_ok h h hne (Nat.le_refl _) (by unfold SMem.steps; omega)

/-- The address of the last cell. -/
def lastAddr (l : Cells) : Option Nat := l.getLast?.map (·.1)

@[simp] theorem lastAddr_append (l : Cells) (x : Nat) (p : Pos) : lastAddr (l ++ [(x, p)]) = some x := by
  simp [lastAddr]

theorem linkTemp_ok {m : SMem} {d : Cells} {j a s : Nat} (h : PLinked m.pos d j) (hn : (addrs d).Nodup) :
    ∃ m', linkTemp (lastAddr d) a (hd d 0) m = .ok (hd d a, m') ∧ PLinked m'.pos d a ∧ Only (addrs d) s m m' ∧
      m'.st = m.st := by
  by_cases hd0 : d = []
  · subst hd0
    exact ⟨m, rfl, trivial, Only.refl m, rfl⟩
  · obtain ⟨l, x, p, rfl⟩ := eq_append_last hd0
    have hx : m.pos x = some ⟨p, j⟩ := (PLinked.append.1 h).2.2.1
    have e : setNext x a m = _ := setNext_ok hx
    refine ⟨_, ?_, h.relink (b' := a) hn, Only.setNext (by simp) hx, rfl⟩
    simp only [lastAddr_append, linkTemp, e, bind, Except.bind]
    congr 2
    cases l <;> rfl

/-- The comparison of the positions in two cells. -/
def cellCmp (cmp : Pos → Pos → Int) (x y : Nat × Pos) : Int := cmp x.2 y.2

theorem poss_mergeSort (cmp : Pos → Pos → Int) (l : Cells) : poss (mergeSort (cellCmp cmp) l) = mergeSort cmp (poss l) :=
  mergeSort_map Prod.snd cmp l

theorem mergeListsLoop_ok {cmp : Pos → Pos → Int} {fuel : Nat} {m : SMem} {d L U : Cells} {j s : Nat}
    (hd' : PLinked m.pos d j) (hL : PLinked m.pos L 0) (hU : PLinked m.pos U 0)
    (hn : (addrs (d ++ (L ++ U))).Nodup) (hfu : L.length + U.length < fuel)
    (hj0 : L = [] → U = [] → j = 0) :
    ∃ m' R, mergeListsLoop cmp fuel (lastAddr d) (hd d 0) (hd L 0) (hd U 0) m = .ok (hd (d ++ R) 0, m') ∧
      R = mergeSorted (cellCmp cmp) L U ∧ R.Perm (L ++ U) ∧ PLinked m'.pos (d ++ R) 0 ∧
      Only (addrs (d ++ (L ++ U))) s m m' ∧ m'.st = m.st := by
  induction fuel generalizing m d L U j with
  | zero => omega
  | succ fuel ih =>
    have hnd : (addrs d).Nodup := by rw [addrs_append] at hn; exact (List.nodup_append.1 hn).1
    have hdis : ∀ a, a ∈ addrs d → a ∈ addrs (L ++ U) → False := by
      intro a h1 h2
      rw [addrs_append] at hn
      exact (List.nodup_append.1 hn).2.2 a h1 a h2 rfl
    cases L with
    | nil =>
      cases U with
      | nil =>
        have := hj0 rfl rfl
        subst this
        refine ⟨m, [], by simp [mergeListsLoop], by simp [mergeSorted_nil_left], by simp, by simpa using hd', Only.refl m,
          rfl⟩
      | cons u U =>
        obtain ⟨u, pu⟩ := u
        have hu0 : u ≠ 0 := hU.1
        obtain ⟨m', e1, e2, e3, e4⟩ := linkTemp_ok (s := s) (a := u) hd' hnd
        refine ⟨m', (u, pu) :: U, ?_, by simp [mergeSorted_nil_left], by simp, ?_, e3.mono (by simp +contextual), e4⟩
        · simp only [mergeListsLoop, hd_nil, hd_cons, ne_eq, not_true_eq_false, false_and, if_false, hu0,
            not_false_eq_true, if_true, e1]
          simp
        · refine PLinked.append.2 ⟨e2, PLinked.frame hU fun a ha => e3.pos a fun h => hdis a h (by simpa using ha)⟩
    | cons x L =>
      obtain ⟨x, px⟩ := x
      have hx0 : x ≠ 0 := hL.1
      cases U with
      | nil =>
        obtain ⟨m', e1, e2, e3, e4⟩ := linkTemp_ok (s := s) (a := x) hd' hnd
        refine ⟨m', (x, px) :: L, ?_, by simp [mergeSorted_nil_right], by simp, ?_, e3.mono (by simp +contextual), e4⟩
        · simp only [mergeListsLoop, hd_nil, hd_cons, ne_eq, hx0, not_true_eq_false, and_false, if_false,
            not_false_eq_true, if_true, e1]
          simp
        · refine PLinked.append.2 ⟨e2, PLinked.frame hL fun a ha => e3.pos a fun h => hdis a h (by simpa using ha)⟩
      | cons u U =>
        obtain ⟨u, pu⟩ := u
        have hu0 : u ≠ 0 := hU.1
        simp only [mergeListsLoop, hd_cons, ne_eq, hx0, hu0, not_false_eq_true, and_self, if_true, getCell_ok hL.2.1,
          getCell_ok hU.2.1, bind, Except.bind]
        by_cases hc : cmp px pu < 1
        · obtain ⟨m', e1, e2, e3, e4⟩ := linkTemp_ok (s := s) (a := x) hd' hnd
          have hk : ∀ a ∈ addrs ((x, px) :: L ++ (u, pu) :: U), m'.pos a = m.pos a :=
            fun a ha => e3.pos a fun h => hdis a h ha
          have hxc : m'.pos x = some ⟨px, hd L 0⟩ := by rw [hk x (by simp)]; exact hL.2.1
          have hL' : PLinked m'.pos L 0 := PLinked.frame hL.2.2 fun a ha => hk a (by simp [ha])
          have hU' : PLinked m'.pos ((u, pu) :: U) 0 := PLinked.frame hU fun a ha => hk a (by
            simp only [addrs_append, List.mem_append]; exact .inr ha)
          have hd'' : PLinked m'.pos (d ++ [(x, px)]) (hd L 0) := PLinked.append.2 ⟨e2, hx0, hxc, trivial⟩
          obtain ⟨m'', R, f1, f2, f3, f4, f5, f6⟩ := ih (d := d ++ [(x, px)]) (j := hd L 0) (m := m') hd'' hL' hU'
            (by simpa using hn) (by simp only [List.length_cons] at hfu ⊢; omega) (by simp)
          refine ⟨m'', (x, px) :: R, ?_, ?_, ?_, by simpa using f4, ?_, f6.trans e4⟩
          · simp only [hc, if_true, e1, getCell_ok hxc]
            rw [lastAddr_append] at f1
            simpa using f1
          · rw [mergeSorted_cons, if_pos (show cellCmp cmp (x, px) (u, pu) < 1 from hc), f2]
          · simpa using f3
          · refine (e3.mono (by simp +contextual)).trans (f5.mono ?_)
            intro a ha; simpa using ha
        · obtain ⟨m', e1, e2, e3, e4⟩ := linkTemp_ok (s := s) (a := u) hd' hnd
          have hk : ∀ a ∈ addrs ((x, px) :: L ++ (u, pu) :: U), m'.pos a = m.pos a :=
            fun a ha => e3.pos a fun h => hdis a h ha
          have huc : m'.pos u = some ⟨pu, hd U 0⟩ := by rw [hk u (by simp)]; exact hU.2.1
          have hU' : PLinked m'.pos U 0 := PLinked.frame hU.2.2 fun a ha => hk a (by simp [ha])
          have hL' : PLinked m'.pos ((x, px) :: L) 0 := PLinked.frame hL fun a ha => hk a (by
            simp only [addrs_append, List.mem_append]; exact .inl ha)
          have hd'' : PLinked m'.pos (d ++ [(u, pu)]) (hd U 0) := PLinked.append.2 ⟨e2, hu0, huc, trivial⟩
          have hperm : (d ++ [(u, pu)] ++ ((x, px) :: L ++ U)).Perm (d ++ ((x, px) :: L ++ (u, pu) :: U)) := by
            rw [List.append_assoc]
            refine List.Perm.append_left d ?_
            exact (List.perm_middle (l₁ := (x, px) :: L) (l₂ := U) (a := (u, pu))).symm
          have hpa : (addrs (d ++ [(u, pu)] ++ ((x, px) :: L ++ U))).Perm
              (addrs (d ++ ((x, px) :: L ++ (u, pu) :: U))) := hperm.map _
          obtain ⟨m'', R, f1, f2, f3, f4, f5, f6⟩ := ih (d := d ++ [(u, pu)]) (j := hd U 0) (m := m') hd'' hL' hU'
            (hpa.nodup_iff.2 hn) (by simp only [List.length_cons] at hfu ⊢; omega) (by simp)
          refine ⟨m'', (u, pu) :: R, ?_, ?_, ?_, by simpa using f4, ?_, f6.trans e4⟩
          · simp only [hc, if_false, e1, getCell_ok huc]
            rw [lastAddr_append] at f1
            simpa using f1
          · rw [mergeSorted_cons, if_neg (show ¬ cellCmp cmp (x, px) (u, pu) < 1 from hc), f2]
          · exact (f3.cons _).trans (List.perm_middle (l₁ := (x, px) :: L) (l₂ := U) (a := (u, pu))).symm
          · refine (e3.mono (by simp +contextual)).trans (f5.mono ?_)
            intro a ha; exact hpa.mem_iff.1 ha

theorem mergeLists_ok {cmp : Pos → Pos → Int} {m : SMem} {L U : Cells} {s : Nat} (hfin : m.Finite)
    (hL : PLinked m.pos L 0) (hU : PLinked m.pos U 0) (hn : (addrs (L ++ U)).Nodup) :
    ∃ m' R, mergeLists cmp (hd L 0) (hd U 0) m = .ok (hd R 0, m') ∧
      R = mergeSorted (cellCmp cmp) L U ∧ R.Perm (L ++ U) ∧ PLinked m'.pos R 0 ∧
      Only (addrs (L ++ U)) s m m' ∧ m'.st = m.st := by
  have hlen : L.length + U.length ≤ m.count := by
    obtain ⟨⟨K, hK, hm⟩, _⟩ := hfin
    rw [← List.length_append, ← addrs_length]
    refine Nat.le_trans (hn.length_le_of_subset fun a ha => ?_) hK
    rw [addrs_append, List.mem_append] at ha
    rcases ha with ha | ha
    · obtain ⟨c, hc⟩ := hL.alive a ha; exact hm a c hc
    · obtain ⟨c, hc⟩ := hU.alive a ha; exact hm a c hc
  obtain ⟨m', R, e1, e2, e3, e4, e5, e6⟩ := mergeListsLoop_ok (cmp := cmp) (fuel := m.steps) (m := m) (d := []) (j := 0)
    (s := s) trivial hL hU (by simpa using hn) (by unfold SMem.steps; omega) (by simp)
  refine ⟨m', R, ?_, e2, e3, by simpa using e4, by simpa using e5, e6⟩
  have e1' : mergeListsLoop cmp m.steps none 0 (hd L 0) (hd U 0) m = .ok (hd R 0, m') := by simpa [lastAddr] using e1
  have e2' : deletePos 0 m' = .ok m' := by simp [deletePos, SMem.steps, deletePosLoop]
  simp only [mergeLists, e1', e2', bind, Except.bind]

theorem mergeSortLoop_ok {first : Bool} {cmp : Pos → Pos → Int} {fuel : Nat} {m : SMem} {l : Cells} {s : Nat}
    (hfin : m.Finite) (h : PLinked m.pos l 0) (hn : (addrs l).Nodup) (hfu : 0 < fuel ∧ l.length ≤ 2 ^ (fuel - 1)) :
    ∃ m' R, mergeSortLoop first cmp fuel (hd l 0) m = .ok (hd R 0, m') ∧ R = mergeSort (cellCmp cmp) l ∧
      R.Perm l ∧ PLinked m'.pos R 0 ∧ Only (addrs l) s m m' ∧ m'.st = m.st := by
  induction fuel generalizing m l with
  | zero => omega
  | succ fuel ih =>
    match l, h, hn, hfu with
    | [], h, hn, hfu =>
      exact ⟨m, [], by simp [mergeSortLoop], by rw [mergeSort_short _ (by simp)], .nil, trivial, Only.refl m, rfl⟩
    | [(x, p)], h, hn, hfu =>
      refine ⟨m, [(x, p)], ?_, by rw [mergeSort_short _ (by simp)], .refl _, h, Only.refl m, rfl⟩
      have h1 : m.pos x = some ⟨p, 0⟩ := h.2.1
      simp [mergeSortLoop, h.1, getCell_ok h1, bind, Except.bind]
    | (x, p) :: (y, q) :: l, h, hn, hfu =>
      have hx : m.pos x = some ⟨p, y⟩ := h.2.1
      have hx0 : x ≠ 0 := h.1
      have hy0 : y ≠ 0 := h.2.2.1
      obtain ⟨l1, w, r, U, e1, e2, e3⟩ := findMiddle_ok hfin h hn (by simp)
      -- the lower part is `l1 ++ [(w, r)]`
      have e1' : (x, p) :: (y, q) :: l = (l1 ++ [(w, r)]) ++ U := by rw [e1]; simp
      have hlenl : (l1 ++ [(w, r)]).length = (((x, p) :: (y, q) :: l).length - 1) / 2 + 1 := by simp [e2]
      have hh := h
      rw [e1'] at hh
      obtain ⟨g1, g2⟩ := PLinked.append.1 hh
      have hw : m.pos w = some ⟨r, hd U 0⟩ := (PLinked.append.1 g1).2.2.1
      have hn' := hn
      rw [e1', addrs_append] at hn'
      obtain ⟨n1, n2, n3⟩ := List.nodup_append.1 hn'
      have k1 : setNext w 0 m = _ := setNext_ok hw
      have kO : Only (addrs ((x, p) :: (y, q) :: l)) s m ⟨upd1 m.pos w (some ⟨r, 0⟩), m.st, m.count⟩ :=
        Only.setNext (by rw [e1']; simp) hw
      have kL : PLinked (upd1 m.pos w (some ⟨r, 0⟩)) (l1 ++ [(w, r)]) 0 := g1.relink n1
      have kU : PLinked (upd1 m.pos w (some ⟨r, 0⟩)) U 0 := PLinked.frame g2 fun a ha =>
        upd1_ne _ _ (by rintro rfl; exact n3 a (by simp) a ha rfl)
      have kfin := kO.finite hfin
      have hlen : l1.length + 1 + U.length = ((x, p) :: (y, q) :: l).length := by rw [e1']; simp; omega
      have hhd : hd (l1 ++ [(w, r)]) 0 = x := by
        have : hd ((l1 ++ [(w, r)]) ++ U) 0 = x := by rw [← e1']; rfl
        cases l1 <;> simpa using this
      have hmem : ∀ a, a ∈ addrs ((x, p) :: (y, q) :: l) ↔ a ∈ addrs (l1 ++ [(w, r)]) ∨ a ∈ addrs U := by
        intro a; rw [e1', addrs_append, List.mem_append]
      have hsort : mergeSort (cellCmp cmp) ((x, p) :: (y, q) :: l) =
          mergeSorted (cellCmp cmp) (mergeSort (cellCmp cmp) (l1 ++ [(w, r)])) (mergeSort (cellCmp cmp) U) := by
        rw [mergeSort_long _ (by simp), ← hlenl, e1', List.take_left' rfl, List.drop_left' rfl]
      have hhx : hd ((x, p) :: (y, q) :: l) 0 = x := rfl
      rw [hhx] at e3 ⊢
      have hstart : ∀ K, (if first = true then (do
            let (l, m) ← mergeSortLoop first cmp fuel x ⟨upd1 m.pos w (some ⟨r, 0⟩), m.st, m.count⟩
            let (u, m) ← mergeSortLoop first cmp fuel (hd U 0) m
            mergeLists cmp l u m)
          else (do
            let (u, m) ← mergeSortLoop first cmp fuel (hd U 0) ⟨upd1 m.pos w (some ⟨r, 0⟩), m.st, m.count⟩
            let (l, m) ← mergeSortLoop first cmp fuel x m
            mergeLists cmp l u m)) = K → mergeSortLoop first cmp (fuel + 1) x m = K := by
        intro K hK
        rw [← hK]
        simp only [mergeSortLoop, hx0, if_false, getCell_ok hx, hy0, e3, getCell_ok hw, k1, bind, Except.bind]
      -- both orders
      have key : ∃ m2 RL RU, (∀ K, mergeLists cmp (hd RL 0) (hd RU 0) m2 = K →
            mergeSortLoop first cmp (fuel + 1) x m = K) ∧
          RL = mergeSort (cellCmp cmp) (l1 ++ [(w, r)]) ∧ RL.Perm (l1 ++ [(w, r)]) ∧ PLinked m2.pos RL 0 ∧
          RU = mergeSort (cellCmp cmp) U ∧ RU.Perm U ∧ PLinked m2.pos RU 0 ∧
          Only (addrs ((x, p) :: (y, q) :: l)) s m m2 ∧ m2.st = m.st := by
        simp only [List.length_cons] at hlen hfu e2
        obtain ⟨f, rfl⟩ : ∃ f, fuel = f + 1 := by
          cases fuel with
          | zero => simp at hfu
          | succ f => exact ⟨f, rfl⟩
        have hpow : 2 ^ (f + 1) = 2 ^ f * 2 := Nat.pow_succ ..
        simp only [Nat.add_sub_cancel] at hfu
        cases first with
        | true =>
          obtain ⟨m1, RL, a1, a2, a3, a4, a5, a6⟩ := ih kfin kL n1 ⟨by omega, by simp; omega⟩
          have kU' : PLinked m1.pos U 0 := PLinked.frame kU fun a ha => a5.pos a fun hc => n3 a hc a ha rfl
          obtain ⟨m2, RU, b1, b2, b3, b4, b5, b6⟩ := ih (a5.finite kfin) kU' n2 ⟨by omega, by simp; omega⟩
          rw [hhd] at a1
          refine ⟨m2, RL, RU, fun K hK => hstart K ?_, a2, a3, ?_, b2, b3, b4, ?_, b6.trans a6⟩
          · simp only [if_true, a1, b1, bind, Except.bind, hK]
          · refine PLinked.frame a4 fun a ha => b5.pos a fun hc => n3 a ?_ a hc rfl
            exact (a3.map _).mem_iff.1 ha
          · exact kO.trans ((a5.mono fun a ha => (hmem a).2 (.inl ha)).trans (b5.mono fun a ha => (hmem a).2 (.inr ha)))
        | false =>
          obtain ⟨m1, RU, b1, b2, b3, b4, b5, b6⟩ := ih kfin kU n2 ⟨by omega, by simp; omega⟩
          have kL' : PLinked m1.pos (l1 ++ [(w, r)]) 0 :=
            PLinked.frame kL fun a ha => b5.pos a fun hc => n3 a ha a hc rfl
          obtain ⟨m2, RL, a1, a2, a3, a4, a5, a6⟩ := ih (b5.finite kfin) kL' n1 ⟨by omega, by simp; omega⟩
          rw [hhd] at a1
          refine ⟨m2, RL, RU, fun K hK => hstart K ?_, a2, a3, a4, b2, b3, ?_, ?_, a6.trans b6⟩
          · simp only [Bool.false_eq_true, if_false, a1, b1, bind, Except.bind, hK]
          · refine PLinked.frame b4 fun a ha => a5.pos a fun hc => n3 a hc a ?_ rfl
            exact (b3.map _).mem_iff.1 ha
          · exact kO.trans ((b5.mono fun a ha => (hmem a).2 (.inr ha)).trans (a5.mono fun a ha => (hmem a).2 (.inl ha)))
      obtain ⟨m2, RL, RU, c1, c2, c3, c4, c5, c6, c7, c8, c9⟩ := key
      have hpm : (RL ++ RU).Perm ((x, p) :: (y, q) :: l) := by rw [e1']; exact c3.append c6
      have hpa : (addrs (RL ++ RU)).Perm (addrs ((x, p) :: (y, q) :: l)) := hpm.map _
      obtain ⟨m3, R, d1, d2, d3, d4, d5, d6⟩ := mergeLists_ok (cmp := cmp) (s := s) (c8.finite hfin) c4 c7
        (hpa.nodup_iff.2 hn)
      refine ⟨m3, R, c1 _ d1, ?_, d3.trans hpm, d4, c8.trans (d5.mono fun a ha => hpa.mem_iff.1 ha), d6.trans c9⟩
      rw [d2, c2, c5, hsort]

theorem stateSort_ok {first : Bool} {cmp : Pos → Pos → Int} {m : SMem} {l : Cells} {s : Nat} (hfin : m.Finite)
    (h : IsState m s l) :
    ∃ m' R, stateSort first cmp s m = .ok m' ∧ IsState m' s R ∧ R = mergeSort (cellCmp cmp) l ∧ R.Perm l ∧
      Only (addrs l) s m m' := by
  obtain ⟨m', R, e1, e2, e3, e4, e5, e6⟩ := mergeSortLoop_ok (first := first) (cmp := cmp) (s := s) (fuel := m.steps) hfin
    h.linked h.nodup (by
      have := h.length hfin
      have h2 := Nat.lt_two_pow_self (n := m.count + 2 - 1)
      unfold SMem.steps
      exact ⟨by omega, by omega⟩)
  have hst : m'.st s = some (hd l 0) := by rw [e6]; exact h.st
  refine ⟨⟨m'.pos, upd1 m'.st s (some (hd R 0)), m'.count⟩, R, ?_, ⟨by simp, e4, (e3.map _).nodup_iff.2 h.nodup⟩, e2, e3,
    e5.trans (Only.setHead hst)⟩
  simp only [stateSort, getHead_ok h.st, e1, bind, Except.bind]
  exact setHead_ok hst

end Lev
