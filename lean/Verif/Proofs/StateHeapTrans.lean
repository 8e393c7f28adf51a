import Verif.Proofs.StateHeapSort

/-!
Iterators, `merge`, `unsubsume` and the transition of states in memory.
-/

namespace Lev

/-! ### Iterators -/

/-- The address of the last cell, or null. -/
def lastOr (l : Cells) : Nat := (lastAddr l).getD 0

@[simp] theorem lastOr_nil : lastOr [] = 0 := rfl
@[simp] theorem lastOr_append (l : Cells) (x : Nat) (p : Pos) : lastOr (l ++ [(x, p)]) = x := by simp [lastOr]

/-- The iterator at the first cell of `rest`, `pv` being the value of `_prev`. -/
def iterAt (s : Nat) (rest : Cells) (pv : Nat) : SIter :=
  { state := s, next := hd rest.tail 0, curr := hd rest 0, prev := pv }

theorem iterNew_ok {m : SMem} {s : Nat} {l : Cells} (h : PLinked m.pos l 0) :
    iterNew s (hd l 0) m = .ok (iterAt s l 0) := by
  cases l with
  | nil => rfl
  | cons x l =>
    obtain ⟨x, p⟩ := x
    have h1 : m.pos x = some ⟨p, hd l 0⟩ := h.2.1
    simp [iterNew, h.1, getCell_ok h1, bind, Except.bind, iterAt]

theorem siterBegin_ok {m : SMem} {s : Nat} {l : Cells} (h : IsState m s l) :
    siterBegin s m = .ok (iterAt s l 0) := by
  simp only [siterBegin, getHead_ok h.st, bind, Except.bind]
  exact iterNew_ok h.linked

@[simp] theorem iterAt_end (s pv : Nat) : (iterAt s [] pv).atEnd = true := rfl

theorem iterAt_notEnd {s pv x : Nat} {p : Pos} {l : Cells} (h : x ≠ 0) : (iterAt s ((x, p) :: l) pv).atEnd = false := by
  simp [iterAt, SIter.atEnd, h]

theorem siterAdvance_ok {m : SMem} {s pv x : Nat} {p : Pos} {l : Cells} (h : PLinked m.pos ((x, p) :: l) 0) :
    siterAdvance m (iterAt s ((x, p) :: l) pv) = .ok (iterAt s l x) := by
  obtain ⟨h0, _, h2⟩ := h
  cases l with
  | nil => simp [siterAdvance, iterAt, h0]
  | cons y l =>
    obtain ⟨y, q⟩ := y
    have h1 : m.pos y = some ⟨q, hd l 0⟩ := h2.2.1
    simp [siterAdvance, iterAt, h0, h2.1, getCell_ok h1, bind, Except.bind]

/-- Advancing after the current position was removed. -/
theorem siterAdvance_removed {m : SMem} {s pv : Nat} {l : Cells} (h : PLinked m.pos l 0) :
    siterAdvance m { state := s, next := hd l 0, curr := 0, prev := pv } = .ok (iterAt s l pv) := by
  cases l with
  | nil => simp [siterAdvance, iterAt]
  | cons y l =>
    obtain ⟨y, q⟩ := y
    have h1 : m.pos y = some ⟨q, hd l 0⟩ := h.2.1
    simp [siterAdvance, iterAt, h.1, getCell_ok h1, bind, Except.bind]

theorem iterCollect_ok {m : SMem} {s fuel pv : Nat} {l : Cells} (h : PLinked m.pos l 0) (hfu : l.length < fuel) :
    iterCollect m fuel (iterAt s l pv) = .ok (addrs l) := by
  induction l generalizing fuel pv with
  | nil =>
    cases fuel with
    | zero => simp at hfu
    | succ fuel => simp [iterCollect]
  | cons x l ih =>
    obtain ⟨x, p⟩ := x
    cases fuel with
    | zero => simp at hfu
    | succ fuel =>
      have := ih (pv := x) h.2.2 (show l.length < fuel by simp only [List.length_cons] at hfu; omega)
      simp only [iterCollect, iterAt_notEnd h.1, Bool.false_eq_true, if_false, siterAdvance_ok h, bind, Except.bind, this]
      rfl

/-! ### Accounting -/

/-- Of the addresses in `C`, exactly those of `l` are alive. -/
structure Tidy (C : List Nat) (l : Cells) (m : SMem) : Prop where
  sub : ∀ a ∈ addrs l, a ∈ C
  dead : ∀ a ∈ C, a ∉ addrs l → m.pos a = none

theorem Tidy.of_perm {l l' : Cells} {m : SMem} (h : l'.Perm l) : Tidy (addrs l) l' m :=
  ⟨fun _ ha => (h.map _).mem_iff.1 ha, fun _ ha hn => absurd ((h.map _).mem_iff.2 ha) hn⟩

/-- One operation after another. -/
theorem Tidy.trans {C : List Nat} {l l' : Cells} {s : Nat} {m m' : SMem} (h : Tidy C l m) (ho : Only (addrs l) s m m')
    (h' : Tidy (addrs l) l' m') : Tidy C l' m' := by
  refine ⟨fun a ha => h.sub a (h'.sub a ha), fun a ha hn => ?_⟩
  by_cases hal : a ∈ addrs l
  · exact h'.dead a hal hn
  · rw [ho.pos a hal]; exact h.dead a ha hal

/-! ### `merge` -/

theorem insertAfter_ok {m : SMem} {s a : Nat} {p : Pos} {l1 l2 : Cells} (h : IsState m s (l1 ++ l2)) (ha : a ≠ 0)
    (hc : m.pos a = some ⟨p, 0⟩) (hn : a ∉ addrs (l1 ++ l2)) :
    ∃ m', insertAfter s (lastOr l1) a m = .ok m' ∧ IsState m' s (l1 ++ (a, p) :: l2) ∧
      Only (a :: addrs (l1 ++ l2)) s m m' := by
  by_cases hl : l1 = []
  · subst hl
    obtain ⟨m', e1, e2, e3⟩ := stateHead_ok (l := l2) h ha hc hn
    exact ⟨m', by simp [insertAfter, e1], e2, e3.mono (by simp +contextual)⟩
  · obtain ⟨l1, x, q, rfl⟩ := eq_append_last hl
    rw [List.append_assoc] at h hn
    obtain ⟨m', e1, e2, e3⟩ := stateInsertAfter_ok (l1 := l1) (l2 := l2) (x := x) (q := q) h ha hc hn
    refine ⟨m', ?_, by simpa using e2, e3.mono ?_⟩
    · have : x ≠ 0 := (PLinked.append.1 h.linked).2.1
      simp [insertAfter, this, e1]
    · simp +contextual

theorem mergeSearch_ok {A : Algorithm} {a : Pos} {m : SMem} {s fuel : Nat} {pre rest : Cells} (h : PLinked m.pos rest 0)
    (hfu : rest.length < fuel) :
    ∃ w r pv, rest = w ++ r ∧
      mergeSearch A a m fuel (iterAt s rest (lastOr pre)) (lastOr pre) = .ok (iterAt s r pv, lastOr (pre ++ w)) ∧
      mergeOne A a (poss rest) = poss w ++ mergeOne A a (poss r) ∧
      (∀ b q r', r = (b, q) :: r' → mergeWalks A a q = false) := by
  induction rest generalizing fuel pre with
  | nil =>
    cases fuel with
    | zero => simp at hfu
    | succ fuel => exact ⟨[], [], lastOr pre, rfl, by simp [mergeSearch], by simp, by simp⟩
  | cons x rest ih =>
    obtain ⟨x, p⟩ := x
    cases fuel with
    | zero => simp at hfu
    | succ fuel =>
      have h1 : getCell m (iterAt s ((x, p) :: rest) (lastOr pre)).curr = .ok ⟨p, hd rest 0⟩ := getCell_ok h.2.1
      by_cases hw : mergeWalks A a p = true
      · obtain ⟨w, r, pv, e1, e2, e3, e4⟩ := ih (pre := pre ++ [(x, p)]) (fuel := fuel) h.2.2
          (by simp only [List.length_cons] at hfu; omega)
        refine ⟨(x, p) :: w, r, pv, by rw [e1]; rfl, ?_, ?_, e4⟩
        · simp only [mergeSearch, iterAt_notEnd h.1, Bool.false_eq_true, if_false, h1, hw, if_true, siterAdvance_ok h, bind,
            Except.bind]
          simp only [lastOr_append] at e2
          simpa [iterAt] using e2
        · simp only [poss_cons, mergeOne, hw, if_true, e3, List.cons_append]
      · refine ⟨[], (x, p) :: rest, lastOr pre, rfl, ?_, by simp, ?_⟩
        · simp only [mergeSearch, iterAt_notEnd h.1, Bool.false_eq_true, if_false, h1, hw, bind, Except.bind]
          simp
        · rintro b q r' e
          simp only [List.cons.injEq, Prod.mk.injEq] at e
          rw [← e.1.2]; simpa using hw

theorem mergeOneH_ok {A : Algorithm} {m : SMem} {s a : Nat} {p : Pos} {l : Cells} (hf : m.Finite) (h : IsState m s l)
    (ha : a ≠ 0) (hc : m.pos a = some ⟨p, 0⟩) (hn : a ∉ addrs l) :
    ∃ m' l', mergeOneH A s a m = .ok m' ∧ IsState m' s l' ∧ poss l' = mergeOne A p (poss l) ∧
      Only (a :: addrs l) s m m' ∧ Tidy (a :: addrs l) l' m' := by
  obtain ⟨w, r, pv, e1, e2, e3, e4⟩ := mergeSearch_ok (A := A) (a := p) (s := s) (fuel := m.steps) (pre := []) h.linked
    (by have := h.length hf; unfold SMem.steps; omega)
  subst e1
  rw [lastOr_nil, List.nil_append] at e2
  obtain ⟨m1, i1, i2, i3⟩ := insertAfter_ok h ha hc hn
  have hperm : (w ++ (a, p) :: r).Perm ((a, p) :: (w ++ r)) := List.perm_middle
  have htidy : Tidy (a :: addrs (w ++ r)) (w ++ (a, p) :: r) m1 := Tidy.of_perm hperm
  cases r with
  | nil =>
    refine ⟨m1, w ++ [(a, p)], ?_, i2, by rw [e3]; simp [mergeOne], i3, htidy⟩
    simp only [mergeOneH, getCell_ok hc, siterBegin_ok h, e2, iterAt_end, if_true, i1, bind, Except.bind]
  | cons b r =>
    obtain ⟨b, q⟩ := b
    have hwalk := e4 b q r rfl
    have hlr := (PLinked.append.1 h.linked).2
    have hb : getCell m (iterAt s ((b, q) :: r) pv).curr = .ok ⟨q, hd r 0⟩ := getCell_ok hlr.2.1
    have hstep : ∃ it, mergeStep A m (iterAt s ((b, q) :: r) pv) = .ok it := by
      unfold mergeStep
      split
      · exact ⟨_, rfl⟩
      · exact ⟨_, siterAdvance_ok hlr⟩
    obtain ⟨it, hstep⟩ := hstep
    by_cases hd' : mergeDiffers A p q = true
    · refine ⟨m1, w ++ (a, p) :: (b, q) :: r, ?_, i2, ?_, i3, htidy⟩
      · simp only [mergeOneH, getCell_ok hc, siterBegin_ok h, e2, iterAt_notEnd hlr.1, Bool.false_eq_true, if_false, hstep,
          hb, hd', if_true, i1, bind, Except.bind]
      · rw [e3]; simp [mergeOne, hwalk, hd']
    · refine ⟨without m [a], w ++ (b, q) :: r, ?_, ⟨h.st, ?_, h.nodup⟩, ?_, Only.without (by simp), ?_, ?_⟩
      · simp only [mergeOneH, getCell_ok hc, siterBegin_ok h, e2, iterAt_notEnd hlr.1, Bool.false_eq_true, if_false, hstep,
          hb, hd', deletePos_single hc ha, bind, Except.bind]
      · refine PLinked.frame h.linked fun x hx => ?_
        have : x ≠ a := by rintro rfl; exact hn hx
        simp [without, this]
      · rw [e3]; simp [mergeOne, hwalk, hd']
      · intro x hx; exact List.mem_cons_of_mem _ hx
      · intro x hx hx'
        rcases List.mem_cons.1 hx with rfl | hx
        · simp [without]
        · exact absurd hx hx'

theorem mergeAllH_ok {A : Algorithm} {m : SMem} {s : Nat} {as l : Cells} (hf : m.Finite) (h : IsState m s l)
    (ha : ∀ x ∈ as, x.1 ≠ 0 ∧ m.pos x.1 = some ⟨x.2, 0⟩) (hn : (addrs (as ++ l)).Nodup) :
    ∃ m' l', mergeAllH A s (addrs as) m = .ok m' ∧ IsState m' s l' ∧ poss l' = mergeAll A (poss l) (poss as) ∧
      Only (addrs (as ++ l)) s m m' ∧ Tidy (addrs (as ++ l)) l' m' := by
  induction as generalizing m l with
  | nil =>
    exact ⟨m, l, rfl, h, rfl, Only.refl m, fun a ha => by simpa using ha, fun a ha hna => absurd (by simpa using ha) hna⟩
  | cons x as ih =>
    obtain ⟨x, p⟩ := x
    obtain ⟨hx0, hx⟩ := ha (x, p) (by simp)
    simp only [List.cons_append, addrs_cons, List.nodup_cons] at hn
    obtain ⟨m1, l1, e1, e2, e3, e4, e5⟩ := mergeOneH_ok (A := A) hf h hx0 hx (fun hc => hn.1 (by simp [hc]))
    have hnd := hn.2
    rw [addrs_append] at hnd
    obtain ⟨n1, n2, n3⟩ := List.nodup_append.1 hnd
    have hout : ∀ y ∈ addrs as, y ∉ x :: addrs l := by
      intro y hy hc
      rcases List.mem_cons.1 hc with rfl | hc
      · exact hn.1 (by simp [hy])
      · exact n3 y hy y hc rfl
    have ha' : ∀ y ∈ as, y.1 ≠ 0 ∧ m1.pos y.1 = some ⟨y.2, 0⟩ := by
      intro y hy
      obtain ⟨h1, h2⟩ := ha y (by simp [hy])
      exact ⟨h1, by rw [e4.pos y.1 (hout y.1 (List.mem_map_of_mem hy))]; exact h2⟩
    have hn' : (addrs (as ++ l1)).Nodup := by
      rw [addrs_append]
      refine List.nodup_append.2 ⟨n1, e2.nodup, ?_⟩
      rintro y hy z hz rfl
      exact hout y hy (e5.sub y hz)
    obtain ⟨m2, l2, f1, f2, f3, f4, f5⟩ := ih (e4.finite hf) e2 ha' hn'
    have hsub : ∀ y ∈ addrs (as ++ l1), y ∈ addrs ((x, p) :: as ++ l) := by
      intro y hy
      rw [addrs_append, List.mem_append] at hy
      rcases hy with hy | hy
      · simp [hy]
      · have := e5.sub y hy
        simp only [List.mem_cons] at this
        simp only [List.cons_append, addrs_cons, addrs_append, List.mem_cons, List.mem_append]
        rcases this with h | h <;> simp [h]
    refine ⟨m2, l2, ?_, f2, ?_, ?_, ?_, ?_⟩
    · simp only [addrs_cons, mergeAllH, e1, bind, Except.bind, f1]
    · rw [f3, e3]; simp [mergeAll]
    · exact (e4.mono (by simp +contextual)).trans (f4.mono hsub)
    · intro y hy; exact hsub y (f5.sub y hy)
    · intro y hy hyn
      by_cases hm : y ∈ addrs (as ++ l1)
      · exact f5.dead y hm hyn
      · rw [f4.pos y hm]
        refine e5.dead y ?_ (fun hc => hm (by simp [hc]))
        simp only [List.cons_append, addrs_cons, addrs_append, List.mem_cons, List.mem_append] at hy hm ⊢
        rcases hy with h | h | h
        · exact .inl h
        · exact absurd (.inl h) hm
        · exact .inr h

/-! ### `unsubsume` -/

theorem unsubSkip_ok {sub : Pos → Pos → Bool} {o : Pos} {m : SMem} {s fuel : Nat} {pre rest : Cells}
    (h : PLinked m.pos rest 0) (hfu : rest.length < fuel) :
    ∃ w r, rest = w ++ r ∧
      unsubSkip o.errors m fuel (iterAt s rest (lastOr pre)) = .ok (iterAt s r (lastOr (pre ++ w))) ∧
      unsubInner sub o (poss rest) = poss w ++ (poss r).filter (fun q => !sub o q) := by
  induction rest generalizing fuel pre with
  | nil =>
    cases fuel with
    | zero => simp at hfu
    | succ fuel => exact ⟨[], [], rfl, by simp [unsubSkip], by simp [unsubInner]⟩
  | cons x rest ih =>
    obtain ⟨x, p⟩ := x
    cases fuel with
    | zero => simp at hfu
    | succ fuel =>
      have h1 : getCell m (iterAt s ((x, p) :: rest) (lastOr pre)).curr = .ok ⟨p, hd rest 0⟩ := getCell_ok h.2.1
      by_cases hw : o.errors < p.errors
      · refine ⟨[], (x, p) :: rest, rfl, ?_, ?_⟩
        · simp only [unsubSkip, iterAt_notEnd h.1, Bool.false_eq_true, if_false, h1, hw, if_true, bind, Except.bind,
            List.append_nil]
        · simp only [poss_cons, unsubInner, hw, if_true, poss_nil, List.nil_append]
      · obtain ⟨w, r, e1, e2, e3⟩ := ih (pre := pre ++ [(x, p)]) (fuel := fuel) h.2.2
          (by simp only [List.length_cons] at hfu; omega)
        refine ⟨(x, p) :: w, r, by rw [e1]; rfl, ?_, ?_⟩
        · simp only [unsubSkip, iterAt_notEnd h.1, Bool.false_eq_true, if_false, h1, hw, siterAdvance_ok h, bind,
            Except.bind]
          simp only [lastOr_append] at e2
          simpa using e2
        · simp only [poss_cons, unsubInner, hw, if_false, e3, List.cons_append]

theorem filter_sub_addrs {l : Cells} {f : Nat × Pos → Bool} : ∀ a ∈ addrs (l.filter f), a ∈ addrs l := by
  intro a ha
  obtain ⟨x, hx, rfl⟩ := List.mem_map.1 ha
  exact List.mem_map_of_mem (List.mem_filter.1 hx).1

theorem unsubDrop_ok {sub : Pos → Pos → Bool} {o po : _} {m : SMem} {s fuel pv : Nat} {pre mid rest : Cells}
    (h : IsState m s (pre ++ (o, po) :: (mid ++ rest))) (hfu : rest.length < fuel) :
    ∃ m', unsubDrop sub o fuel (iterAt s rest (lastOr ((o, po) :: mid)))
        (some { state := s, next := hd (mid ++ rest) 0, curr := o, prev := pv }) m =
        .ok (some { state := s, next := hd (mid ++ rest.filter fun x => !sub po x.2) 0, curr := o, prev := pv }, m') ∧
      IsState m' s (pre ++ (o, po) :: (mid ++ rest.filter fun x => !sub po x.2)) ∧
      Only (addrs (pre ++ (o, po) :: (mid ++ rest))) s m m' ∧
      Tidy (addrs (pre ++ (o, po) :: (mid ++ rest))) (pre ++ (o, po) :: (mid ++ rest.filter fun x => !sub po x.2)) m' := by
  induction fuel generalizing m mid rest with
  | zero => omega
  | succ fuel ih =>
    cases rest with
    | nil =>
      refine ⟨m, by simp [unsubDrop], by simpa using h, Only.refl m, Tidy.of_perm (by simp)⟩
    | cons x rest =>
      obtain ⟨x, p⟩ := x
      obtain ⟨_, ho0, ho, hmr⟩ := PLinked.append.1 h.linked
      have hxr := (PLinked.append.1 hmr).2
      have hx0 : x ≠ 0 := hxr.1
      have h1 : getCell m (iterAt s ((x, p) :: rest) (lastOr ((o, po) :: mid))).curr = .ok ⟨p, hd rest 0⟩ :=
        getCell_ok hxr.2.1
      by_cases hs : sub po p = true
      · -- removed
        have hsplit : ∃ l1 w q, (o, po) :: mid = l1 ++ [(w, q)] := eq_append_last (by simp)
        obtain ⟨l1, w, q, hlw⟩ := hsplit
        have hcells : pre ++ (o, po) :: (mid ++ (x, p) :: rest) = (pre ++ l1) ++ (w, q) :: (x, p) :: rest := by
          rw [← List.cons_append, hlw]; simp
        have hcells' : pre ++ (o, po) :: (mid ++ rest) = (pre ++ l1) ++ (w, q) :: rest := by
          rw [← List.cons_append, hlw]; simp
        have h' := h
        rw [hcells] at h'
        obtain ⟨m1, e1, e2, e3, e4, e5⟩ := stateRemove_ok h'
        rw [← hcells'] at e2
        have hnd := h.nodup
        simp only [addrs_append, addrs_cons] at hnd
        -- the outer iterator
        have hskip : skipRemoved x m (some { state := s, next := hd (mid ++ (x, p) :: rest) 0, curr := o, prev := pv }) =
            .ok (some { state := s, next := hd (mid ++ rest) 0, curr := o, prev := pv }) := by
          cases mid with
          | nil =>
            have h2 : m.pos x = some ⟨p, hd rest 0⟩ := hxr.2.1
            simp [skipRemoved, getCell_ok h2, bind, Except.bind]
          | cons y mid =>
            obtain ⟨y, r⟩ := y
            have : y ≠ x := by
              rintro rfl
              have := (List.nodup_append.1 hnd).2.1
              simp at this
            simp [skipRemoved, this]
        have hrest1 : PLinked m1.pos rest 0 := by
          have := e2.linked
          exact (PLinked.append.1 (PLinked.append.1 this).2.2.2).2
        obtain ⟨m2, f1, f2, f3, f4⟩ := ih (m := m1) (mid := mid) (rest := rest) e2
          (by simp only [List.length_cons] at hfu; omega)
        have hsub : ∀ a ∈ addrs (pre ++ (o, po) :: (mid ++ rest)), a ∈ addrs (pre ++ (o, po) :: (mid ++ (x, p) :: rest)) := by
          intro a ha
          simp only [addrs_append, addrs_cons, List.mem_append, List.mem_cons] at ha ⊢
          rcases ha with h | h | h | h <;> simp [h]
        have hO1 : Only (addrs (pre ++ (o, po) :: (mid ++ (x, p) :: rest))) s m m1 := e3.mono (by
          rw [hcells]; simp +contextual)
        have hfil : ((x, p) :: rest).filter (fun z => !sub po z.2) = rest.filter (fun z => !sub po z.2) := by
          simp [hs]
        rw [hfil]
        refine ⟨m2, ?_, f2, hO1.trans (f3.mono hsub), ?_⟩
        · have hlast : lastOr ((o, po) :: mid) = w := by rw [hlw]; simp
          have hrem : iterRemove (iterAt s ((x, p) :: rest) (lastOr ((o, po) :: mid)))
              (some { state := s, next := hd (mid ++ (x, p) :: rest) 0, curr := o, prev := pv }) m =
              .ok ({ state := s, next := hd rest 0, curr := 0, prev := w },
                some { state := s, next := hd (mid ++ rest) 0, curr := o, prev := pv }, m1) := by
            rw [hlast]
            simp only [iterRemove, iterAt, hd_cons, ne_eq, hx0, not_false_eq_true, if_true, hskip, e1, bind, Except.bind,
              List.tail_cons]
          simp only [unsubDrop, iterAt_notEnd hx0, Bool.false_eq_true, if_false, getCell_ok ho, h1, hs, if_true, hrem, bind,
            Except.bind, siterAdvance_removed hrest1]
          rw [hlast] at f1
          exact f1
        · refine Tidy.trans (l := pre ++ (o, po) :: (mid ++ rest)) (m := m1) ⟨hsub, ?_⟩ f3 f4
          intro a ha hna
          have : a = x := by
            simp only [addrs_append, addrs_cons, List.mem_append, List.mem_cons, not_or] at ha hna
            rcases ha with h | h | h | h | h
            · exact absurd h hna.1
            · exact absurd h hna.2.1
            · exact absurd h hna.2.2.1
            · exact h
            · exact absurd h hna.2.2.2
          subst this
          exact e4
      · have hh : IsState m s (pre ++ (o, po) :: ((mid ++ [(x, p)]) ++ rest)) := by simpa using h
        obtain ⟨m2, f1, f2, f3, f4⟩ := ih (m := m) (mid := mid ++ [(x, p)]) (rest := rest) hh
          (by simp only [List.length_cons] at hfu; omega)
        have hfil : ((x, p) :: rest).filter (fun z => !sub po z.2) = (x, p) :: rest.filter (fun z => !sub po z.2) := by
          simp [hs]
        rw [hfil]
        refine ⟨m2, ?_, by simpa using f2, by simpa using f3, by simpa using f4⟩
        have hlast : lastOr ((o, po) :: (mid ++ [(x, p)])) = x := by
          rw [← List.cons_append]; exact lastOr_append _ _ _
        rw [hlast] at f1
        simp only [unsubDrop, iterAt_notEnd hx0, Bool.false_eq_true, if_false, getCell_ok ho, h1, hs, bind,
          Except.bind, siterAdvance_ok hxr]
        simpa using f1

theorem unsubsume_nil (sub : Pos → Pos → Bool) : unsubsume sub [] = [] := by rw [unsubsume.eq_def]

theorem unsubsume_cons' (sub : Pos → Pos → Bool) (o : Pos) (l : List Pos) :
    unsubsume sub (o :: l) = o :: unsubsume sub (unsubInner sub o l) := by rw [unsubsume.eq_def]

theorem poss_filter (l : Cells) (f : Pos → Bool) : poss (l.filter fun x => f x.2) = (poss l).filter f := by
  unfold poss
  rw [List.filter_map]
  rfl

theorem unsubLoop_ok {sub : Pos → Pos → Bool} {m : SMem} {s fuel pv : Nat} {pre rest : Cells} (hf : m.Finite)
    (h : IsState m s (pre ++ rest)) (hfu : rest.length < fuel) :
    ∃ m' R, unsubLoop sub s fuel (iterAt s rest pv) m = .ok m' ∧ IsState m' s (pre ++ R) ∧
      poss R = unsubsume sub (poss rest) ∧ Only (addrs (pre ++ rest)) s m m' ∧ Tidy (addrs (pre ++ rest)) (pre ++ R) m' := by
  induction fuel generalizing m pre rest pv with
  | zero => omega
  | succ fuel ih =>
    cases rest with
    | nil =>
      exact ⟨m, [], by simp [unsubLoop], h, by simp [unsubsume_nil], Only.refl m, Tidy.of_perm (.refl _)⟩
    | cons o rest =>
      obtain ⟨o, po⟩ := o
      have hlr := (PLinked.append.1 h.linked).2
      have ho0 : o ≠ 0 := hlr.1
      have hlen := h.length hf
      simp only [List.length_append, List.length_cons] at hlen hfu
      have h1 : getCell m (iterAt s ((o, po) :: rest) pv).curr = .ok ⟨po, hd rest 0⟩ := getCell_ok hlr.2.1
      have h2 : iterNew s (iterAt s ((o, po) :: rest) pv).curr m = .ok (iterAt s ((o, po) :: rest) 0) := iterNew_ok hlr
      have h3 : siterAdvance m (iterAt s ((o, po) :: rest) 0) = .ok (iterAt s rest o) := siterAdvance_ok hlr
      obtain ⟨w, r, e1, e2, e3⟩ := unsubSkip_ok (sub := sub) (o := po) (s := s) (fuel := m.steps) (pre := [(o, po)]) hlr.2.2
        (by unfold SMem.steps; omega)
      subst e1
      have hone : lastOr [(o, po)] = o := rfl
      rw [hone, List.singleton_append] at e2
      obtain ⟨m1, f1, f2, f3, f4⟩ := unsubDrop_ok (sub := sub) (pv := pv) (fuel := m.steps) h
        (by simp only [List.length_append] at hlen; unfold SMem.steps; omega)
      have hoi : iterAt s ((o, po) :: (w ++ r)) pv = { state := s, next := hd (w ++ r) 0, curr := o, prev := pv } := rfl
      have hoi' : ({ state := s, next := hd (w ++ r.filter fun x => !sub po x.2) 0, curr := o, prev := pv } : SIter) =
          iterAt s ((o, po) :: (w ++ r.filter fun x => !sub po x.2)) pv := rfl
      rw [← hoi] at f1
      rw [hoi'] at f1
      have hadv : siterAdvance m1 (iterAt s ((o, po) :: (w ++ r.filter fun x => !sub po x.2)) pv) =
          .ok (iterAt s (w ++ r.filter fun x => !sub po x.2) o) := siterAdvance_ok (PLinked.append.1 f2.linked).2
      obtain ⟨m2, R, g1, g2, g3, g4, g5⟩ := ih (m := m1) (pre := pre ++ [(o, po)])
        (rest := w ++ r.filter fun x => !sub po x.2) (pv := o) (f3.finite hf) (by simpa using f2)
        (by have := List.length_filter_le (fun x : Nat × Pos => !sub po x.2) r
            simp only [List.length_append] at hfu ⊢; omega)
      refine ⟨m2, (o, po) :: R, ?_, by simpa using g2, ?_, f3.trans (g4.mono ?_), ?_⟩
      · have hcurr : (iterAt s ((o, po) :: (w ++ r)) pv).curr = o := rfl
        simp only [unsubLoop, iterAt_notEnd ho0, Bool.false_eq_true, if_false, h1, h2, h3, e2, bind, Except.bind]
        rw [hcurr, f1]
        simp only [hadv, g1]
      · rw [poss_cons, poss_cons, unsubsume_cons', e3, g3, poss_append, poss_filter r (fun q => !sub po q)]
      · intro a ha
        exact f4.sub a (by simpa using ha)
      · refine f4.trans (by simpa using g4) (by simpa using g5)

theorem unsubsumeH_ok {sub : Pos → Pos → Bool} {m : SMem} {s : Nat} {l : Cells} (hf : m.Finite) (h : IsState m s l) :
    ∃ m' l', unsubsumeH sub s m = .ok m' ∧ IsState m' s l' ∧ poss l' = unsubsume sub (poss l) ∧
      Only (addrs l) s m m' ∧ Tidy (addrs l) l' m' := by
  obtain ⟨m', R, e1, e2, e3, e4, e5⟩ := unsubLoop_ok (sub := sub) (fuel := m.steps) (pv := 0) (pre := []) (rest := l) hf h
    (by have := h.length hf; unfold SMem.steps; omega)
  exact ⟨m', R, by simp only [unsubsumeH, siterBegin_ok h, e1, bind, Except.bind], e2, e3, e4, e5⟩

end Lev
