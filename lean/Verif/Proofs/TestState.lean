import Verif.Proofs.ListProgram
import Verif.Proofs.StateProps
import Verif.Model.TestSuite

/-!
The tests of states and positions.
-/

namespace Lev

open Spec

@[simp] theorem use_ok {α : Type} (a : α) : use (.ok a : Except Err α) = .ok a := rfl
@[simp] theorem rcAssert_true : rcAssert true = .ok () := rfl
@[simp] theorem rcPre_true : rcPre true = .ok () := rfl

/-- `m` is `m0` with the state `s` made of the cells `l` and, outside of it, the cells `o`. -/
structure Half (m0 m : SMem) (s : Nat) (l o : Cells) : Prop where
  finite : m.Finite
  nonnull : s ≠ 0
  fresh : m0.st s = none
  state : IsState m s l
  loose : ∀ x ∈ o, x.1 ≠ 0 ∧ m.pos x.1 = some ⟨x.2, 0⟩
  nodup : (addrs (l ++ o)).Nodup
  new : ∀ a ∈ addrs (l ++ o), m0.pos a = none
  pos : ∀ a, a ∉ addrs (l ++ o) → m.pos a = m0.pos a
  st : ∀ s', s' ≠ s → m.st s' = m0.st s'

section
variable {paddr saddr : SMem → Nat} {m0 m m' : SMem} {s : Nat} {l o : Cells}

theorem Half.built (h : Half m0 m s l []) : StBuilt m0 m s l where
  isState := h.state
  nonnull := h.nonnull
  fresh := h.fresh
  new a ha := h.new a (by simpa using ha)
  pos a ha := h.pos a (by simpa using ha)
  st := h.st
  finite := h.finite

theorem StBuilt.delete (h : StBuilt m0 m s l) (hm : m0.Finite) :
    ∃ m', deleteState s m = .ok m' ∧ m'.pos = m0.pos ∧ m'.st = m0.st := by
  obtain ⟨m', e, hacc, _⟩ := ((Accounted.refl hm).grow h).delete (o := [])
  exact ⟨m', e, hacc.all.1, hacc.all.2⟩

/-- `to_positions`, then a new state. -/
theorem half_start (hA : SAlloc paddr saddr) (hm : m0.Finite) (ps : List Pos) :
    ∃ as m1, newPositions paddr ps m0 = (addrs as, m1) ∧ as.length = ps.length ∧ poss as = ps ∧
      Half m0 (newState saddr m1).2 (newState saddr m1).1 [] as := by
  obtain ⟨m1, as, e1, e2, e3, e4, e5, e6, e7, e8⟩ := newPositions_ok hA hm ps
  have hb := newState_built hA e8
  refine ⟨as, m1, e1, by rw [← e2]; simp, e2, hb.finite, hb.nonnull, by rw [← e7]; exact hb.fresh, hb.isState, fun x hx => ?_,
    by simpa using e4, by simpa using e5, fun a ha => ?_, fun s' hs' => ?_⟩
  · rw [hb.pos x.1 (by simp)]; exact e3 x hx
  · rw [hb.pos a (by simp)]; exact e6 a (by simpa using ha)
  · rw [hb.st s' hs', e7]

/-- A position goes into the state. -/
theorem Half.step {x : Nat} {p : Pos} {l' : Cells} {C : List Nat} (h : Half m0 m s l ((x, p) :: o)) (hs : IsState m' s l')
    (hl : l'.Perm (l ++ [(x, p)])) (ho : Only C s m m') (hC : ∀ a ∈ C, a ∈ addrs (l ++ [(x, p)])) :
    Half m0 m' s l' o := by
  have hperm : (addrs (l' ++ o)).Perm (addrs (l ++ (x, p) :: o)) := by
    have := (hl.append_right o).map Prod.fst
    simpa [addrs] using this
  have hout : ∀ y ∈ o, y.1 ∉ addrs (l ++ [(x, p)]) := by
    intro y hy hc
    have hn := h.nodup
    rw [show l ++ (x, p) :: o = (l ++ [(x, p)]) ++ o by simp, addrs_append] at hn
    exact (List.nodup_append.1 hn).2.2 y.1 hc y.1 (List.mem_map_of_mem hy) rfl
  refine ⟨ho.finite h.finite, h.nonnull, h.fresh, hs, fun y hy => ?_, hperm.nodup_iff.2 h.nodup,
    fun a ha => h.new a (hperm.mem_iff.1 ha), fun a ha => ?_, fun s' hs' => ?_⟩
  · obtain ⟨g1, g2⟩ := h.loose y (by simp [hy])
    exact ⟨g1, by rw [ho.pos _ fun hc => hout y hy (hC _ hc)]; exact g2⟩
  · have hna : a ∉ addrs (l ++ (x, p) :: o) := fun hc => ha (hperm.mem_iff.2 hc)
    rw [ho.pos a fun hc => hna ?_, h.pos a hna]
    have := hC a hc
    simp only [addrs_append, addrs_cons, addrs_nil, List.mem_append, List.mem_cons, List.not_mem_nil, or_false] at this ⊢
    rcases this with h1 | h1
    · exact .inl h1
    · exact .inr (.inl h1)
  · rw [ho.st s' hs', h.st s' hs']

theorem Half.notMem {x : Nat} {p : Pos} (h : Half m0 m s l ((x, p) :: o)) : x ∉ addrs l := by
  have hn := h.nodup
  rw [addrs_append] at hn
  intro hc
  exact (List.nodup_append.1 hn).2.2 x hc x (by simp) rfl

theorem Half.add {x : Nat} {p : Pos} (h : Half m0 m s l ((x, p) :: o)) :
    ∃ m', stateAdd s x m = .ok m' ∧ Half m0 m' s (l ++ [(x, p)]) o := by
  obtain ⟨h0, hx⟩ := h.loose (x, p) (by simp)
  obtain ⟨m', e1, e2, e3⟩ := stateAdd_ok h.finite h.state h0 hx h.notMem
  exact ⟨m', e1, h.step e2 (List.Perm.refl _) e3 (fun a ha => by simp [ha])⟩

theorem Half.insertLast {x : Nat} {p : Pos} (h : Half m0 m s l ((x, p) :: o)) :
    ∃ m', stateInsertAfter s (lastOr l) x m = .ok m' ∧ Half m0 m' s (l ++ [(x, p)]) o := by
  by_cases hl : l = []
  · subst hl
    obtain ⟨m', e1, e2⟩ := h.add
    exact ⟨m', by simpa [stateInsertAfter] using e1, e2⟩
  · obtain ⟨k, y, q, rfl⟩ := eq_append_last hl
    obtain ⟨h0, hx⟩ := h.loose (x, p) (by simp)
    obtain ⟨m', e1, e2, e3⟩ := stateInsertAfter_ok (l1 := k) (x := y) (q := q) (l2 := []) h.state h0 hx h.notMem
    exact ⟨m', by simpa using e1, h.step (by simpa using e2) (List.Perm.refl _) e3 (by simp)⟩

theorem Half.insertAfter {x : Nat} {p : Pos} (h : Half m0 m s l ((x, p) :: o)) :
    ∃ m', Lev.insertAfter s (lastOr l) x m = .ok m' ∧ Half m0 m' s (l ++ [(x, p)]) o := by
  by_cases hl : l = []
  · subst hl
    obtain ⟨h0, hx⟩ := h.loose (x, p) (by simp)
    obtain ⟨m', e1, e2, e3⟩ := stateHead_ok h.state h0 hx h.notMem
    exact ⟨m', by simpa [Lev.insertAfter] using e1, h.step e2 (List.Perm.refl _) e3 (by simp)⟩
  · obtain ⟨m', e1, e2⟩ := h.insertLast
    refine ⟨m', ?_, e2⟩
    obtain ⟨k, y, q, rfl⟩ := eq_append_last hl
    have hy : y ≠ 0 := h.state.linked.nonnull y (by simp)
    simpa [Lev.insertAfter, hy] using e1

theorem Half.fill (h : Half m0 m s l o) :
    ∃ m', fillState s (addrs o) (lastOr l) m = .ok m' ∧ Half m0 m' s (l ++ o) [] := by
  induction o generalizing m l with
  | nil => exact ⟨m, rfl, by simpa using h⟩
  | cons x o ih =>
    obtain ⟨x, p⟩ := x
    obtain ⟨m1, e1, e2⟩ := h.insertLast
    obtain ⟨m2, f1, f2⟩ := ih e2
    refine ⟨m2, ?_, by simpa using f2⟩
    simp only [addrs_cons, fillState, e1, bind, Except.bind]
    simpa using f1

theorem Half.insertLoop (h : Half m0 m s l o) :
    ∃ m', insertAfterLoop s (addrs o) (lastOr l) m = .ok m' ∧ Half m0 m' s (l ++ o) [] := by
  induction o generalizing m l with
  | nil => exact ⟨m, rfl, by simpa using h⟩
  | cons x o ih =>
    obtain ⟨x, p⟩ := x
    obtain ⟨m1, e1, e2⟩ := h.insertAfter
    obtain ⟨m2, f1, f2⟩ := ih e2
    refine ⟨m2, ?_, by simpa using f2⟩
    simp only [addrs_cons, insertAfterLoop, e1, bind, Except.bind]
    simpa using f1

/-- The loop along the links finds the positions. -/
theorem walkCheck_ok (h : PLinked m.pos l 0) : walkCheck m (addrs l) (hd l 0) = .ok () := by
  induction l with
  | nil => rfl
  | cons x l ih =>
    obtain ⟨x, p⟩ := x
    simp only [addrs_cons, hd_cons, walkCheck, beq_self_eq_true, rcAssert_true, getCell_ok h.2.1, use_ok, bind, Except.bind]
    exact ih h.2.2

theorem Half.addLoop (h : Half m0 m s l o) :
    ∃ m', addCheckLoop s (addrs l) (addrs o) m = .ok m' ∧ Half m0 m' s (l ++ o) [] := by
  induction o generalizing m l with
  | nil => exact ⟨m, rfl, by simpa using h⟩
  | cons x o ih =>
    obtain ⟨x, p⟩ := x
    obtain ⟨m1, e1, e2⟩ := h.add
    obtain ⟨m2, f1, f2⟩ := ih e2
    refine ⟨m2, ?_, by simpa using f2⟩
    have hw := walkCheck_ok e2.state.linked
    have hh := getHead_ok e2.state.st
    simp only [addrs_append, addrs_cons, addrs_nil] at hw f1
    simp only [addrs_cons, addCheckLoop, e1, use_ok, hh, hw, bind, Except.bind]
    exact f1

/-- `new State(positions)`. -/
theorem half_build (hA : SAlloc paddr saddr) (hm : m0.Finite) (ps : List Pos) :
    ∃ as m1 s m2, newPositions paddr ps m0 = (addrs as, m1) ∧ as.length = ps.length ∧ poss as = ps ∧
      newStateOf saddr (addrs as) m1 = .ok (s, m2) ∧ StBuilt m0 m2 s as := by
  obtain ⟨as, m1, e1, e2, e3, h⟩ := half_start hA hm ps
  obtain ⟨m2, f1, f2⟩ := h.fill
  refine ⟨as, m1, (newState saddr m1).1, m2, e1, e2, e3, ?_, by simpa using f2.built⟩
  simp only [newStateOf]
  rw [show newState saddr m1 = ((newState saddr m1).1, (newState saddr m1).2) from rfl]
  simp only [lastOr_nil] at f1
  simp only [f1, bind, Except.bind]

/-- The loop over neighbours. -/
theorem orderLoop_ok {A : Algorithm} {fuel x : Nat} {p : Pos} (h : PLinked m.pos ((x, p) :: l) 0)
    (ho : (poss ((x, p) :: l)).Pairwise fun a b => comparePos A a b < 1) (hf : l.length < fuel) :
    orderLoop A m fuel x (hd l 0) = .ok () := by
  induction l generalizing x p fuel with
  | nil =>
    cases fuel with
    | zero => simp at hf
    | succ fuel => simp [orderLoop]
  | cons y l ih =>
    obtain ⟨y, q⟩ := y
    cases fuel with
    | zero => simp at hf
    | succ fuel =>
      have hy : y ≠ 0 := h.2.2.1
      have hpq : comparePos A p q < 1 := by
        have := List.pairwise_cons.1 ho
        exact this.1 q (by simp)
      simp only [orderLoop, hd_cons, hy, ne_eq, not_false_eq_true, if_true, getCell_ok h.2.1, getCell_ok h.2.2.2.1, use_ok, hpq,
        decide_true, rcAssert_true, bind, Except.bind]
      refine ih h.2.2 (List.pairwise_cons.1 ho).2 ?_
      simp only [List.length_cons] at hf
      omega

theorem sortAndCheck_ok (first : Bool) (A : Algorithm) (h : StBuilt m0 m s l) (hl : l ≠ []) :
    ∃ m' l', sortAndCheck first A s m = .ok m' ∧ StBuilt m0 m' s l' ∧ l' ≠ [] := by
  obtain ⟨m', R, e1, e2, e3, e4, e5⟩ := stateSort_ok (first := first) (cmp := comparePos A) h.finite h.isState
  have hb := h.step e2 e5 (Tidy.of_perm e4)
  have hR : R ≠ [] := fun hc => hl (by rw [hc] at e4; exact e4.symm.eq_nil)
  refine ⟨m', R, ?_, hb, hR⟩
  have hT := comparePos_totalPre A
  have hc' : TotalPre (cellCmp (comparePos A)) := ⟨fun x y => hT.total x.2 y.2, fun x y z => hT.trans x.2 y.2 z.2⟩
  have hsorted := mergeSort_sorted hc' l
  rw [← e3] at hsorted
  cases R with
  | nil => exact absurd rfl hR
  | cons x R =>
    obtain ⟨x, p⟩ := x
    have hx0 : x ≠ 0 := e2.linked.1
    have hlen := e2.length hb.finite
    have hst : m'.st s = some x := e2.st
    have ho := orderLoop_ok (A := A) (fuel := m'.steps) e2.linked (List.pairwise_map.2 hsorted)
      (by simp only [List.length_cons] at hlen; unfold SMem.steps; omega)
    simp only [sortAndCheck, e1, use_ok, getHead_ok hst, bne_iff_ne, ne_eq, hx0, not_false_eq_true,
      rcAssert, if_true, getCell_ok e2.linked.2.1, ho, bind, Except.bind]

/-! ### Iterators -/

theorem siterAdvance_cur {pre cur post : Cells} {y : Nat} {q : Pos} (h : PLinked m.pos (cur ++ (y, q) :: post) 0)
    (hc : cur.length ≤ 1) :
    siterAdvance m (curIter s pre cur ((y, q) :: post)) = .ok (curIter s (pre ++ cur) [(y, q)] post) := by
  obtain ⟨hlk2, hlk3⟩ := PLinked.append.1 h
  have hp : (if hd cur 0 ≠ 0 then hd cur 0 else lastOr pre) = lastOr (pre ++ cur) := by
    match cur, hc, hlk2 with
    | [], _, _ => simp
    | [(x, p)], _, hx => simp [hx.1]
  have hy : m.pos y = some ⟨q, hd post 0⟩ := hlk3.2.1
  simp [siterAdvance, curIter, hlk3.1, getCell_ok hy, bind, Except.bind, ← hp]
  split <;> simp_all

theorem siterAdvance_last {pre cur : Cells} (h : PLinked m.pos cur 0) (hc : cur.length ≤ 1) :
    siterAdvance m (curIter s pre cur []) = .ok (curIter s (pre ++ cur) [] []) := by
  have hp : (if hd cur 0 ≠ 0 then hd cur 0 else lastOr pre) = lastOr (pre ++ cur) := by
    match cur, hc, h with
    | [], _, _ => simp
    | [(x, p)], _, hx => simp [hx.1]
  simp [siterAdvance, curIter, ← hp]
  split <;> simp_all

theorem iterRemove_cur {x : Nat} {q : Pos} {post : Cells} (h : StBuilt m0 m s ((x, q) :: post)) :
    ∃ m', iterRemove (curIter s [] [(x, q)] post) none m = .ok (curIter s [] [] post, none, m') ∧
      StBuilt m0 m' s post := by
  have hx0 : x ≠ 0 := h.isState.linked.1
  obtain ⟨m', e1, e2, e3, e4⟩ := stateRemove_first (y := x) (x := x) (p := q) (l := post) h.isState
  refine ⟨m', ?_, h.step e2 (e3.mono (by simp)) ⟨?_, ?_⟩⟩
  · simp only [iterRemove, curIter, hd_cons, hx0, ne_eq, not_false_eq_true, if_true, skipRemoved, lastOr_nil, e1, bind,
      Except.bind]
    rfl
  · intro a ha; simp [ha]
  · intro a ha hna
    simp only [addrs_cons, List.mem_cons] at ha
    rcases ha with rfl | ha
    · exact e4
    · exact absurd ha hna

theorem iterInsert_cur (hA : SAlloc paddr saddr) {pre post : Cells} {x : Nat} {p q : Pos}
    (hb : StBuilt m0 m s (pre ++ (x, q) :: post)) :
    ∃ m', iterInsert (curIter s pre [(x, q)] post) (newPos paddr p m).1 (newPos paddr p m).2 =
        .ok (curIter s pre [(x, q)] (((newPos paddr p m).1, p) :: post), m') ∧
      StBuilt m0 m' s (pre ++ (x, q) :: ((newPos paddr p m).1, p) :: post) := by
  have hlk := hb.isState.linked
  have hx0 : x ≠ 0 := hlk.nonnull x (by simp)
  obtain ⟨h0, hfree⟩ := hA.pos m hb.finite
  have hne : ∀ a ∈ addrs (pre ++ (x, q) :: post), a ≠ paddr m := by
    intro a ha he
    obtain ⟨cc, hcc⟩ := hlk.alive a ha
    rw [he, hfree] at hcc
    cases hcc
  have hs1 : IsState (newPos paddr p m).2 s (pre ++ (x, q) :: post) :=
    ⟨hb.isState.st, PLinked.frame hlk fun a ha => upd1_ne _ _ (hne a ha), hb.isState.nodup⟩
  have hnew : paddr m ∉ addrs (pre ++ (x, q) :: post) := fun hc => hne _ hc rfl
  obtain ⟨m', e1, e2, e3⟩ := stateInsertAfter_ok (a := paddr m) (p := p) (nx := 0) hs1 h0 (by simp [newPos]) hnew
  refine ⟨m', ?_, e2, hb.nonnull, hb.fresh, ?_, ?_, ?_, e3.finite (newPos_finite hb.finite p)⟩
  · have e1' : stateInsertAfter s x (newPos paddr p m).1 (newPos paddr p m).2 = .ok m' := e1
    simp only [iterInsert, curIter, hd_cons, hx0, ne_eq, not_false_eq_true, if_true, e1', bind, Except.bind]
  · intro a ha
    by_cases hap : a = paddr m
    · rw [hap, ← hb.pos _ hnew]; exact hfree
    · refine hb.new a ?_
      have hap' : a ≠ (newPos paddr p m).1 := hap
      simp only [addrs_append, addrs_cons, List.mem_append, List.mem_cons] at ha ⊢
      grind
  · intro a ha
    have ha' : a ≠ paddr m ∧ a ∉ addrs (pre ++ (x, q) :: post) := by
      have : (newPos paddr p m).1 = paddr m := rfl
      simp only [addrs_append, addrs_cons, List.mem_append, List.mem_cons, not_or, this] at ha ⊢
      grind
    rw [e3.pos a, ← hb.pos a ha'.2]
    · exact upd1_ne _ _ ha'.1
    · have : a ≠ x := by rintro rfl; exact ha'.2 (by simp)
      simp [this, ha'.1]
  · intro s' hs'
    rw [e3.st s' hs']
    exact hb.st s' hs'

theorem iterRest_ok {pre cur post : Cells} (h : PLinked m.pos (cur ++ post) 0) (hc : cur.length ≤ 1)
    (hne : cur = [] → post = []) :
    ∃ pre', iterRest m (addrs (cur ++ post)) (curIter s pre cur post) = .ok (curIter s pre' [] []) := by
  induction post generalizing pre cur with
  | nil =>
    match cur, hc, h with
    | [], _, _ => exact ⟨pre, rfl⟩
    | [(x, p)], _, hx =>
      refine ⟨pre ++ [(x, p)], ?_⟩
      have := siterAdvance_last (s := s) (pre := pre) (cur := [(x, p)]) (m := m) (by simpa using hx) (by simp)
      simp only [curIter, hd_cons, hd_nil] at this
      simp only [List.append_nil, addrs_cons, addrs_nil, iterRest, curIter, hd_cons, hd_nil, beq_self_eq_true, rcAssert_true,
        this, use_ok, bind, Except.bind]
  | cons y post ih =>
    obtain ⟨y, q⟩ := y
    match cur, hc, h, hne with
    | [], _, _, hne => exact absurd (hne rfl) (by simp)
    | [(x, p)], _, hx, _ =>
      have hadv := siterAdvance_cur (s := s) (pre := pre) (cur := [(x, p)]) (m := m) hx (by simp)
      obtain ⟨pre', e⟩ := ih (pre := pre ++ [(x, p)]) (cur := [(y, q)]) (by simpa using hx.2.2) (by simp) (by simp)
      refine ⟨pre', ?_⟩
      simp only [List.cons_append, List.nil_append, addrs_cons, iterRest, curIter, hd_cons, beq_self_eq_true, rcAssert_true,
        bind, Except.bind]
      simp only [curIter, hd_cons] at hadv
      rw [hadv]
      exact e

/-! ### The tests -/

/-- The memory is as `m0`. -/
def PutBack (m0 : SMem) (r : Except Stop SMem) : Prop :=
  ∃ m', r = .ok m' ∧ m'.pos = m0.pos ∧ m'.st = m0.st

theorem StBuilt.use_delete (h : StBuilt m0 m s l) (hm : m0.Finite) : PutBack m0 (use (deleteState s m)) := by
  obtain ⟨m', e, h1, h2⟩ := h.delete hm
  exact ⟨m', by rw [e]; rfl, h1, h2⟩

theorem testInsertAfter_ok (hA : SAlloc paddr saddr) (hm : m0.Finite) (ps : List Pos) :
    PutBack m0 (testInsertAfter paddr saddr ps m0) := by
  obtain ⟨as, m1, e1, e2, e3, h⟩ := half_start hA hm ps
  obtain ⟨m2, f1, f2⟩ := h.insertLoop
  have hb : StBuilt m0 m2 (newState saddr m1).1 as := by simpa using f2.built
  have hh : getHead (newState saddr m1).2 (newState saddr m1).1 = .ok 0 := getHead_ok h.state.st
  simp only [lastOr_nil] at f1
  simp only [testInsertAfter, e1, hh, f1, use_ok, beq_self_eq_true, rcAssert_true, getHead_ok hb.isState.st,
    walkCheck_ok hb.isState.linked, bind, Except.bind]
  exact hb.use_delete hm

theorem testStateInit_ok (hA : SAlloc paddr saddr) (hm : m0.Finite) (ps : List Pos) :
    PutBack m0 (testStateInit paddr saddr ps m0) := by
  obtain ⟨as, m1, s, m2, e1, e2, e3, e4, hb⟩ := half_build hA hm ps
  simp only [testStateInit, e1, e4, use_ok, getHead_ok hb.isState.st,
    walkCheck_ok hb.isState.linked, bind, Except.bind]
  exact hb.use_delete hm

theorem testStateAdd_ok (hA : SAlloc paddr saddr) (hm : m0.Finite) (ps : List Pos) :
    PutBack m0 (testStateAdd paddr saddr ps m0) := by
  obtain ⟨as, m1, e1, e2, e3, h⟩ := half_start hA hm ps
  obtain ⟨m2, f1, f2⟩ := h.addLoop
  have hb : StBuilt m0 m2 (newState saddr m1).1 as := by simpa using f2.built
  simp only [addrs_nil] at f1
  simp only [testStateAdd, e1, f1, bind, Except.bind]
  exact hb.use_delete hm

theorem testStateInsert_ok (hA : SAlloc paddr saddr) (hm : m0.Finite) (ps : List Pos) :
    PutBack m0 (testStateInsert paddr saddr ps m0) := by
  obtain ⟨as, m1, e1, e2, e3, h⟩ := half_start hA hm ps
  obtain ⟨m2, f1, f2⟩ := h.fill
  have hb : StBuilt m0 m2 (newState saddr m1).1 as := by simpa using f2.built
  simp only [lastOr_nil] at f1
  simp only [testStateInsert, e1, f1, use_ok, getHead_ok hb.isState.st,
    walkCheck_ok hb.isState.linked, bind, Except.bind]
  exact hb.use_delete hm

theorem testStateSort_ok (hA : SAlloc paddr saddr) (hm : m0.Finite) (first : Bool) (ps : List Pos) (hp : ps ≠ []) :
    PutBack m0 (testStateSort paddr saddr first ps m0) := by
  obtain ⟨as, m1, s, m2, e1, e2, e3, e4, hb⟩ := half_build hA hm ps
  have has : as ≠ [] := by
    rintro rfl
    exact hp (List.length_eq_zero_iff.1 e2.symm)
  have hp' : ps.isEmpty = false := by simpa using hp
  obtain ⟨m3, l3, f1, f2, f3⟩ := sortAndCheck_ok first .standard hb has
  obtain ⟨m4, l4, g1, g2, g3⟩ := sortAndCheck_ok first .transposition f2 f3
  obtain ⟨m5, l5, h1, h2, h3⟩ := sortAndCheck_ok first .mergeAndSplit g2 g3
  simp only [testStateSort, hp', Bool.not_false, rcPre_true, e1, e4, use_ok, f1, g1, h1, bind, Except.bind]
  exact h2.use_delete hm

theorem vecAt_ok {as : List Nat} {i a : Nat} (h : as[i]? = some a) : vecAt as i = .ok a := by
  simp only [vecAt, h]

theorem testStateRemove_ok (hA : SAlloc paddr saddr) (hm : m0.Finite) (ps : List Pos) (hp : 2 < ps.length) :
    PutBack m0 (testStateRemove paddr saddr ps m0) := by
  obtain ⟨as, m1, s, m2, e1, e2, e3, e4, hb⟩ := half_build hA hm ps
  match as, e2, hp with
  | (x, p) :: (y, q) :: (z, r) :: as, e2, hp =>
    obtain ⟨m3, f1, f2, f3, f4⟩ := stateRemove_first (y := x) hb.isState
    have hb3 : StBuilt m0 m3 s ((y, q) :: (z, r) :: as) := hb.step f2 (f3.mono (by simp))
      ⟨fun a ha => List.mem_cons_of_mem _ ha, fun a ha hna => by
        simp only [addrs_cons, List.mem_cons] at ha hna; grind⟩
    obtain ⟨m4, g1, g2, g3, g4, _⟩ := stateRemove_ok (l1 := []) (w := y) (q := q) (x := z) (p := r) (l2 := as) f2
    have hb4 : StBuilt m0 m4 s ((y, q) :: as) := hb3.step g2 (g3.mono (by simp))
      ⟨fun a ha => by simp only [addrs_cons, List.mem_cons] at ha ⊢; grind, fun a ha hna => by
        simp only [addrs_cons, List.mem_cons] at ha hna; grind⟩
    have s2 : m2.st s = some x := hb.isState.st
    have s3 : m3.st s = some y := f2.st
    have s4 : m4.st s = some y := g2.st
    have v1 : vecAt (addrs ((x, p) :: (y, q) :: (z, r) :: as)) 1 = .ok y := rfl
    have c3 : getCell m3 y = .ok ⟨q, z⟩ := getCell_ok f2.linked.2.1
    have c4 : getCell m4 y = .ok ⟨q, hd as 0⟩ := getCell_ok g2.linked.2.1
    have hpre : decide (ps.length > 2) = true := by simpa using hp
    simp only [testStateRemove, hpre, rcPre_true, e1, e4, use_ok, getHead_ok s2, f1, v1, getHead_ok s3, beq_self_eq_true,
      rcAssert_true, c3, g1, getHead_ok s4, c4, bind, Except.bind]
    cases as with
    | nil =>
      simp only [addrs_cons, addrs_nil, List.length_cons, List.length_nil, hd_nil, beq_self_eq_true, rcAssert_true]
      exact hb4.use_delete hm
    | cons u as =>
      have v3 : vecAt (addrs ((x, p) :: (y, q) :: (z, r) :: u :: as)) 3 = .ok u.1 := rfl
      have hlen : (addrs ((x, p) :: (y, q) :: (z, r) :: u :: as)).length > 3 := by simp [addrs]
      have hh : hd (u :: as) 0 = u.1 := rfl
      simp only [hlen, if_true, v3, use_ok, hh, beq_self_eq_true, rcAssert_true]
      exact hb4.use_delete hm

theorem curIter_end (pre : Cells) : (curIter s pre [] []).same (siterEnd s) = true := rfl

theorem curIter_notEnd {pre cur post : Cells} (h : PLinked m.pos (cur ++ post) 0) (hne : cur ++ post ≠ []) :
    (curIter s pre cur post).same (siterEnd s) = false := by
  match cur, post, h with
  | [], [], _ => exact absurd rfl hne
  | (x, p) :: cur, post, h =>
    have := h.1
    simp [SIter.same, curIter, siterEnd, this]
  | [], (x, p) :: post, h =>
    have := h.1
    simp [SIter.same, curIter, siterEnd, this]

theorem iterTail_ok (hA : SAlloc paddr saddr) {x0 x1 x2 : Nat} {p1 p2 : Pos} {post : Cells}
    (hb : StBuilt m0 m s ((x1, p1) :: (x2, p2) :: post)) :
    ∃ pre' m' l', iterTail paddr (x0 :: x1 :: x2 :: addrs post) (curIter s [(x1, p1)] [(x2, p2)] post) m =
      .ok (curIter s pre' [] [], m') ∧ StBuilt m0 m' s l' := by
  obtain ⟨m', e1, hb'⟩ := iterInsert_cur hA (p := ⟨0, 0, false⟩) (pre := [(x1, p1)]) (x := x2) (q := p2) (post := post) hb
  have hv : vecAt (x0 :: x1 :: x2 :: addrs post) 2 = .ok x2 := rfl
  have hc : ∀ pre post : Cells, (curIter s pre [(x2, p2)] post).curr = x2 := fun _ _ => rfl
  have hlk := hb'.isState.linked.2.2
  have a1 := siterAdvance_cur (s := s) (pre := [(x1, p1)]) (cur := [(x2, p2)])
    (y := (newPos paddr ⟨0, 0, false⟩ m).1) (q := ⟨0, 0, false⟩) (post := post) hlk (by simp)
  have hc' : ∀ pre post : Cells, (curIter s pre [((newPos paddr ⟨0, 0, false⟩ m).1, ⟨0, 0, false⟩)] post).curr =
    (newPos paddr ⟨0, 0, false⟩ m).1 := fun _ _ => rfl
  have hnew : newPos paddr ⟨0, 0, false⟩ m = ((newPos paddr ⟨0, 0, false⟩ m).1, (newPos paddr ⟨0, 0, false⟩ m).2) := rfl
  have hdrop : (x0 :: x1 :: x2 :: addrs post).drop 3 = addrs post := rfl
  have hrest : ∃ it pre', siterAdvance m' (curIter s ([(x1, p1)] ++ [(x2, p2)])
      [((newPos paddr ⟨0, 0, false⟩ m).1, ⟨0, 0, false⟩)] post) = .ok it ∧
      iterRest m' (addrs post) it = .ok (curIter s pre' [] []) := by
    cases post with
    | nil => exact ⟨_, _, siterAdvance_last (by simpa using hlk.2.2) (by simp), rfl⟩
    | cons y post =>
      obtain ⟨y, q⟩ := y
      obtain ⟨pre', e⟩ := iterRest_ok (s := s) (m := m')
        (pre := [(x1, p1)] ++ [(x2, p2)] ++ [((newPos paddr ⟨0, 0, false⟩ m).1, ⟨0, 0, false⟩)])
        (cur := [(y, q)]) (post := post) (by simpa using hlk.2.2.2.2) (by simp) (by simp)
      exact ⟨_, pre', siterAdvance_cur (by simpa using hlk.2.2) (by simp), e⟩
  obtain ⟨it, pre', a2, a3⟩ := hrest
  refine ⟨pre', m', _, ?_, hb'⟩
  simp only [iterTail, hv, use_ok, hc, beq_self_eq_true, rcAssert_true, bind, Except.bind]
  simp only [e1, use_ok, hc, beq_self_eq_true, rcAssert_true, a1, hc', a2, hdrop, a3]

theorem testStateIterate_ok (hA : SAlloc paddr saddr) (hm : m0.Finite) (ps : List Pos) :
    PutBack m0 (testStateIterate paddr saddr ps m0) := by
  obtain ⟨as, m1, s, m2, e1, e2, e3, e4, hb⟩ := half_build hA hm ps
  have hfirst : as ≠ [] → ∃ pre' m' l', iterFirst paddr (addrs as) (iterAt s as 0) (siterEnd s) m2 =
      .ok (curIter s pre' [] [], m') ∧ StBuilt m0 m' s l' := by
    intro hne
    match as, hb, hne with
    | (x, p) :: as, hb, _ =>
      have hi : iterAt s ((x, p) :: as) 0 = curIter s [] [(x, p)] as := rfl
      obtain ⟨m3, f1, hb3⟩ := iterRemove_cur hb
      have hv : vecAt (addrs ((x, p) :: as)) 0 = .ok x := rfl
      have hc : (curIter s [] [(x, p)] as).curr = x := rfl
      have hc0 : (curIter s [] [] as).curr = 0 := rfl
      have hne := curIter_notEnd (s := s) (pre := []) (cur := [(x, p)]) (post := as) hb.isState.linked (by simp)
      simp only [iterFirst, hi, hne, Bool.not_false, rcAssert_true, hv, use_ok, hc, hc0, beq_self_eq_true, f1, bind, Except.bind]
      cases as with
      | nil =>
        refine ⟨[], m3, [], ?_, hb3⟩
        simp only [addrs_cons, addrs_nil, List.length_cons, List.length_nil, if_true, curIter_end, rcAssert_true]
      | cons y as =>
        obtain ⟨y, q⟩ := y
        have hlen : ¬ (addrs ((x, p) :: (y, q) :: as)).length = 1 := by simp [addrs]
        have hne3 := curIter_notEnd (s := s) (pre := []) (cur := []) (post := (y, q) :: as) hb3.isState.linked (by simp)
        have a1 := siterAdvance_cur (s := s) (pre := []) (cur := []) (y := y) (q := q) (post := as) hb3.isState.linked (by simp)
        have hv1 : vecAt (addrs ((x, p) :: (y, q) :: as)) 1 = .ok y := rfl
        have hc1 : ∀ pre, (curIter s pre [(y, q)] as).curr = y := fun _ => rfl
        simp only [hlen, if_false, iterSecond, hne3, Bool.not_false, rcAssert_true, a1, use_ok, hv1, hc1, beq_self_eq_true,
          bind, Except.bind]
        cases as with
        | nil =>
          have a2 := siterAdvance_last (s := s) (pre := [] ++ []) (cur := [(y, q)]) (m := m3) hb3.isState.linked (by simp)
          refine ⟨[] ++ [] ++ [(y, q)], m3, _, ?_, hb3⟩
          simp only [a2, use_ok, addrs_cons, addrs_nil, List.length_cons, List.length_nil, if_true, curIter_end, rcAssert_true]
        | cons z as =>
          obtain ⟨z, r⟩ := z
          have a2 := siterAdvance_cur (s := s) (pre := [] ++ []) (cur := [(y, q)]) (y := z) (q := r) (post := as) (m := m3)
            hb3.isState.linked (by simp)
          have hlen : ¬ (addrs ((x, p) :: (y, q) :: (z, r) :: as)).length = 2 := by simp [addrs]
          obtain ⟨pre', m', l', t1, t2⟩ := iterTail_ok hA (x0 := x) hb3
          refine ⟨pre', m', l', ?_, t2⟩
          simp only [a2, use_ok, hlen, if_false]
          exact t1
  have hbegin := siterBegin_ok hb.isState
  cases ps with
  | nil =>
    have has : as = [] := List.length_eq_zero_iff.1 e2
    subst has
    simp only [testStateIterate, e1, e4, use_ok, hbegin, List.isEmpty_nil, if_true, bind, Except.bind]
    have hi : iterAt s ([] : Cells) 0 = curIter s [] [] [] := rfl
    have hc0 : (curIter s [] [] []).curr = 0 := rfl
    simp only [hi, curIter_end, rcAssert_true, hc0, beq_self_eq_true]
    exact hb.use_delete hm
  | cons p0 ps =>
    have has : as ≠ [] := by
      rintro rfl
      simp at e2
    obtain ⟨pre', m', l', t1, t2⟩ := hfirst has
    have hc0 : (curIter s pre' [] []).curr = 0 := rfl
    simp only [testStateIterate, e1, e4, use_ok, hbegin, List.isEmpty_cons, Bool.false_eq_true, if_false, t1, hc0, beq_self_eq_true,
      rcAssert_true, curIter_end, bind, Except.bind]
    exact t2.use_delete hm

theorem compareCheck_ok (p c : Pos) : compareCheck p c = .ok () := by
  unfold compareCheck
  by_cases h1 : p.index < c.index
  · simp [h1, comparePos, bind, Except.bind]
  · by_cases h2 : c.index < p.index
    · simp [h1, h2, comparePos, bind, Except.bind]
    · by_cases h3 : p.errors < c.errors
      · simp [h1, h2, h3, comparePos, bind, Except.bind]
      · by_cases h4 : c.errors < p.errors
        · simp [h1, h2, h3, h4, comparePos, bind, Except.bind]
        · cases hp : p.special <;> cases hc : c.special <;>
            simp [h1, h2, h3, h4, hp, hc, comparePos, bind, Except.bind]

theorem compareLoop_ok {y : Nat} {q : Pos} (hy : m.pos y = some ⟨q, 0⟩) (h : ∀ x ∈ o, x.1 ≠ 0 ∧ m.pos x.1 = some ⟨x.2, 0⟩) :
    compareLoop m y (addrs o) = .ok () := by
  induction o generalizing y q with
  | nil => rfl
  | cons x o ih =>
    obtain ⟨_, hx⟩ := h x (by simp)
    simp only [addrs_cons, compareLoop, getCell_ok hy, getCell_ok hx, use_ok, compareCheck_ok, bind, Except.bind]
    exact ih hx fun z hz => h z (by simp [hz])

theorem deletePositions_ok (h : ∀ x ∈ o, x.1 ≠ 0 ∧ m.pos x.1 = some ⟨x.2, 0⟩) (hn : (addrs o).Nodup) :
    ∃ m', deletePositions (addrs o) m = .ok m' ∧ m'.st = m.st ∧ (∀ a ∈ addrs o, m'.pos a = none) ∧
      ∀ a, a ∉ addrs o → m'.pos a = m.pos a := by
  induction o generalizing m with
  | nil => exact ⟨m, rfl, rfl, by simp, fun _ _ => rfl⟩
  | cons x o ih =>
    obtain ⟨x, p⟩ := x
    obtain ⟨h0, hx⟩ := h (x, p) (by simp)
    simp only [addrs_cons, List.nodup_cons] at hn
    have hw : ∀ a, (without m [x]).pos a = if a = x then none else m.pos a := by
      intro a
      simp [without]
    obtain ⟨m', e1, e2, e3, e4⟩ := ih (m := without m [x]) (fun z hz => by
      refine ⟨(h z (by simp [hz])).1, ?_⟩
      rw [hw, if_neg]
      · exact (h z (by simp [hz])).2
      · intro hc; exact hn.1 (hc ▸ List.mem_map_of_mem hz)) hn.2
    refine ⟨m', ?_, e2, ?_, ?_⟩
    · simp only [addrs_cons, deletePositions, deletePos_single hx h0, bind, Except.bind]
      exact e1
    · intro a ha
      by_cases hc : a ∈ addrs o
      · exact e3 a hc
      · have hax : a = x := by simpa [hc] using ha
        rw [e4 a hc, hw, if_pos hax]
    · intro a ha
      simp only [addrs_cons, List.mem_cons, not_or] at ha
      rw [e4 a ha.2, hw, if_neg ha.1]

theorem testCompare_ok (hA : SAlloc paddr saddr) (hm : m0.Finite) (ps : List Pos) :
    PutBack m0 (testCompare paddr ps m0) := by
  obtain ⟨m1, as, e1, e2, e3, e4, e5, e6, e7, e8⟩ := newPositions_ok hA hm ps
  obtain ⟨m2, f1, f2, f3, f4⟩ := deletePositions_ok e3 e4
  refine ⟨m2, ?_, ?_, by rw [f2, e7]⟩
  · simp only [testCompare, e1, bind, Except.bind]
    cases as with
    | nil => simp only [addrs_nil] at f1 ⊢; rw [f1]; rfl
    | cons y as =>
      have := compareLoop_ok (e3 y (by simp)).2 (o := as) (fun x hx => e3 x (by simp [hx]))
      simp only [addrs_cons] at f1 ⊢
      rw [this, f1]; rfl
  · funext a
    by_cases ha : a ∈ addrs as
    · rw [f3 a ha, e5 a ha]
    · rw [f4 a ha, e6 a ha]

end

end Lev
