import Verif.Proofs.StateHeapTrans
import Verif.Proofs.QueryAll

/-!
The transition of states in memory, the memory of queries, and what destroying a query frees.
-/

namespace Lev

/-! ### A new state -/

/-- `m` is `m0` with the new state `s`, made of the new cells `l`, and nothing else. -/
structure StBuilt (m0 m : SMem) (s : Nat) (l : Cells) : Prop where
  isState : IsState m s l
  nonnull : s ≠ 0
  fresh : m0.st s = none
  new : ∀ a ∈ addrs l, m0.pos a = none
  pos : ∀ a, a ∉ addrs l → m.pos a = m0.pos a
  st : ∀ s', s' ≠ s → m.st s' = m0.st s'
  finite : m.Finite

theorem StBuilt.step {m0 m m' : SMem} {s : Nat} {l l' : Cells} (h : StBuilt m0 m s l) (hs : IsState m' s l')
    (ho : Only (addrs l) s m m') (ht : Tidy (addrs l) l' m') : StBuilt m0 m' s l' where
  isState := hs
  nonnull := h.nonnull
  fresh := h.fresh
  new a ha := h.new a (ht.sub a ha)
  pos a ha := by
    by_cases hal : a ∈ addrs l
    · rw [ht.dead a hal ha, h.new a hal]
    · rw [ho.pos a hal, h.pos a hal]
  st s' hs' := by rw [ho.st s' hs', h.st s' hs']
  finite := ho.finite h.finite

/-- The old states are still there. -/
theorem StBuilt.keep {m0 m : SMem} {s s' : Nat} {l l' : Cells} (h : StBuilt m0 m s l) (hs : IsState m0 s' l') :
    IsState m s' l' := by
  have hne : s' ≠ s := by rintro rfl; have := hs.st; rw [h.fresh] at this; cases this
  refine ⟨by rw [h.st s' hne]; exact hs.st, PLinked.frame hs.linked fun a ha => h.pos a fun hc => ?_, hs.nodup⟩
  obtain ⟨c, hc'⟩ := hs.linked.alive a ha
  rw [h.new a hc] at hc'
  cases hc'

theorem newState_built {paddr saddr : SMem → Nat} (hA : SAlloc paddr saddr) {m : SMem} (hf : m.Finite) :
    StBuilt m (newState saddr m).2 (newState saddr m).1 [] := by
  obtain ⟨h0, hn⟩ := hA.st m hf
  refine ⟨⟨by simp [newState], trivial, by simp⟩, h0, hn, by simp, fun _ _ => rfl, fun s' hs => upd1_ne _ _ hs, ?_⟩
  obtain ⟨⟨L, hL, hm⟩, L', hL', hm'⟩ := hf
  refine ⟨⟨L, by simp only [newState]; omega, hm⟩, saddr m :: L', by simp only [newState, List.length_cons]; omega, ?_⟩
  intro s h hs
  by_cases he : s = saddr m
  · simp [he]
  · simp only [newState, upd1_ne _ _ he] at hs
    exact List.mem_cons_of_mem _ (hm' s h hs)

theorem newPositions_ok {paddr saddr : SMem → Nat} (hA : SAlloc paddr saddr) {m : SMem} (hf : m.Finite) (ps : List Pos) :
    ∃ m' as, newPositions paddr ps m = (addrs as, m') ∧ poss as = ps ∧
      (∀ x ∈ as, x.1 ≠ 0 ∧ m'.pos x.1 = some ⟨x.2, 0⟩) ∧ (addrs as).Nodup ∧ (∀ a ∈ addrs as, m.pos a = none) ∧
      (∀ a, a ∉ addrs as → m'.pos a = m.pos a) ∧ m'.st = m.st ∧ m'.Finite := by
  induction ps generalizing m with
  | nil => exact ⟨m, [], rfl, rfl, by simp, by simp, by simp, fun _ _ => rfl, rfl, hf⟩
  | cons p ps ih =>
    obtain ⟨h0, hn⟩ := hA.pos m hf
    have hf1 : (newPos paddr p m).2.Finite := by
      obtain ⟨⟨L, hL, hm⟩, L', hL', hm'⟩ := hf
      refine ⟨⟨paddr m :: L, by simp only [newPos, List.length_cons]; omega, ?_⟩, L', by simp only [newPos]; omega, hm'⟩
      intro a c hc
      by_cases he : a = paddr m
      · simp [he]
      · simp only [newPos, upd1_ne _ _ he] at hc
        exact List.mem_cons_of_mem _ (hm a c hc)
    obtain ⟨m', as, e1, e2, e3, e4, e5, e6, e7, e8⟩ := ih hf1
    have hnew : (newPos paddr p m).2.pos (paddr m) = some ⟨p, 0⟩ := by simp [newPos]
    have hnotin : paddr m ∉ addrs as := by
      intro hc
      have := e5 _ hc
      rw [hnew] at this
      cases this
    refine ⟨m', (paddr m, p) :: as, ?_, by simp [e2], ?_, ?_, ?_, ?_, ?_, e8⟩
    · simp only [newPositions, e1]
      rfl
    · intro x hx
      rcases List.mem_cons.1 hx with rfl | hx
      · exact ⟨h0, by rw [e6 _ hnotin]; exact hnew⟩
      · exact e3 x hx
    · simp only [addrs_cons, List.nodup_cons]; exact ⟨hnotin, e4⟩
    · intro a ha
      rcases List.mem_cons.1 ha with rfl | ha
      · exact hn
      · have h1 := e5 a ha
        by_cases he : a = paddr m
        · subst he; exact absurd ha hnotin
        · simpa only [newPos, upd1_ne _ _ he] using h1
    · intro a ha
      simp only [addrs_cons, List.mem_cons, not_or] at ha
      rw [e6 a ha.2]
      simp only [newPos, upd1_ne _ _ ha.1]
    · rw [e7]; rfl

/-- The positions of one `position_transition`, allocated and merged. -/
theorem StBuilt.merge {paddr saddr : SMem → Nat} (hA : SAlloc paddr saddr) {A : Algorithm} {m0 m : SMem} {s : Nat} {l : Cells}
    (h : StBuilt m0 m s l) (ps : List Pos) :
    ∃ m' l', mergeAllH A s (newPositions paddr ps m).1 (newPositions paddr ps m).2 = .ok m' ∧ StBuilt m0 m' s l' ∧
      poss l' = mergeAll A (poss l) ps := by
  obtain ⟨m1, as, e1, e2, e3, e4, e5, e6, e7, e8⟩ := newPositions_ok hA h.finite ps
  have hdis : ∀ a ∈ addrs l, a ∉ addrs as := by
    intro a ha hc
    obtain ⟨c, hc'⟩ := h.isState.linked.alive a ha
    rw [e5 a hc] at hc'
    cases hc'
  have hs1 : IsState m1 s l :=
    ⟨by rw [e7]; exact h.isState.st, PLinked.frame h.isState.linked fun a ha => e6 a (hdis a ha), h.isState.nodup⟩
  have hn : (addrs (as ++ l)).Nodup := by
    rw [addrs_append]
    exact List.nodup_append.2 ⟨e4, hs1.nodup, fun a ha b hb he => hdis b hb (he ▸ ha)⟩
  obtain ⟨m2, l2, f1, f2, f3, f4, f5⟩ := mergeAllH_ok (A := A) e8 hs1 e3 hn
  have hold : ∀ a ∈ addrs (as ++ l), m0.pos a = none := by
    intro a ha
    rw [addrs_append, List.mem_append] at ha
    rcases ha with ha | ha
    · by_cases hal : a ∈ addrs l
      · exact h.new a hal
      · rw [← h.pos a hal]; exact e5 a ha
    · exact h.new a ha
  refine ⟨m2, l2, by rw [e1]; exact f1, ⟨f2, h.nonnull, h.fresh, fun a ha => hold a (f5.sub a ha), ?_, ?_, f4.finite e8⟩,
    by rw [f3, e2]⟩
  · intro a ha
    by_cases hc : a ∈ addrs (as ++ l)
    · rw [f5.dead a hc ha, hold a hc]
    · rw [f4.pos a hc]
      simp only [addrs_append, List.mem_append, not_or] at hc
      rw [e6 a hc.1, h.pos a hc.2]
  · intro s' hs'
    rw [f4.st s' hs', e7, h.st s' hs']

theorem transLoopH_ok {paddr saddr : SMem → Nat} (hA : SAlloc paddr saddr) {A : Algorithm} {n : Nat} {cv : List Bool}
    {offset : Nat} {m0 m : SMem} {s next fuel pv : Nat} {rest l : Cells} {res : List Pos} (hr : PLinked m0.pos rest 0)
    (h : StBuilt m0 m next l) (hfu : rest.length < fuel) (ht : transLoop A n cv offset (poss rest) (poss l) = .ok res) :
    ∃ m' l', transLoopH paddr A n cv offset next fuel (iterAt s rest pv) m = .ok m' ∧ StBuilt m0 m' next l' ∧
      poss l' = res := by
  induction fuel generalizing m rest l pv with
  | zero => omega
  | succ fuel ih =>
    have hkeep : ∀ {m'' : SMem} {l'' : Cells}, StBuilt m0 m'' next l'' → PLinked m''.pos rest 0 := by
      intro m'' l'' hb
      refine PLinked.frame hr fun a ha => hb.pos a fun hc => ?_
      obtain ⟨c, hc'⟩ := hr.alive a ha
      rw [hb.new a hc] at hc'
      cases hc'
    cases rest with
    | nil =>
      simp only [poss_nil, transLoop, Except.ok.injEq] at ht
      exact ⟨m, l, by simp [transLoopH], h, ht⟩
    | cons x rest =>
      obtain ⟨x, p⟩ := x
      have hx := hkeep h
      have h1 : getCell m (iterAt s ((x, p) :: rest) pv).curr = .ok ⟨p, hd rest 0⟩ := getCell_ok hx.2.1
      simp only [poss_cons, transLoop] at ht
      cases hp : posTrans A n p cv offset with
      | error e => rw [hp] at ht; cases ht
      | ok ps =>
        simp only [hp, bind, Except.bind] at ht
        obtain ⟨m1, l1, e1, e2, e3⟩ := h.merge hA (A := A) ps
        rw [← e3] at ht
        obtain ⟨m2, l2, f1, f2, f3⟩ := ih (pv := x) hr.2.2 e2 (by simp only [List.length_cons] at hfu; omega) ht
        refine ⟨m2, l2, ?_, f2, f3⟩
        simp only [transLoopH, iterAt_notEnd hr.1, Bool.false_eq_true, if_false, h1, hp, e1, bind, Except.bind,
          siterAdvance_ok (hkeep e2), f1]

/-- The state `s` has the positions `l`. -/
def HRep (m : SMem) (s : Nat) (l : List Pos) : Prop := m.Finite ∧ ∃ c, IsState m s c ∧ poss c = l

/-- The new state before the test whether it is empty. -/
theorem stateTransH_core {paddr saddr : SMem → Nat} (hA : SAlloc paddr saddr) {A : Algorithm} {n len : Nat}
    {m : SMem} {s : Nat} {hdp : Pos} {tl : List Pos} {cv : List Bool} {res : List Pos} (first : Bool) (h : HRep m s (hdp :: tl))
    (ht : transLoop A n cv hdp.index (hdp :: tl) [] = .ok res) :
    ∃ m2 l2 next, StBuilt m m2 next l2 ∧ poss l2 = unsubsume (fun a b => subsumes A a b len) res ∧
      stateTransH paddr saddr first A n len s cv m = (if hd l2 0 ≠ 0 then do
        let m ← stateSort first (comparePos A) next m2
        .ok (m, some next)
      else do
        let m ← deleteState next m2
        .ok (m, none)) := by
  obtain ⟨hf, c, hs, hc⟩ := h
  cases c with
  | nil => cases hc
  | cons x c =>
    obtain ⟨x, p⟩ := x
    simp only [poss_cons, List.cons.injEq] at hc
    obtain ⟨rfl, rfl⟩ := hc
    have hb := newState_built hA hf
    have hst : m.st s = some x := hs.st
    have hx : m.pos x = some ⟨p, hd c 0⟩ := hs.linked.2.1
    have hs' := hb.keep hs
    have hlen := hs'.length hb.finite
    obtain ⟨m1, l1, e1, e2, e3⟩ := transLoopH_ok (s := s) (pv := 0) (fuel := (newState saddr m).2.steps) hA hs.linked hb
      (by unfold SMem.steps; omega) (by simpa using ht)
    obtain ⟨m2, l2, f1, f2, f3, f4, f5⟩ := unsubsumeH_ok (sub := fun a b => subsumes A a b len) e2.finite e2.isState
    have hb2 := e2.step f2 f4 f5
    refine ⟨m2, l2, _, hb2, by rw [f3, e3], ?_⟩
    simp only [stateTransH, getHead_ok hst, getCell_ok hx, bind, Except.bind]
    rw [show newState saddr m = ((newState saddr m).1, (newState saddr m).2) from rfl]
    simp only [siterBegin_ok hs', e1, f1, getHead_ok hb2.isState.st]

/-- A transition to a state. -/
theorem stateTransH_some {paddr saddr : SMem → Nat} (hA : SAlloc paddr saddr) {A : Algorithm} {n len : Nat}
    {m : SMem} {s : Nat} {l l' : List Pos} {cv : List Bool} (first : Bool) (h : HRep m s l)
    (ht : stateTrans A n len l cv = .ok (some l')) :
    ∃ m' next c, stateTransH paddr saddr first A n len s cv m = .ok (m', some next) ∧ StBuilt m m' next c ∧ poss c = l' := by
  cases l with
  | nil => cases ht
  | cons hdp tl =>
    simp only [stateTrans] at ht
    cases htl : transLoop A n cv hdp.index (hdp :: tl) [] with
    | error e => rw [htl] at ht; cases ht
    | ok res =>
      simp only [htl, bind, Except.bind] at ht
      obtain ⟨m2, l2, next, e1, e2, e3⟩ := stateTransH_core (len := len) hA first h htl
      rw [← e2] at ht
      cases l2 with
      | nil => cases ht
      | cons y l2 =>
        obtain ⟨y, q⟩ := y
        have hl' : mergeSort (comparePos A) (poss ((y, q) :: l2)) = l' := by
          have := Except.ok.inj ht
          exact Option.some.inj this
        obtain ⟨m3, R, f1, f2, f3, f4, f5⟩ := stateSort_ok (first := first) (cmp := comparePos A) e1.finite e1.isState
        refine ⟨m3, next, R, ?_, e1.step f2 f5 (Tidy.of_perm f4), by rw [f3, poss_mergeSort, hl']⟩
        have hy : y ≠ 0 := e1.isState.linked.1
        rw [e3]
        simp only [hd_cons, ne_eq, hy, not_false_eq_true, if_true, f1, bind, Except.bind]

/-- A transition to nowhere: the memory is as before. -/
theorem stateTransH_none {paddr saddr : SMem → Nat} (hA : SAlloc paddr saddr) {A : Algorithm} {n len : Nat}
    {m : SMem} {s : Nat} {l : List Pos} {cv : List Bool} (first : Bool) (h : HRep m s l)
    (ht : stateTrans A n len l cv = .ok none) :
    ∃ m', stateTransH paddr saddr first A n len s cv m = .ok (m', none) ∧ m'.pos = m.pos ∧ m'.st = m.st ∧ m'.Finite := by
  cases l with
  | nil => cases ht
  | cons hdp tl =>
    simp only [stateTrans] at ht
    cases htl : transLoop A n cv hdp.index (hdp :: tl) [] with
    | error e => rw [htl] at ht; cases ht
    | ok res =>
      simp only [htl, bind, Except.bind] at ht
      obtain ⟨m2, l2, next, e1, e2, e3⟩ := stateTransH_core (len := len) hA first h htl
      rw [← e2] at ht
      cases l2 with
      | cons y l2 => cases ht
      | nil =>
        have hst : m2.st next = some 0 := e1.isState.st
        have hdel : deletePos 0 m2 = .ok m2 := by simp [deletePos, SMem.steps, deletePosLoop]
        refine ⟨⟨m2.pos, upd1 m2.st next none, m2.count⟩, ?_, ?_, ?_, ?_⟩
        · rw [e3]
          simp [deleteState, freeState, e1.nonnull, getHead_ok hst, hdel, bind, Except.bind]
        · funext a; exact e1.pos a (by simp)
        · funext s'
          by_cases hs : s' = next
          · subst hs; simp [e1.fresh]
          · simp only [upd1_ne _ _ hs]; exact e1.st s' hs
        · obtain ⟨hL, L', hL', hm'⟩ := e1.finite
          refine ⟨hL, L', hL', fun s' h' hs => ?_⟩
          by_cases he : s' = next
          · subst he; simp at hs
          · simp only [upd1_ne _ _ he] at hs; exact hm' s' h' hs

theorem distLoopH_ok {A : Algorithm} {len : Nat} {m : SMem} {s fuel pv d : Nat} {l : Cells} (h : PLinked m.pos l 0)
    (hfu : l.length < fuel) : distLoopH A len m fuel (iterAt s l pv) d = .ok ((poss l).foldl (fun m p =>
    if A ≠ .standard ∧ p.special then m
    else
      let d := wadd (wsub len p.index) p.errors
      if d < m then d else m) d) := by
  induction l generalizing fuel pv d with
  | nil =>
    cases fuel with
    | zero => simp at hfu
    | succ fuel => simp [distLoopH]
  | cons x l ih =>
    obtain ⟨x, p⟩ := x
    cases fuel with
    | zero => simp at hfu
    | succ fuel =>
      have h1 : getCell m (iterAt s ((x, p) :: l) pv).curr = .ok ⟨p, hd l 0⟩ := getCell_ok h.2.1
      simp only [distLoopH, iterAt_notEnd h.1, Bool.false_eq_true, if_false, h1, siterAdvance_ok h, bind, Except.bind,
        poss_cons, List.foldl_cons]
      exact ih h.2.2 (by simp only [List.length_cons] at hfu; omega)

theorem stateDistH_ok {A : Algorithm} {len : Nat} {m : SMem} {s : Nat} {l : List Pos} (h : HRep m s l) :
    stateDistH A s len m = .ok (stateDist A l len) := by
  obtain ⟨hf, c, hs, rfl⟩ := h
  have := hs.length hf
  simp only [stateDistH, siterBegin_ok hs, bind, Except.bind]
  exact distLoopH_ok hs.linked (by unfold SMem.steps; omega)

theorem heapBackend_ok {paddr saddr : SMem → Nat} (hA : SAlloc paddr saddr) (first : Bool) (A : Algorithm) (n len : Nat) :
    BackendOk A n len (heapBackend paddr saddr first A n len) HRep where
  head := by
    rintro m s p tl ⟨hf, c, hs, hc⟩
    cases c with
    | nil => cases hc
    | cons x c =>
      obtain ⟨x, p⟩ := x
      simp only [poss_cons, List.cons.injEq] at hc
      obtain ⟨rfl, rfl⟩ := hc
      have hst : m.st s = some x := hs.st
      have hx : m.pos x = some ⟨p, hd c 0⟩ := hs.linked.2.1
      simp [heapBackend, getHead_ok hst, getCell_ok hx, bind, Except.bind]
  dist := fun h => stateDistH_ok h
  trans_none := by
    intro m s l cv h ht
    obtain ⟨m', e1, e2, e3, e4⟩ := stateTransH_none hA first h ht
    refine ⟨m', e1, ?_⟩
    rintro s' l' ⟨_, c, hs, hc⟩
    exact ⟨e4, c, ⟨by rw [e3]; exact hs.st, by rw [e2]; exact hs.linked, hs.nodup⟩, hc⟩
  trans_some := by
    intro m s l cv l' h ht
    obtain ⟨m', next, c, e1, e2, e3⟩ := stateTransH_some hA first h ht
    refine ⟨m', next, e1, ⟨e2.finite, c, e2.isState, e3⟩, ?_⟩
    rintro s' l' ⟨_, c', hs, hc⟩
    exact ⟨e2.finite, c', e2.keep hs, hc⟩

/-! ### Accounting for the states of queries -/

/-- `m` is `m0` with the states `o` and their cells, and nothing else. -/
structure Accounted (m0 m : SMem) (o : List Nat) : Prop where
  finite : m.Finite
  nodup : o.Nodup
  states : ∀ s ∈ o, s ≠ 0 ∧ m0.st s = none ∧ ∃ l, IsState m s l ∧ ∀ a ∈ addrs l, m0.pos a = none
  disjoint : ∀ s ∈ o, ∀ s' ∈ o, s ≠ s' → ∀ l l', IsState m s l → IsState m s' l' → ∀ a ∈ addrs l, a ∉ addrs l'
  st : ∀ s, s ∉ o → m.st s = m0.st s
  pos : ∀ a, (∀ s ∈ o, ∀ l, IsState m s l → a ∉ addrs l) → m.pos a = m0.pos a

theorem Accounted.refl {m : SMem} (h : m.Finite) : Accounted m m [] :=
  ⟨h, by simp, by simp, by simp, fun _ _ => rfl, fun _ _ => rfl⟩

theorem Accounted.perm {m0 m : SMem} {o o' : List Nat} (h : Accounted m0 m o) (hp : o.Perm o') : Accounted m0 m o' where
  finite := h.finite
  nodup := hp.nodup_iff.1 h.nodup
  states s hs := h.states s (hp.mem_iff.2 hs)
  disjoint s hs s' hs' := h.disjoint s (hp.mem_iff.2 hs) s' (hp.mem_iff.2 hs')
  st s hs := h.st s fun hc => hs (hp.mem_iff.1 hc)
  pos a ha := h.pos a fun s hs => ha s (hp.mem_iff.1 hs)

theorem Accounted.all {m0 m : SMem} (h : Accounted m0 m []) : m.pos = m0.pos ∧ m.st = m0.st :=
  ⟨funext fun a => h.pos a (by simp), funext fun s => h.st s (by simp)⟩

/-- The states there were are still there. -/
theorem Accounted.keep {m0 m : SMem} {o : List Nat} (h : Accounted m0 m o) {s : Nat} {l : Cells} (hs : IsState m0 s l) :
    s ∉ o ∧ IsState m s l := by
  have hno : s ∉ o := fun hc => by
    have := (h.states s hc).2.1
    rw [hs.st] at this; cases this
  refine ⟨hno, by rw [h.st s hno]; exact hs.st, PLinked.frame hs.linked fun a ha => h.pos a fun s' hs' l' hl' hc => ?_,
    hs.nodup⟩
  obtain ⟨c, hc'⟩ := hs.linked.alive a ha
  obtain ⟨_, _, l'', h1, h2⟩ := h.states s' hs'
  rw [hl'.unique h1] at hc
  rw [h2 a hc] at hc'
  cases hc'

theorem Accounted.same {m0 m m' : SMem} {o : List Nat} (h : Accounted m0 m o) (hp : m'.pos = m.pos) (hs : m'.st = m.st)
    (hf : m'.Finite) : Accounted m0 m' o := by
  have hi : ∀ {s l}, IsState m' s l ↔ IsState m s l := by
    intro s l
    constructor
    · rintro ⟨h1, h2, h3⟩; exact ⟨by rw [← hs]; exact h1, by rw [← hp]; exact h2, h3⟩
    · rintro ⟨h1, h2, h3⟩; exact ⟨by rw [hs]; exact h1, by rw [hp]; exact h2, h3⟩
  refine ⟨hf, h.nodup, fun s hs' => ?_, fun s h1 s' h2 h3 l l' h4 h5 => ?_, fun s h1 => ?_, fun a h1 => ?_⟩
  · obtain ⟨h0, h1, l, h2, h3⟩ := h.states s hs'
    exact ⟨h0, h1, l, hi.2 h2, h3⟩
  · exact h.disjoint s h1 s' h2 h3 l l' (hi.1 h4) (hi.1 h5)
  · rw [hs]; exact h.st s h1
  · rw [hp]; exact h.pos a fun s h2 l h3 => h1 s h2 l (hi.2 h3)

theorem Accounted.grow {m0 m m' : SMem} {o : List Nat} {s : Nat} {l : Cells} (h : Accounted m0 m o) (hb : StBuilt m m' s l) :
    Accounted m0 m' (o ++ [s]) := by
  have hso : s ∉ o := by
    intro hc
    obtain ⟨_, _, l', h1, _⟩ := h.states s hc
    have := h1.st
    rw [hb.fresh] at this; cases this
  have hold : ∀ s' ∈ o, ∀ l', IsState m' s' l' → IsState m s' l' := by
    intro s' hs' l' hl'
    obtain ⟨_, _, l'', h1, _⟩ := h.states s' hs'
    rw [hl'.unique (hb.keep h1)]; exact h1
  have halive : ∀ s' ∈ o, ∀ l', IsState m s' l' → ∀ a ∈ addrs l', a ∉ addrs l := by
    intro s' hs' l' hl' a ha hc
    obtain ⟨c, hc'⟩ := hl'.linked.alive a ha
    rw [hb.new a hc] at hc'; cases hc'
  refine ⟨hb.finite, ?_, ?_, ?_, ?_, ?_⟩
  · refine List.nodup_append.2 ⟨h.nodup, by simp, ?_⟩
    rintro a ha b hb' rfl
    simp at hb'
    exact hso (hb' ▸ ha)
  · intro s' hs'
    rcases List.mem_append.1 hs' with hs' | hs'
    · obtain ⟨h0, h1, l', h2, h3⟩ := h.states s' hs'
      exact ⟨h0, h1, l', hb.keep h2, h3⟩
    · simp only [List.mem_singleton] at hs'
      subst hs'
      refine ⟨hb.nonnull, by rw [← h.st s' hso]; exact hb.fresh, l, hb.isState, fun a ha => ?_⟩
      rw [← h.pos a fun s'' hs'' l'' hl'' hc => halive s'' hs'' l'' hl'' a hc ha]
      exact hb.new a ha
  · intro s1 h1' s2 h2' hne l1 l2 i1 i2 a ha hc
    rcases List.mem_append.1 h1' with h1 | h1 <;> rcases List.mem_append.1 h2' with h2 | h2
    · exact h.disjoint s1 h1 s2 h2 hne l1 l2 (hold s1 h1 l1 i1) (hold s2 h2 l2 i2) a ha hc
    · simp only [List.mem_singleton] at h2
      subst h2
      rw [i2.unique hb.isState] at hc
      exact halive s1 h1 l1 (hold s1 h1 l1 i1) a ha hc
    · simp only [List.mem_singleton] at h1
      subst h1
      rw [i1.unique hb.isState] at ha
      exact halive s2 h2 l2 (hold s2 h2 l2 i2) a hc ha
    · simp only [List.mem_singleton] at h1 h2
      exact hne (h1.trans h2.symm)
  · intro s' hs'
    simp only [List.mem_append, List.mem_singleton, not_or] at hs'
    rw [hb.st s' hs'.2, h.st s' hs'.1]
  · intro a ha
    have h1 : a ∉ addrs l := ha s (by simp) l hb.isState
    rw [hb.pos a h1]
    refine h.pos a fun s' hs' l' hl' => ha s' (by simp [hs']) l' (hb.keep hl')

/-- Transitions keep the accounts. -/
theorem accounted_stable {paddr saddr : SMem → Nat} (hA : SAlloc paddr saddr) (first : Bool) (A : Algorithm) (n len : Nat)
    (m0 : SMem) (others : List Nat) :
    Stable A n len (heapBackend paddr saddr first A n len) HRep (fun m o => Accounted m0 m (others ++ o)) where
  none := by
    intro m s l cv m' o h ht htr hI
    obtain ⟨m1, e1, e2, e3, e4⟩ := stateTransH_none hA first h ht
    have : m1 = m' := by
      have := e1.symm.trans htr
      simp only [Except.ok.injEq, Prod.mk.injEq, and_true] at this
      exact this
    subst this
    exact hI.same e2 e3 e4
  some := by
    intro m s l cv l' m' s' o h ht htr hI
    obtain ⟨m1, next, c, e1, e2, e3⟩ := stateTransH_some hA first h ht
    have := e1.symm.trans htr
    simp only [Except.ok.injEq, Prod.mk.injEq, Option.some.injEq] at this
    obtain ⟨rfl, rfl⟩ := this
    rw [← List.append_assoc]
    exact hI.grow e2

/-! ### Destruction -/

theorem deleteState_ok {m : SMem} {s : Nat} {l : Cells} (hf : m.Finite) (h : IsState m s l) (h0 : s ≠ 0) :
    deleteState s m = .ok ⟨fun a => if a ∈ addrs l then none else m.pos a, upd1 m.st s none, m.count⟩ := by
  have hs : (without m (addrs l)).st s = some (hd l 0) := h.st
  simp only [deleteState, h0, if_false, getHead_ok h.st, deletePos_ok hf h.linked h.nodup, freeState, getHead_ok hs, bind,
    Except.bind]
  rfl

theorem Accounted.delete {m0 m : SMem} {o : List Nat} {s : Nat} (h : Accounted m0 m (s :: o)) :
    ∃ m', deleteState s m = .ok m' ∧ Accounted m0 m' o ∧ (∀ s' l, s' ≠ s → s' ∈ o → IsState m s' l → IsState m' s' l) := by
  obtain ⟨h0, h1, l, h2, h3⟩ := h.states s (by simp)
  have hnd := List.nodup_cons.1 h.nodup
  have hne : ∀ s' ∈ o, s' ≠ s := by rintro s' hs' rfl; exact hnd.1 hs'
  have hkeep : ∀ s' ∈ o, ∀ l', IsState m s' l' →
      IsState ⟨fun a => if a ∈ addrs l then none else m.pos a, upd1 m.st s none, m.count⟩ s' l' := by
    intro s' hs' l' hl'
    refine ⟨by simp only [upd1_ne _ _ (hne s' hs')]; exact hl'.st, PLinked.frame hl'.linked fun a ha => ?_, hl'.nodup⟩
    have : a ∉ addrs l := h.disjoint s' (by simp [hs']) s (by simp) (hne s' hs') l' l hl' h2 a ha
    simp [this]
  have hold : ∀ s' ∈ o, ∀ l', IsState ⟨fun a => if a ∈ addrs l then none else m.pos a, upd1 m.st s none, m.count⟩ s' l' →
      IsState m s' l' := by
    intro s' hs' l' hl'
    obtain ⟨_, _, l'', i1, _⟩ := h.states s' (by simp [hs'])
    rw [hl'.unique (hkeep s' hs' l'' i1)]; exact i1
  refine ⟨_, deleteState_ok h.finite h2 h0, ⟨?_, hnd.2, ?_, ?_, ?_, ?_⟩, fun s' l' _ hs' => hkeep s' hs' l'⟩
  · obtain ⟨⟨L, hL, hm⟩, L', hL', hm'⟩ := h.finite
    refine ⟨⟨L, hL, fun a c hc => ?_⟩, L', hL', fun s' h' hs' => ?_⟩
    · simp only at hc
      split at hc
      · cases hc
      · exact hm a c hc
    · by_cases he : s' = s
      · subst he; simp at hs'
      · simp only [upd1_ne _ _ he] at hs'; exact hm' s' h' hs'
  · intro s' hs'
    obtain ⟨j0, j1, l', j2, j3⟩ := h.states s' (by simp [hs'])
    exact ⟨j0, j1, l', hkeep s' hs' l' j2, j3⟩
  · intro s1 k1 s2 k2 hn l1 l2 i1 i2
    exact h.disjoint s1 (by simp [k1]) s2 (by simp [k2]) hn l1 l2 (hold s1 k1 l1 i1) (hold s2 k2 l2 i2)
  · intro s' hs'
    by_cases he : s' = s
    · subst he; simp [h1]
    · simp only [upd1_ne _ _ he]
      exact h.st s' (by simp [he, hs'])
  · intro a ha
    by_cases hal : a ∈ addrs l
    · simp [hal, h3 a hal]
    · simp only [hal, if_false]
      refine h.pos a fun s' hs' l' hl' => ?_
      rcases List.mem_cons.1 hs' with rfl | hs'
      · rw [hl'.unique h2]; exact hal
      · exact ha s' hs' l' (hkeep s' hs' l' hl')

/-- Destroying a query frees its states and nothing else. -/
theorem Accounted.destroy {m0 m : SMem} {o o' : List Nat} (h : Accounted m0 m (o ++ o')) :
    ∃ m', destroyQuery o m = .ok m' ∧ Accounted m0 m' o' ∧ (∀ s ∈ o', ∀ l, IsState m s l → IsState m' s l) := by
  induction o generalizing m with
  | nil => exact ⟨m, rfl, h, fun _ _ _ h => h⟩
  | cons s o ih =>
    obtain ⟨m1, e1, e2, e3⟩ := h.delete
    obtain ⟨m2, f1, f2, f3⟩ := ih e2
    have hnd := (List.nodup_cons.1 h.nodup).1
    refine ⟨m2, by simp only [destroyQuery, e1, f1, bind, Except.bind], f2, fun s' hs' l hl => ?_⟩
    refine f3 s' hs' l (e3 s' l ?_ (by simp [hs']) hl)
    rintro rfl
    exact hnd (by simp [hs'])

/-! ### The transducer -/

theorem newTransducer_built {paddr saddr : SMem → Nat} (hA : SAlloc paddr saddr) {m : SMem} (hf : m.Finite) :
    ∃ m' s l, newTransducer paddr saddr m = .ok (s, m') ∧ poss l = initialState ∧ StBuilt m m' s l := by
  obtain ⟨m1, as, e1, e2, e3, e4, e5, e6, e7, e8⟩ := newPositions_ok hA hf [⟨0, 0, false⟩]
  have hnp : newPositions paddr [⟨0, 0, false⟩] m = ([(newPos paddr ⟨0, 0, false⟩ m).1], (newPos paddr ⟨0, 0, false⟩ m).2) := rfl
  match as, e2 with
  | [(a, p)], e2 =>
    simp only [poss_cons, poss_nil, List.cons.injEq, and_true] at e2
    subst e2
    rw [hnp] at e1
    simp only [addrs_cons, addrs_nil, Prod.mk.injEq, List.cons.injEq, and_true] at e1
    obtain ⟨ea, em⟩ := e1
    obtain ⟨h0, hpos⟩ := e3 (a, ⟨0, 0, false⟩) (by simp)
    have hb := newState_built hA e8
    obtain ⟨m2, g1, g2, g3⟩ := stateAdd_ok (p := ⟨0, 0, false⟩) (a := a) hb.finite hb.isState h0
      (by rw [hb.pos a (by simp)]; exact hpos) (by simp)
    refine ⟨m2, (newState saddr m1).1, [(a, ⟨0, 0, false⟩)], ?_, rfl, ?_⟩
    · have : newPos paddr ⟨0, 0, false⟩ m = (a, m1) := by rw [← ea, ← em]
      simp only [newTransducer, this, newStateOf]
      rw [show newState saddr m1 = ((newState saddr m1).1, (newState saddr m1).2) from rfl]
      simp [fillState, stateInsertAfter, g1, bind, Except.bind]
    · refine ⟨g2, hb.nonnull, by rw [← e7]; exact hb.fresh, e5, fun x hx => ?_, fun s' hs' => ?_, g3.finite hb.finite⟩
      · rw [g3.pos x (by simp), hb.pos x (by simp), e6 x hx]
      · rw [g3.st s' hs', hb.st s' hs', e7]

theorem newTransducer_ok {paddr saddr : SMem → Nat} (hA : SAlloc paddr saddr) {m : SMem} (hf : m.Finite) :
    ∃ m' s, newTransducer paddr saddr m = .ok (s, m') ∧ HRep m' s initialState ∧ Accounted m m' [s] := by
  obtain ⟨m', s, l, e, hl, hb⟩ := newTransducer_built hA hf
  exact ⟨m', s, e, ⟨hb.finite, l, hb.isState, hl⟩, (Accounted.refl hf).grow hb⟩

end Lev
