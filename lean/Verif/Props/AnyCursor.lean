import Verif.Props.StateHeap
import Verif.Spec.AnyCursor

/-!
# Property C113: all programs with a `StateIterator`

(src/liblevenshtein/transducer/state_iterator.cpp 6-55).  C52 leaves out insertions by an iterator that is at no position.
-/

namespace Lev.Props

open Lev Spec

section
variable {paddr saddr : SMem → Nat} {m0 m : SMem} {s : Nat}

/-- A new position, before it is inserted. -/
theorem StBuilt.newPos (hA : SAlloc paddr saddr) {l : Cells} (hb : StBuilt m0 m s l) (p : Pos) :
    paddr m ≠ 0 ∧ paddr m ∉ addrs l ∧ m0.pos (paddr m) = none ∧ IsState (Lev.newPos paddr p m).2 s l := by
  obtain ⟨h0, hfree⟩ := hA.pos m hb.finite
  have hne : ∀ a ∈ addrs l, a ≠ paddr m := by
    intro a ha he
    obtain ⟨cc, hcc⟩ := hb.isState.linked.alive a ha
    rw [he, hfree] at hcc
    cases hcc
  have hnew : paddr m ∉ addrs l := fun hc => hne _ hc rfl
  exact ⟨h0, hnew, by rw [← hb.pos _ hnew]; exact hfree,
    ⟨hb.isState.st, PLinked.frame hb.isState.linked fun a ha => upd1_ne _ _ (hne a ha), hb.isState.nodup⟩⟩

/-- The new position is in the list. -/
theorem StBuilt.grown (hA : SAlloc paddr saddr) {l l' : Cells} {C : List Nat} {m' : SMem} (hb : StBuilt m0 m s l) (p : Pos)
    (hs : IsState m' s l') (ho : Only C s (Lev.newPos paddr p m).2 m') (hC : ∀ a ∈ C, a = paddr m ∨ a ∈ addrs l)
    (hl : ∀ a, a ∈ addrs l' ↔ a = paddr m ∨ a ∈ addrs l) : StBuilt m0 m' s l' := by
  obtain ⟨_, _, h3, _⟩ := StBuilt.newPos hA hb p
  refine ⟨hs, hb.nonnull, hb.fresh, fun a ha => ?_, fun a ha => ?_, fun s' hs' => ?_, ho.finite (newPos_finite hb.finite p)⟩
  · rcases (hl a).1 ha with rfl | ha
    · exact h3
    · exact hb.new a ha
  · have h4 : ¬ (a = paddr m ∨ a ∈ addrs l) := fun h => ha ((hl a).2 h)
    rw [not_or] at h4
    rw [ho.pos a fun h => (hC a h).elim h4.1 h4.2, ← hb.pos a h4.2]
    exact upd1_ne _ _ h4.1
  · rw [ho.st s' hs']
    exact hb.st s' hs'

/-- The iterator `it` is the cursor `c` in the state at `s`. -/
def LateSim (m0 : SMem) (s : Nat) (it : SIter) (m : SMem) (c : LateCursor) : Prop :=
  ∃ pre cur post : Cells, ∃ pv, StBuilt m0 m s (pre ++ (cur ++ post)) ∧ poss pre = c.pre ∧ poss cur = c.cur.toList ∧
    poss post = c.post ∧ it = { curIter s pre cur post with prev := pv } ∧ (c.late = none → pv = lastOr pre) ∧
    ∀ k, c.late = some k → pre = [] ∧ ∃ l1 x q l2, post = l1 ++ (x, q) :: l2 ∧ l2.length = k ∧ pv = x ∧ (cur = [] → l1 ≠ [])

theorem LateSim.step (hA : SAlloc paddr saddr) {it : SIter} {c c' : LateCursor} {op : CursorOp} (h : LateSim m0 s it m c)
    (hop : lateStep c op = some c') : ∃ it' m', iterStep paddr it m op = .ok (it', m') ∧ LateSim m0 s it' m' c' := by
  obtain ⟨pre, cur, post, pv, hb, h1, h2, h3, rfl, h4, h5⟩ := h
  have hlk := hb.isState.linked
  have hlen : cur.length ≤ 1 := by
    have := congrArg List.length h2
    rw [poss_length] at this
    rw [this]; cases c.cur <;> simp
  obtain ⟨hlk1, hlk2⟩ := PLinked.append.1 hlk
  obtain ⟨hlk2, hlk3⟩ := PLinked.append.1 hlk2
  cases op with
  | next =>
    simp only [lateStep, Option.some.injEq] at hop
    subst hop
    -- the predecessor afterwards
    have hpv : ∃ pv', pv' = (if hd cur 0 ≠ 0 then hd cur 0 else pv) ∧
        ((if c.cur.isSome then none else c.late) = none → pv' = lastOr (pre ++ cur)) ∧
        ∀ k, (if c.cur.isSome then none else c.late) = some k → cur = [] ∧ pv' = pv ∧ c.late = some k := by
      match cur, hlen, hlk2, h2 with
      | [], _, _, h2 =>
        have hcc : c.cur = none := by cases hcc : c.cur with
          | none => rfl
          | some v => rw [hcc] at h2; simp at h2
        exact ⟨pv, by simp, by simpa [hcc] using h4, by simp [hcc]⟩
      | [(x, p)], _, hx, h2 =>
        have hcc : c.cur.isSome = true := by cases hcc : c.cur with
          | none => rw [hcc] at h2; simp at h2
          | some v => rfl
        exact ⟨x, by simp [hx.1], by simp [hcc], by simp [hcc]⟩
    obtain ⟨pv', e0, e1, e2⟩ := hpv
    cases post with
    | nil =>
      refine ⟨{ curIter s (pre ++ cur) [] [] with prev := pv' }, m, ?_, pre ++ cur, [], [], pv', by simpa using hb, by simp [h1, h2],
        by simp [← h3], by simp [← h3], rfl, e1, fun k hk => ?_⟩
      · simp [iterStep, siterAdvance, curIter, e0, bind, Except.bind]
        by_cases hc : hd cur 0 = 0 <;> simp [hc]
      · obtain ⟨_, _, hk⟩ := e2 k hk
        obtain ⟨_, l1, x, q, l2, h, _⟩ := h5 k hk
        simp at h
    | cons y post =>
      obtain ⟨y, q⟩ := y
      have hy : m.pos y = some ⟨q, hd post 0⟩ := hlk3.2.1
      refine ⟨{ curIter s (pre ++ cur) [(y, q)] post with prev := pv' }, m, ?_, pre ++ cur, [(y, q)], post, pv', by simpa using hb,
        by simp [h1, h2], by simp [← h3], by simp [← h3], rfl, e1, fun k hk => ?_⟩
      · simp [iterStep, siterAdvance, curIter, e0, hlk3.1, getCell_ok hy, bind, Except.bind]
        by_cases hc : hd cur 0 = 0 <;> simp [hc]
      · obtain ⟨hcur, hpv, hk⟩ := e2 k hk
        obtain ⟨hpre, l1, x, q', l2, g1, g2, g3, g4⟩ := h5 k hk
        refine ⟨by simp [hpre, hcur], ?_⟩
        cases l1 with
        | nil => exact absurd rfl (g4 hcur)
        | cons z l1 =>
          simp only [List.cons_append, List.cons.injEq] at g1
          exact ⟨l1, x, q', l2, g1.2, g2, hpv.trans g3, by simp⟩
  | insert p =>
    obtain ⟨h0, hnew, _, hs1⟩ := StBuilt.newPos hA hb p
    match cur, h2, hlen with
    | [(x, q)], h2, _ =>
      have hcc : c.cur.isSome = true := by cases hcc : c.cur with
        | none => rw [hcc] at h2; simp at h2
        | some v => rfl
      simp only [lateStep, hcc, if_true, Option.some.injEq] at hop
      subst hop
      obtain ⟨m', e1, e2, e3⟩ := stateInsertAfter_ok (a := paddr m) (p := p) (nx := 0) (l1 := pre) (x := x) (q := q) (l2 := post)
        (by simpa using hs1) h0 (by simp [newPos]) (by simpa using hnew)
      refine ⟨{ curIter s pre [(x, q)] ((paddr m, p) :: post) with prev := pv }, m', ?_, pre, [(x, q)], (paddr m, p) :: post, pv,
        StBuilt.grown hA hb p (by simpa using e2) e3 ?_ ?_, h1, h2, by simp [h3], rfl, h4, fun k hk => ?_⟩
      · have hx0 : x ≠ 0 := hlk2.1
        have e1' : stateInsertAfter s x (newPos paddr p m).1 (newPos paddr p m).2 = .ok m' := e1
        simp only [iterStep, iterInsert, curIter, hd_cons, hx0, ne_eq, not_false_eq_true, if_true, e1', bind, Except.bind]
        rfl
      · intro a ha
        simp only [List.mem_cons, List.not_mem_nil, or_false] at ha
        rcases ha with rfl | rfl
        · exact .inr (by simp)
        · exact .inl rfl
      · intro a
        simp only [addrs_append, addrs_cons, List.mem_append, List.mem_cons, addrs_nil, List.not_mem_nil, or_false]
        grind
      · obtain ⟨g0, l1, x', q', l2, g1, g2, g3, g4⟩ := h5 k hk
        exact ⟨g0, (paddr m, p) :: l1, x', q', l2, by simp [g1], g2, g3, by simp⟩
    | [], h2, _ =>
      have hcc : c.cur = none := by cases hcc : c.cur with
        | none => rfl
        | some v => rw [hcc] at h2; simp at h2
      simp only [lateStep, hcc, Option.isSome_none, Bool.false_eq_true, if_false, Option.some.injEq] at hop
      subst hop
      obtain ⟨m', e1, e2, e3⟩ := stateHead_ok (a := paddr m) (p := p) (nx := 0) hs1 h0 (by simp [newPos]) hnew
      simp only [List.nil_append] at e2 hb hnew hs1
      refine ⟨{ curIter s [] [] ((paddr m, p) :: (pre ++ post)) with prev := pv }, m', ?_, [], [], (paddr m, p) :: (pre ++ post), pv,
        StBuilt.grown hA hb p (by simpa using e2) e3 (by simp) (by simp), rfl, by simp, by simp [h1, h3], rfl, ?_, ?_⟩
      · have e1' : stateHead s (newPos paddr p m).1 (newPos paddr p m).2 = .ok m' := e1
        simp only [iterStep, iterInsert, curIter, hd_nil, ne_eq, not_true_eq_false, if_false, e1', bind, Except.bind]
        rfl
      · by_cases hp : c.pre = []
        · have : pre = [] := by
            rw [hp] at h1
            exact List.map_eq_nil_iff.1 h1
          subst this
          simp only [hp, if_true]
          exact h4
        · simp [hp]
      · intro k hk
        refine ⟨rfl, ?_⟩
        by_cases hp : c.pre = []
        · simp only [hp, if_true] at hk
          obtain ⟨g0, l1, x, q, l2, g1, g2, g3, g4⟩ := h5 k hk
          subst g0
          exact ⟨(paddr m, p) :: l1, x, q, l2, by simp [g1], g2, g3, by simp⟩
        · simp only [hp, if_false, Option.some.injEq] at hk
          have hpre : pre ≠ [] := by
            rintro rfl; exact hp h1.symm
          have hn : c.late = none := by
            cases hl : c.late with
            | none => rfl
            | some k => exact absurd (h5 k hl).1 hpre
          obtain ⟨l', x, q, rfl⟩ := eq_append_last hpre
          refine ⟨(paddr m, p) :: l', x, q, post, by simp, ?_, by rw [h4 hn]; simp, by simp⟩
          rw [← hk, ← h3, poss_length]
  | remove =>
    match cur, h2, hlen with
    | [], h2, _ =>
      have hcc : c.cur = none := by cases hcc : c.cur with
        | none => rfl
        | some v => rw [hcc] at h2; simp at h2
      simp only [lateStep, hcc, Option.isSome_none, Bool.false_and, Bool.false_eq_true, if_false, Option.some.injEq] at hop
      subst hop
      exact ⟨_, m, by simp [iterStep, iterRemove, curIter, bind, Except.bind], pre, [], post, pv, hb,
        h1, by simp, h3, rfl, h4, h5⟩
    | [(x, q)], h2, hlen =>
      have hcc : c.cur.isSome = true := by cases hcc : c.cur with
        | none => rw [hcc] at h2; simp at h2
        | some v => rfl
      cases hl : c.late with
      | some k => simp [lateStep, hcc, hl] at hop
      | none =>
        have hpv := h4 hl
        subst hpv
        have hsim : IterSim m0 s (curIter s pre [(x, q)] post) m c.toCursor := ⟨pre, [(x, q)], post, hb, h1, h2, h3, rfl⟩
        obtain ⟨it', m', e1, pre', cur', post', f1, f2, f3, f4, f5⟩ := hsim.step hA (op := .remove) rfl
        simp only [lateStep, hcc, hl, Option.isSome_none, Bool.and_false, Bool.false_eq_true, if_false, Option.some.injEq] at hop
        subst hop
        exact ⟨it', m', e1, pre', cur', post', lastOr pre', f1, f2, f3, f4, f5, fun _ => rfl, by simp⟩

theorem LateSim.run (hA : SAlloc paddr saddr) {it : SIter} {c c' : LateCursor} {ops : List CursorOp} (h : LateSim m0 s it m c)
    (hops : lateRun ops c = some c') : ∃ it' m', iterRun paddr ops it m = .ok (it', m') ∧ LateSim m0 s it' m' c' := by
  induction ops generalizing it m c with
  | nil =>
    simp only [lateRun, Option.some.injEq] at hops
    subst hops
    exact ⟨it, m, rfl, h⟩
  | cons op ops ih =>
    simp only [lateRun, Option.bind_eq_some_iff] at hops
    obtain ⟨c1, h1, h2⟩ := hops
    obtain ⟨it1, m1, e1, hs1⟩ := h.step hA h1
    obtain ⟨it2, m2, e2, hs2⟩ := ih hs1 h2
    exact ⟨it2, m2, by simp only [iterRun, e1, e2, bind, Except.bind], hs2⟩

/-! ### Iterators that begin in the middle -/

/-- The iterator `it` is the cursor `c` and takes no position for its predecessor. -/
def MidSim (m0 : SMem) (s : Nat) (it : SIter) (m : SMem) (c : Cursor) : Prop :=
  ∃ pre cur post : Cells, StBuilt m0 m s (pre ++ (cur ++ post)) ∧ poss pre = c.pre ∧ poss cur = c.cur.toList ∧
    poss post = c.post ∧ it = { curIter s pre cur post with prev := 0 }

/-- What can be said of an iterator at the end of a program. -/
def CursorEnd (m0 : SMem) (s : Nat) (it : SIter) (m : SMem) (c : Cursor) : Prop :=
  ∃ pre cur post : Cells, ∃ pv, StBuilt m0 m s (pre ++ (cur ++ post)) ∧ poss pre = c.pre ∧ poss cur = c.cur.toList ∧
    poss post = c.post ∧ it = { curIter s pre cur post with prev := pv }

theorem LateSim.cursorEnd {it : SIter} {c : LateCursor} (h : LateSim m0 s it m c) : CursorEnd m0 s it m c.toCursor := by
  obtain ⟨pre, cur, post, pv, hb, h1, h2, h3, h4, _⟩ := h
  exact ⟨pre, cur, post, pv, hb, h1, h2, h3, h4⟩

theorem MidSim.run (hA : SAlloc paddr saddr) {it : SIter} {c : Cursor} {c' : LateCursor} {ops : List CursorOp}
    (h : MidSim m0 s it m c) (hops : midRun ops c = some c') :
    ∃ it' m', iterRun paddr ops it m = .ok (it', m') ∧ CursorEnd m0 s it' m' c'.toCursor := by
  induction ops generalizing it m c with
  | nil =>
    simp only [midRun, Option.some.injEq] at hops
    subst hops
    obtain ⟨pre, cur, post, hb, h1, h2, h3, h4⟩ := h
    exact ⟨it, m, rfl, pre, cur, post, 0, hb, h1, h2, h3, h4⟩
  | cons op ops ih =>
    obtain ⟨pre, cur, post, hb, h1, h2, h3, rfl⟩ := h
    have hlk := hb.isState.linked
    obtain ⟨hlk1, hlk2⟩ := PLinked.append.1 hlk
    obtain ⟨hlk2, hlk3⟩ := PLinked.append.1 hlk2
    have go : ∀ {it1 m1}, iterStep paddr { curIter s pre cur post with prev := 0 } m op = .ok (it1, m1) →
        (∃ it' m', iterRun paddr ops it1 m1 = .ok (it', m') ∧ CursorEnd m0 s it' m' c'.toCursor) →
        ∃ it' m', iterRun paddr (op :: ops) { curIter s pre cur post with prev := 0 } m = .ok (it', m') ∧
          CursorEnd m0 s it' m' c'.toCursor := by
      rintro it1 m1 e1 ⟨it', m', e2, e3⟩
      exact ⟨it', m', by simp only [iterRun, e1, e2, bind, Except.bind], e3⟩
    have late : ∀ {it1 m1 c1}, LateSim m0 s it1 m1 c1 → lateRun ops c1 = some c' →
        ∃ it' m', iterRun paddr ops it1 m1 = .ok (it', m') ∧ CursorEnd m0 s it' m' c'.toCursor := by
      intro it1 m1 c1 hs hr
      obtain ⟨it', m', e1, e2⟩ := hs.run hA hr
      exact ⟨it', m', e1, e2.cursorEnd⟩
    match cur, hcc : c.cur, h2 with
    | [], some v, h2 => simp at h2
    | (x, q) :: _ :: _, none, h2 => simp at h2
    | [(x, q)], none, h2 => simp at h2
    | (x, q) :: _ :: _, some v, h2 => simp at h2
    | [], none, _ =>
      cases op with
      | next =>
        simp only [midRun, hcc, Option.isSome_none, Bool.false_eq_true, if_false] at hops
        cases post with
        | nil =>
          refine go (it1 := { curIter s pre [] [] with prev := 0 }) (m1 := m)
            (by simp [iterStep, siterAdvance, curIter, bind, Except.bind])
            (ih (c := ⟨c.pre, c.post.head?, c.post.tail⟩) ⟨pre, [], [], hb, h1, by simp [← h3], by simp [← h3], rfl⟩ hops)
        | cons y post =>
          obtain ⟨y, r⟩ := y
          have hy : m.pos y = some ⟨r, hd post 0⟩ := hlk3.2.1
          refine go (it1 := { curIter s pre [(y, r)] post with prev := 0 }) (m1 := m)
            (by simp [iterStep, siterAdvance, curIter, hlk3.1, getCell_ok hy, bind, Except.bind])
            (ih (c := ⟨c.pre, c.post.head?, c.post.tail⟩)
              ⟨pre, [(y, r)], post, by simpa using hb, h1, by simp [← h3], by simp [← h3], rfl⟩ hops)
      | insert p =>
        simp only [midRun, hcc, Option.isSome_none, Bool.false_eq_true, if_false] at hops
        obtain ⟨h0, hnew, _, hs1⟩ := StBuilt.newPos hA hb p
        obtain ⟨m', e1, e2, e3⟩ := stateHead_ok (a := paddr m) (p := p) (nx := 0) hs1 h0 (by simp [newPos]) hnew
        simp only [List.nil_append] at e2 hb hnew hs1
        refine go (it1 := { curIter s [] [] ((paddr m, p) :: (pre ++ post)) with prev := 0 }) (m1 := m') ?_ (late ⟨[], [],
          (paddr m, p) :: (pre ++ post), 0, StBuilt.grown hA hb p (by simpa using e2) e3 (by simp) (by simp), rfl, by simp,
          by simp [h1, h3], rfl, fun _ => rfl, by simp⟩ hops)
        have e1' : stateHead s (newPos paddr p m).1 (newPos paddr p m).2 = .ok m' := e1
        simp only [iterStep, iterInsert, curIter, hd_nil, ne_eq, not_true_eq_false, if_false, e1', bind, Except.bind]
        rfl
      | remove =>
        simp only [midRun, hcc, Option.isSome_none, Bool.false_eq_true, if_false] at hops
        exact go (it1 := { curIter s pre [] post with prev := 0 }) (m1 := m)
          (by simp [iterStep, iterRemove, curIter, bind, Except.bind])
          (ih ⟨pre, [], post, hb, h1, by simp [hcc], h3, rfl⟩ hops)
    | [(x, q)], some v, h2 =>
      have hx0 : x ≠ 0 := hlk2.1
      cases op with
      | next =>
        simp only [midRun, hcc, Option.isSome_some, if_true] at hops
        have hsim : IterSim m0 s (curIter s pre [(x, q)] post) m c := ⟨pre, [(x, q)], post, hb, h1, by rw [hcc]; exact h2, h3, rfl⟩
        obtain ⟨it', m', e1, pre', cur', post', f1, f2, f3, f4, f5⟩ := hsim.step hA (op := .next) rfl
        refine go (it1 := it') (m1 := m') ?_ (late (c1 := ⟨⟨c.pre ++ c.cur.toList, c.post.head?, c.post.tail⟩, none⟩)
          ⟨pre', cur', post', lastOr pre', f1, f2, f3, f4, f5, fun _ => rfl, by simp⟩ (by rw [hcc]; exact hops))
        rw [← e1]
        simp only [iterStep, siterAdvance, curIter, hd_cons, hx0, ne_eq, not_false_eq_true, if_true]
      | insert p =>
        simp only [midRun, hcc, Option.isSome_some, if_true] at hops
        obtain ⟨h0, hnew, _, hs1⟩ := StBuilt.newPos hA hb p
        obtain ⟨m', e1, e2, e3⟩ := stateInsertAfter_ok (a := paddr m) (p := p) (nx := 0) (l1 := pre) (x := x) (q := q) (l2 := post)
          (by simpa using hs1) h0 (by simp [newPos]) (by simpa using hnew)
        refine go (it1 := { curIter s pre [(x, q)] ((paddr m, p) :: post) with prev := 0 }) (m1 := m') ?_ (ih (c := ⟨c.pre, some v, p :: c.post⟩) ⟨pre, [(x, q)],
          (paddr m, p) :: post, StBuilt.grown hA hb p (by simpa using e2) e3 ?_ ?_, h1, h2, by simp [h3], rfl⟩ hops)
        · have e1' : stateInsertAfter s x (newPos paddr p m).1 (newPos paddr p m).2 = .ok m' := e1
          simp only [iterStep, iterInsert, curIter, hd_cons, hx0, ne_eq, not_false_eq_true, if_true, e1', bind, Except.bind]
          rfl
        · intro a ha
          simp only [List.mem_cons, List.not_mem_nil, or_false] at ha
          rcases ha with rfl | rfl
          · exact .inr (by simp)
          · exact .inl rfl
        · intro a
          simp only [addrs_append, addrs_cons, List.mem_append, List.mem_cons, addrs_nil, List.not_mem_nil, or_false]
          grind
      | remove =>
        simp only [midRun, hcc, Option.isSome_some, if_true] at hops
        obtain ⟨f, l, hfl⟩ : ∃ f l, pre ++ [(x, q)] = f :: l := by cases pre <;> simp
        obtain ⟨f, g⟩ := f
        have hall : pre ++ ([(x, q)] ++ post) = (f, g) :: (l ++ post) := by
          rw [← List.append_assoc, hfl]; rfl
        rw [hall] at hb
        obtain ⟨m', e1, e2, e3, e4⟩ := stateRemove_first (y := x) (x := f) (p := g) (l := l ++ post) hb.isState
        have hl : poss l = (c.pre ++ [v]).tail := by
          have := congrArg poss hfl
          rw [poss_append, h1, h2] at this
          simp only [Option.toList_some] at this
          rw [this]; rfl
        refine go (it1 := { curIter s l [] post with prev := 0 }) (m1 := m') ?_ (ih (c := ⟨(c.pre ++ [v]).tail, none, c.post⟩)
          ⟨l, [], post, hb.step e2 (e3.mono (by simp)) ⟨?_, ?_⟩,
          hl, rfl, h3, rfl⟩ hops)
        · simp only [iterStep, iterRemove, curIter, hd_cons, hx0, ne_eq, not_false_eq_true, if_true, skipRemoved, e1, bind,
            Except.bind]
          rfl
        · intro a ha
          exact List.mem_cons_of_mem _ ha
        · intro a ha hna
          have : a = f := by
            simp only [addrs_cons, List.mem_cons, List.nil_append] at ha hna
            exact ha.resolve_right hna
          rw [this]; exact e4

/-! ### Lists that come back to themselves -/

/-- Every position of `S` is followed by one of `S`. -/
def Round (m : SMem) (S : Nat → Prop) : Prop := ∀ a, S a → a ≠ 0 ∧ ∃ c, m.pos a = some c ∧ S c.next

theorem Round.delete {S : Nat → Prop} (h : Round m S) (fuel : Nat) {a : Nat} (ha : S a) :
    deletePosLoop fuel a m = .error .diverge := by
  induction fuel generalizing a with
  | zero => rfl
  | succ fuel ih =>
    obtain ⟨h1, c, h2, h3⟩ := h a ha
    simp [deletePosLoop, h1, getCell_ok h2, ih h3, bind, Except.bind]

theorem Round.collect {S : Nat → Prop} (h : Round m S) (fuel : Nat) {it : SIter} (h1 : S it.curr) (h2 : S it.next) :
    iterCollect m fuel it = .error .diverge := by
  induction fuel generalizing it with
  | zero => rfl
  | succ fuel ih =>
    obtain ⟨g1, _⟩ := h _ h1
    obtain ⟨g2, c, g3, g4⟩ := h _ h2
    have e : siterAdvance m it = .ok { state := it.state, next := c.next, curr := it.next, prev := it.curr } := by
      simp [siterAdvance, g1, g2, getCell_ok g3, bind, Except.bind]
    have : it.atEnd = false := by simp [SIter.atEnd, g1]
    simp only [iterCollect, this, e, bind, Except.bind, Bool.false_eq_true, if_false]
    rw [ih (it := { state := it.state, next := c.next, curr := it.next, prev := it.curr }) h2 g4]

/-- A removal while the predecessor is wrong. -/
theorem LateSim.remove {it : SIter} {c : LateCursor} {v : Pos} {k : Nat} (h : LateSim m0 s it m c) (h0 : m0.pos 0 = none)
    (hc : c.cur = some v) (hk : c.late = some k) :
    (k = 0 → iterStep paddr it m .remove = .error .ub) ∧
    (k ≠ 0 → ∃ it' m' S y z, iterStep paddr it m .remove = .ok (it', m') ∧ m'.st s = some y ∧ S y ∧ Round m' S ∧
      z ≠ it.curr ∧ m.pos z ≠ none ∧ m'.pos z = none ∧ ∀ a, a ≠ z → (m'.pos a).map PCell.pos = (m.pos a).map PCell.pos) := by
  obtain ⟨pre, cur, post, pv, hb, h1, h2, h3, rfl, h4, h5⟩ := h
  obtain ⟨rfl, l1, x, q, l2, rfl, g2, g3, _⟩ := h5 k hk
  obtain rfl : x = pv := g3.symm
  rw [hc] at h2
  match cur, h2 with
  | [(y, r)], _ =>
    have hlk := hb.isState.linked
    have hnd := hb.isState.nodup
    simp only [List.nil_append, List.cons_append, addrs_cons, addrs_append, List.nodup_cons, List.mem_append, List.mem_cons, not_or,
      List.nodup_append] at hnd
    obtain ⟨hyn, hn1, ⟨hxl2, hn2⟩, hn3⟩ := hnd
    obtain ⟨hy0, hy, hlk⟩ := (show PLinked m.pos ((y, r) :: (l1 ++ (x, q) :: l2)) 0 from hlk)
    obtain ⟨hl1, hx0, hx, hl2⟩ := PLinked.append.1 hlk
    have hN : hd (l1 ++ (x, q) :: l2) 0 ∈ addrs (l1 ++ [(x, q)]) := by cases l1 <;> simp
    have hnull : m.pos 0 = none := by
      rw [hb.pos 0 fun h => hb.isState.linked.nonnull 0 h rfl]; exact h0
    have e1 : setNext x (hd (l1 ++ (x, q) :: l2) 0) m = .ok ⟨upd1 m.pos x (some ⟨q, hd (l1 ++ (x, q) :: l2) 0⟩), m.st, m.count⟩ :=
      setNext_ok hx
    constructor
    · rintro rfl
      obtain rfl := List.length_eq_zero_iff.1 g2
      have e2 : setNext 0 0 ⟨upd1 m.pos x (some ⟨q, hd (l1 ++ [(x, q)]) 0⟩), m.st, m.count⟩ = .error .ub := by
        simp [setNext, getCell, upd1, Ne.symm hx0, hnull, bind, Except.bind]
      simp only [iterStep, iterRemove, curIter, hd_cons, hy0, ne_eq, not_false_eq_true, if_true, skipRemoved, stateRemove, hx0,
        getCell_ok hx, getCell_ok hy, hd_nil, e1, e2, bind, Except.bind]
    · intro hk0
      cases l2 with
      | nil => exact absurd g2.symm hk0
      | cons z l2 =>
        obtain ⟨z, w⟩ := z
        obtain ⟨hz0, hz, _⟩ := hl2
        have hzx : z ≠ x := fun h => hxl2 (by simp [h])
        have hzy : z ≠ y := fun h => hyn.2.2 (by simp [h])
        have hzl : z ∉ addrs l1 := fun h => hn3 z h z (by simp) rfl
        have hxy : x ≠ y := fun h => hyn.2.1 h.symm
        have hxl1 : x ∉ addrs l1 := fun h => hn3 x h x (by simp) rfl
        have e2 : setNext z 0 ⟨upd1 m.pos x (some ⟨q, hd (l1 ++ (x, q) :: (z, w) :: l2) 0⟩), m.st, m.count⟩ =
            .ok ⟨upd1 (upd1 m.pos x (some ⟨q, hd (l1 ++ (x, q) :: (z, w) :: l2) 0⟩)) z (some ⟨w, 0⟩), m.st, m.count⟩ :=
          setNext_ok (m := ⟨upd1 m.pos x _, m.st, m.count⟩) (c := ⟨w, hd l2 0⟩) (by simp [upd1, hzx, hz])
        have e3 := deletePos_single (m := ⟨upd1 (upd1 m.pos x (some ⟨q, hd (l1 ++ (x, q) :: (z, w) :: l2) 0⟩)) z (some ⟨w, 0⟩), m.st,
          m.count⟩) (a := z) (p := w) (by simp) hz0
        refine ⟨⟨s, hd (l1 ++ (x, q) :: (z, w) :: l2) 0, 0, x⟩, without ⟨upd1 (upd1 m.pos x (some ⟨q, hd (l1 ++ (x, q) :: (z, w) :: l2) 0⟩)) z
          (some ⟨w, 0⟩), m.st, m.count⟩ [z], fun a => a = y ∨ a ∈ addrs (l1 ++ [(x, q)]), y, z, by
          simp only [iterStep, iterRemove, curIter, hd_cons, hy0, ne_eq, not_false_eq_true, if_true, skipRemoved, stateRemove, hx0,
            getCell_ok hx, getCell_ok hy, e1, e2, e3, bind, Except.bind], hb.isState.st, .inl rfl, ?_, hzy, by rw [hz]; simp, by simp [without], ?_⟩
        · have hmem : ∀ a, a ≠ z → a ≠ x → (without ⟨upd1 (upd1 m.pos x (some ⟨q, hd (l1 ++ (x, q) :: (z, w) :: l2) 0⟩)) z (some ⟨w, 0⟩),
              m.st, m.count⟩ [z]).pos a = m.pos a := by
            intro a h1 h2
            simp [without, upd1, h1, h2]
          have hmx : (without ⟨upd1 (upd1 m.pos x (some ⟨q, hd (l1 ++ (x, q) :: (z, w) :: l2) 0⟩)) z (some ⟨w, 0⟩),
              m.st, m.count⟩ [z]).pos x = some ⟨q, hd (l1 ++ (x, q) :: (z, w) :: l2) 0⟩ := by
            simp [without, upd1, Ne.symm hzx]
          have hin : ∀ (l : Cells), PLinked m.pos l x → ∀ a ∈ addrs l, a ≠ 0 ∧ ∃ p n, m.pos a = some ⟨p, n⟩ ∧
              (n ∈ addrs l ∨ n = x) := by
            intro l
            induction l with
            | nil => intro _ a ha; cases ha
            | cons u l ih =>
              obtain ⟨u, p⟩ := u
              rintro ⟨k1, k2, k3⟩ a ha
              simp only [addrs_cons, List.mem_cons] at ha
              rcases ha with rfl | ha
              · refine ⟨k1, p, _, k2, ?_⟩
                cases l with
                | nil => exact .inr rfl
                | cons t l => exact .inl (by simp)
              · obtain ⟨j1, p', n, j2, j3⟩ := ih k3 a ha
                exact ⟨j1, p', n, j2, j3.elim (fun h => .inl (by simp [h])) .inr⟩
          rintro a (rfl | ha)
          · exact ⟨hy0, _, by rw [hmem a (Ne.symm hzy) (Ne.symm hxy)]; exact hy, .inr hN⟩
          · simp only [addrs_append, addrs_cons, addrs_nil, List.mem_append, List.mem_singleton] at ha
            rcases ha with ha | rfl
            · obtain ⟨j1, p', n, j2, j3⟩ := hin l1 hl1 a ha
              refine ⟨j1, _, by
                rw [hmem a (fun h => hzl (h ▸ ha)) (fun h => hxl1 (h ▸ ha))]; exact j2, .inr ?_⟩
              simpa using j3
            · exact ⟨hx0, _, hmx, .inr hN⟩
        · intro a ha
          by_cases hax : a = x
          · subst hax
            simp [without, upd1, ha, hx]
          · simp [without, upd1, ha, hax]

/-! ### The property -/

/-- The state with `ps` and its iterator at the first position. -/
theorem late_begin (hA : SAlloc paddr saddr) (hm : m.Finite) (ps : List Pos) :
    ∃ s m1 it, buildState paddr saddr ps m = .ok (s, m1) ∧ siterBegin s m1 = .ok it ∧
      LateSim m s it m1 ⟨⟨[], ps.head?, ps.tail⟩, none⟩ := by
  obtain ⟨m1, s, l, e, hb, hl⟩ := buildState_ok hA hm ps
  refine ⟨s, m1, iterAt s l 0, e, siterBegin_ok hb.isState, ?_⟩
  cases l with
  | nil => subst hl; exact ⟨[], [], [], _, hb, rfl, rfl, rfl, rfl, fun _ => rfl, by simp⟩
  | cons x l => subst hl; exact ⟨[], [x], l, _, hb, rfl, rfl, rfl, rfl, fun _ => rfl, by simp⟩

theorem CursorEnd.facts {it : SIter} {c : Cursor} {m' : SMem} (h : CursorEnd m s it m' c) (hm : m.Finite) :
    Holds m m' s c.seq ∧ (∀ p, c.cur = some p → (m'.pos it.curr).map PCell.pos = some p) ∧ (it.curr = 0 ↔ c.cur = none) ∧
      ∃ m'', deleteState s m' = .ok m'' ∧ m''.pos = m.pos ∧ m''.st = m.st := by
  obtain ⟨pre, cur, post, pv, hb, h1, h2, h3, h4⟩ := h
  have hlk := (PLinked.append.1 hb.isState.linked).2
  obtain ⟨m'', e4, hacc, _⟩ := ((Accounted.refl hm).grow hb).delete (o := [])
  refine ⟨?_, ?_, ?_, m'', e4, hacc.all.1, hacc.all.2⟩
  · have := holds_of_built hb
    rw [poss_append, poss_append, h1, h2, h3] at this
    exact this
  · subst h4
    intro v hcc
    rw [hcc] at h2
    match cur, h2 with
    | [(x, p)], h2 =>
      have hx := hlk.2.1
      simp only [poss_cons, poss_nil, Option.toList_some, List.cons.injEq, and_true] at h2
      simp [curIter, hx, h2]
  · subst h4
    match cur, h2 with
    | [], h2 =>
      cases hcc : c.cur with
      | none => simp [curIter]
      | some v => rw [hcc] at h2; simp at h2
    | (x, p) :: r, h2 =>
      have hx0 : x ≠ 0 := hlk.1
      cases hcc : c.cur with
      | none => rw [hcc] at h2; simp at h2
      | some v => simp [curIter, hx0]

/-- C113: as long as nothing is removed with a wrong predecessor, every program with an iterator is defined, the state holds the
sequence that `lateRun` says, nothing is lost, and the iterator is where the cursor is. -/
theorem c113_any_cursor (hA : SAlloc paddr saddr) (hm : m.Finite) (ps : List Pos) {ops : List CursorOp} {c : LateCursor}
    (hops : lateRun ops ⟨⟨[], ps.head?, ps.tail⟩, none⟩ = some c) :
    ∃ s m1 it m' it', buildState paddr saddr ps m = .ok (s, m1) ∧ siterBegin s m1 = .ok it ∧
      iterRun paddr ops it m1 = .ok (it', m') ∧ Holds m m' s c.seq ∧
      (∀ p, c.cur = some p → (m'.pos it'.curr).map PCell.pos = some p) ∧ (it'.curr = 0 ↔ c.cur = none) ∧
      ∃ m'', deleteState s m' = .ok m'' ∧ m''.pos = m.pos ∧ m''.st = m.st := by
  obtain ⟨s, m1, it, e1, e2, h0⟩ := late_begin hA hm ps
  obtain ⟨it', m', e3, h1⟩ := h0.run hA hops
  exact ⟨s, m1, it, m', it', e1, e2, e3, h1.cursorEnd.facts hm⟩

/-- C113: an iterator that is made at the position with number `i` (`StateIterator(state, position)`).  Until it leaves a position, it
removes the first position of the state instead of the one that it shows; all this is defined, and no memory is lost. -/
theorem c113_from_the_middle (hA : SAlloc paddr saddr) (hm : m.Finite) (ps qs : List Pos) (p : Pos) {ops : List CursorOp}
    {c : LateCursor} (hops : midRun ops ⟨ps, some p, qs⟩ = some c) :
    ∃ s m1 as a it m' it', buildState paddr saddr (ps ++ p :: qs) m = .ok (s, m1) ∧ traverse s m1 = .ok as ∧
      as[ps.length]? = some a ∧ iterNew s a m1 = .ok it ∧ iterRun paddr ops it m1 = .ok (it', m') ∧ Holds m m' s c.seq ∧
      (∀ p, c.cur = some p → (m'.pos it'.curr).map PCell.pos = some p) ∧ (it'.curr = 0 ↔ c.cur = none) ∧
      ∃ m'', deleteState s m' = .ok m'' ∧ m''.pos = m.pos ∧ m''.st = m.st := by
  obtain ⟨m1, s, l, e, hb, hl⟩ := buildState_ok hA hm (ps ++ p :: qs)
  obtain ⟨pre, r, rfl, h1, h2⟩ := List.map_eq_append_iff.1 hl
  obtain ⟨⟨x, q⟩, post, rfl, rfl, h3⟩ := List.map_eq_cons_iff.1 h2
  have hlk := (PLinked.append.1 hb.isState.linked).2
  have hsim : MidSim m s { curIter s pre [(x, q)] post with prev := 0 } m1 ⟨ps, some q, qs⟩ :=
    ⟨pre, [(x, q)], post, by simpa using hb, h1, rfl, h3, rfl⟩
  obtain ⟨it', m', e1, e2⟩ := hsim.run hA hops
  refine ⟨s, m1, _, x, _, m', it', e, traverse_ok hb.finite hb.isState, ?_, ?_, e1, e2.facts hm⟩
  · have : pre.length = ps.length := by rw [← h1]; simp
    rw [← this]
    simp [addrs]
  · simp [iterNew, hlk.1, getCell_ok hlk.2.1, curIter, bind, Except.bind]

/-- C113: a removal with a wrong predecessor is undefined behaviour if nothing was behind the predecessor.  Otherwise it deletes the
position behind the predecessor instead of the one that the iterator shows, and leaves a list without end: neither a loop over the
state nor its destructor comes to an end, whatever number of steps they are given. -/
theorem c113_wrong_removal (hA : SAlloc paddr saddr) (hm : m.Finite) (h0 : m.pos 0 = none) (ps : List Pos) {ops : List CursorOp}
    {c : LateCursor} {v : Pos} {k : Nat} (hops : lateRun ops ⟨⟨[], ps.head?, ps.tail⟩, none⟩ = some c) (hc : c.cur = some v)
    (hk : c.late = some k) :
    ∃ s m1 it m2 it2, buildState paddr saddr ps m = .ok (s, m1) ∧ siterBegin s m1 = .ok it ∧
      iterRun paddr ops it m1 = .ok (it2, m2) ∧
      (k = 0 → iterStep paddr it2 m2 .remove = .error .ub) ∧
      (k ≠ 0 → ∃ it3 m3 y z, iterStep paddr it2 m2 .remove = .ok (it3, m3) ∧ z ≠ it2.curr ∧ m2.pos z ≠ none ∧ m3.pos z = none ∧
        (∀ a, a ≠ z → (m3.pos a).map PCell.pos = (m2.pos a).map PCell.pos) ∧ m3.st s = some y ∧
        (∀ fuel, deletePosLoop fuel y m3 = .error .diverge) ∧ deleteState s m3 = .error .diverge ∧
        ∃ it4, siterBegin s m3 = .ok it4 ∧ ∀ fuel, iterCollect m3 fuel it4 = .error .diverge) := by
  obtain ⟨s, m1, it, e1, e2, hb⟩ := late_begin hA hm ps
  obtain ⟨it2, m2, e3, hs⟩ := hb.run hA hops
  obtain ⟨i1, i2⟩ := hs.remove (paddr := paddr) h0 hc hk
  refine ⟨s, m1, it, m2, it2, e1, e2, e3, i1, fun hk0 => ?_⟩
  obtain ⟨it3, m3, S, y, z, g1, g2, g3, g4, g8, g5, g6, g7⟩ := i2 hk0
  obtain ⟨hy0, cy, hy, hyS⟩ := g4 y g3
  obtain ⟨_, _, _, _, hst, _⟩ := hs
  have hdel : ∀ fuel, deletePosLoop fuel y m3 = .error .diverge := fun fuel => g4.delete fuel g3
  refine ⟨it3, m3, y, z, g1, g8, g5, g6, g7, g2, hdel, ?_, ⟨s, cy.next, y, 0⟩, ?_, fun fuel => g4.collect fuel g3 hyS⟩
  · simp [deleteState, hst.nonnull, getHead_ok g2, deletePos, hdel, bind, Except.bind]
  · simp [siterBegin, getHead_ok g2, iterNew, hy0, getCell_ok hy, bind, Except.bind]

end

/-- C113: there are no other programs: if `lateRun` gives no answer, there is a first removal with a wrong predecessor. -/
theorem c113_first_wrong {ops : List CursorOp} {c : LateCursor} (h : lateRun ops c = none) :
    ∃ ops1 ops2 c' v k, ops = ops1 ++ .remove :: ops2 ∧ lateRun ops1 c = some c' ∧ c'.cur = some v ∧ c'.late = some k := by
  induction ops generalizing c with
  | nil => cases h
  | cons op ops ih =>
    cases hs : lateStep c op with
    | some c1 =>
      simp only [lateRun, hs, Option.bind_some] at h
      obtain ⟨ops1, ops2, c', v, k, rfl, h1, h2⟩ := ih h
      exact ⟨op :: ops1, ops2, c', v, k, rfl, by simp [lateRun, hs, h1], h2⟩
    | none =>
      cases op with
      | next => simp [lateStep] at hs
      | insert p => simp only [lateStep] at hs; split at hs <;> cases hs
      | remove =>
        simp only [lateStep] at hs
        split at hs
        · rename_i hc
          simp only [Bool.and_eq_true, Option.isSome_iff_exists] at hc
          obtain ⟨⟨v, hv⟩, k, hk⟩ := hc
          exact ⟨[], ops, c, v, k, rfl, rfl, hv, hk⟩
        · cases hs

/-! ### Examples -/

/-- Inserting at the end: the new position comes first and the loop begins again. -/
example : lateRun [.next, .next, .insert ⟨9, 0, false⟩, .next] ⟨⟨[], some ⟨1, 0, false⟩, [⟨2, 0, false⟩]⟩, none⟩ =
    some ⟨⟨[], some ⟨9, 0, false⟩, [⟨1, 0, false⟩, ⟨2, 0, false⟩]⟩, some 0⟩ := by decide

/-- Removing, inserting and going on, likewise; after one more step the predecessor is right again. -/
example : lateRun [.next, .remove, .insert ⟨9, 0, false⟩, .next]
      ⟨⟨[], some ⟨1, 0, false⟩, [⟨2, 0, false⟩, ⟨3, 0, false⟩]⟩, none⟩ =
    some ⟨⟨[], some ⟨9, 0, false⟩, [⟨1, 0, false⟩, ⟨3, 0, false⟩]⟩, some 1⟩ ∧
  lateRun [.next, .remove, .insert ⟨9, 0, false⟩, .next, .next, .remove]
      ⟨⟨[], some ⟨1, 0, false⟩, [⟨2, 0, false⟩, ⟨3, 0, false⟩]⟩, none⟩ =
    some ⟨⟨[⟨9, 0, false⟩], none, [⟨3, 0, false⟩]⟩, none⟩ := by decide

/-- The same in memory. -/
example : (do
    let (s, m) ← buildState (fun m => m.count + 1) (fun m => m.count + 1) [⟨1, 0, false⟩, ⟨2, 0, false⟩] ⟨fun _ => none, fun _ => none, 0⟩
    let it ← siterBegin s m
    let (it, m) ← iterRun (fun m => m.count + 1) [.next, .next, .insert ⟨9, 0, false⟩, .next] it m
    let as ← traverse s m
    .ok (it, as) : Except Err (SIter × List Nat)) = .ok (⟨3, 1, 4, 2⟩, [4, 1, 2]) := rfl

example : (do
    let (s, m) ← buildState (fun m => m.count + 1) (fun m => m.count + 1) [⟨1, 0, false⟩, ⟨2, 0, false⟩] ⟨fun _ => none, fun _ => none, 0⟩
    let it ← siterBegin s m
    let _ ← iterRun (fun m => m.count + 1) [.next, .next, .insert ⟨9, 0, false⟩, .next, .remove] it m
    .ok () : Except Err Unit) = .error .ub := rfl

example : (do
    let (s, m) ← buildState (fun m => m.count + 1) (fun m => m.count + 1) [⟨1, 0, false⟩, ⟨2, 0, false⟩, ⟨3, 0, false⟩]
      ⟨fun _ => none, fun _ => none, 0⟩
    let it ← siterBegin s m
    let (_, m) ← iterRun (fun m => m.count + 1) [.next, .remove, .insert ⟨9, 0, false⟩, .next, .remove] it m
    .ok (m.pos 1, m.pos 2, m.pos 3, m.pos 5) : Except Err _) =
      .ok (some ⟨⟨1, 0, false⟩, 1⟩, none, none, some ⟨⟨9, 0, false⟩, 1⟩) := rfl

/-- An iterator that begins at the second of three positions: removing deletes the first one. -/
example : midRun [.remove, .next] ⟨[⟨1, 0, false⟩], some ⟨2, 0, false⟩, [⟨3, 0, false⟩]⟩ =
    some ⟨⟨[⟨2, 0, false⟩], some ⟨3, 0, false⟩, []⟩, none⟩ := by decide

/-- The same in memory. -/
example : (do
    let (s, m) ← buildState (fun m => m.count + 1) (fun m => m.count + 1) [⟨1, 0, false⟩, ⟨2, 0, false⟩, ⟨3, 0, false⟩]
      ⟨fun _ => none, fun _ => none, 0⟩
    let it ← iterNew s 2 m
    let (it, m) ← iterRun (fun m => m.count + 1) [.remove, .next] it m
    let as ← traverse s m
    .ok (it.curr, as, m.pos 1) : Except Err _) = .ok (3, [2, 3], none) := rfl

end Lev.Props
