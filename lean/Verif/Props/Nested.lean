import Verif.Model.Nested
import Verif.Props.AnyCursor

/-!
# Property C114: a loop over a state inside another one

(src/liblevenshtein/transducer/state_iterator.cpp 6-55, unsubsume.cpp 10-38).
-/

namespace Lev.Props

open Lev Spec

section
variable {paddr saddr : SMem → Nat} {m0 m : SMem} {s : Nat}

/-- The inner cursor `d` works behind the outer one, which is at `(x, q)`. -/
def InnerSim (m0 : SMem) (s : Nat) (pre : Cells) (x : Nat) (q : Pos) (outer it : SIter) (m : SMem) (d : Cursor) : Prop :=
  ∃ ipre icur ipost : Cells, StBuilt m0 m s ((pre ++ (x, q) :: ipre) ++ (icur ++ ipost)) ∧ poss ipre = d.pre ∧
    poss icur = d.cur.toList ∧ poss ipost = d.post ∧ it = curIter s (pre ++ (x, q) :: ipre) icur ipost ∧
    outer = curIter s pre [(x, q)] (ipre ++ (icur ++ ipost))

theorem InnerSim.step (hA : SAlloc paddr saddr) {pre : Cells} {x : Nat} {q : Pos} {outer it : SIter} {d d' : Cursor} {op : CursorOp}
    (h : InnerSim m0 s pre x q outer it m d) (hop : cursorStep d op = some d') :
    ∃ outer' it' m', innerStep paddr outer it m op = .ok (outer', it', m') ∧ InnerSim m0 s pre x q outer' it' m' d' := by
  obtain ⟨ipre, icur, ipost, hb, h1, h2, h3, rfl, rfl⟩ := h
  have hlk := hb.isState.linked
  have hlen : icur.length ≤ 1 := by
    have := congrArg List.length h2
    rw [poss_length] at this
    rw [this]; cases d.cur <;> simp
  obtain ⟨hlk1, hlk2⟩ := PLinked.append.1 hlk
  obtain ⟨hlk2, hlk3⟩ := PLinked.append.1 hlk2
  cases op with
  | next =>
    simp only [cursorStep, Option.some.injEq] at hop
    subst hop
    have hcur : lastOr ((pre ++ (x, q) :: ipre) ++ icur) =
        if hd icur 0 ≠ 0 then hd icur 0 else lastOr (pre ++ (x, q) :: ipre) := by
      match icur, hlen, hlk2 with
      | [], _, _ => simp
      | [(y, r)], _, hlk2 =>
        have : y ≠ 0 := hlk2.1
        rw [lastOr_append]; simp [this]
    cases ipost with
    | nil =>
      refine ⟨_, curIter s (pre ++ (x, q) :: (ipre ++ icur)) [] [], m, ?_, ipre ++ icur, [], [], by simpa using hb,
        by simp [h1, h2], by simp [← h3], by simp [← h3], rfl, rfl⟩
      have : pre ++ (x, q) :: (ipre ++ icur) = (pre ++ (x, q) :: ipre) ++ icur := by simp
      simp only [innerStep, siterAdvance, curIter, hd_nil, this, hcur, bind, Except.bind]
      by_cases hc : hd icur 0 = 0 <;> simp [hc]
    | cons y ipost =>
      obtain ⟨y, r⟩ := y
      have hy : m.pos y = some ⟨r, hd ipost 0⟩ := hlk3.2.1
      have hy0 : y ≠ 0 := hlk3.1
      refine ⟨_, curIter s (pre ++ (x, q) :: (ipre ++ icur)) [(y, r)] ipost, m, ?_, ipre ++ icur, [(y, r)], ipost,
        by simpa using hb, by simp [h1, h2], by simp [← h3], by simp [← h3], rfl, rfl⟩
      have : pre ++ (x, q) :: (ipre ++ icur) = (pre ++ (x, q) :: ipre) ++ icur := by simp
      simp only [innerStep, siterAdvance, curIter, hd_cons, this, hcur, hy0, ne_eq, not_false_eq_true, if_true, getCell_ok hy,
        bind, Except.bind]
      by_cases hc : hd icur 0 = 0 <;> simp [hc]
  | insert p =>
    match icur, hcc : d.cur, h2, hlen with
    | [], none, _, _ => simp [cursorStep, hcc] at hop
    | [], some _, h2, _ => simp at h2
    | [(y, r)], none, h2, _ => simp at h2
    | [(y, r)], some v, h2, _ =>
      simp only [cursorStep, hcc, Option.map_some, Option.some.injEq] at hop
      subst hop
      have hsim : IterSim m0 s (curIter s (pre ++ (x, q) :: ipre) [(y, r)] ipost) m ⟨poss (pre ++ (x, q) :: ipre), some r, poss ipost⟩ :=
        ⟨_, _, _, hb, rfl, rfl, rfl, rfl⟩
      obtain ⟨h0, hnew, _, hs1⟩ := StBuilt.newPos hA hb p
      obtain ⟨m', e1, e2, e3⟩ := stateInsertAfter_ok (a := paddr m) (p := p) (nx := 0) (l1 := pre ++ (x, q) :: ipre) (x := y) (q := r)
        (l2 := ipost) (by simpa using hs1) h0 (by simp [newPos]) (by simpa using hnew)
      have hy0 : y ≠ 0 := hlk2.1
      refine ⟨curIter s pre [(x, q)] (ipre ++ ([(y, r)] ++ (paddr m, p) :: ipost)),
        curIter s (pre ++ (x, q) :: ipre) [(y, r)] ((paddr m, p) :: ipost), m', ?_, ipre, [(y, r)], (paddr m, p) :: ipost,
        StBuilt.grown hA hb p (by simpa using e2) e3 ?_ ?_, h1, h2, by simp [h3], rfl, rfl⟩
      · have e1' : stateInsertAfter s y (newPos paddr p m).1 (newPos paddr p m).2 = .ok m' := e1
        have hhd : hd (ipre ++ ([(y, r)] ++ (paddr m, p) :: ipost)) 0 = hd (ipre ++ ([(y, r)] ++ ipost)) 0 := by
          cases ipre <;> simp
        simp only [innerStep, iterInsert, curIter, hd_cons, hy0, ne_eq, not_false_eq_true, if_true, e1', bind, Except.bind, hhd]
        rfl
      · intro a ha
        simp only [List.mem_cons, List.not_mem_nil, or_false] at ha
        rcases ha with rfl | rfl
        · exact .inr (by simp)
        · exact .inl rfl
      · intro a
        simp only [addrs_append, addrs_cons, List.mem_append, List.mem_cons, addrs_nil, List.not_mem_nil, or_false]
        grind
  | remove =>
    simp only [cursorStep, Option.some.injEq] at hop
    subst hop
    match icur, h2, hlen with
    | [], h2, _ =>
      exact ⟨curIter s pre [(x, q)] (ipre ++ ([] ++ ipost)), curIter s (pre ++ (x, q) :: ipre) [] ipost, m,
        by simp [innerStep, iterRemove, curIter, bind, Except.bind], ipre, [], ipost, hb, h1, rfl, h3, rfl, rfl⟩
    | [(y, r)], h2, _ =>
      have hy0 : y ≠ 0 := hlk2.1
      have hy : m.pos y = some ⟨r, hd ipost 0⟩ := hlk2.2.1
      obtain ⟨l1, w, v, hw, hwl⟩ : ∃ l1 w v, pre ++ (x, q) :: ipre = l1 ++ [(w, v)] ∧ lastOr (pre ++ (x, q) :: ipre) = w := by
        rcases List.eq_nil_or_concat (pre ++ (x, q) :: ipre) with h | ⟨l1, ⟨w, v⟩, h⟩
        · simp at h
        · exact ⟨l1, w, v, by simpa using h, by rw [h]; simp [lastOr]⟩
      have hst := hb.isState
      rw [hw] at hst
      obtain ⟨m', e1, e2, e3, e4, _⟩ := stateRemove_ok (w := w) (x := y) (p := r) (q := v) (l1 := l1) (l2 := ipost)
        (by simpa using hst)
      have hfin : (pre ++ (x, q) :: ipre) ++ ([] ++ ipost) = l1 ++ (w, v) :: ipost := by rw [hw]; simp
      have hwm : w ∈ addrs (pre ++ (x, q) :: ipre) := by rw [hw]; simp
      refine ⟨curIter s pre [(x, q)] (ipre ++ ([] ++ ipost)), curIter s (pre ++ (x, q) :: ipre) [] ipost, m', ?_, ipre, [], ipost,
        hb.step (by rw [hfin]; exact e2) (e3.mono ?_) ⟨?_, ?_⟩, h1, rfl, h3, rfl, rfl⟩
      · have hskip : skipRemoved y m (some (curIter s pre [(x, q)] (ipre ++ ([(y, r)] ++ ipost)))) =
            .ok (some (curIter s pre [(x, q)] (ipre ++ ([] ++ ipost)))) := by
          cases ipre with
          | nil => simp [skipRemoved, curIter, getCell_ok hy, bind, Except.bind]
          | cons z ipre =>
            have hne : z.1 ≠ y := by
              intro he
              have := hb.isState.nodup
              obtain ⟨z, zp⟩ := z
              simp only at he
              subst he
              simp only [addrs_append, addrs_cons, List.nodup_append, List.mem_append, List.mem_cons] at this
              exact this.2.2 z (by simp) z (by simp) rfl
            obtain ⟨z, zp⟩ := z
            simp only at hne
            simp [skipRemoved, curIter, hne]
        have e1' : stateRemove s (lastOr (pre ++ (x, q) :: ipre)) y m = .ok m' := by rw [hwl]; exact e1
        simp only [innerStep, iterRemove]
        rw [show (curIter s (pre ++ (x, q) :: ipre) [(y, r)] ipost).curr = y from rfl,
          show (curIter s (pre ++ (x, q) :: ipre) [(y, r)] ipost).state = s from rfl,
          show (curIter s (pre ++ (x, q) :: ipre) [(y, r)] ipost).prev = lastOr (pre ++ (x, q) :: ipre) from rfl, hskip, if_pos hy0]
        simp only [e1', bind, Except.bind, Option.getD_some]
        rfl
      · intro a ha
        simp only [List.mem_cons, List.not_mem_nil, or_false] at ha
        rcases ha with rfl | rfl
        · rw [addrs_append]; exact List.mem_append_left _ hwm
        · simp
      · intro a ha
        simp only [addrs_append, List.mem_append, addrs_nil, List.not_mem_nil, false_or] at ha ⊢
        exact ha.elim .inl fun h => .inr (.inr h)
      · intro a ha hna
        have : a = y := by
          simp only [addrs_append, addrs_cons, addrs_nil, List.mem_append, List.mem_cons, List.not_mem_nil, or_false, false_or] at ha hna
          grind
        rw [this]; exact e4

theorem InnerSim.run (hA : SAlloc paddr saddr) {pre : Cells} {x : Nat} {q : Pos} {outer it : SIter} {d d' : Cursor}
    {ops : List CursorOp} (h : InnerSim m0 s pre x q outer it m d) (hops : cursorRun ops d = some d') :
    ∃ outer' m', innerRun paddr ops outer it m = .ok (outer', m') ∧ ∃ it', InnerSim m0 s pre x q outer' it' m' d' := by
  induction ops generalizing outer it m d with
  | nil =>
    simp only [cursorRun, Option.some.injEq] at hops
    subst hops
    exact ⟨outer, m, rfl, it, h⟩
  | cons op ops ih =>
    simp only [cursorRun, Option.bind_eq_some_iff] at hops
    obtain ⟨c1, h1, h2⟩ := hops
    obtain ⟨o1, it1, m1, e1, hs1⟩ := h.step hA h1
    obtain ⟨o2, m2, e2, hs2⟩ := ih hs1 h2
    exact ⟨o2, m2, by simp only [innerRun, e1, e2, bind, Except.bind], hs2⟩

/-- An inner iterator without a position does nothing. -/
theorem innerRun_none {outer it : SIter} {ops : List CursorOp} (hops : ops.all (fun op => op == .next || op == .remove) = true)
    (hc : it.curr = 0) (hn : it.next = 0) : innerRun paddr ops outer it m = .ok (outer, m) := by
  induction ops generalizing it with
  | nil => rfl
  | cons op ops ih =>
    simp only [List.all_cons, Bool.and_eq_true, Bool.or_eq_true, beq_iff_eq] at hops
    rcases hops with ⟨rfl | rfl, hops⟩
    · simp only [innerRun, innerStep, siterAdvance, hc, hn, bind, Except.bind]
      exact ih hops rfl rfl
    · simp only [innerRun, innerStep, iterRemove, hc, bind, Except.bind]
      exact ih hops hc hn

theorem IterSim.nested (hA : SAlloc paddr saddr) {it : SIter} {c c' : Cursor} {op : NestOp} (h : IterSim m0 s it m c)
    (hop : nestStep c op = some c') : ∃ it' m', nestedStep paddr it m op = .ok (it', m') ∧ IterSim m0 s it' m' c' := by
  cases op with
  | outer op => exact h.step hA hop
  | inner ops =>
    obtain ⟨pre, cur, post, hb, h1, h2, h3, rfl⟩ := h
    have hlk := (PLinked.append.1 hb.isState.linked).2
    match cur, hcc : c.cur, h2 with
    | [], some v, h2 => simp at h2
    | (x, q) :: _, none, h2 => simp at h2
    | (x, q) :: _ :: _, some v, h2 => simp at h2
    | [], none, _ =>
      simp only [nestStep, hcc, Option.isSome_none, Bool.false_eq_true, if_false] at hop
      split at hop
      · rename_i hops
        simp only [Option.some.injEq] at hop
        subst hop
        refine ⟨curIter s pre [] post, m, ?_, pre, [], post, hb, h1, by simp [hcc], h3, rfl⟩
        simp only [nestedStep, iterNew, curIter, hd_nil, ne_eq, not_true_eq_false, if_false, siterAdvance, bind, Except.bind]
        exact innerRun_none hops rfl rfl
      · cases hop
    | [(x, q)], some v, h2 =>
      simp only [nestStep, hcc, Option.isSome_some, if_true, Option.map_eq_some_iff] at hop
      obtain ⟨d, hd1, rfl⟩ := hop
      have hx0 : x ≠ 0 := hlk.1
      have hx : m.pos x = some ⟨q, hd post 0⟩ := hlk.2.1
      have hpost := (PLinked.append.1 hlk).2
      have start : ∃ it, (do let it ← iterNew s x m; siterAdvance m it) = .ok it ∧
          InnerSim m0 s pre x q (curIter s pre [(x, q)] post) it m ⟨[], c.post.head?, c.post.tail⟩ := by
        cases post with
        | nil =>
          refine ⟨curIter s (pre ++ [(x, q)]) [] [], ?_, [], [], [], by simpa using hb, rfl, by simp [← h3], by simp [← h3], rfl, rfl⟩
          simp [iterNew, hx0, getCell_ok hx, siterAdvance, curIter, lastOr, bind, Except.bind]
        | cons y post =>
          obtain ⟨y, r⟩ := y
          have hy0 : y ≠ 0 := hpost.1
          have hy : m.pos y = some ⟨r, hd post 0⟩ := hpost.2.1
          refine ⟨curIter s (pre ++ [(x, q)]) [(y, r)] post, ?_, [], [(y, r)], post, by simpa using hb, rfl, by simp [← h3],
            by simp [← h3], rfl, rfl⟩
          simp [iterNew, hx0, getCell_ok hx, siterAdvance, curIter, lastOr, hy0, getCell_ok hy, bind, Except.bind]
      obtain ⟨it, e0, hs⟩ := start
      obtain ⟨o', m', e1, it', ipre, icur, ipost, f1, f2, f3, f4, _, f5⟩ := hs.run hA hd1
      refine ⟨o', m', ?_, pre, [(x, q)], ipre ++ (icur ++ ipost), by simpa using f1, h1, h2, by simp [Cursor.seq, f2, f3, f4], f5⟩
      rw [← e1]
      simp only [nestedStep]
      rw [show (curIter s pre [(x, q)] post).curr = x from rfl, show (curIter s pre [(x, q)] post).state = s from rfl]
      simp only [bind, Except.bind] at e0 ⊢
      split at e0
      · cases e0
      · simp only [e0]

theorem IterSim.nestedRun (hA : SAlloc paddr saddr) {it : SIter} {c c' : Cursor} {ops : List NestOp} (h : IterSim m0 s it m c)
    (hops : nestRun ops c = some c') : ∃ it' m', nestedRun paddr ops it m = .ok (it', m') ∧ IterSim m0 s it' m' c' := by
  induction ops generalizing it m c with
  | nil =>
    simp only [nestRun, Option.some.injEq] at hops
    subst hops
    exact ⟨it, m, rfl, h⟩
  | cons op ops ih =>
    simp only [nestRun, Option.bind_eq_some_iff] at hops
    obtain ⟨c1, h1, h2⟩ := hops
    obtain ⟨it1, m1, e1, hs1⟩ := IterSim.nested hA h h1
    obtain ⟨it2, m2, e2, hs2⟩ := ih hs1 h2
    exact ⟨it2, m2, by simp only [Lev.nestedRun, e1, e2, bind, Except.bind], hs2⟩

/-- C114: a program with an outer iterator and inner ones behind it does with the state what the cursors do; the outer iterator skips
what an inner one removed and meets what it inserted, no deleted position is used, and no memory is lost. -/
theorem c114_nested (hA : SAlloc paddr saddr) (hm : m.Finite) (ps : List Pos) {ops : List NestOp} {c : Cursor}
    (hops : nestRun ops ⟨[], ps.head?, ps.tail⟩ = some c) :
    ∃ s m1 it m' it', buildState paddr saddr ps m = .ok (s, m1) ∧ siterBegin s m1 = .ok it ∧
      Lev.nestedRun paddr ops it m1 = .ok (it', m') ∧ Holds m m' s c.seq ∧
      (∀ p, c.cur = some p → (m'.pos it'.curr).map PCell.pos = some p) ∧ (it'.curr = 0 ↔ c.cur = none) ∧
      ∃ m'', deleteState s m' = .ok m'' ∧ m''.pos = m.pos ∧ m''.st = m.st := by
  obtain ⟨m1, s, l, e, hb, hl⟩ := buildState_ok hA hm ps
  have h0 : IterSim m s (iterAt s l 0) m1 ⟨[], ps.head?, ps.tail⟩ := by
    cases l with
    | nil => subst hl; exact ⟨[], [], [], hb, rfl, rfl, rfl, rfl⟩
    | cons x l => subst hl; exact ⟨[], [x], l, hb, rfl, rfl, rfl, rfl⟩
  obtain ⟨it', m', e', pre, cur, post, hb', h1, h2, h3, h4⟩ := IterSim.nestedRun hA h0 hops
  exact ⟨s, m1, _, m', it', e, siterBegin_ok hb.isState, e', CursorEnd.facts ⟨pre, cur, post, lastOr pre, hb', h1, h2, h3, h4⟩ hm⟩

/-- C114: an inner iterator that was not told of the outer one removes the position behind the outer one: to advance the outer
iterator is then undefined behaviour. -/
theorem c114_untold (hA : SAlloc paddr saddr) (hm : m.Finite) (ps : List Pos) {ops : List NestOp} {c : Cursor}
    (hops : nestRun ops ⟨[], ps.head?, ps.tail⟩ = some c) (hc : c.cur.isSome) (hp : c.post ≠ []) :
    ∃ s m1 it m2 outer inner inner' m3, buildState paddr saddr ps m = .ok (s, m1) ∧ siterBegin s m1 = .ok it ∧
      Lev.nestedRun paddr ops it m1 = .ok (outer, m2) ∧ iterNew s outer.curr m2 = .ok inner ∧
      iterRun paddr [.next, .remove] inner m2 = .ok (inner', m3) ∧ siterAdvance m3 outer = .error .ub := by
  obtain ⟨m1, s, l, e, hb, hl⟩ := buildState_ok hA hm ps
  have h0 : IterSim m s (iterAt s l 0) m1 ⟨[], ps.head?, ps.tail⟩ := by
    cases l with
    | nil => subst hl; exact ⟨[], [], [], hb, rfl, rfl, rfl, rfl⟩
    | cons x l => subst hl; exact ⟨[], [x], l, hb, rfl, rfl, rfl, rfl⟩
  obtain ⟨outer, m2, e', pre, cur, post, hb', h1, h2, h3, rfl⟩ := IterSim.nestedRun hA h0 hops
  have hlk := (PLinked.append.1 hb'.isState.linked).2
  match cur, hcc : c.cur, h2, post, h3 with
  | _, none, _, _, _ => rw [hcc] at hc; cases hc
  | _, _, _, [], h3 => exact absurd h3.symm hp
  | [], some _, h2, _, _ => simp at h2
  | _ :: _ :: _, some _, h2, _, _ => simp at h2
  | [(x, q)], some v, h2, (y, r) :: post, h3 =>
    have hx0 : x ≠ 0 := hlk.1
    have hx : m2.pos x = some ⟨q, y⟩ := hlk.2.1
    have hy0 : y ≠ 0 := hlk.2.2.1
    have hy : m2.pos y = some ⟨r, hd post 0⟩ := hlk.2.2.2.1
    obtain ⟨m3, f1, f2, f3, f4, _⟩ := stateRemove_ok (w := x) (x := y) (p := r) (q := q) (l1 := pre) (l2 := post)
      (by simpa using hb'.isState)
    refine ⟨s, m1, _, m2, _, ⟨s, y, x, 0⟩, ⟨s, hd post 0, 0, x⟩, m3, e, siterBegin_ok hb.isState, e', ?_, ?_, ?_⟩
    · simp [iterNew, curIter, hx0, getCell_ok hx, bind, Except.bind]
    · simp [iterRun, iterStep, siterAdvance, iterRemove, skipRemoved, hx0, hy0, getCell_ok hy, f1, bind, Except.bind]
    · simp [siterAdvance, curIter, hy0, getCell, f4, bind, Except.bind]

end

/-! ### Examples -/

/-- The inner loop removes the next position, keeps one and inserts one behind it; the outer loop meets what is left. -/
example : nestRun [.inner [.remove, .next, .insert ⟨9, 0, false⟩], .outer .next, .outer .next]
      ⟨[], some ⟨1, 0, false⟩, [⟨2, 0, false⟩, ⟨3, 0, false⟩]⟩ =
    some ⟨[⟨1, 0, false⟩, ⟨3, 0, false⟩], some ⟨9, 0, false⟩, []⟩ := by decide

/-- The same in memory. -/
example : (do
    let (s, m) ← buildState (fun m => m.count + 1) (fun m => m.count + 1) [⟨1, 0, false⟩, ⟨2, 0, false⟩, ⟨3, 0, false⟩]
      ⟨fun _ => none, fun _ => none, 0⟩
    let it ← siterBegin s m
    let (it, m) ← nestedRun (fun m => m.count + 1) [.inner [.remove, .next, .insert ⟨9, 0, false⟩], .outer .next, .outer .next] it m
    let as ← traverse s m
    .ok (it.curr, as, m.pos 2) : Except Err _) = .ok (5, [1, 3, 5], none) := rfl

/-- The hypotheses of `c114_untold` after two steps. -/
example : nestRun [.inner [.remove], .outer .next] ⟨[], some ⟨1, 0, false⟩, [⟨2, 0, false⟩, ⟨3, 0, false⟩, ⟨4, 0, false⟩]⟩ =
    some ⟨[⟨1, 0, false⟩], some ⟨3, 0, false⟩, [⟨4, 0, false⟩]⟩ := by decide

end Lev.Props
