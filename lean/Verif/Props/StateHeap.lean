import Verif.Proofs.ListProgram
import Verif.Proofs.Alloc
import Verif.Proofs.Session
import Verif.Props.State

/-!
# C52 and the memory side of C47: states and positions as objects in memory
-/

namespace Lev.Props

open Lev Spec

/-- In memory `m`, which was `m0` before the state `s` existed, `s` holds the sequence `ps`: a loop over the state ends
and sees pairwise different positions with these values; the positions of the state are new; all other positions and all
other states are as before, so that nothing is left over. -/
structure Holds (m0 m : SMem) (s : Nat) (ps : List Pos) : Prop where
  loop : ∃ as, traverse s m = .ok as ∧ as.Nodup ∧ as.map (fun a => (m.pos a).map PCell.pos) = ps.map some ∧
    (∀ a ∈ as, a ≠ 0 ∧ m0.pos a = none) ∧ ∀ a, a ∉ as → m.pos a = m0.pos a
  others : m0.st s = none ∧ ∀ s', s' ≠ s → m.st s' = m0.st s'

theorem linked_values {pos : Nat → Option PCell} {l : Cells} {b : Nat} (h : PLinked pos l b) :
    (addrs l).map (fun a => (pos a).map PCell.pos) = (poss l).map some := by
  induction l with
  | nil => rfl
  | cons x l ih =>
    obtain ⟨x, p⟩ := x
    obtain ⟨h1, h2, h3⟩ := h
    simp [h2, ih h3]

theorem holds_of_built {m0 m : SMem} {s : Nat} {l : Cells} (h : StBuilt m0 m s l) : Holds m0 m s (poss l) where
  loop := ⟨addrs l, traverse_ok h.finite h.isState, h.isState.nodup, linked_values h.isState.linked,
    fun a ha => ⟨h.isState.linked.nonnull a ha, h.new a ha⟩, h.pos⟩
  others := ⟨h.fresh, h.st⟩

/-! ### C52 -/

/-- C52, `head`, `add`, `insert_after`, `remove`, `sort`: a program makes a state and performs any finite sequence of
operations that respects the conventions.  No operation is undefined behaviour.  The operations are those on a sequence
(`SeqSteps`); in the end a loop over the state ends and sees the positions of that sequence; the positions the program
made and did not delete are alive, at different addresses, with the values they were made with; everything else in
memory is as it was.  This holds whichever argument of `merge` is evaluated first in `merge_sort`. -/
theorem c52_operations {paddr saddr : SMem → Nat} (hA : SAlloc paddr saddr) (first : Bool) {cmp : Pos → Pos → Int}
    (total : ∀ a b, cmp a b ≤ 0 ∨ cmp b a ≤ 0) (trans : ∀ a b c, cmp a b ≤ 0 → cmp b c ≤ 0 → cmp a c ≤ 0)
    {m : SMem} (hm : m.Finite) {ops : List ListOp} (hops : Respects cmp ops ⟨[], [], []⟩) :
    ∃ T m' c, listRun paddr first cmp (newState saddr m).1 ops [] (newState saddr m).2 = .ok (T, m') ∧
      SeqSteps cmp ops ⟨[], [], []⟩ c ∧
      traverse (newState saddr m).1 m' = .ok (c.seq.map fun i => T.getD i 0) ∧
      ((c.seq ++ c.loose).map fun i => T.getD i 0).Nodup ∧
      (∀ i ∈ c.seq ++ c.loose, T.getD i 0 ≠ 0 ∧ m.pos (T.getD i 0) = none ∧
        ∃ nx, m'.pos (T.getD i 0) = some ⟨c.val i, nx⟩) ∧
      ∀ a, a ∉ (c.seq ++ c.loose).map (fun i => T.getD i 0) → m'.pos a = m.pos a := by
  have key : ∀ a b, cmp a b < 1 ↔ cmp a b ≤ 0 := fun a b => by omega
  have hc : TotalPre cmp := ⟨fun a b => by rw [key, key]; exact total a b,
    fun a b c => by rw [key, key, key]; exact trans a b c⟩
  have hb := newState_built hA hm
  have h0 : Sim m (newState saddr m).1 (newState saddr m).2 [] ⟨[], [], []⟩ :=
    ⟨hb.finite, rfl, by simp, by simp, hb.isState, by simp, by simp, fun a _ => hb.pos a (by simp), hb.st⟩
  obtain ⟨T, m', c, e, hs, hsim⟩ := h0.run (first := first) hA hc hops
  refine ⟨T, m', c, e, hs, ?_, hsim.nodup, fun i hi => ?_, hsim.pos⟩
  · rw [traverse_ok hsim.finite hsim.state, addrs_cellsOf]; rfl
  · have hnew : m.pos (T.getD i 0) = none := hsim.new i hi
    rcases List.mem_append.1 hi with hi | hi
    · have hlk := hsim.state.linked
      obtain ⟨a, b, hab⟩ := List.append_of_mem hi
      rw [hab, cellsOf_append, cellsOf_cons] at hlk
      have := (PLinked.append.1 hlk).2
      exact ⟨this.1, hnew, _, this.2.1⟩
    · obtain ⟨h1, h2⟩ := hsim.loose i hi
      exact ⟨h1, hnew, 0, h2⟩

/-- A program: three positions are made, the first is the head, the second is added, the third inserted between them and
the first removed; then the state is sorted and a position that was never inserted is deleted. -/
def exProgram : List ListOp :=
  [.make ⟨2, 0, false⟩, .make ⟨1, 1, false⟩, .head 0, .add 1, .make ⟨5, 1, true⟩, .insertAfter (some 0) 2, .remove none 0,
    .make ⟨7, 7, false⟩, .sort, .drop 3]

theorem respects_cons {cmp : Pos → Pos → Int} {op : ListOp} {ops : List ListOp} {c : Config}
    (h : ∃ c', SeqStep cmp op c c') (h' : ∀ c', SeqStep cmp op c c' → Respects cmp ops c') : Respects cmp (op :: ops) c :=
  ⟨h, h'⟩

theorem exProgram_respects : Respects (comparePos .standard) exProgram ⟨[], [], []⟩ := by
  refine respects_cons ⟨_, .make _⟩ fun c hc => ?_
  cases hc
  change Respects _ _ ⟨[⟨2, 0, false⟩], [], [0]⟩
  refine respects_cons ⟨_, .make _⟩ fun c hc => ?_
  cases hc
  change Respects _ _ ⟨[⟨2, 0, false⟩, ⟨1, 1, false⟩], [], [1, 0]⟩
  refine respects_cons ⟨_, .head (by decide)⟩ fun c hc => ?_
  cases hc
  change Respects _ _ ⟨[⟨2, 0, false⟩, ⟨1, 1, false⟩], [0], [1]⟩
  refine respects_cons ⟨_, .add (by decide)⟩ fun c hc => ?_
  cases hc
  change Respects _ _ ⟨[⟨2, 0, false⟩, ⟨1, 1, false⟩], [0, 1], []⟩
  refine respects_cons ⟨_, .make _⟩ fun c hc => ?_
  cases hc
  change Respects _ _ ⟨[⟨2, 0, false⟩, ⟨1, 1, false⟩, ⟨5, 1, true⟩], [0, 1], [2]⟩
  refine respects_cons ⟨_, .insertAfter (a := []) (by decide) rfl⟩ fun c hc => ?_
  cases hc with
  | @insertAfter _ _ _ a b _ h =>
    have hab : a = [] ∧ b = [1] := by
      match a, h with
      | [], h => simp at h; exact ⟨rfl, h.symm⟩
      | [x], h => simp at h
      | x :: y :: a, h => simp at h
    obtain ⟨rfl, rfl⟩ := hab
    change Respects _ _ ⟨[⟨2, 0, false⟩, ⟨1, 1, false⟩, ⟨5, 1, true⟩], [0, 2, 1], []⟩
    refine respects_cons ⟨_, .removeFirst rfl⟩ fun c hc => ?_
    cases hc with
    | removeFirst h =>
      cases h
      refine respects_cons ⟨_, .make _⟩ fun c hc => ?_
      cases hc
      change Respects _ _ ⟨[⟨2, 0, false⟩, ⟨1, 1, false⟩, ⟨5, 1, true⟩, ⟨7, 7, false⟩], [2, 1], [3]⟩
      refine respects_cons ⟨_, .sort (l := [1, 2]) (.swap _ _ _) (by decide) (by decide)⟩ fun c hc => ?_
      cases hc
      exact respects_cons ⟨_, .drop (List.mem_singleton.2 rfl)⟩ fun c hc => trivial

/-- The values a loop sees. -/
def seen (s : Nat) (m : SMem) : Except Err (List (Option Pos)) := do
  let as ← traverse s m
  .ok (as.map fun a => (m.pos a).map PCell.pos)

example : ((listRun lowPos true (comparePos .standard) 1 exProgram [] (newState lowSt .empty).2).bind fun r => seen 1 r.2) =
    .ok [some ⟨1, 1, false⟩, some ⟨5, 1, true⟩] := by decide +kernel

/-- C46 in memory: `state.sort(cmp)` on a state with any positions ends without undefined behaviour, whichever argument of
`merge` is evaluated first; a loop over the state then sees the same objects, unchanged but for their links, in
ascending order, and those that compare equal in the order they had. -/
theorem c46_sort_in_memory {paddr saddr : SMem → Nat} (hA : SAlloc paddr saddr) (first : Bool) {cmp : Pos → Pos → Int}
    (total : ∀ a b, cmp a b ≤ 0 ∨ cmp b a ≤ 0) (trans : ∀ a b c, cmp a b ≤ 0 → cmp b c ≤ 0 → cmp a c ≤ 0)
    {m : SMem} (hm : m.Finite) (ps : List Pos) :
    ∃ s m1 m2 as as' v, buildState paddr saddr ps m = .ok (s, m1) ∧ traverse s m1 = .ok as ∧
      stateSort first cmp s m1 = .ok m2 ∧ traverse s m2 = .ok as' ∧
      (∀ a ∈ as, (m1.pos a).map PCell.pos = some (v a) ∧ (m2.pos a).map PCell.pos = some (v a)) ∧
      as.Nodup ∧ as.map v = ps ∧ as'.Perm as ∧ as'.Pairwise (fun a b => cmp (v a) (v b) ≤ 0) ∧
      ∀ a ∈ as, as'.filter (fun b => cmp (v a) (v b) ≤ 0 && cmp (v b) (v a) ≤ 0) =
        as.filter (fun b => cmp (v a) (v b) ≤ 0 && cmp (v b) (v a) ≤ 0) := by
  have hc : TotalPre (cellCmp cmp) := ⟨fun x y => by have := total x.2 y.2; unfold cellCmp; omega,
    fun x y z h1 h2 => by have := trans x.2 y.2 z.2; unfold cellCmp at *; omega⟩
  obtain ⟨m1, s, l, e, hb, hl⟩ := buildState_ok hA hm ps
  obtain ⟨m2, R, e2, hs2, hR, hp, ho⟩ := stateSort_ok (first := first) (cmp := cmp) hb.finite hb.isState
  let v : Nat → Pos := fun a => ((m1.pos a).map PCell.pos).getD ⟨0, 0, false⟩
  have hv1 : ∀ {m' : SMem} {k : Cells} {j : Nat}, PLinked m'.pos k j → ∀ x ∈ k, (m'.pos x.1).map PCell.pos = some x.2 := by
    intro m' k
    induction k with
    | nil => simp
    | cons y k ih =>
      intro j hk x hx
      rcases List.mem_cons.1 hx with rfl | hx
      · rw [hk.2.1]; rfl
      · exact ih hk.2.2 x hx
  have hv : ∀ x ∈ l, v x.1 = x.2 := by
    intro x hx
    simp only [v, hv1 hb.isState.linked x hx, Option.getD_some]
  have hcmp : ∀ a ∈ l, ∀ k : Cells, (∀ x ∈ k, x ∈ l) →
      (addrs k).filter (fun b => cmp (v a.1) (v b) ≤ 0 && cmp (v b) (v a.1) ≤ 0) =
        addrs (k.filter fun x => cmp a.2 x.2 ≤ 0 && cmp x.2 a.2 ≤ 0) := by
    intro a ha k hk
    simp only [addrs, List.filter_map]
    congr 1
    refine List.filter_congr fun x hx => ?_
    simp only [Function.comp, hv a ha, hv x (hk x hx)]
  refine ⟨s, m1, m2, addrs l, addrs R, v, e, traverse_ok hb.finite hb.isState, e2, traverse_ok (ho.finite hb.finite) hs2,
    ?_, hb.isState.nodup, ?_, hp.map _, ?_, ?_⟩
  · intro a ha
    obtain ⟨x, hx, rfl⟩ := List.mem_map.1 ha
    exact ⟨by rw [hv x hx]; exact hv1 hb.isState.linked x hx, by rw [hv x hx]; exact hv1 hs2.linked x (hp.mem_iff.2 hx)⟩
  · rw [← hl]
    simp only [addrs, poss, List.map_map]
    exact List.map_congr_left fun x hx => hv x hx
  · rw [addrs, List.pairwise_map, hR]
    rw [hR] at hp
    refine (mergeSort_sorted hc l).imp_of_mem fun {x y} hx hy hxy => ?_
    rw [hv x (hp.mem_iff.1 hx), hv y (hp.mem_iff.1 hy)]
    unfold cellCmp at hxy; omega
  · intro a ha
    obtain ⟨x, hx, rfl⟩ := List.mem_map.1 ha
    rw [hcmp x hx l (fun _ h => h), hcmp x hx R (fun _ h => hp.mem_iff.1 h), hR]
    congr 1
    refine mergeSort_filter hc _ (fun y z hy hz => ?_) l
    simp only [Bool.and_eq_true, decide_eq_true_eq] at hy hz
    have := trans y.2 x.2 z.2 hy.2 hz.1
    unfold cellCmp; omega

/-- C52, construction and destruction: `new State(positions)` holds the positions in the given order; `delete` leaves
the memory as it was. -/
theorem c52_construct_destroy {paddr saddr : SMem → Nat} (hA : SAlloc paddr saddr) {m : SMem} (hm : m.Finite)
    (ps : List Pos) :
    ∃ s m' m'', buildState paddr saddr ps m = .ok (s, m') ∧ Holds m m' s ps ∧ deleteState s m' = .ok m'' ∧
      m''.pos = m.pos ∧ m''.st = m.st := by
  obtain ⟨m', s, l, e, hb, hl⟩ := buildState_ok hA hm ps
  obtain ⟨m'', e', hacc, _⟩ := ((Accounted.refl hm).grow hb).delete (o := [])
  exact ⟨s, m', m'', e, hl ▸ holds_of_built hb, e', hacc.all.1, hacc.all.2⟩

/-- C52, iterators: the operations of a `StateIterator` are those of a cursor in the sequence: after any number of
increments, removals, and insertions at a position, the state holds the sequence with the insertions and without the
removed positions, which are freed; the iterator shows the position the cursor is at and compares equal to `end()`
exactly at the end. -/
theorem c52_iterators {paddr saddr : SMem → Nat} (hA : SAlloc paddr saddr) {m : SMem} (hm : m.Finite)
    (ps : List Pos) {ops : List CursorOp} {c : Cursor} (hops : cursorRun ops ⟨[], ps.head?, ps.tail⟩ = some c) :
    ∃ s m1 it m' it', buildState paddr saddr ps m = .ok (s, m1) ∧ siterBegin s m1 = .ok it ∧
      iterRun paddr ops it m1 = .ok (it', m') ∧ Holds m m' s c.seq ∧
      (∀ p, c.cur = some p → (m'.pos it'.curr).map PCell.pos = some p) ∧
      (it'.curr = 0 ↔ c.cur = none) ∧ (it'.atEnd = true ↔ c.cur = none ∧ c.post = []) := by
  obtain ⟨m1, s, l, e, hb, hl⟩ := buildState_ok hA hm ps
  have h0 : IterSim m s (iterAt s l 0) m1 ⟨[], ps.head?, ps.tail⟩ := by
    cases l with
    | nil => subst hl; exact ⟨[], [], [], hb, rfl, rfl, rfl, rfl⟩
    | cons x l => subst hl; exact ⟨[], [x], l, hb, rfl, rfl, rfl, rfl⟩
  obtain ⟨it', m', e', pre, cur, post, hb', h1, h2, h3, h4⟩ := h0.run hA hops
  have hlk := (PLinked.append.1 hb'.isState.linked).2
  refine ⟨s, m1, _, m', it', e, siterBegin_ok hb.isState, e', ?_, ?_, ?_, ?_⟩
  · have := holds_of_built hb'
    rw [poss_append, poss_append, h1, h2, h3] at this
    exact this
  · subst h4
    intro v hcc
    rw [hcc] at h2
    match cur, h2 with
    | [(x, p)], h2 =>
      have hx := hlk.2.1
      simp only [poss_cons, poss_nil, Option.toList_some, List.cons.injEq, and_true] at h2
      simp [curIter, hx, h2]
  · subst h4
    match cur, h2 with
    | [], h2 =>
      cases hcc : c.cur with
      | none => simp [curIter]
      | some v => rw [hcc] at h2; simp at h2
    | (x, p) :: r, h2 =>
      have hx0 : x ≠ 0 := hlk.1
      cases hcc : c.cur with
      | none => rw [hcc] at h2; simp at h2
      | some v => simp [curIter, hx0]
  · subst h4
    match cur, h2, hlk with
    | [], h2, hlk =>
      have hcc : c.cur = none := by cases hcc : c.cur with
        | none => rfl
        | some v => rw [hcc] at h2; simp at h2
      rw [← h3]
      cases post with
      | nil => simp [curIter, SIter.atEnd, hcc]
      | cons y post =>
        have hy0 : y.1 ≠ 0 := hlk.1
        simp [curIter, SIter.atEnd, hy0]
    | (x, p) :: r, h2, hlk =>
      have hx0 : x ≠ 0 := hlk.1
      cases hcc : c.cur with
      | none => rw [hcc] at h2; simp at h2
      | some v => simp [curIter, SIter.atEnd, hx0]

example : cursorRun [.next, .remove, .next, .insert ⟨9, 9, false⟩, .next, .next]
    ⟨[], some ⟨1, 0, false⟩, [⟨2, 0, false⟩, ⟨3, 0, false⟩]⟩ =
    some ⟨[⟨1, 0, false⟩, ⟨3, 0, false⟩, ⟨9, 9, false⟩], none, []⟩ := by decide

/-- C52, outside of the documentation: inserting with an iterator that is at no position (it is at the end, or its
position was removed) puts the position at the front of the state, from where the loop then goes on. -/
theorem c52_insert_without_position {m : SMem} {s a nx pv next : Nat} {p : Pos} {l : Cells} (hs : IsState m s l)
    (ha : a ≠ 0) (hc : m.pos a = some ⟨p, nx⟩) (hn : a ∉ addrs l) :
    ∃ m', iterInsert { state := s, next := next, curr := 0, prev := pv } a m =
        .ok ({ state := s, next := a, curr := 0, prev := pv }, m') ∧ IsState m' s ((a, p) :: l) := by
  obtain ⟨m', e, h1, _⟩ := stateHead_ok hs ha hc hn
  exact ⟨m', by simp [iterInsert, e, bind, Except.bind], h1⟩

/-- C52, `merge`, `unsubsume` and `StateTransition` in memory do what the functions on lists do; the old state stays as it
is; if there is no next state nothing is left in memory. -/
theorem c52_transition {paddr saddr : SMem → Nat} (hA : SAlloc paddr saddr) (first : Bool) {A : Algorithm} {n len : Nat}
    {cv : List Bool} {m : SMem} (hm : m.Finite) (ps : List Pos) {r : Option (List Pos)}
    (hr : stateTrans A n len ps cv = .ok r) :
    ∃ s m1 m2 o, buildState paddr saddr ps m = .ok (s, m1) ∧
      stateTransH paddr saddr first A n len s cv m1 = .ok (m2, o) ∧ traverse s m2 = traverse s m1 ∧
      (∀ a c, m1.pos a = some c → m2.pos a = some c) ∧
      (r = none → o = none ∧ m2.pos = m1.pos ∧ m2.st = m1.st) ∧
      ∀ ps', r = some ps' → ∃ s', o = some s' ∧ Holds m1 m2 s' ps' := by
  obtain ⟨m1, s, l, e, hb, hl⟩ := buildState_ok hA hm ps
  have hrep : HRep m1 s ps := ⟨hb.finite, l, hb.isState, hl⟩
  cases r with
  | none =>
    obtain ⟨m2, e1, e2, e3, e4⟩ := stateTransH_none hA first hrep hr
    have hs2 : IsState m2 s l := ⟨by rw [e3]; exact hb.isState.st, by rw [e2]; exact hb.isState.linked, hb.isState.nodup⟩
    exact ⟨s, m1, m2, none, e, e1, by rw [traverse_ok e4 hs2, traverse_ok hb.finite hb.isState],
      fun a c h => by rw [e2]; exact h, fun _ => ⟨rfl, e2, e3⟩, by simp⟩
  | some ps' =>
    obtain ⟨m2, next, c, e1, e2, rfl⟩ := stateTransH_some hA first hrep hr
    have hs2 := e2.keep hb.isState
    refine ⟨s, m1, m2, some next, e, e1, by rw [traverse_ok e2.finite hs2, traverse_ok hb.finite hb.isState],
      fun a x hx => ?_, by simp, ?_⟩
    · rw [e2.pos a fun hc => ?_]
      · exact hx
      · rw [e2.new a hc] at hx; cases hx
    · intro ps' h
      cases h
      exact ⟨next, rfl, holds_of_built e2⟩

example : stateTrans .standard 1 2 [⟨0, 0, false⟩] [true, false] = .ok (some [⟨1, 0, false⟩]) ∧
    stateTrans .standard 0 2 [⟨0, 0, false⟩] [false] = .ok none := by decide +kernel

/-- C52, `distance<Type>` in memory: the least number of errors plus characters of the query left over among the positions
of the state, special positions not counted unless the algorithm is STANDARD; `SIZE_MAX` if there are none.  (The positions
of a query satisfy the hypothesis, C45.) -/
theorem c52_distance {paddr saddr : SMem → Nat} (hA : SAlloc paddr saddr) (A : Algorithm) {len : Nat} {m : SMem}
    (hm : m.Finite) (ps : List Pos) (hps : ∀ p ∈ ps, p.index ≤ len ∧ len + p.errors < 2 ^ 64) :
    ∃ s m1 d, buildState paddr saddr ps m = .ok (s, m1) ∧ stateDistH A s len m1 = .ok d ∧
      (∀ p ∈ ps, A = .standard ∨ p.special = false → d ≤ len - p.index + p.errors) ∧
      (d = 2 ^ 64 - 1 ∨ ∃ p ∈ ps, (A = .standard ∨ p.special = false) ∧ d = len - p.index + p.errors) := by
  obtain ⟨m1, s, l, e, hb, hl⟩ := buildState_ok hA hm ps
  have hrep : HRep m1 s ps := ⟨hb.finite, l, hb.isState, hl⟩
  refine ⟨s, m1, _, e, stateDistH_ok hrep, ?_⟩
  have hsw := sizeW_val
  have key : ∀ (ps : List Pos) (x : Nat), (∀ p ∈ ps, p.index ≤ len ∧ len + p.errors < 2 ^ 64) →
      let d := ps.foldl (fun m p => if A ≠ .standard ∧ p.special then m
        else let d := wadd (wsub len p.index) p.errors; if d < m then d else m) x
      d ≤ x ∧ (∀ p ∈ ps, A = .standard ∨ p.special = false → d ≤ len - p.index + p.errors) ∧
        (d = x ∨ ∃ p ∈ ps, (A = .standard ∨ p.special = false) ∧ d = len - p.index + p.errors) := by
    intro ps
    induction ps with
    | nil => intro x _; simp
    | cons p ps ih =>
      intro x hps
      have hp := hps p (by simp)
      have hw : wadd (wsub len p.index) p.errors = len - p.index + p.errors := by
        rw [wsub_eq (by omega) (by omega), wadd_eq (by omega)]
      obtain ⟨i1, i2, i3⟩ := ih (if A ≠ .standard ∧ p.special then x
        else if len - p.index + p.errors < x then len - p.index + p.errors else x) fun r hr => hps r (by simp [hr])
      simp only [List.foldl_cons, hw]
      by_cases hc : A ≠ .standard ∧ p.special
      · rw [if_pos hc] at i1 i2 i3 ⊢
        refine ⟨i1, fun r hr hcr => ?_, ?_⟩
        · rcases List.mem_cons.1 hr with rfl | hr
          · rcases hcr with h | h
            · exact absurd h hc.1
            · simp [h] at hc
          · exact i2 r hr hcr
        · rcases i3 with h | ⟨r, hr, h⟩
          · exact .inl h
          · exact .inr ⟨r, by simp [hr], h⟩
      · rw [if_neg hc] at i1 i2 i3 ⊢
        have hcnt : A = .standard ∨ p.special = false := by
          by_cases h : A = .standard
          · exact .inl h
          · refine .inr ?_
            cases hs : p.special with
            | false => rfl
            | true => exact absurd ⟨h, hs⟩ hc
        refine ⟨?_, fun r hr hcr => ?_, ?_⟩
        · refine Nat.le_trans i1 ?_; split <;> omega
        · rcases List.mem_cons.1 hr with rfl | hr
          · refine Nat.le_trans i1 ?_; split <;> omega
          · exact i2 r hr hcr
        · rcases i3 with h | ⟨r, hr, h⟩
          · split at h
            · next hlt => refine .inr ⟨p, by simp, hcnt, ?_⟩; rw [if_pos hlt]; exact h
            · next hlt => refine .inl ?_; rw [if_neg hlt]; exact h
          · exact .inr ⟨r, by simp [hr], h⟩
  obtain ⟨_, k2, k3⟩ := key ps sizeMax hps
  exact ⟨k2, k3.imp (fun h => h.trans sizeMax_val) id⟩

example : stateDist .transposition [⟨1, 1, false⟩, ⟨2, 0, true⟩, ⟨3, 2, false⟩] 3 = 2 := by decide +kernel

/-! ### C47, memory -/

/-- C47, memory: `merge` in memory makes the state hold the merged list and frees the positions it did not insert. -/
theorem c47_merge_frees_duplicates {paddr saddr : SMem → Nat} (hA : SAlloc paddr saddr) (A : Algorithm) {m : SMem}
    (hm : m.Finite) (state ps : List Pos) :
    ∃ s m1 m2, buildState paddr saddr state m = .ok (s, m1) ∧
      mergeAllH A s (newPositions paddr ps m1).1 (newPositions paddr ps m1).2 = .ok m2 ∧
      Holds m m2 s (mergeAll A state ps) := by
  obtain ⟨m1, s, l, e, hb, rfl⟩ := buildState_ok hA hm state
  obtain ⟨m2, l', e1, e2, e3⟩ := hb.merge (A := A) hA ps
  exact ⟨s, m1, m2, e, e1, e3 ▸ holds_of_built e2⟩

/-! ### C49, memory -/

/-- C49, memory: the nested iterators of `unsubsume` remove what the function on lists removes, and free it. -/
theorem c49_unsubsume_in_memory {paddr saddr : SMem → Nat} (hA : SAlloc paddr saddr) (sub : Pos → Pos → Bool) {m : SMem}
    (hm : m.Finite) (state : List Pos) :
    ∃ s m1 m2, buildState paddr saddr state m = .ok (s, m1) ∧ unsubsumeH sub s m1 = .ok m2 ∧
      Holds m m2 s (unsubsume sub state) := by
  obtain ⟨m1, s, l, e, hb, rfl⟩ := buildState_ok hA hm state
  obtain ⟨m2, l', e1, e2, e3, e4, e5⟩ := unsubsumeH_ok (sub := sub) hb.finite hb.isState
  exact ⟨s, m1, m2, e, e1, e3 ▸ holds_of_built (hb.step e2 e4 e5)⟩

end Lev.Props
