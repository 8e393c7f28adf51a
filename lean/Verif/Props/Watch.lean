import Verif.Proofs.Watch
import Verif.Props.Abandon

/-!
C106: queries and iterators that are under way while their dictionary is changed
(src/liblevenshtein/collection/sorted_dawg.cpp 14-121, dawg_iterator.cpp 6-60, src/liblevenshtein/transducer/lazy_query.cpp 8-92).
One thread: between two increments it may call `add`, `remove`, `finish` and `clean_up`.
-/

namespace Lev.Props

open Lev Spec

/-- What is done to the dictionary. -/
inductive Step
  | call (c : Call)
  | finish
  | cleanUp

/-- What is done while there is an iterator or query: `++` on it, or something to the dictionary. -/
inductive Act
  | next
  | step (s : Step)

/-- A step, with what `add` or `remove` has returned (`sorted_dawg.cpp:14-121`). -/
def stepRun (sgn : Bool) (addr : Nat → Nat) (fuel : Nat) : Step → Heap → SDawg → Except Err (List Bool × Heap × SDawg)
  | .call c, h, d => runCalls sgn addr fuel [c] h d
  | .finish, h, d => do
    let (h, d) ← finishDawg sgn fuel h d
    .ok ([], h, d)
  | .cleanUp, h, d => do
    let (h, d) ← cleanUp fuel h d
    .ok ([], h, d)

/-- Steps one after the other. -/
def stepsRun (sgn : Bool) (addr : Nat → Nat) (fuel : Nat) : List Step → Heap → SDawg → Except Err (List Bool × Heap × SDawg)
  | [], h, d => .ok ([], h, d)
  | s :: steps, h, d => do
    let (r, h, d) ← stepRun sgn addr fuel s h d
    let (rs, h, d) ← stepsRun sgn addr fuel steps h d
    .ok (r ++ rs, h, d)

/-- The same with an iterator or query `c`, whose `++` is `adv`; `see` is what is looked at after each `++`. -/
def actsRun {C α : Type} (sgn : Bool) (addr : Nat → Nat) (fuel : Nat) (adv : Mem → C → Except Err C) (see : C → α) :
    List Act → Heap → SDawg → C → Except Err (List Bool × List α × Heap × SDawg × C)
  | [], h, d, c => .ok ([], [], h, d, c)
  | .next :: acts, h, d, c => do
    let c ← adv h.mem c
    let (rs, xs, h, d, c') ← actsRun sgn addr fuel adv see acts h d c
    .ok (rs, see c :: xs, h, d, c')
  | .step s :: acts, h, d, c => do
    let (r, h, d) ← stepRun sgn addr fuel s h d
    let (rs, xs, h, d, c) ← actsRun sgn addr fuel adv see acts h d c
    .ok (r ++ rs, xs, h, d, c)

/-- What a query shows: nothing more, or the candidate (`operator==` and `operator*`, `lazy_query.cpp:107-116`). -/
def seeQuery (Q : Query (List Pos) (Str × Nat)) : Option (Str × Nat) := if Q.complete then none else some Q.cand

/-- A dictionary is made, `prep` is done to it, a query is begun, and then come the `acts`. -/
def queryWatch (sgn : Bool) (addr : Nat → Nat) (fuel : Nat) (A : Algorithm) (n : Nat) (q : Str) (prep : List Step) (acts : List Act)
    (h : Heap) : Except Err (List Bool × List (Option (Str × Nat)) × Heap × SDawg) := do
  let (h, d) := newDawg addr h
  let (rs, h, d) ← stepsRun sgn addr fuel prep h (initDawg d)
  let (_, Q) ← queryBegin (listBackend A n q.length) h.mem updCandidate fuel ([], 0) () d.root initialState q n
  let (rs', xs, h, d, _) ← actsRun sgn addr fuel
    (fun mem Q => do let (_, Q) ← queryAdvance (listBackend A n q.length) mem updCandidate fuel () Q; .ok Q) seeQuery acts h d Q
  .ok (rs ++ rs', seeQuery Q :: xs, h, d)

/-- The same with an iterator, which is destroyed at the end; what is seen of it is its term and its position. -/
def iterWatch (sgn : Bool) (addr paddr : Nat → Nat) (fuel : Nat) (prep : List Step) (acts : List Act) (h : Heap) (ph : PHeap) :
    Except Err (List Bool × List (Str × Nat) × Heap × SDawg × PHeap) := do
  let (h, d) := newDawg addr h
  let (rs, h, d) ← stepsRun sgn addr fuel prep h (initDawg d)
  let c ← iterBegin h.mem paddr fuel d.root ph
  let (rs', xs, h, d, c') ← actsRun sgn addr fuel (fun mem c => iterNext mem paddr fuel c.1 c.2) (fun c => (c.2.value, c.2.index))
    acts h d c
  let ph ← iterDestroy c'.1 c'.2
  .ok (rs ++ rs', (c.2.value, c.2.index) :: xs, h, d, ph)

/-! ### What one should see -/

/-- The calls of `add` and `remove` among the steps. -/
def callsOf : List Step → List Call
  | [] => []
  | .call c :: steps => c :: callsOf steps
  | _ :: steps => callsOf steps

/-- The steps among the acts. -/
def stepsOf : List Act → List Step
  | [] => []
  | .next :: acts => stepsOf acts
  | .step s :: acts => s :: stepsOf acts

/-- The number of increments. -/
def nexts : List Act → Nat
  | [] => 0
  | .next :: acts => nexts acts + 1
  | .step _ :: acts => nexts acts

/-- The steps before the first increment. -/
def stepsBefore : List Act → List Step
  | .step s :: acts => s :: stepsBefore acts
  | _ => []

/-- The terms taken, in order. -/
def taken (steps : List Step) : List Str := (verdicts [] (callsOf steps)).2

/-- The terms that can be seen after the steps: all, or, when `finish` was not called, those that do not begin like the last one. -/
def visible (steps : List Step) : List Str :=
  if steps.any (fun | .finish => true | _ => false) then taken steps else unfinished (taken steps)

/-- `finish` was called. -/
def Done (steps : List Step) : Prop := Step.finish ∈ steps

/-- `clean_up` was called. -/
def Clean (steps : List Step) : Prop := Step.cleanUp ∈ steps

/-- What may be called after the steps `pre`: `add` while the dictionary is neither finished nor cleaned up, `finish` while it is not
cleaned up, the others always. -/
def Allowed (pre : List Step) : Step → Prop
  | .call (.add _) => ¬ Done pre ∧ ¬ Clean pre
  | .call (.remove _) => True
  | .finish => ¬ Clean pre
  | .cleanUp => True

/-- All steps are allowed, those of `pre` having been taken. -/
def Orderly (pre : List Step) : List Step → Prop
  | [] => True
  | s :: steps => Allowed pre s ∧ Orderly (pre ++ [s]) steps

/-- The steps after which a query that was begun after `prep` reads the edges of the root: at once, unless the empty term is its
first answer; then at the first increment. -/
def readAfter (n : Nat) (q : Str) (prep : List Step) (acts : List Act) : List Step :=
  if [] ∈ visible prep ∧ q.length ≤ n then prep ++ stepsBefore acts else prep

/-! ### Lists of steps -/

theorem callsOf_append (a b : List Step) : callsOf (a ++ b) = callsOf a ++ callsOf b := by
  induction a with
  | nil => rfl
  | cons s a ih => cases s <;> simp [callsOf, ih]

theorem verdicts_append (last : Str) (a b : List Call) :
    verdicts last (a ++ b) =
      ((verdicts last a).1 ++ (verdicts ((verdicts last a).2.getLast?.getD last) b).1,
        (verdicts last a).2 ++ (verdicts ((verdicts last a).2.getLast?.getD last) b).2) := by
  induction a generalizing last with
  | nil => simp [verdicts]
  | cons c a ih =>
    cases c with
    | remove t => simp only [List.cons_append, verdicts, ih]
    | add t =>
      simp only [List.cons_append, verdicts]
      split
      · simp only [ih, List.cons_append]
      · simp only [ih, List.cons_append]
        have : (t :: (verdicts t a).2).getLast?.getD last = (verdicts t a).2.getLast?.getD t := by
          cases (verdicts t a).2 with
          | nil => rfl
          | cons x l => rw [List.getLast?_cons_cons]; simp [List.getLast?_cons]
        rw [this]

theorem any_finish (steps : List Step) : (steps.any fun | .finish => true | _ => false) = true ↔ Done steps := by
  unfold Done
  rw [List.any_eq_true]
  constructor
  · rintro ⟨x, h1, h2⟩
    cases x with
    | finish => exact h1
    | _ => cases h2
  · exact fun h => ⟨_, h, rfl⟩

theorem visible_done {steps : List Step} (h : Done steps) : visible steps = taken steps := by
  rw [visible, if_pos ((any_finish _).2 h)]

theorem visible_open {steps : List Step} (h : ¬ Done steps) : visible steps = unfinished (taken steps) := by
  rw [visible, if_neg (mt (any_finish _).1 h)]

theorem visible_taken {steps : List Step} {t : Str} (h : t ∈ visible steps) : t ∈ taken steps := by
  unfold visible at h
  split at h
  · exact h
  · exact (mem_unfinished.1 h).1

theorem nil_visible {steps : List Step} : [] ∈ visible steps ↔ [] ∈ taken steps := by
  constructor
  · exact visible_taken
  · intro h
    unfold visible
    split
    · exact h
    · exact mem_unfinished.2 ⟨h, by simp⟩

theorem visible_length (steps : List Step) : (visible steps).length ≤ (taken steps).length := by
  unfold visible
  split
  · exact Nat.le_refl _
  · exact List.length_filter_le _ _

theorem taken_append (a b : List Step) : ∃ l, taken (a ++ b) = taken a ++ l := by
  unfold taken
  rw [callsOf_append, verdicts_append]
  exact ⟨_, rfl⟩

/-! ### The stages of a dictionary -/

section
variable {sgn : Bool} {addr : Nat → Nat} {c0 : Nat} {m0 mem0 : Mem} {nd0 : DNode}

/-- The dictionary after the steps `pre`, what was below the root in `mem0` being still there. -/
inductive Stage (sgn : Bool) (addr : Nat → Nat) (c0 : Nat) (m0 mem0 : Mem) (nd0 : DNode) (pre : List Step) (h : Heap) (d : SDawg) :
    Prop
  | building {reg} (h1 : ¬ Done pre) (h2 : ¬ Clean pre) (hb : Built sgn addr c0 m0 (taken pre) h d)
      (hm : d.minimized = some reg) (hk : Stays mem0 nd0 reg h d)
  | finished {reg st fl rf} (h1 : Done pre) (h2 : ¬ Clean pre) (hc : Core sgn addr c0 m0 h d reg st fl [] rf)
      (hl : ∀ t, AccT rf.fin rf.kids t ↔ t ∈ taken pre) (hs : d.size = (taken pre).length ∧ d.prev = (taken pre).getLast?.getD []) (hk : Stays mem0 nd0 reg h d)
  | cleaned (h1 : Clean pre) (hw : Whole sgn addr c0 c0 m0 (· ∈ visible pre) h d) (hs : d.size = (taken pre).length ∧ d.prev = (taken pre).getLast?.getD [])
      (hk : ∀ a, Beneath mem0 nd0 a → h.mem a = mem0 a)

theorem Stage.frozen {pre : List Step} {h : Heap} {d : SDawg} (hs : Stage sgn addr c0 m0 mem0 nd0 pre h d) :
    ∀ a, Beneath mem0 nd0 a → h.mem a = mem0 a := by
  cases hs with
  | building h1 h2 hb hm hk =>
    obtain ⟨reg', st, fl, fs, rf, hc, _⟩ := hb.ex
    have := hc.minimized
    rw [hm] at this
    cases this
    exact hc.kept hk
  | finished h1 h2 hc hl hs hk => exact hc.kept hk
  | cleaned h1 hw hs hk => exact hk

theorem Stage.root {pre : List Step} {h : Heap} {d : SDawg} (hs : Stage sgn addr c0 m0 mem0 nd0 pre h d) : d.root = addr c0 := by
  cases hs with
  | building h1 h2 hb hm hk =>
    obtain ⟨reg', st, fl, fs, rf, hc, _⟩ := hb.ex
    exact hc.root
  | finished h1 h2 hc hl hs hk => exact hc.root
  | cleaned h1 hw hs hk => exact hw.root

theorem Stage.size {pre : List Step} {h : Heap} {d : SDawg} (hs : Stage sgn addr c0 m0 mem0 nd0 pre h d) :
    d.size = (taken pre).length := by
  cases hs with
  | building h1 h2 hb hm hk => exact hb.size
  | finished h1 h2 hc hl hs hk => exact hs.1
  | cleaned h1 hw hs hk => exact hs.1

/-- What is below the root now may be taken instead. -/
theorem Stage.anchor {pre : List Step} {h : Heap} {d : SDawg} (hs : Stage sgn addr c0 m0 mem0 nd0 pre h d) :
    ∃ nd, h.mem d.root = some nd ∧ Stage sgn addr c0 m0 h.mem nd pre h d := by
  cases hs with
  | building h1 h2 hb hm hk =>
    obtain ⟨reg', st, fl, fs, rf, hc, _⟩ := hb.ex
    obtain ⟨nd, g, _⟩ := hc.stack.rootNode
    exact ⟨nd, g, .building h1 h2 hb hc.minimized (hc.keeps g)⟩
  | finished h1 h2 hc hl hs hk =>
    obtain ⟨nd, g, _⟩ := hc.stack.rootNode
    exact ⟨nd, g, .finished h1 h2 hc hl hs (hc.keeps g)⟩
  | cleaned h1 hw hs hk =>
    obtain ⟨nd, _, g, _⟩ := hw.dict
    exact ⟨nd, g, .cleaned h1 hw hs fun _ _ => rfl⟩

/-- What there is to unfold. -/
theorem Stage.tree {pre : List Step} {h : Heap} {d : SDawg} (hs : Stage sgn addr c0 m0 mem0 nd0 pre h d) :
    ∃ nd F, h.mem 0 = none ∧ h.mem d.root = some nd ∧ Unf h.mem nd.edges F ∧ F.Trim ∧ F.Sorted sgn ∧
      DictNode sgn h.mem (F.height + 1) d.root ∧ ∀ t, Accepts h.mem d.root t ↔ t ∈ visible pre := by
  cases hs with
  | building h1 h2 hb hm hk =>
    obtain ⟨⟨reg, st, fl, fs, rf, hc, hpath, hnil, hfin, hlang⟩, hprev, hsize⟩ := hb
    have hD := hc.stack.rootNode.dictNode hc.regOk
    have hS := hc.stack.rootNode.sorted hc.regOk
    obtain ⟨nd, hm, _, hF, _⟩ := hc.stack.rootNode
    refine ⟨nd, _, hc.heap.null, hm, hF, hc.trim.1, hS, hD, fun t => ?_⟩
    rw [hc.root_accepts, root_lang hc.fits, hlang, visible_open h1, mem_unfinished, hpath, hprev]
  | finished h1 h2 hc hl hs hk =>
    have hD := hc.stack.rootNode.dictNode hc.regOk
    have hS := hc.stack.rootNode.sorted hc.regOk
    have hacc := hc.root_accepts
    obtain ⟨nd, hm, _, hF, _⟩ := hc.stack.rootNode
    refine ⟨nd, _, hc.heap.null, hm, hF, hc.trim.1, hS, hD, fun t => ?_⟩
    rw [hacc, hl, visible_done h1]
  | cleaned h1 hw hs hk =>
    obtain ⟨nd, F, g1, g2, g3, g4, g5⟩ := hw.dict
    exact ⟨nd, F, hw.null, g1, g2, g3, g4, g5, hw.accepts⟩

theorem Stage.shows {pre : List Step} {h : Heap} {d : SDawg} (hs : Stage sgn addr c0 m0 mem0 nd0 pre h d) :
    Shows sgn h.mem d.root d.size (visible pre) := by
  have hn := hs.size
  obtain ⟨nd, F, g0, g1, g2, g3, g4, g5, g6⟩ := hs.tree
  exact shows_unfolded g0 g1 g2 g3 g4 g5 (by rw [hn]; exact visible_length pre) g6

theorem Stage.destroy (haddr : AddrOk addr) (hfresh : ∀ j, c0 ≤ j → m0 (addr j) = none) {pre : List Step} {h : Heap} {d : SDawg}
    (hs : Stage sgn addr c0 m0 mem0 nd0 pre h d) :
    ∃ h', Ends (fun fuel => destroyDawg fuel h d) h' ∧ ∀ a, h'.mem a = m0 a := by
  cases hs with
  | building h1 h2 hb hm hk =>
    obtain ⟨reg, st, fl, fs, rf, hc, _⟩ := hb.ex
    obtain ⟨h2, e2, _, hmem⟩ := destroy_spec hc haddr hfresh
    exact ⟨h2, e2, hmem⟩
  | finished h1 h2 hc hl hs hk =>
    obtain ⟨h2, e2, _, hmem⟩ := destroy_spec hc haddr hfresh
    exact ⟨h2, e2, hmem⟩
  | cleaned h1 hw hs hk => exact (hw.settled haddr hfresh).destroy

/-- The last step. -/
theorem taken_snoc (pre : List Step) (s : Step) :
    (verdicts [] (callsOf (pre ++ [s]))).1 = (verdicts [] (callsOf pre)).1 ++
        (match s with | .call c => (verdicts ((taken pre).getLast?.getD []) [c]).1 | _ => []) ∧
      taken (pre ++ [s]) = taken pre ++ (match s with | .call c => (verdicts ((taken pre).getLast?.getD []) [c]).2 | _ => []) := by
  unfold taken
  rw [callsOf_append, verdicts_append]
  cases s <;> simp [callsOf, verdicts]

theorem done_snoc {pre : List Step} {s : Step} : Done (pre ++ [s]) ↔ Done pre ∨ s = .finish := by
  simp [Done, eq_comm]

theorem clean_snoc {pre : List Step} {s : Step} : Clean (pre ++ [s]) ↔ Clean pre ∨ s = .cleanUp := by
  simp [Clean, eq_comm]

theorem visible_remove (pre : List Step) (t : Str) : visible (pre ++ [.call (.remove t)]) = visible pre := by
  have h := (taken_snoc pre (.call (.remove t))).2
  simp only [verdicts, List.append_nil] at h
  by_cases hd : Done pre
  · rw [visible_done hd, visible_done (done_snoc.2 (.inl hd)), h]
  · rw [visible_open hd, visible_open (fun h' => (done_snoc.1 h').elim hd (by simp)), h]

theorem visible_cleanUp (pre : List Step) : visible (pre ++ [.cleanUp]) = visible pre := by
  have h := (taken_snoc pre .cleanUp).2
  simp only [List.append_nil] at h
  by_cases hd : Done pre
  · rw [visible_done hd, visible_done (done_snoc.2 (.inl hd)), h]
  · rw [visible_open hd, visible_open (fun h' => (done_snoc.1 h').elim hd (by simp)), h]

theorem Stage.step (haddr : AddrOk addr) {pre : List Step} {h : Heap} {d : SDawg} (hs : Stage sgn addr c0 m0 mem0 nd0 pre h d)
    (s : Step) (hok : Allowed pre s) :
    ∃ r h' d', Ends (fun fuel => stepRun sgn addr fuel s h d) (r, h', d') ∧
      (verdicts [] (callsOf (pre ++ [s]))).1 = (verdicts [] (callsOf pre)).1 ++ r ∧
      Stage sgn addr c0 m0 mem0 nd0 (pre ++ [s]) h' d' := by
  obtain ⟨t1, t2⟩ := taken_snoc pre s
  rw [t1]
  cases s with
  | call c =>
    have hd : ¬ Done pre → ¬ Done (pre ++ [.call c]) := fun h h' => (done_snoc.1 h').elim h (by simp)
    have hcl : ¬ Clean pre → ¬ Clean (pre ++ [.call c]) := fun h h' => (clean_snoc.1 h').elim h (by simp)
    cases c with
    | remove t =>
      simp only [verdicts, List.append_nil] at t2 ⊢
      refine ⟨[false], h, d, .of_eq fun _ => rfl, rfl, ?_⟩
      cases hs with
      | building h1 h2 hb hm hk => exact .building (hd h1) (hcl h2) (by rw [t2]; exact hb) hm hk
      | finished h1 h2 hc hl hs hk =>
        exact .finished (done_snoc.2 (.inl h1)) (hcl h2) hc (by rw [t2]; exact hl) (by rw [t2]; exact hs) hk
      | cleaned h1 hw hs hk =>
        exact .cleaned (clean_snoc.2 (.inl h1)) (by rw [visible_remove]; exact hw) (by rw [t2]; exact hs) hk
    | add t =>
      obtain ⟨k1, k2⟩ := hok
      cases hs with
      | finished h1 => exact absurd h1 k1
      | cleaned h1 => exact absurd h1 k2
      | building h1 h2 hb hm hk =>
        have hprev := hb.prev
        by_cases hlt : strLess t d.prev
        · rw [hprev] at hlt
          simp only [verdicts, hlt, if_true, List.append_nil] at t2 ⊢
          refine ⟨[false], h, d, .of_eq fun _ => ?_, rfl, .building (hd h1) (hcl h2) (by rw [t2]; exact hb) hm hk⟩
          rw [← hprev] at hlt
          simp only [stepRun, runCalls, addTerm, (strLt_iff _ _).2 hlt, if_true, bind, Except.bind]
        · obtain ⟨h', d', e, hb'⟩ := addTerm_spec haddr hb t ((strLt_false_iff _ _).2 hlt)
          obtain ⟨reg', st, fl, fs, rf, hc, hpath, hnil, hfin, hlang⟩ := hb.ex
          have hmm := hc.minimized
          rw [hm] at hmm
          cases hmm
          obtain ⟨reg1, g1, g2⟩ := addTerm_grow haddr hc hpath hfin e
          rw [hprev] at hlt
          simp only [verdicts, hlt, if_false] at t2 ⊢
          refine ⟨[true], h', d', ?_, rfl, .building (hd h1) (hcl h2) (by rw [t2]; exact hb') g1 (hk.grow g2)⟩
          obtain ⟨N, e⟩ := e
          refine ⟨N, fun fuel hf => ?_⟩
          have e := e fuel hf
          simp only at e
          simp only [stepRun, runCalls, e, bind, Except.bind]
  | finish =>
    simp only [List.append_nil] at t2 ⊢
    have hcl : ¬ Clean pre → ¬ Clean (pre ++ [.finish]) := fun h h' => (clean_snoc.1 h').elim h (by simp)
    cases hs with
    | cleaned h1 => exact absurd h1 hok
    | @finished reg st fl rf h1 h2 hc hl hs hk =>
      refine ⟨[], h, d, .of_eq fun _ => ?_, by simp, .finished (done_snoc.2 (.inr rfl)) (hcl h2) hc (by rw [t2]; exact hl)
        (by rw [t2]; exact hs) hk⟩
      have : st = [] := List.eq_nil_of_length_eq_zero hc.stack.length.symm
      subst this
      simp only [stepRun, finishDawg, minimize, hc.unchecked, Nat.sub_zero, List.length_nil, minimizeLoop, bind, Except.bind]
    | building h1 h2 hb hm hk =>
      obtain ⟨⟨reg', st, fl, fs, rf, hc, hpath, hnil, hfin, hlang⟩, hprev, hsize⟩ := hb
      have hmm := hc.minimized
      rw [hm] at hmm
      cases hmm
      have hlen := hc.stack.length
      have hne : 0 < st.length → (topFrame fs rf).fin = true ∨ (topFrame fs rf).kids ≠ .nil := fun hpos =>
        .inl (hfin (by
          rintro rfl
          simp at hlen
          omega))
      obtain ⟨h1', d1, reg1, st1, fs1, rf1, hrun1, hc1, hpath1, hlang1, hp1, hs1, _⟩ :=
        minimizeLoop_spec haddr st.length hc (by omega) hne
      obtain ⟨h2', d2, reg2, hrun2, g1, g2⟩ := minimizeLoop_grows haddr st.length hc (by omega) hne
      cases hrun1.unique hrun2
      have hmm := hc1.minimized
      rw [g1] at hmm
      cases hmm
      have hfs1 : fs1 = [] := by
        simp only [Nat.sub_self, List.take_zero] at hpath1
        simpa [path] using hpath1
      subst hfs1
      refine ⟨[], h1', d1, ?_, by simp, .finished (done_snoc.2 (.inr rfl)) (hcl h2) hc1 (fun t => ?_) (by rw [t2, hs1, hsize, hp1]; exact ⟨rfl, hprev⟩)
        (hk.grow g2)⟩
      · obtain ⟨N, e⟩ := hrun1
        refine ⟨N, fun fuel hf => ?_⟩
        have e := e fuel hf
        simp only at e
        simp only [stepRun, finishDawg, minimize, hc.unchecked, Nat.sub_zero, e, bind, Except.bind]
      · rw [t2, ← hlang, ← hlang1]; exact Iff.rfl
  | cleanUp =>
    simp only [List.append_nil] at t2 ⊢
    have hwrap : ∀ {h' d'}, Ends (fun fuel => cleanUp fuel h d) (h', d') →
        Ends (fun fuel => stepRun sgn addr fuel .cleanUp h d) ([], h', d') := by
      rintro h' d' ⟨N, e⟩
      refine ⟨N, fun fuel hf => ?_⟩
      have e := e fuel hf
      simp only at e
      simp only [stepRun, e, bind, Except.bind]
    cases hs with
    | cleaned h1 hw hs hk =>
      refine ⟨[], h, d, hwrap (.of_eq fun _ => ?_), by simp,
        .cleaned (clean_snoc.2 (.inr rfl)) (by rw [visible_cleanUp]; exact hw) (by rw [t2]; exact hs) hk⟩
      obtain ⟨p1, p2, p3⟩ := hw.ptrs
      obtain ⟨x1, x2, x3, x4, x5, x6⟩ := d
      simp only at p1 p2 p3
      subst p1 p2 p3
      rfl
    | @finished reg st fl rf h1 h2 hc hl hs hk =>
      refine ⟨[], _, _, hwrap (cleanUp_spec hc), by simp, .cleaned (clean_snoc.2 (.inr rfl)) ?_ (by rw [t2]; exact hs)
        (hc.kept_cleaned hk)⟩
      have := hc.abandoned haddr
      rw [show (· ∈ visible (pre ++ [.cleanUp])) = AccT rf.fin rf.kids from
        funext fun t => propext (by rw [visible_cleanUp, visible_done h1, hl])]
      exact this
    | building h1 h2 hb hm hk =>
      obtain ⟨⟨reg', st, fl, fs, rf, hc, hpath, hnil, hfin, hlang⟩, hprev, hsize⟩ := hb
      have hmm := hc.minimized
      rw [hm] at hmm
      cases hmm
      refine ⟨[], _, _, hwrap (cleanUp_spec hc), by simp, .cleaned (clean_snoc.2 (.inr rfl)) ?_ (by rw [t2]; exact ⟨hsize, hprev⟩)
        (hc.kept_cleaned hk)⟩
      have := hc.abandoned haddr
      rw [show (· ∈ visible (pre ++ [.cleanUp])) = AccT rf.fin rf.kids from funext fun t => propext (by
        rw [visible_cleanUp, visible_open h1, mem_unfinished, root_lang hc.fits, hlang, hpath, hprev])]
      exact this

theorem Stage.steps (haddr : AddrOk addr) (steps : List Step) {pre : List Step} {h : Heap} {d : SDawg}
    (hs : Stage sgn addr c0 m0 mem0 nd0 pre h d) (hok : Orderly pre steps) :
    ∃ r h' d', Ends (fun fuel => stepsRun sgn addr fuel steps h d) (r, h', d') ∧
      (verdicts [] (callsOf (pre ++ steps))).1 = (verdicts [] (callsOf pre)).1 ++ r ∧
      Stage sgn addr c0 m0 mem0 nd0 (pre ++ steps) h' d' := by
  induction steps generalizing pre h d with
  | nil => exact ⟨[], h, d, .of_eq fun _ => rfl, by simp, by simpa using hs⟩
  | cons s steps ih =>
    obtain ⟨r1, h1, d1, ⟨N1, e1⟩, v1, s1⟩ := hs.step haddr s hok.1
    obtain ⟨r2, h2, d2, ⟨N2, e2⟩, v2, s2⟩ := ih s1 hok.2
    simp only [List.append_assoc, List.singleton_append] at v2 s2
    refine ⟨r1 ++ r2, h2, d2, ⟨N1 + N2, fun fuel hf => ?_⟩, by rw [v2, v1, List.append_assoc], s2⟩
    have e1 := e1 fuel (by omega)
    have e2 := e2 fuel (by omega)
    simp only at e1 e2
    simp only [stepsRun, e1, e2, bind, Except.bind]

/-- An iterator or query that reads only what is below the root. -/
theorem Stage.acts {C α : Type} (haddr : AddrOk addr) (adv : Nat → Mem → C → Except Err C) (see : C → α) (Dp : C → Prop)
    (hfz : ∀ fuel mem c, (∀ a, Beneath mem0 nd0 a → mem a = mem0 a) → Dp c → adv fuel mem c = adv fuel mem0 c)
    (acts : List Act) {pre : List Step} {h : Heap} {d : SDawg}
    (hs : Stage sgn addr c0 m0 mem0 nd0 pre h d) (hok : Orderly pre (stepsOf acts)) :
    ∃ r h' d' N, (verdicts [] (callsOf (pre ++ stepsOf acts))).1 = (verdicts [] (callsOf pre)).1 ++ r ∧
      Stage sgn addr c0 m0 mem0 nd0 (pre ++ stepsOf acts) h' d' ∧
      ∀ fuel, N ≤ fuel → ∀ cs : Nat → C, (∀ k, Dp (cs k)) → (∀ k, adv fuel mem0 (cs k) = .ok (cs (k + 1))) →
        actsRun sgn addr fuel (adv fuel) see acts h d (cs 0) =
          .ok (r, (List.range (nexts acts)).map (fun k => see (cs (k + 1))), h', d', cs (nexts acts)) := by
  induction acts generalizing pre h d with
  | nil => exact ⟨[], h, d, 0, by simp [stepsOf], by simpa [stepsOf] using hs, fun fuel _ cs _ _ => rfl⟩
  | cons x acts ih =>
    cases x with
    | next =>
      obtain ⟨r, h', d', N, v1, s1, e1⟩ := ih hs hok
      refine ⟨r, h', d', N, v1, s1, fun fuel hf cs hd hc => ?_⟩
      have e := e1 fuel hf (fun k => cs (k + 1)) (fun k => hd _) (fun k => hc _)
      simp only [Nat.zero_add] at e
      simp only [actsRun, hfz fuel h.mem (cs 0) hs.frozen (hd 0), hc 0, Nat.zero_add, bind, Except.bind, e, nexts,
        List.range_succ_eq_map, List.map_cons, List.map_map]
      rfl
    | step s =>
      obtain ⟨r1, h1, d1, ⟨N1, e1⟩, v1, s1⟩ := hs.step haddr s hok.1
      obtain ⟨r2, h2, d2, N2, v2, s2, e2⟩ := ih s1 hok.2
      simp only [List.append_assoc, List.singleton_append] at v2 s2
      refine ⟨r1 ++ r2, h2, d2, N1 + N2, by simp only [stepsOf]; rw [v2, v1, List.append_assoc], s2, fun fuel hf cs hd hc => ?_⟩
      have e1 := e1 fuel (by omega)
      have e2 := e2 fuel (by omega) cs hd hc
      simp only at e1
      simp only [actsRun, e1, e2, bind, Except.bind, nexts]

theorem newDawg_stage (sgn : Bool) {addr : Nat → Nat} {h : Heap} (ha : Allocator addr h) :
    ∃ mem0 nd0, Stage sgn addr h.count h.mem mem0 nd0 [] (newDawg addr h).1 (initDawg (newDawg addr h).2) := by
  have hb := newDawg_built (sgn := sgn) ⟨ha.nonnull, ha.inj⟩ ha.null ha.fresh
  obtain ⟨reg', st, fl, fs, rf, hc, _⟩ := hb.ex
  obtain ⟨nd, g, _⟩ := hc.stack.rootNode
  exact ⟨_, nd, .building (by simp [Done]) (by simp [Clean]) hb hc.minimized (hc.keeps g)⟩

end

theorem Orderly.split {pre a b : List Step} (h : Orderly pre (a ++ b)) : Orderly pre a ∧ Orderly (pre ++ a) b := by
  induction a generalizing pre with
  | nil => exact ⟨trivial, by simpa using h⟩
  | cons s a ih =>
    obtain ⟨h1, h2⟩ := h
    obtain ⟨h3, h4⟩ := ih h2
    exact ⟨⟨h1, h3⟩, by simpa using h4⟩

section
variable {sgn : Bool} {addr : Nat → Nat} {c0 : Nat} {m0 mem0 : Mem} {nd0 : DNode}

/-- The same with one that is going to read the root at its first increment. -/
theorem Stage.acts_root {C α : Type} (haddr : AddrOk addr) (adv : Nat → Mem → C → Except Err C) (see : C → α)
    (Dp : Mem → DNode → C → Prop)
    (hfz : ∀ mem0 nd0 fuel mem c, (∀ a, Beneath mem0 nd0 a → mem a = mem0 a) → Dp mem0 nd0 c → adv fuel mem c = adv fuel mem0 c)
    (acts : List Act) {pre : List Step} {h : Heap} {d : SDawg}
    (hs : Stage sgn addr c0 m0 mem0 nd0 pre h d) (hok : Orderly pre (stepsOf acts)) :
    ∃ r hm dm nm h' d' N, (verdicts [] (callsOf (pre ++ stepsOf acts))).1 = (verdicts [] (callsOf pre)).1 ++ r ∧
      hm.mem dm.root = some nm ∧ Stage sgn addr c0 m0 hm.mem nm (pre ++ stepsBefore acts) hm dm ∧
      Stage sgn addr c0 m0 hm.mem nm (pre ++ stepsOf acts) h' d' ∧
      ∀ fuel, N ≤ fuel → ∀ cs : Nat → C, (∀ k, Dp hm.mem nm (cs (k + 1))) → (∀ k, adv fuel hm.mem (cs k) = .ok (cs (k + 1))) →
        actsRun sgn addr fuel (adv fuel) see acts h d (cs 0) =
          .ok (r, (List.range (nexts acts)).map (fun k => see (cs (k + 1))), h', d', cs (nexts acts)) := by
  induction acts generalizing pre h d mem0 nd0 with
  | nil =>
    obtain ⟨nd, hm, hs⟩ := hs.anchor
    exact ⟨[], h, d, nd, h, d, 0, by simp [stepsOf], hm, by simpa [stepsBefore] using hs, by simpa [stepsOf] using hs,
      fun fuel _ cs _ _ => rfl⟩
  | cons x acts ih =>
    cases x with
    | next =>
      obtain ⟨nd, hm, hs⟩ := hs.anchor
      obtain ⟨r, h', d', N, v1, s1, e1⟩ := Stage.acts haddr adv see (Dp h.mem nd) (hfz h.mem nd) acts hs hok
      refine ⟨r, h, d, nd, h', d', N, v1, hm, by simpa [stepsBefore] using hs, s1, fun fuel hf cs hd hc => ?_⟩
      have e := e1 fuel hf (fun k => cs (k + 1)) (fun k => hd _) (fun k => hc _)
      simp only [Nat.zero_add] at e
      simp only [actsRun, hc 0, Nat.zero_add, bind, Except.bind, e, nexts, List.range_succ_eq_map, List.map_cons, List.map_map]
      rfl
    | step s =>
      obtain ⟨r1, h1, d1, ⟨N1, e1⟩, v1, s1⟩ := hs.step haddr s hok.1
      obtain ⟨r2, hm, dm, nm, h2, d2, N2, v2, g1, g2, s2, e2⟩ := ih s1 hok.2
      simp only [List.append_assoc, List.singleton_append] at v2 s2 g2
      refine ⟨r1 ++ r2, hm, dm, nm, h2, d2, N1 + N2, by simp only [stepsOf]; rw [v2, v1, List.append_assoc], g1, g2, s2,
        fun fuel hf cs hd hc => ?_⟩
      have e1 := e1 fuel (by omega)
      have e2 := e2 fuel (by omega) cs hd hc
      simp only at e1
      simp only [actsRun, e1, e2, bind, Except.bind, nexts]

end

theorem mem_callsOf {steps : List Step} {c : Call} (h : c ∈ callsOf steps) : .call c ∈ steps := by
  induction steps with
  | nil => cases h
  | cons s steps ih =>
    cases s with
    | call c' =>
      rcases List.mem_cons.1 h with rfl | h
      · exact .head _
      · exact .tail _ (ih h)
    | finish => exact .tail _ (ih h)
    | cleanUp => exact .tail _ (ih h)

theorem visible_added {steps : List Step} {t : Str} (h : t ∈ visible steps) : .call (.add t) ∈ steps :=
  mem_callsOf (mem_verdicts (visible_taken h))

theorem stepsBefore_append (acts : List Act) : ∃ l, stepsOf acts = stepsBefore acts ++ l := by
  induction acts with
  | nil => exact ⟨[], rfl⟩
  | cons x acts ih =>
    cases x with
    | next => exact ⟨_, rfl⟩
    | step s =>
      obtain ⟨l, h⟩ := ih
      exact ⟨l, by simp [stepsOf, stepsBefore, h]⟩

theorem accepts_nil {mem : Mem} {root : Nat} {nd : DNode} (h : mem root = some nd) : Accepts mem root [] ↔ nd.final = true := by
  constructor
  · intro ha
    cases ha with
    | here hm hf => rw [h] at hm; cases hm; exact hf
  · exact .here h

theorem queryAdvances_snoc {σ S R : Type} (B : Backend σ S) (mem : Mem) (upd : Str → Nat → R) (fuel k : Nat) (m : σ) (Q : Query S R) :
    queryAdvances B mem upd fuel (k + 1) m Q = (queryAdvances B mem upd fuel k m Q).bind fun r =>
      queryAdvance B mem upd fuel r.1 r.2 := by
  induction k generalizing m Q with
  | zero =>
    simp only [queryAdvances, bind, Except.bind]
    cases queryAdvance B mem upd fuel m Q <;> rfl
  | succ k ih =>
    rw [queryAdvances]
    conv => rhs; rw [queryAdvances]
    cases e : queryAdvance B mem upd fuel m Q with
    | error x => simp [bind, Except.bind]
    | ok r =>
      simp only [bind, Except.bind]
      have := ih r.1 r.2
      simp only [Except.bind] at this
      exact this

/-- All states of a query. -/
theorem query_states {sgn : Bool} {mem : Mem} {root : Nat} (A : Algorithm) {q : Str} {n : Nat} (hd : Dictionary sgn mem root)
    (hq : QueryFits n q) (hn : n < 2 ^ 64) :
    ∃ rs N, Yields A updCandidate mem root q n rs ∧ ∀ fuel, N ≤ fuel → ∃ cs : Nat → Query (List Pos) (Str × Nat),
      queryBegin (listBackend A n q.length) mem updCandidate fuel ([], 0) () root initialState q n = .ok ((), cs 0) ∧
      (∀ k, queryAdvance (listBackend A n q.length) mem updCandidate fuel () (cs k) = .ok ((), cs (k + 1))) ∧
      ∀ k, seeQuery (cs k) = rs[k]? := by
  obtain ⟨rs, N, hy, hN⟩ := c38_terminates_and_stays_finished (A := A) hd hq hn
  refine ⟨rs, N, hy, fun fuel hf => ?_⟩
  obtain ⟨Q, hb, hQ⟩ := hN fuel hf ([], 0)
  obtain ⟨cs, hcs⟩ := Classical.skolem.1 hQ
  refine ⟨cs, ?_, fun k => ?_, fun k => ?_⟩
  · have h0 := (hcs 0).1
    simp only [queryAdvances] at h0
    rw [hb]
    exact h0
  · have h1 := (hcs k).1
    have h2 := (hcs (k + 1)).1
    rw [queryAdvances_snoc, h1] at h2
    exact h2
  · obtain ⟨_, h1, h2⟩ := hcs k
    simp only [seeQuery]
    split
    · next hc => exact (List.getElem?_eq_none (h1.1 hc)).symm
    · next hc =>
      have hlt : k < rs.length := by
        rcases Nat.lt_or_ge k rs.length with h | h
        · exact h
        · exact absurd (h1.2 h) hc
      rw [h2 _ (List.getElem?_eq_getElem hlt)]
      exact (List.getElem?_eq_getElem hlt).symm

theorem queryBegin_now {σ S R : Type} {B : Backend σ S} {mem : Mem} {upd : Str → Nat → R} {fuel : Nat} {dflt : R} {m : σ}
    {root n : Nat} {s0 : S} {q : Str} {nd : DNode} (h : mem root = some nd) (hs : nd.final = true ∧ q.length ≤ n) :
    queryBegin B mem upd fuel dflt m root s0 q n = .ok (m,
      { pending := [Inter.root root s0], edges := [], owned := [], complete := false,
        cur := none, cand := upd [] q.length, term := q, maxD := n, a := windowMax n, k := 0, i := 0 }) := by
  simp only [queryBegin, deref, h, bind, Except.bind, pure, Except.pure, hs.1, hs.2, decide_true, Bool.and_self, if_true]

theorem queryBegin_later {σ S R : Type} {B : Backend σ S} {mem : Mem} {upd : Str → Nat → R} {fuel : Nat} {dflt : R} {m m' : σ}
    {root n : Nat} {s0 : S} {q : Str} {nd : DNode} {Q : Query S R} (h : mem root = some nd) (hs : ¬ (nd.final = true ∧ q.length ≤ n))
    (e : queryBegin B mem upd fuel dflt m root s0 q n = .ok (m', Q)) : Deep mem nd Q := by
  have hf : (nd.final && decide (q.length ≤ n)) = false := by
    rw [Bool.and_eq_false_iff]
    cases hb : nd.final with
    | false => exact .inl rfl
    | true => exact .inr (decide_eq_false fun hl => hs ⟨hb, hl⟩)
  simp only [queryBegin, deref, h, bind, Except.bind, hf, Bool.false_eq_true, if_false] at e
  exact queryAdvance_root (s0 := s0) h rfl rfl e

/-! ### C106 -/

/-- C106: a query between whose increments the dictionary is changed yields, in order, exactly the terms within the distance among
those that could be seen when it read the root: at the beginning, or, if the empty term is its first answer, at the first increment.
The calls return what they should, and at the end the dictionary is as if there had been no query. -/
theorem c106_query (sgn : Bool) {addr : Nat → Nat} {h : Heap} (ha : Allocator addr h) (A : Algorithm) {q : Str} {n : Nat}
    (prep : List Step) (acts : List Act) (hok : Orderly [] (prep ++ stepsOf acts))
    (hlen : ∀ t, .call (.add t) ∈ prep ++ stepsOf acts → t.length < 2 ^ 62) (hq : QueryFits n q) (hn : n < 2 ^ 64) :
    ∃ (out : List (Str × Nat)) (h' : Heap) (d' : SDawg), (∀ t k, (t, k) ∈ out ↔ t ∈ visible (readAfter n q prep acts) ∧ IsMinCost A q t k ∧ k ≤ n) ∧
      out.Pairwise (fun a b => shortLex sgn a.1 b.1) ∧
      Ends (fun fuel => queryWatch sgn addr fuel A n q prep acts h)
        ((verdicts [] (callsOf (prep ++ stepsOf acts))).1, (List.range (nexts acts + 1)).map (out[·]?), h', d') ∧
      d'.size = (taken (prep ++ stepsOf acts)).length ∧ Shows sgn h'.mem d'.root d'.size (visible (prep ++ stepsOf acts)) ∧
      ∃ h'', Ends (fun fuel => destroyDawg fuel h' d') h'' ∧ ∀ a, h''.mem a = h.mem a := by
  have haddr : AddrOk addr := ⟨ha.nonnull, ha.inj⟩
  obtain ⟨hok1, hok2⟩ := hok.split
  simp only [List.nil_append] at hok2
  obtain ⟨_, _, hs0⟩ := newDawg_stage sgn ha
  obtain ⟨r1, h1, d1, ⟨N1, e1⟩, v1, hs1⟩ := hs0.steps haddr prep hok1
  simp only [List.nil_append, callsOf, verdicts] at v1 hs1
  obtain ⟨nd1, hm1, hs1⟩ := hs1.anchor
  have hfin : nd1.final = true ↔ [] ∈ visible prep := by rw [← accepts_nil hm1, hs1.shows.accepts]
  let adv : Nat → Mem → Query (List Pos) (Str × Nat) → Except Err (Query (List Pos) (Str × Nat)) := fun fuel mem Q => do
    let (_, Q) ← queryAdvance (listBackend A n q.length) mem updCandidate fuel () Q; .ok Q
  have hadv : ∀ {fuel mem} {cs : Nat → Query (List Pos) (Str × Nat)},
      (∀ k, queryAdvance (listBackend A n q.length) mem updCandidate fuel () (cs k) = .ok ((), cs (k + 1))) →
      ∀ k, adv fuel mem (cs k) = .ok (cs (k + 1)) := by
    intro fuel mem cs h k
    simp only [adv, h k, bind, Except.bind]
  have hfz : ∀ mem0 nd0 fuel mem c, (∀ a, Beneath mem0 nd0 a → mem a = mem0 a) → Deep mem0 nd0 c → adv fuel mem c = adv fuel mem0 c := by
    intro mem0 nd0 fuel mem c hmm hd
    simp only [adv, (queryAdvance_frozen hmm fuel hd).1]
  by_cases hsp : [] ∈ visible prep ∧ q.length ≤ n
  · obtain ⟨r2, hm, dm, nm, h', d', N2, v2, g1, g2, s2, e2⟩ := hs1.acts_root haddr adv seeQuery Deep hfz acts hok2
    obtain ⟨l, hl⟩ := stepsBefore_append acts
    have hdict := g2.shows.dictionary fun t ht => hlen t (by
      rw [hl, ← List.append_assoc]; exact List.mem_append_left _ (visible_added ht))
    obtain ⟨out, N3, hy, e3⟩ := query_states A hdict hq hn
    obtain ⟨out', hy', hex⟩ := query_exact A hdict hq hn
    cases hy.unique hy'
    have hread : readAfter n q prep acts = prep ++ stepsBefore acts := if_pos hsp
    refine ⟨out, h', d', fun t k => by rw [hread, hex, g2.shows.accepts], c37_order hdict hq hn hy, ⟨N1 + N2 + N3, fun fuel hf => ?_⟩,
      s2.size, s2.shows, s2.destroy haddr ha.fresh⟩
    have e1 := e1 fuel (by omega)
    simp only at e1
    obtain ⟨cs, b1, b2, b3⟩ := e3 fuel (by omega)
    have hnf : nm.final = true := by
      rw [← accepts_nil g1, g2.shows.accepts, nil_visible]
      obtain ⟨l', hl'⟩ := taken_append prep (stepsBefore acts)
      rw [hl']
      exact List.mem_append_left _ (nil_visible.1 hsp.1)
    have hroot : d1.root = dm.root := by rw [hs1.root, g2.root]
    rw [queryBegin_now g1 ⟨hnf, hsp.2⟩] at b1
    have b1' : queryBegin (listBackend A n q.length) h1.mem updCandidate fuel ([], 0) () d1.root initialState q n = .ok ((), cs 0) := by
      rw [queryBegin_now hm1 ⟨hfin.2 hsp.1, hsp.2⟩, hroot]; exact b1
    have hd1 : Deep hm.mem nm (cs 1) := by
      injection b1 with b1
      injection b1 with _ b1
      exact queryAdvance_root (s0 := initialState) g1 (by rw [← b1]) (by rw [← b1]) (b2 0)
    have hdk : ∀ k, Deep hm.mem nm (cs (k + 1)) := by
      intro k
      induction k with
      | zero => exact hd1
      | succ k ih => exact (queryAdvance_frozen (fun _ _ => rfl) fuel ih).2 _ _ (b2 (k + 1))
    have e2 := e2 fuel (by omega) cs hdk (hadv b2)
    simp only [adv] at e2
    simp only [queryWatch, e1, b1', bind, Except.bind] at e2 ⊢
    simp only [e2, v2, v1, b3, List.range_succ_eq_map, List.map_cons, List.map_map]
    rfl
  · have hread : readAfter n q prep acts = prep := if_neg hsp
    obtain ⟨r2, h', d', N2, v2, s2, e2⟩ := hs1.acts haddr adv seeQuery (Deep h1.mem nd1) (hfz h1.mem nd1) acts hok2
    have hdict := hs1.shows.dictionary fun t ht => hlen t (List.mem_append_left _ (visible_added ht))
    obtain ⟨out, N3, hy, e3⟩ := query_states A hdict hq hn
    obtain ⟨out', hy', hex⟩ := query_exact A hdict hq hn
    cases hy.unique hy'
    refine ⟨out, h', d', fun t k => by rw [hread, hex, hs1.shows.accepts], c37_order hdict hq hn hy, ⟨N1 + N2 + N3, fun fuel hf => ?_⟩,
      s2.size, s2.shows, s2.destroy haddr ha.fresh⟩
    have e1 := e1 fuel (by omega)
    simp only at e1
    obtain ⟨cs, b1, b2, b3⟩ := e3 fuel (by omega)
    have hdk : ∀ k, Deep h1.mem nd1 (cs k) := by
      intro k
      induction k with
      | zero => exact queryBegin_later hm1 (by rw [hfin]; exact hsp) b1
      | succ k ih => exact (queryAdvance_frozen (fun _ _ => rfl) fuel ih).2 _ _ (b2 k)
    have e2 := e2 fuel (by omega) cs hdk (hadv b2)
    simp only [adv] at e2
    simp only [queryWatch, e1, b1, bind, Except.bind] at e2 ⊢
    simp only [e2, v2, v1, b3, List.range_succ_eq_map, List.map_cons, List.map_map]
    rfl

/-- All states of an iterator. -/
theorem iter_states {sgn : Bool} {mem : Mem} {root : Nat} {nd : DNode} {F : Forest} {paddr : Nat → Nat} {ph : PHeap}
    (hp : PAllocator paddr ph) (h1 : mem root = some nd) (h2 : Unf mem nd.edges F) (h4 : F.Sorted sgn) {ts : List Str}
    (hacc : ∀ t, Accepts mem root t ↔ t ∈ ts) :
    ∃ (all : List Str) (N : Nat) (cs : Nat → PHeap × DIter), all.Pairwise (shortLex sgn) ∧ (∀ t, t ∈ all ↔ t ∈ ts) ∧
      (∀ k, (cs k).2.value = all[k]?.getD (all.getLast?.getD []) ∧ (cs k).2.index = k ∧
        ∃ ph', iterDestroy (cs k).1 (cs k).2 = .ok ph' ∧ ∀ a, ph'.mem a = ph.mem a) ∧
      ∀ fuel, N ≤ fuel → iterBegin mem paddr fuel root ph = .ok (cs 0) ∧
        ∀ k, iterNext mem paddr fuel (cs k).1 (cs k).2 = .ok (cs (k + 1)) := by
  obtain ⟨f, hf⟩ := Classical.skolem.1 fun k => dictIterAt_spec hp h1 h2 k
  obtain ⟨g, hg⟩ := Classical.skolem.1 hf
  refine ⟨finals [rootItem nd F], itemsWt [rootItem nd F] + F.height + 1, fun k => (f k, g k), finals_order h4,
    fun t => by rw [finals_mem h1 h2, hacc], fun k => ?_, fun fuel hfu => ⟨?_, fun k => ?_⟩⟩
  · obtain ⟨L, _, k1, _, k2, _, _, _, _, k3⟩ := hg k
    exact ⟨k3, k2, k1.destroy hp.fresh⟩
  · obtain ⟨L, k1, _⟩ := hg 0
    exact k1 fuel (by omega)
  · obtain ⟨_, k1, _⟩ := hg k
    obtain ⟨_, k2, _⟩ := hg (k + 1)
    have k1 := k1 fuel (by omega)
    have k2 := k2 fuel (by omega)
    simp only [dictIterAt, k1, bind, Except.bind] at k2
    exact k2

/-- C106: an iterator between whose increments the dictionary is changed yields, in order, exactly the terms that could be seen when
it was begun, and then the last of them again and again. -/
theorem c106_iterator (sgn : Bool) {addr paddr : Nat → Nat} {h : Heap} {ph : PHeap} (ha : Allocator addr h) (hp : PAllocator paddr ph)
    (prep : List Step) (acts : List Act) (hok : Orderly [] (prep ++ stepsOf acts)) :
    ∃ (all : List Str) (h' : Heap) (d' : SDawg) (ph' : PHeap), all.Pairwise (shortLex sgn) ∧ (∀ t, t ∈ all ↔ t ∈ visible prep) ∧
      Ends (fun fuel => iterWatch sgn addr paddr fuel prep acts h ph)
        ((verdicts [] (callsOf (prep ++ stepsOf acts))).1,
          (List.range (nexts acts + 1)).map (fun k => (all[k]?.getD (all.getLast?.getD []), k)), h', d', ph') ∧
      (∀ a, ph'.mem a = ph.mem a) ∧
      d'.size = (taken (prep ++ stepsOf acts)).length ∧ Shows sgn h'.mem d'.root d'.size (visible (prep ++ stepsOf acts)) ∧
      ∃ h'', Ends (fun fuel => destroyDawg fuel h' d') h'' ∧ ∀ a, h''.mem a = h.mem a := by
  have haddr : AddrOk addr := ⟨ha.nonnull, ha.inj⟩
  obtain ⟨hok1, hok2⟩ := hok.split
  simp only [List.nil_append] at hok2
  obtain ⟨_, _, hs0⟩ := newDawg_stage sgn ha
  obtain ⟨r1, h1, d1, ⟨N1, e1⟩, v1, hs1⟩ := hs0.steps haddr prep hok1
  simp only [List.nil_append, callsOf, verdicts] at v1 hs1
  obtain ⟨nd1, hm1, hs1⟩ := hs1.anchor
  obtain ⟨nd, F, _, g1, g2, _, g4, _, g6⟩ := hs1.tree
  cases hm1.symm.trans g1
  obtain ⟨all, N3, cs, a1, a2, a3, a4⟩ := iter_states (sgn := sgn) hp hm1 g2 g4 g6
  obtain ⟨r2, h', d', N2, v2, s2, e2⟩ := hs1.acts haddr (fun fuel mem c => iterNext mem paddr fuel c.1 c.2)
    (fun c => (c.2.value, c.2.index)) (fun c => DeepI h1.mem nd1 c.1 c.2)
    (fun fuel mem c hmm hd => (iterNext_frozen hmm fuel hd).1) acts hok2
  obtain ⟨_, _, ph', a5, a6⟩ := a3 (nexts acts)
  refine ⟨all, h', d', ph', a1, a2, ⟨N1 + N2 + N3, fun fuel hf => ?_⟩, a6, s2.size, s2.shows, s2.destroy haddr ha.fresh⟩
  have e1 := e1 fuel (by omega)
  simp only at e1
  obtain ⟨b1, b2⟩ := a4 fuel (by omega)
  have hdk : ∀ k, DeepI h1.mem nd1 (cs k).1 (cs k).2 := by
    intro k
    induction k with
    | zero => exact iterBegin_deep hm1 b1
    | succ k ih => exact (iterNext_frozen (fun _ _ => rfl) fuel ih).2 _ _ (b2 k)
  have e2 := e2 fuel (by omega) cs hdk b2
  simp only [iterWatch, e1, b1, bind, Except.bind] at e2 ⊢
  simp only [e2, a5, v2, v1, (a3 _).1, (a3 _).2.1, List.range_succ_eq_map, List.map_cons, List.map_map]
  rfl

/-- "" and "a" are added, a query for "a" within 1 is begun; "b" is added, the query is advanced, "c" is added, the dictionary is
finished and cleaned up, and the query is advanced twice: it yields "" and "a", which could be seen at its first increment. -/
example : (queryWatch true (fun k => k + 1) 100 .standard 1 [97] [.call (.add []), .call (.add [97])]
      [.step (.call (.add [98])), .next, .step (.call (.add [99])), .step .finish, .step .cleanUp, .next, .next] exHeap).map
      (fun r => (r.1, r.2.1)) = .ok ([true, true, true, true], [some ([], 1), some ([97], 0), none, none]) ∧
    visible (readAfter 1 [97] [.call (.add []), .call (.add [97])]
      [.step (.call (.add [98])), .next, .step (.call (.add [99])), .step .finish, .step .cleanUp, .next, .next]) = [[], [97]] ∧
    Orderly [] ([.call (.add []), .call (.add [97])] ++ stepsOf
      [.step (.call (.add [98])), .next, .step (.call (.add [99])), .step .finish, .step .cleanUp, .next, .next]) := by
  refine ⟨by decide +kernel, by decide +kernel, ?_⟩
  simp [Orderly, Allowed, stepsOf, Done, Clean]

/-- C106: the claim that a query yields the terms that could be seen when it was begun is false: only "" could, and it yields "a". -/
theorem c106_not_when_begun :
    ¬ (∀ (sgn : Bool) (addr : Nat → Nat) (h : Heap) (A : Algorithm) (q : Str) (n : Nat) (prep : List Step) (acts : List Act),
      Allocator addr h → Orderly [] (prep ++ stepsOf acts) → ∀ fuel rs xs h' d',
      queryWatch sgn addr fuel A n q prep acts h = .ok (rs, xs, h', d') → ∀ t k, some (t, k) ∈ xs → t ∈ visible prep) := by
  intro hall
  have he : (queryWatch true (fun k => k + 1) 100 .standard 1 [97] [.call (.add [])]
      [.step (.call (.add [97])), .step .finish, .next] exHeap).map (fun r => r.2.1) = .ok [some ([], 1), some ([97], 0)] := by
    decide +kernel
  cases hr : queryWatch true (fun k => k + 1) 100 .standard 1 [97] [.call (.add [])]
      [.step (.call (.add [97])), .step .finish, .next] exHeap with
  | error x => rw [hr] at he; cases he
  | ok r =>
    obtain ⟨rs, xs, h', d'⟩ := r
    rw [hr] at he
    cases he
    have := hall _ _ _ _ _ _ _ _ exAllocator (by simp [Orderly, Allowed, stepsOf, Done, Clean]) _ _ _ _ _ hr [97] 0 (.tail _ (.head _))
    exact absurd this (by decide +kernel)

theorem stepsRun_error {sgn : Bool} {addr : Nat → Nat} {fuel : Nat} (steps : List Step) (s : Step) {h h' : Heap} {d d' : SDawg}
    {r : List Bool} {x : Err} (e : stepsRun sgn addr fuel steps h d = .ok (r, h', d')) (ex : stepRun sgn addr fuel s h' d' = .error x) :
    stepsRun sgn addr fuel (steps ++ [s]) h d = .error x := by
  induction steps generalizing h d r with
  | nil =>
    cases e
    simp only [List.nil_append, stepsRun, ex, bind, Except.bind]
  | cons a steps ih =>
    simp only [List.cons_append, stepsRun, bind, Except.bind] at e ⊢
    cases e1 : stepRun sgn addr fuel a h d with
    | error y => simp [e1] at e
    | ok v =>
      simp only [e1] at e ⊢
      cases e2 : stepsRun sgn addr fuel steps v.2.1 v.2.2 with
      | error y => simp [e2] at e
      | ok w =>
        simp only [e2] at e
        cases e
        simp only [ih e2]

/-- C106: the order matters: after `clean_up`, `finish` is undefined behaviour, and so is `add` of a term that is neither refused nor
empty. -/
theorem c106_after_clean_up (sgn : Bool) {addr : Nat → Nat} {h : Heap} (ha : Allocator addr h) (prep : List Step)
    (hok : Orderly [] prep) (hc : Clean prep) (s : Step)
    (hs : s = .finish ∨ ∃ t, s = .call (.add t) ∧ t ≠ [] ∧ ¬ strLess t ((taken prep).getLast?.getD [])) :
    ∃ N, ∀ fuel, N ≤ fuel →
      stepsRun sgn addr fuel (prep ++ [s]) (newDawg addr h).1 (initDawg (newDawg addr h).2) = .error .ub := by
  have haddr : AddrOk addr := ⟨ha.nonnull, ha.inj⟩
  obtain ⟨_, _, hs0⟩ := newDawg_stage sgn ha
  obtain ⟨r1, h1, d1, ⟨N1, e1⟩, v1, hs1⟩ := hs0.steps haddr prep hok
  simp only [List.nil_append] at hs1
  refine ⟨N1, fun fuel hf => stepsRun_error prep s (e1 fuel hf) ?_⟩
  cases hs1 with
  | building _ h2 => exact absurd hc h2
  | finished _ h2 => exact absurd hc h2
  | cleaned _ hw hp _ =>
    rcases hs with rfl | ⟨t, rfl, ht, hlt⟩
    · simp only [stepRun, finishDawg, minimize, hw.ptrs.1, bind, Except.bind]
    · rw [← hp.2] at hlt
      simp only [stepRun, runCalls, addTerm, (strLt_false_iff _ _).2 hlt, Bool.false_eq_true, if_false, ht, minimize, hw.ptrs.1, bind,
        Except.bind]

end Lev.Props
