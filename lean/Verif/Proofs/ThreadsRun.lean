import Verif.Model.Threads

/-!
The programs of `Verif/Model/Threads.lean`, run alone, do what the functions of `Verif/Model/StateHeap.lean` and
`Verif/Model/Lifetime.lean` do.
-/

namespace Lev

section
variable (nodes : Mem) (paddr saddr : SMem → Nat) (iaddr : IMem Nat → Nat)

/-- The outcome of a function that only reads. -/
def onR {β : Type} (l : LMem) (e : Except Err β) : Except Err (β × LMem) := e.bind fun x => .ok (x, l)

/-- The outcome of a function that changes positions and states. -/
def onS (l : LMem) (e : Except Err SMem) : Except Err (Unit × LMem) := e.bind fun m => .ok ((), ⟨m, l.im⟩)

/-- The outcome of a function that changes positions and states and returns something. -/
def onB {β : Type} (l : LMem) (e : Except Err (β × SMem)) : Except Err (β × LMem) := e.bind fun x => .ok (x.1, ⟨x.2, l.im⟩)

theorem ebind_assoc {α β γ : Type} (e : Except Err α) (f : α → Except Err β) (g : β → Except Err γ) :
    (e.bind f).bind g = e.bind fun x => (f x).bind g := by cases e <;> rfl

theorem ebind_ok {α β : Type} (x : α) (f : α → Except Err β) : (Except.ok x : Except Err α).bind f = f x := rfl
theorem ebind_error {α β : Type} (e : Err) (f : α → Except Err β) : (Except.error e : Except Err α).bind f = .error e := rfl
theorem ebind_ite {α β : Type} (c : Prop) [Decidable c] (a b : Except Err α) (f : α → Except Err β) :
    (if c then a else b).bind f = if c then a.bind f else b.bind f := by split <;> rfl

theorem run_act {α : Type} (x : Access) (k : x.Res → HProg α) (l : LMem) :
    (HProg.act x k).run nodes paddr saddr iaddr l =
      (x.perform nodes (x.address paddr saddr iaddr l) l).bind fun y => (k y.1).run nodes paddr saddr iaddr y.2 := by
  rw [HProg.run]
  cases x.perform nodes (x.address paddr saddr iaddr l) l <;> rfl

theorem run_bind {α β : Type} (p : HProg α) (f : α → HProg β) (l : LMem) :
    (p.bind f).run nodes paddr saddr iaddr l =
      (p.run nodes paddr saddr iaddr l).bind fun x => (f x.1).run nodes paddr saddr iaddr x.2 := by
  induction p generalizing l with
  | ret x => rfl
  | fail e => rfl
  | act x k ih =>
    simp only [HProg.bind, run_act, ebind_assoc, ih]

theorem run_access (x : Access) (l : LMem) :
    (HProg.access x).run nodes paddr saddr iaddr l = x.perform nodes (x.address paddr saddr iaddr l) l := by
  rw [HProg.access, run_act]
  cases x.perform nodes (x.address paddr saddr iaddr l) l <;> rfl

theorem run_ret {α : Type} (x : α) (l : LMem) : (HProg.ret x).run nodes paddr saddr iaddr l = .ok (x, l) := rfl
theorem run_fail {α : Type} (e : Err) (l : LMem) : (HProg.fail e : HProg α).run nodes paddr saddr iaddr l = .error e := rfl
theorem run_ite {α : Type} (c : Prop) [Decidable c] (p q : HProg α) (l : LMem) :
    (if c then p else q).run nodes paddr saddr iaddr l =
      if c then p.run nodes paddr saddr iaddr l else q.run nodes paddr saddr iaddr l := by split <;> rfl
theorem run_lift {α : Type} (e : Except Err α) (l : LMem) : (HProg.lift e).run nodes paddr saddr iaddr l = onR l e := by
  cases e <;> rfl

theorem run_getCell (a : Nat) (l : LMem) : (Thr.getCell a).run nodes paddr saddr iaddr l = onR l (getCell l.sm a) :=
  run_access nodes paddr saddr iaddr (.readPos a) l
theorem run_setNext (a nx : Nat) (l : LMem) :
    (Thr.setNext a nx).run nodes paddr saddr iaddr l = onS l (setNext a nx l.sm) :=
  run_access nodes paddr saddr iaddr (.writeNext a nx) l
theorem run_newPos (p : Pos) (l : LMem) :
    (Thr.newPos p).run nodes paddr saddr iaddr l = .ok ((newPos paddr p l.sm).1, ⟨(newPos paddr p l.sm).2, l.im⟩) := rfl
theorem run_freePos (a : Nat) (l : LMem) : (Thr.freePos a).run nodes paddr saddr iaddr l = onS l (freePos a l.sm) :=
  run_access nodes paddr saddr iaddr (.freePos a) l
theorem run_getHead (s : Nat) (l : LMem) : (Thr.getHead s).run nodes paddr saddr iaddr l = onR l (getHead l.sm s) :=
  run_access nodes paddr saddr iaddr (.readHead s) l
theorem run_setHead (s h : Nat) (l : LMem) :
    (Thr.setHead s h).run nodes paddr saddr iaddr l = onS l (setHead s h l.sm) :=
  run_access nodes paddr saddr iaddr (.writeHead s h) l
theorem run_newState (l : LMem) :
    Thr.newState.run nodes paddr saddr iaddr l = .ok ((newState saddr l.sm).1, ⟨(newState saddr l.sm).2, l.im⟩) := rfl
theorem run_freeState (s : Nat) (l : LMem) : (Thr.freeState s).run nodes paddr saddr iaddr l = onS l (freeState s l.sm) :=
  run_access nodes paddr saddr iaddr (.freeState s) l
theorem run_getInter (a : Nat) (l : LMem) : (Thr.getInter a).run nodes paddr saddr iaddr l = onR l (getInter l.im a) :=
  run_access nodes paddr saddr iaddr (.readInter a) l
theorem run_newInter (c : ICell Nat) (l : LMem) :
    (Thr.newInter c).run nodes paddr saddr iaddr l = .ok ((newInter iaddr c l.im).1, ⟨l.sm, (newInter iaddr c l.im).2⟩) := rfl
theorem run_freeInter (a : Nat) (l : LMem) : (Thr.freeInter a).run nodes paddr saddr iaddr l =
    (getInter l.im a).bind fun _ => .ok ((), ⟨l.sm, { l.im with cell := upd1 l.im.cell a none }⟩) :=
  run_access nodes paddr saddr iaddr (.freeInter a) l
theorem run_deref (a : Nat) (l : LMem) : (Thr.deref a).run nodes paddr saddr iaddr l = onR l (deref nodes a) :=
  run_access nodes paddr saddr iaddr (.readNode a) l
theorem run_steps (l : LMem) : Thr.steps.run nodes paddr saddr iaddr l = .ok (l.sm.steps, l) := rfl
theorem run_isteps (l : LMem) : Thr.isteps.run nodes paddr saddr iaddr l = .ok (l.im.steps, l) := rfl

/-- Unfolds programs and functions into accesses. -/
local macro "runs" "[" ts:Lean.Parser.Tactic.simpLemma,* "]" : tactic =>
  `(tactic| simp only [bind, pure, Except.pure, run_bind, run_ret, run_fail, run_ite, run_lift, run_getCell, run_setNext, run_newPos, run_freePos,
      run_getHead, run_setHead, run_newState, run_freeState, run_getInter, run_newInter, run_freeInter, run_deref, run_steps,
      run_isteps, onR, onS, onB, ebind_assoc, ebind_ok, ebind_error, ebind_ite, $ts,*])

theorem run_deletePosLoop (fuel a : Nat) (l : LMem) :
    (Thr.deletePosLoop fuel a).run nodes paddr saddr iaddr l = onS l (deletePosLoop fuel a l.sm) := by
  induction fuel generalizing a l with
  | zero => rfl
  | succ fuel ih => runs [Thr.deletePosLoop, deletePosLoop, ih]

theorem run_deletePos (a : Nat) (l : LMem) :
    (Thr.deletePos a).run nodes paddr saddr iaddr l = onS l (deletePos a l.sm) := by
  runs [Thr.deletePos, deletePos, run_deletePosLoop]

theorem run_deleteState (s : Nat) (l : LMem) :
    (Thr.deleteState s).run nodes paddr saddr iaddr l = onS l (deleteState s l.sm) := by
  runs [Thr.deleteState, deleteState, run_deletePos]

theorem run_stateHead (s a : Nat) (l : LMem) :
    (Thr.stateHead s a).run nodes paddr saddr iaddr l = onS l (stateHead s a l.sm) := by
  runs [Thr.stateHead, stateHead]

theorem run_addLoop (fuel curr : Nat) (l : LMem) :
    (Thr.addLoop fuel curr).run nodes paddr saddr iaddr l = onR l (addLoop l.sm fuel curr) := by
  induction fuel generalizing curr with
  | zero => rfl
  | succ fuel ih => runs [Thr.addLoop, addLoop, ih]

theorem run_stateAdd (s a : Nat) (l : LMem) :
    (Thr.stateAdd s a).run nodes paddr saddr iaddr l = onS l (stateAdd s a l.sm) := by
  runs [Thr.stateAdd, stateAdd, run_addLoop]

theorem run_stateInsertAfter (s curr a : Nat) (l : LMem) :
    (Thr.stateInsertAfter s curr a).run nodes paddr saddr iaddr l = onS l (stateInsertAfter s curr a l.sm) := by
  runs [Thr.stateInsertAfter, stateInsertAfter, run_stateAdd]

theorem run_fillState (s : Nat) (as : List Nat) (curr : Nat) (l : LMem) :
    (Thr.fillState s as curr).run nodes paddr saddr iaddr l = onS l (fillState s as curr l.sm) := by
  induction as generalizing curr l with
  | nil => rfl
  | cons a as ih => runs [Thr.fillState, fillState, run_stateInsertAfter, ih]

theorem run_newStateOf (as : List Nat) (l : LMem) :
    (Thr.newStateOf as).run nodes paddr saddr iaddr l = onB l (newStateOf saddr as l.sm) := by
  runs [Thr.newStateOf, newStateOf, run_fillState]

theorem run_stateRemove (s prev curr : Nat) (l : LMem) :
    (Thr.stateRemove s prev curr).run nodes paddr saddr iaddr l = onS l (stateRemove s prev curr l.sm) := by
  runs [Thr.stateRemove, stateRemove, run_deletePos]

theorem run_findMiddleLoop (fuel slow fast : Nat) (l : LMem) :
    (Thr.findMiddleLoop fuel slow fast).run nodes paddr saddr iaddr l = onR l (findMiddleLoop l.sm fuel slow fast) := by
  induction fuel generalizing slow fast with
  | zero => rfl
  | succ fuel ih => runs [Thr.findMiddleLoop, findMiddleLoop, ih]

theorem run_findMiddle (lower : Nat) (l : LMem) :
    (Thr.findMiddle lower).run nodes paddr saddr iaddr l = onR l (findMiddle lower l.sm) := by
  runs [Thr.findMiddle, findMiddle, run_findMiddleLoop]

theorem run_linkTemp (curr : Option Nat) (a temp : Nat) (l : LMem) :
    (Thr.linkTemp curr a temp).run nodes paddr saddr iaddr l = onB l (linkTemp curr a temp l.sm) := by
  cases curr <;> runs [Thr.linkTemp, linkTemp]

theorem run_mergeListsLoop (cmp : Pos → Pos → Int) (fuel : Nat) (curr : Option Nat) (temp lower upper : Nat) (l : LMem) :
    (Thr.mergeListsLoop cmp fuel curr temp lower upper).run nodes paddr saddr iaddr l =
      onB l (mergeListsLoop cmp fuel curr temp lower upper l.sm) := by
  induction fuel generalizing curr temp lower upper l with
  | zero => rfl
  | succ fuel ih => runs [Thr.mergeListsLoop, mergeListsLoop, run_linkTemp, ih]

theorem run_mergeLists (cmp : Pos → Pos → Int) (lower upper : Nat) (l : LMem) :
    (Thr.mergeLists cmp lower upper).run nodes paddr saddr iaddr l = onB l (mergeLists cmp lower upper l.sm) := by
  runs [Thr.mergeLists, mergeLists, run_mergeListsLoop, run_deletePos]

theorem run_mergeSortLoop (first : Bool) (cmp : Pos → Pos → Int) (fuel lower : Nat) (l : LMem) :
    (Thr.mergeSortLoop first cmp fuel lower).run nodes paddr saddr iaddr l =
      onB l (mergeSortLoop first cmp fuel lower l.sm) := by
  induction fuel generalizing lower l with
  | zero => rfl
  | succ fuel ih => runs [Thr.mergeSortLoop, mergeSortLoop, run_findMiddle, run_mergeLists, ih]

theorem run_stateSort (first : Bool) (cmp : Pos → Pos → Int) (s : Nat) (l : LMem) :
    (Thr.stateSort first cmp s).run nodes paddr saddr iaddr l = onS l (stateSort first cmp s l.sm) := by
  runs [Thr.stateSort, stateSort, run_mergeSortLoop]

theorem run_iterNew (s head : Nat) (l : LMem) :
    (Thr.iterNew s head).run nodes paddr saddr iaddr l = onR l (iterNew s head l.sm) := by
  runs [Thr.iterNew, iterNew]

theorem run_siterBegin (s : Nat) (l : LMem) :
    (Thr.siterBegin s).run nodes paddr saddr iaddr l = onR l (siterBegin s l.sm) := by
  runs [Thr.siterBegin, siterBegin, run_iterNew]

theorem run_siterAdvance (it : SIter) (l : LMem) :
    (Thr.siterAdvance it).run nodes paddr saddr iaddr l = onR l (siterAdvance l.sm it) := by
  runs [Thr.siterAdvance, siterAdvance]

theorem run_skipRemoved (curr : Nat) (o : Option SIter) (l : LMem) :
    (Thr.skipRemoved curr o).run nodes paddr saddr iaddr l = onR l (skipRemoved curr l.sm o) := by
  cases o <;> runs [Thr.skipRemoved, skipRemoved]

theorem run_iterRemove (it : SIter) (o : Option SIter) (l : LMem) :
    (Thr.iterRemove it o).run nodes paddr saddr iaddr l =
      (iterRemove it o l.sm).bind fun x => .ok ((x.1, x.2.1), ⟨x.2.2, l.im⟩) := by
  runs [Thr.iterRemove, iterRemove, run_skipRemoved, run_stateRemove]

theorem run_insertAfter (s curr a : Nat) (l : LMem) :
    (Thr.insertAfter s curr a).run nodes paddr saddr iaddr l = onS l (insertAfter s curr a l.sm) := by
  runs [Thr.insertAfter, insertAfter, run_stateHead, run_stateInsertAfter]

theorem run_mergeSearch (A : Algorithm) (a : Pos) (fuel : Nat) (it : SIter) (p : Nat) (l : LMem) :
    (Thr.mergeSearch A a fuel it p).run nodes paddr saddr iaddr l = onR l (mergeSearch A a l.sm fuel it p) := by
  induction fuel generalizing it p with
  | zero => rfl
  | succ fuel ih => runs [Thr.mergeSearch, mergeSearch, run_siterAdvance, ih]

theorem run_mergeStep (A : Algorithm) (it : SIter) (l : LMem) :
    (Thr.mergeStep A it).run nodes paddr saddr iaddr l = onR l (mergeStep A l.sm it) := by
  runs [Thr.mergeStep, mergeStep, run_siterAdvance]

theorem run_mergeOneH (A : Algorithm) (s a : Nat) (l : LMem) :
    (Thr.mergeOneH A s a).run nodes paddr saddr iaddr l = onS l (mergeOneH A s a l.sm) := by
  runs [Thr.mergeOneH, mergeOneH, run_siterBegin, run_mergeSearch, run_insertAfter, run_mergeStep, run_deletePos]

theorem run_mergeAllH (A : Algorithm) (s : Nat) (as : List Nat) (l : LMem) :
    (Thr.mergeAllH A s as).run nodes paddr saddr iaddr l = onS l (mergeAllH A s as l.sm) := by
  induction as generalizing l with
  | nil => rfl
  | cons a as ih => runs [Thr.mergeAllH, mergeAllH, run_mergeOneH, ih]

theorem run_unsubSkip (errors fuel : Nat) (it : SIter) (l : LMem) :
    (Thr.unsubSkip errors fuel it).run nodes paddr saddr iaddr l = onR l (unsubSkip errors l.sm fuel it) := by
  induction fuel generalizing it with
  | zero => rfl
  | succ fuel ih => runs [Thr.unsubSkip, unsubSkip, run_siterAdvance, ih]

theorem run_unsubDrop (sub : Pos → Pos → Bool) (outer fuel : Nat) (it : SIter) (o : Option SIter) (l : LMem) :
    (Thr.unsubDrop sub outer fuel it o).run nodes paddr saddr iaddr l = onB l (unsubDrop sub outer fuel it o l.sm) := by
  induction fuel generalizing it o l with
  | zero => rfl
  | succ fuel ih => runs [Thr.unsubDrop, unsubDrop, run_siterAdvance, run_iterRemove, ih]

theorem run_unsubLoop (sub : Pos → Pos → Bool) (s fuel : Nat) (it : SIter) (l : LMem) :
    (Thr.unsubLoop sub s fuel it).run nodes paddr saddr iaddr l = onS l (unsubLoop sub s fuel it l.sm) := by
  induction fuel generalizing it l with
  | zero => rfl
  | succ fuel ih =>
    runs [Thr.unsubLoop, unsubLoop, run_siterAdvance, run_iterNew, run_unsubSkip, run_unsubDrop]
    split
    · rfl
    · congr 1; funext c; congr 1; funext c; congr 1; funext c; congr 1; funext c; congr 1; funext x
      cases x.1 <;> runs [run_siterAdvance, ih]

theorem run_unsubsumeH (sub : Pos → Pos → Bool) (s : Nat) (l : LMem) :
    (Thr.unsubsumeH sub s).run nodes paddr saddr iaddr l = onS l (unsubsumeH sub s l.sm) := by
  runs [Thr.unsubsumeH, unsubsumeH, run_siterBegin, run_unsubLoop]

theorem run_newPositions (ps : List Pos) (l : LMem) :
    (Thr.newPositions ps).run nodes paddr saddr iaddr l =
      .ok ((newPositions paddr ps l.sm).1, ⟨(newPositions paddr ps l.sm).2, l.im⟩) := by
  induction ps generalizing l with
  | nil => rfl
  | cons p ps ih => runs [Thr.newPositions, newPositions, ih]

theorem run_transLoopH (A : Algorithm) (n : Nat) (cv : List Bool) (offset next fuel : Nat) (it : SIter) (l : LMem) :
    (Thr.transLoopH A n cv offset next fuel it).run nodes paddr saddr iaddr l =
      onS l (transLoopH paddr A n cv offset next fuel it l.sm) := by
  induction fuel generalizing it l with
  | zero => rfl
  | succ fuel ih => runs [Thr.transLoopH, transLoopH, run_newPositions, run_mergeAllH, run_siterAdvance, ih]

theorem run_stateTransH (first : Bool) (A : Algorithm) (n ql s : Nat) (cv : List Bool) (l : LMem) :
    (Thr.stateTransH first A n ql s cv).run nodes paddr saddr iaddr l =
      (stateTransH paddr saddr first A n ql s cv l.sm).bind fun x => .ok (x.2, ⟨x.1, l.im⟩) := by
  runs [Thr.stateTransH, stateTransH, run_siterBegin, run_transLoopH, run_unsubsumeH, run_stateSort, run_deleteState]

theorem run_distLoopH (A : Algorithm) (ql fuel : Nat) (it : SIter) (d : Nat) (l : LMem) :
    (Thr.distLoopH A ql fuel it d).run nodes paddr saddr iaddr l = onR l (distLoopH A ql l.sm fuel it d) := by
  induction fuel generalizing it d with
  | zero => rfl
  | succ fuel ih => runs [Thr.distLoopH, distLoopH, run_siterAdvance, ih]

theorem run_stateDistH (A : Algorithm) (s ql : Nat) (l : LMem) :
    (Thr.stateDistH A s ql).run nodes paddr saddr iaddr l = onR l (stateDistH A s ql l.sm) := by
  runs [Thr.stateDistH, stateDistH, run_siterBegin, run_distLoopH]

theorem run_newTransducer (l : LMem) :
    Thr.newTransducer.run nodes paddr saddr iaddr l = onB l (newTransducer paddr saddr l.sm) := by
  runs [Thr.newTransducer, newTransducer, run_newStateOf]

theorem run_interStr (fuel a : Nat) (l : LMem) :
    (Thr.interStr fuel a).run nodes paddr saddr iaddr l = onR l (interStr l.im fuel a) := by
  induction fuel generalizing a with
  | zero => rfl
  | succ fuel ih => runs [Thr.interStr, interStr, ih]

section
variable {R : Type} (first : Bool) (A : Algorithm) (n ql : Nat) (upd : Str → Nat → R)

theorem run_ptrIter (Q : PQuery R) (l : LMem) :
    (Thr.ptrIter first A n ql upd Q).run nodes paddr saddr iaddr l =
      (ptrIter (heapBackend paddr saddr first A n ql) iaddr nodes upd l.sm l.im Q).bind fun x =>
        .ok ((x.2.2.1, x.2.2.2), ⟨x.1, x.2.1⟩) := by
  unfold Thr.ptrIter ptrIter
  cases Q.edges with
  | nil =>
    cases Q.pending with
    | nil => rfl
    | cons a rest => runs [heapBackend]
  | cons e es =>
    obtain ⟨label, target⟩ := e
    runs [heapBackend, run_stateTransH]
    congr 1; funext c; congr 1; funext cv; congr 1; funext x
    cases x.2 <;> runs [run_stateDistH, run_interStr]

theorem run_ptrLoop (fuel : Nat) (Q : PQuery R) (l : LMem) :
    (Thr.ptrLoop first A n ql upd fuel Q).run nodes paddr saddr iaddr l =
      (ptrLoop (heapBackend paddr saddr first A n ql) iaddr nodes upd fuel l.sm l.im Q).bind fun x =>
        .ok (x.2.2, ⟨x.1, x.2.1⟩) := by
  induction fuel generalizing Q l with
  | zero => rfl
  | succ fuel ih => runs [Thr.ptrLoop, ptrLoop, run_ptrIter, ih]

theorem run_ptrAdvance (fuel : Nat) (Q : PQuery R) (l : LMem) :
    (Thr.ptrAdvance first A n ql upd fuel Q).run nodes paddr saddr iaddr l =
      (ptrAdvance (heapBackend paddr saddr first A n ql) iaddr nodes upd fuel l.sm l.im Q).bind fun x =>
        .ok (x.2.2, ⟨x.1, x.2.1⟩) := by
  runs [Thr.ptrAdvance, ptrAdvance, run_ptrLoop]

theorem run_ptrBegin (fuel : Nat) (dflt : R) (t : Nat) (term : Str) (n' : Nat) (l : LMem) :
    (Thr.ptrBegin first A n ql upd fuel dflt t term n').run nodes paddr saddr iaddr l =
      (ptrBegin (heapBackend paddr saddr first A n ql) iaddr nodes upd fuel dflt l.sm l.im t term n').bind fun x =>
        .ok (x.2.2, ⟨x.1, x.2.1⟩) := by
  runs [Thr.ptrBegin, ptrBegin, run_ptrAdvance]

end

theorem run_deleteInter (a : Nat) (l : LMem) :
    (Thr.deleteInter a).run nodes paddr saddr iaddr l = (deleteInter a l.sm l.im).bind fun x => .ok ((), ⟨x.1, x.2⟩) := by
  runs [Thr.deleteInter, deleteInter, run_deleteState]
  split
  · rfl
  · cases h : getInter l.im a <;> rfl

theorem run_deleteInters (as : List Nat) (l : LMem) :
    (Thr.deleteInters as).run nodes paddr saddr iaddr l = (deleteInters as l.sm l.im).bind fun x => .ok ((), ⟨x.1, x.2⟩) := by
  induction as generalizing l with
  | nil => rfl
  | cons a as ih => runs [Thr.deleteInters, deleteInters, run_deleteInter, ih]

section
variable {R : Type} (first : Bool) (upd : Str → Nat → R) (dflt : R) (root fuel : Nat)

/-- What a thread may do: nothing is copied, the dictionary is not destroyed. -/
def ThreadOp : LOp → Prop
  | .copy _ | .copyTransducer _ | .dropDictionary => False
  | _ => True

theorem run_lifeStep (op : LOp) (hop : ThreadOp op) (w : World R) :
    (Thr.lifeStep first upd dflt root fuel op ⟨w.ts, w.qs⟩).run w.heap.mem paddr saddr iaddr ⟨w.sm, w.im⟩ =
      (lifeStep paddr saddr iaddr first upd dflt root fuel op w).bind fun w' => .ok (⟨w'.ts, w'.qs⟩, ⟨w'.sm, w'.im⟩) := by
  cases op with
  | copy => exact absurd hop id
  | copyTransducer => exact absurd hop id
  | dropDictionary => exact absurd hop id
  | transducer A => runs [Thr.lifeStep, lifeStep, run_newTransducer]
  | start t q n =>
    unfold Thr.lifeStep lifeStep
    dsimp only
    rcases w.ts[t]? with _ | _ | ⟨A, a⟩
    · rfl
    · rfl
    · runs [run_ptrBegin]
  | next i =>
    unfold Thr.lifeStep lifeStep
    dsimp only
    rcases w.qs[i]? with _ | _ | ⟨A, a⟩
    · rfl
    · rfl
    · runs [run_ptrAdvance]
  | dropQuery i =>
    unfold Thr.lifeStep lifeStep
    dsimp only
    rcases w.qs[i]? with _ | _ | ⟨A, a⟩
    · rfl
    · rfl
    · runs [run_deleteInters]
  | dropTransducer i =>
    unfold Thr.lifeStep lifeStep
    dsimp only
    rcases w.ts[i]? with _ | _ | ⟨A, a⟩
    · rfl
    · rfl
    · runs [run_deleteInter]

theorem lifeStep_heap {op : LOp} (hop : ThreadOp op) {w w' : World R}
    (h : lifeStep paddr saddr iaddr first upd dflt root fuel op w = .ok w') : w'.heap = w.heap := by
  cases op with
  | copy => exact absurd hop id
  | copyTransducer => exact absurd hop id
  | dropDictionary => exact absurd hop id
  | transducer A =>
    simp only [lifeStep, bind] at h
    cases e : newTransducer paddr saddr w.sm with
    | error e => rw [e] at h; cases h
    | ok x => rw [e] at h; cases h; rfl
  | start t q n =>
    simp only [lifeStep, bind] at h
    split at h
    · revert h
      generalize ptrBegin _ _ _ _ _ _ _ _ _ _ _ = e
      intro h
      cases e with
      | error e => cases h
      | ok x => cases h; rfl
    · cases h
  | next i =>
    simp only [lifeStep, bind] at h
    split at h
    · revert h
      generalize ptrAdvance _ _ _ _ _ _ _ _ = e
      intro h
      cases e with
      | error e => cases h
      | ok x => cases h; rfl
    · cases h
  | dropQuery i =>
    simp only [lifeStep, bind] at h
    split at h
    · revert h
      generalize deleteInters _ _ _ = e
      intro h
      cases e with
      | error e => cases h
      | ok x => cases h; rfl
    · cases h
  | dropTransducer i =>
    simp only [lifeStep, bind] at h
    split at h
    · revert h
      generalize deleteInter _ _ _ = e
      intro h
      cases e with
      | error e => cases h
      | ok x => cases h; rfl
    · cases h

theorem run_lifeRun (ops : List LOp) (hop : ∀ op ∈ ops, ThreadOp op) (w : World R) :
    (Thr.lifeRun first upd dflt root fuel ops ⟨w.ts, w.qs⟩).run w.heap.mem paddr saddr iaddr ⟨w.sm, w.im⟩ =
      (lifeRun paddr saddr iaddr first upd dflt root fuel ops w).bind fun w' => .ok (⟨w'.ts, w'.qs⟩, ⟨w'.sm, w'.im⟩) := by
  induction ops generalizing w with
  | nil => rfl
  | cons op ops ih =>
    have h1 := run_lifeStep paddr saddr iaddr first upd dflt root fuel op (hop op (by simp)) w
    simp only [Thr.lifeRun, lifeRun, bind, run_bind, h1, ebind_assoc]
    cases e : lifeStep paddr saddr iaddr first upd dflt root fuel op w with
    | error e => rfl
    | ok w' =>
      have h2 := lifeStep_heap paddr saddr iaddr first upd dflt root fuel (hop op (by simp)) e
      simp only [ebind_ok]
      rw [← h2]
      exact ih (fun o ho => hop o (by simp [ho])) w'

end

end

end Lev
