import Verif.Proofs.Threads
import Verif.Spec.Threads

/-!
The programs of `Verif/Model/Threads.lean` change only objects that they have made, and objects that are handed to them for
being changed.
-/

namespace Lev

open Spec

/-- A position that belongs to the thread, or null. -/
def OwnP (o : Owned) (a : Nat) : Prop := a = 0 ∨ o (.pos a)
/-- A state that belongs to the thread, or null. -/
def OwnS (o : Owned) (s : Nat) : Prop := s = 0 ∨ o (.st s)
/-- An intersection that belongs to the thread, or null. -/
def OwnI (o : Owned) (a : Nat) : Prop := a = 0 ∨ o (.inter a)

theorem OwnP.zero {o : Owned} : OwnP o 0 := Or.inl rfl

/-- Pointers in objects of the thread point to objects of the thread, and there is nothing at the null address. -/
structure Region (o : Owned) (l : LMem) : Prop where
  npos : l.sm.pos 0 = none
  nst : l.sm.st 0 = none
  ninter : l.im.cell 0 = none
  pos : ∀ a c, o (.pos a) → l.sm.pos a = some c → OwnP o c.next
  st : ∀ s h, o (.st s) → l.sm.st s = some h → OwnP o h
  inter : ∀ a c, o (.inter a) → l.im.cell a = some c → OwnS o c.state

/-- The program changes only what belongs to it, and ends with `K`. -/
def Good (nodes : Mem) {α : Type} (o : Owned) (p : HProg α) (K : α → Owned → Prop) : Prop :=
  ∀ l, Region o l → Keeps nodes (fun x l' o' => Region o' l' ∧ (∀ q, o q → o' q) ∧ K x o') p l o

/-- The same for a program that does not allocate. -/
abbrev Good0 (nodes : Mem) {α : Type} (o : Owned) (p : HProg α) (K : α → Prop) : Prop := Good nodes o p fun x o' => o' = o ∧ K x

section
variable {nodes : Mem} {o : Owned} {α β : Type}

theorem OwnP.mono {o' : Owned} {a : Nat} (h : OwnP o a) (ho : ∀ q, o q → o' q) : OwnP o' a := h.imp_right (ho _)
theorem OwnS.mono {o' : Owned} {a : Nat} (h : OwnS o a) (ho : ∀ q, o q → o' q) : OwnS o' a := h.imp_right (ho _)
theorem OwnI.mono {o' : Owned} {a : Nat} (h : OwnI o a) (ho : ∀ q, o q → o' q) : OwnI o' a := h.imp_right (ho _)

theorem Good.bind {p : HProg α} {f : α → HProg β} {K : α → Owned → Prop} {K' : β → Owned → Prop} (h : Good nodes o p K)
    (hf : ∀ x o', (∀ q, o q → o' q) → K x o' → Good nodes o' (f x) K') : Good nodes o (p.bind f) K' := by
  intro l hl
  refine Keeps.bind (h l hl) ?_
  rintro x l' o' ⟨h1, h2, h3⟩
  exact (hf x o' h2 h3 l' h1).imp fun y l'' o'' ⟨g1, g2, g3⟩ => ⟨g1, fun q hq => g2 q (h2 q hq), g3⟩

theorem Good.then {p : HProg α} {f : α → HProg β} {K : α → Prop} {K' : β → Owned → Prop} (h : Good0 nodes o p K)
    (hf : ∀ x, K x → Good nodes o (f x) K') : Good nodes o (p.bind f) K' := by
  refine Good.bind h ?_
  rintro x o' _ ⟨rfl, hK⟩
  exact hf x hK

theorem Good.ret {x : α} {K : α → Owned → Prop} (h : K x o) : Good nodes o (.ret x) K := fun _ hl => ⟨hl, fun _ h => h, h⟩
theorem Good.fail {e : Err} {K : α → Owned → Prop} : Good nodes o (.fail e) K := fun _ _ => trivial
theorem Good.imp {p : HProg α} {K K' : α → Owned → Prop} (h : Good nodes o p K) (hK : ∀ x o', (∀ q, o q → o' q) → K x o' → K' x o') :
    Good nodes o p K' := fun l hl => (h l hl).imp fun x _ o' ⟨h1, h2, h3⟩ => ⟨h1, h2, hK x o' h2 h3⟩
theorem Good.ite {c : Prop} [Decidable c] {p q : HProg α} {K : α → Owned → Prop} (h1 : c → Good nodes o p K)
    (h2 : ¬ c → Good nodes o q K) : Good nodes o (if c then p else q) K := by
  split
  · exact h1 ‹_›
  · exact h2 ‹_›
theorem Good.lift {e : Except Err α} : Good0 nodes o (.lift e) fun _ => True := by
  cases e
  · exact Good.fail
  · exact Good.ret ⟨rfl, trivial⟩

theorem grow_old {x : Access} (hx : x.isNew = false) (new : Nat) (o : Owned) : x.grow new o = o := by
  funext p; simp [Access.grow, hx]

/-- An access that does not allocate. -/
theorem good_access {x : Access} (hx : x.isNew = false) {K : x.Res → Prop}
    (h : ∀ l new r l', Region o l → x.perform nodes new l = .ok (r, l') →
      (∀ p, x.touches = some p → x.writes = true → o p) ∧ Region o l' ∧ K r) : Good0 nodes o (.access x) K := by
  intro l hl new _ r l' hp
  obtain ⟨h1, h2, h3⟩ := h l new r l' hl hp
  refine ⟨h1, ?_⟩
  rw [grow_old hx]
  exact ⟨h2, fun _ h => h, rfl, h3⟩

theorem good_getCell (a : Nat) : Good0 nodes o (Thr.getCell a) fun c => OwnP o a → OwnP o c.next := by
  refine good_access (x := .readPos a) rfl ?_
  intro l new r l' hl hp
  obtain ⟨c, h1, h2⟩ := ebind_eq_ok hp
  have h1 := getCell_eq h1
  cases h2
  refine ⟨(by intro _ _ h; cases h), hl, fun ha => ?_⟩
  rcases ha with rfl | ha
  · rw [hl.npos] at h1; cases h1
  · exact hl.pos a _ ha h1

theorem good_setNext {a nx : Nat} (ha : OwnP o a) (hx : OwnP o nx) : Good0 nodes o (Thr.setNext a nx) fun _ => True := by
  refine good_access (x := .writeNext a nx) rfl ?_
  intro l new r l' hl hp
  obtain ⟨m, h0, h2⟩ := ebind_eq_ok hp
  obtain ⟨c, h1, rfl⟩ := setNext_eq h0
  cases h2
  have ha' : a ≠ 0 ∧ o (.pos a) := by
    rcases ha with rfl | ha
    · rw [hl.npos] at h1; cases h1
    · refine ⟨?_, ha⟩
      rintro rfl; rw [hl.npos] at h1; cases h1
  refine ⟨fun p hp _ => by cases hp; exact ha'.2, ⟨?_, hl.nst, hl.ninter, ?_, hl.st, hl.inter⟩, trivial⟩
  · simp [upd1, Ne.symm ha'.1, hl.npos]
  · intro b d hb hd
    simp only [upd1] at hd
    split at hd
    · cases hd; exact hx
    · exact hl.pos b d hb hd

theorem good_freePos {a : Nat} (ha : OwnP o a) : Good0 nodes o (Thr.freePos a) fun _ => True := by
  refine good_access (x := .freePos a) rfl ?_
  intro l new r l' hl hp
  obtain ⟨m, h0, h2⟩ := ebind_eq_ok hp
  obtain ⟨c, h1, rfl⟩ := freePos_eq h0
  cases h2
  have ha' : o (.pos a) := by
    rcases ha with rfl | ha
    · rw [hl.npos] at h1; cases h1
    · exact ha
  refine ⟨fun p hp _ => by cases hp; exact ha', ⟨?_, hl.nst, hl.ninter, ?_, hl.st, hl.inter⟩, trivial⟩
  · simp [upd1, hl.npos]
  · intro b d hb hd
    simp only [upd1] at hd
    split at hd
    · cases hd
    · exact hl.pos b d hb hd

theorem good_getHead (s : Nat) : Good0 nodes o (Thr.getHead s) fun h => OwnS o s → OwnP o h := by
  refine good_access (x := .readHead s) rfl ?_
  intro l new r l' hl hp
  obtain ⟨c, h1, h2⟩ := ebind_eq_ok hp
  have h1 := getHead_eq h1
  cases h2
  refine ⟨(by intro _ _ h; cases h), hl, fun ha => ?_⟩
  rcases ha with rfl | ha
  · rw [hl.nst] at h1; cases h1
  · exact hl.st s _ ha h1

theorem good_setHead {s h : Nat} (hs : OwnS o s) (hh : OwnP o h) : Good0 nodes o (Thr.setHead s h) fun _ => True := by
  refine good_access (x := .writeHead s h) rfl ?_
  intro l new r l' hl hp
  obtain ⟨m, h0, h2⟩ := ebind_eq_ok hp
  obtain ⟨c, h1, rfl⟩ := setHead_eq h0
  cases h2
  have ha' : s ≠ 0 ∧ o (.st s) := by
    rcases hs with rfl | ha
    · rw [hl.nst] at h1; cases h1
    · refine ⟨?_, ha⟩
      rintro rfl; rw [hl.nst] at h1; cases h1
  refine ⟨fun p hp _ => by cases hp; exact ha'.2, ⟨hl.npos, ?_, hl.ninter, hl.pos, ?_, hl.inter⟩, trivial⟩
  · simp [upd1, Ne.symm ha'.1, hl.nst]
  · intro b d hb hd
    simp only [upd1] at hd
    split at hd
    · cases hd; exact hh
    · exact hl.st b d hb hd

theorem good_freeState {s : Nat} (hs : OwnS o s) : Good0 nodes o (Thr.freeState s) fun _ => True := by
  refine good_access (x := .freeState s) rfl ?_
  intro l new r l' hl hp
  obtain ⟨m, h0, h2⟩ := ebind_eq_ok hp
  obtain ⟨c, h1, rfl⟩ := freeState_eq h0
  cases h2
  have ha' : o (.st s) := by
    rcases hs with rfl | ha
    · rw [hl.nst] at h1; cases h1
    · exact ha
  refine ⟨fun p hp _ => by cases hp; exact ha', ⟨hl.npos, ?_, hl.ninter, hl.pos, ?_, hl.inter⟩, trivial⟩
  · simp [upd1, hl.nst]
  · intro b d hb hd
    simp only [upd1] at hd
    split at hd
    · cases hd
    · exact hl.st b d hb hd

theorem good_getInter (a : Nat) : Good0 nodes o (Thr.getInter a) fun c => OwnI o a → OwnS o c.state := by
  refine good_access (x := .readInter a) rfl ?_
  intro l new r l' hl hp
  obtain ⟨c, h1, h2⟩ := ebind_eq_ok hp
  have h1 := getInter_eq h1
  cases h2
  refine ⟨(by intro _ _ h; cases h), hl, fun ha => ?_⟩
  rcases ha with rfl | ha
  · rw [hl.ninter] at h1; cases h1
  · exact hl.inter a _ ha h1

theorem good_freeInter {a : Nat} (ha : OwnI o a) : Good0 nodes o (Thr.freeInter a) fun _ => True := by
  refine good_access (x := .freeInter a) rfl ?_
  intro l new r l' hl hp
  obtain ⟨c, h1, h2⟩ := ebind_eq_ok hp
  have h1 := getInter_eq h1
  cases h2
  have ha' : o (.inter a) := by
    rcases ha with rfl | ha
    · rw [hl.ninter] at h1; cases h1
    · exact ha
  refine ⟨fun p hp _ => by cases hp; exact ha', ⟨hl.npos, hl.nst, ?_, hl.pos, hl.st, ?_⟩, trivial⟩
  · simp [upd1, hl.ninter]
  · intro b d hb hd
    simp only [upd1] at hd
    split at hd
    · cases hd
    · exact hl.inter b d hb hd

theorem good_deref (a : Nat) : Good0 nodes o (Thr.deref a) fun _ => True := by
  refine good_access (x := .readNode a) rfl ?_
  intro l new r l' hl hp
  obtain ⟨c, h1, h2⟩ := ebind_eq_ok hp
  cases h2
  exact ⟨(by intro _ h; cases h), hl, trivial⟩

theorem good_steps : Good0 nodes o Thr.steps fun _ => True := by
  refine good_access (x := .steps) rfl ?_
  intro l new r l' hl hp
  cases hp
  exact ⟨(by intro _ h; cases h), hl, trivial⟩

theorem good_isteps : Good0 nodes o Thr.isteps fun _ => True := by
  refine good_access (x := .isteps) rfl ?_
  intro l new r l' hl hp
  cases hp
  exact ⟨(by intro _ h; cases h), hl, trivial⟩

theorem good_newPos (p : Pos) : Good nodes o (Thr.newPos p) fun a o' => OwnP o' a := by
  intro l hl new hf r l' hp
  have hn := hf rfl
  cases hp
  refine ⟨(by intro _ h; cases h), ⟨?_, hl.nst, hl.ninter, ?_, ?_, ?_⟩, fun q hq => Or.inl hq, Or.inr (Or.inr ⟨rfl, rfl⟩)⟩
  · simp [newPos, upd1, Ne.symm hn.1, hl.npos]
  · intro b d hb hd
    simp only [newPos, upd1] at hd
    split at hd
    · cases hd; exact OwnP.zero
    · rename_i hne
      rcases hb with hb | hb
      · exact (hl.pos b d hb hd).mono fun q hq => Or.inl hq
      · cases hb.2; exact absurd rfl hne
  · intro b d hb hd
    rcases hb with hb | hb
    · exact (hl.st b d hb hd).mono fun q hq => Or.inl hq
    · cases hb.2
  · intro b d hb hd
    rcases hb with hb | hb
    · exact (hl.inter b d hb hd).mono fun q hq => Or.inl hq
    · cases hb.2

theorem good_newState : Good nodes o Thr.newState fun s o' => OwnS o' s := by
  intro l hl new hf r l' hp
  have hn := hf rfl
  cases hp
  refine ⟨(by intro _ h; cases h), ⟨hl.npos, ?_, hl.ninter, ?_, ?_, ?_⟩, fun q hq => Or.inl hq, Or.inr (Or.inr ⟨rfl, rfl⟩)⟩
  · simp [newState, upd1, Ne.symm hn.1, hl.nst]
  · intro b d hb hd
    rcases hb with hb | hb
    · exact (hl.pos b d hb hd).mono fun q hq => Or.inl hq
    · cases hb.2
  · intro b d hb hd
    simp only [newState, upd1] at hd
    split at hd
    · cases hd; exact OwnP.zero
    · rename_i hne
      rcases hb with hb | hb
      · exact (hl.st b d hb hd).mono fun q hq => Or.inl hq
      · cases hb.2; exact absurd rfl hne
  · intro b d hb hd
    rcases hb with hb | hb
    · exact (hl.inter b d hb hd).mono fun q hq => Or.inl hq
    · cases hb.2

theorem good_newInter {c : ICell Nat} (hc : OwnS o c.state) : Good nodes o (Thr.newInter c) fun a o' => OwnI o' a := by
  intro l hl new hf r l' hp
  have hn := hf rfl
  cases hp
  refine ⟨(by intro _ h; cases h), ⟨hl.npos, hl.nst, ?_, ?_, ?_, ?_⟩, fun q hq => Or.inl hq, Or.inr (Or.inr ⟨rfl, rfl⟩)⟩
  · simp [newInter, upd1, Ne.symm hn.1, hl.ninter]
  · intro b d hb hd
    rcases hb with hb | hb
    · exact (hl.pos b d hb hd).mono fun q hq => Or.inl hq
    · cases hb.2
  · intro b d hb hd
    rcases hb with hb | hb
    · exact (hl.st b d hb hd).mono fun q hq => Or.inl hq
    · cases hb.2
  · intro b d hb hd
    simp only [newInter, upd1] at hd
    split at hd
    · cases hd; exact hc.mono fun q hq => Or.inl hq
    · rename_i hne
      rcases hb with hb | hb
      · exact (hl.inter b d hb hd).mono fun q hq => Or.inl hq
      · cases hb.2; exact absurd rfl hne

/-! ### States -/

theorem good_deletePosLoop {fuel a : Nat} (ha : OwnP o a) : Good0 nodes o (Thr.deletePosLoop fuel a) fun _ => True := by
  induction fuel generalizing a with
  | zero => exact Good.fail
  | succ fuel ih =>
    refine Good.ite (fun _ => Good.ret ⟨rfl, trivial⟩) fun _ => ?_
    refine Good.then (good_getCell a) fun c hc => ?_
    refine Good.then (ih (hc ha)) fun _ _ => ?_
    exact good_freePos ha

theorem good_deletePos {a : Nat} (ha : OwnP o a) : Good0 nodes o (Thr.deletePos a) fun _ => True :=
  Good.then good_steps fun _ _ => good_deletePosLoop ha

theorem good_deleteState {s : Nat} (hs : OwnS o s) : Good0 nodes o (Thr.deleteState s) fun _ => True := by
  refine Good.ite (fun _ => Good.ret ⟨rfl, trivial⟩) fun _ => ?_
  refine Good.then (good_getHead s) fun h hh => ?_
  refine Good.then (good_deletePos (hh hs)) fun _ _ => ?_
  exact good_freeState hs

theorem good_stateHead {s a : Nat} (hs : OwnS o s) (ha : OwnP o a) : Good0 nodes o (Thr.stateHead s a) fun _ => True := by
  refine Good.then (good_getHead s) fun h hh => ?_
  refine Good.then (good_setNext ha (hh hs)) fun _ _ => ?_
  exact good_setHead hs ha

theorem good_addLoop {fuel curr : Nat} (hc : OwnP o curr) : Good0 nodes o (Thr.addLoop fuel curr) fun a => OwnP o a := by
  induction fuel generalizing curr with
  | zero => exact Good.fail
  | succ fuel ih =>
    refine Good.then (good_getCell curr) fun c h => ?_
    exact Good.ite (fun _ => ih (h hc)) fun _ => Good.ret ⟨rfl, hc⟩

theorem good_stateAdd {s a : Nat} (hs : OwnS o s) (ha : OwnP o a) : Good0 nodes o (Thr.stateAdd s a) fun _ => True := by
  refine Good.then (good_getHead s) fun h hh => ?_
  refine Good.ite (fun _ => good_setHead hs ha) fun _ => ?_
  refine Good.then good_steps fun n _ => ?_
  refine Good.then (good_addLoop (hh hs)) fun curr hc => ?_
  exact good_setNext hc ha

theorem good_stateInsertAfter {s curr a : Nat} (hs : OwnS o s) (hc : OwnP o curr) (ha : OwnP o a) :
    Good0 nodes o (Thr.stateInsertAfter s curr a) fun _ => True := by
  refine Good.ite (fun _ => ?_) fun _ => good_stateAdd hs ha
  refine Good.then (good_getCell curr) fun c h => ?_
  refine Good.then (good_setNext ha (h hc)) fun _ _ => ?_
  exact good_setNext hc ha

theorem good_fillState {s : Nat} (hs : OwnS o s) {as : List Nat} {curr : Nat} (ha : ∀ a ∈ as, OwnP o a) (hc : OwnP o curr) :
    Good0 nodes o (Thr.fillState s as curr) fun _ => True := by
  induction as generalizing curr with
  | nil => exact Good.ret ⟨rfl, trivial⟩
  | cons a as ih =>
    refine Good.then (good_stateInsertAfter hs hc (ha a (by simp))) fun _ _ => ?_
    exact ih (fun b hb => ha b (by simp [hb])) (ha a (by simp))

theorem good_newStateOf {as : List Nat} (ha : ∀ a ∈ as, OwnP o a) : Good nodes o (Thr.newStateOf as) fun s o' => OwnS o' s := by
  refine Good.bind good_newState fun s o' ho hs => ?_
  refine Good.then (good_fillState hs (fun a h => (ha a h).mono ho) OwnP.zero) fun _ _ => ?_
  exact Good.ret hs

theorem good_stateRemove {s prev curr : Nat} (hs : OwnS o s) (hp : OwnP o prev) (hc : OwnP o curr) :
    Good0 nodes o (Thr.stateRemove s prev curr) fun _ => True := by
  refine Good.ite (fun _ => ?_) fun _ => ?_
  · refine Good.then (good_getCell prev) fun p h1 => ?_
    refine Good.then (good_getCell curr) fun c h2 => ?_
    refine Good.then (good_setNext hp (h2 hc)) fun _ _ => ?_
    refine Good.then (good_setNext (h1 hp) OwnP.zero) fun _ _ => ?_
    exact good_deletePos (h1 hp)
  · refine Good.then (good_getHead s) fun h hh => ?_
    refine Good.then (good_getCell h) fun c h2 => ?_
    refine Good.then (good_setHead hs (h2 (hh hs))) fun _ _ => ?_
    refine Good.then (good_setNext (hh hs) OwnP.zero) fun _ _ => ?_
    exact good_deletePos (hh hs)

theorem good_findMiddleLoop {fuel slow fast : Nat} (hs : OwnP o slow) :
    Good0 nodes o (Thr.findMiddleLoop fuel slow fast) fun a => OwnP o a := by
  induction fuel generalizing slow fast with
  | zero => exact Good.fail
  | succ fuel ih =>
    refine Good.then (good_getCell fast) fun f _ => ?_
    refine Good.ite (fun _ => ?_) fun _ => Good.ret ⟨rfl, hs⟩
    refine Good.then (good_getCell f.next) fun g _ => ?_
    refine Good.ite (fun _ => ?_) fun _ => Good.ret ⟨rfl, hs⟩
    refine Good.then (good_getCell slow) fun c h => ?_
    exact ih (h hs)

theorem good_findMiddle {a : Nat} (ha : OwnP o a) : Good0 nodes o (Thr.findMiddle a) fun a => OwnP o a :=
  Good.then good_steps fun _ _ => good_findMiddleLoop ha

theorem good_linkTemp {curr : Option Nat} {a temp : Nat} (hc : ∀ c ∈ curr, OwnP o c) (ha : OwnP o a) (ht : OwnP o temp) :
    Good0 nodes o (Thr.linkTemp curr a temp) fun a => OwnP o a := by
  cases curr with
  | none => exact Good.ret ⟨rfl, ha⟩
  | some c => exact Good.then (good_setNext (hc c rfl) ha) fun _ _ => Good.ret ⟨rfl, ht⟩

theorem good_mergeListsLoop {cmp : Pos → Pos → Int} {fuel : Nat} {curr : Option Nat} {temp lower upper : Nat}
    (hc : ∀ c ∈ curr, OwnP o c) (ht : OwnP o temp) (hl : OwnP o lower) (hu : OwnP o upper) :
    Good0 nodes o (Thr.mergeListsLoop cmp fuel curr temp lower upper) fun a => OwnP o a := by
  induction fuel generalizing curr temp lower upper with
  | zero => exact Good.fail
  | succ fuel ih =>
    refine Good.ite (fun _ => ?_) fun _ => Good.ite (fun _ => good_linkTemp hc hu ht) fun _ =>
      Good.ite (fun _ => good_linkTemp hc hl ht) fun _ => Good.ret ⟨rfl, ht⟩
    refine Good.then (good_getCell lower) fun l _ => ?_
    refine Good.then (good_getCell upper) fun u _ => ?_
    refine Good.ite (fun _ => ?_) fun _ => ?_
    · refine Good.then (good_linkTemp hc hl ht) fun t ht' => ?_
      refine Good.then (good_getCell lower) fun l h => ?_
      exact ih (by rintro c ⟨⟩; exact hl) ht' (h hl) hu
    · refine Good.then (good_linkTemp hc hu ht) fun t ht' => ?_
      refine Good.then (good_getCell upper) fun l h => ?_
      exact ih (by rintro c ⟨⟩; exact hu) ht' hl (h hu)

theorem good_mergeLists {cmp : Pos → Pos → Int} {lower upper : Nat} (hl : OwnP o lower) (hu : OwnP o upper) :
    Good0 nodes o (Thr.mergeLists cmp lower upper) fun a => OwnP o a := by
  refine Good.then good_steps fun _ _ => ?_
  refine Good.then (good_mergeListsLoop (by rintro c ⟨⟩) OwnP.zero hl hu) fun r hr => ?_
  exact Good.then (good_deletePos OwnP.zero) fun _ _ => Good.ret ⟨rfl, hr⟩

theorem good_mergeSortLoop {first : Bool} {cmp : Pos → Pos → Int} {fuel lower : Nat} (hl : OwnP o lower) :
    Good0 nodes o (Thr.mergeSortLoop first cmp fuel lower) fun a => OwnP o a := by
  induction fuel generalizing lower with
  | zero => exact Good.fail
  | succ fuel ih =>
    refine Good.ite (fun _ => Good.ret ⟨rfl, hl⟩) fun _ => ?_
    refine Good.then (good_getCell lower) fun c _ => ?_
    refine Good.ite (fun _ => Good.ret ⟨rfl, hl⟩) fun _ => ?_
    refine Good.then (good_findMiddle hl) fun middle hm => ?_
    refine Good.then (good_getCell middle) fun mid hmid => ?_
    refine Good.then (good_setNext hm OwnP.zero) fun _ _ => ?_
    refine Good.ite (fun _ => ?_) fun _ => ?_
    · exact Good.then (ih hl) fun l h1 => Good.then (ih (hmid hm)) fun u h2 => good_mergeLists h1 h2
    · exact Good.then (ih (hmid hm)) fun l h1 => Good.then (ih hl) fun u h2 => good_mergeLists h2 h1

theorem good_stateSort {first : Bool} {cmp : Pos → Pos → Int} {s : Nat} (hs : OwnS o s) :
    Good0 nodes o (Thr.stateSort first cmp s) fun _ => True := by
  refine Good.then (good_getHead s) fun h hh => ?_
  refine Good.then good_steps fun _ _ => ?_
  refine Good.then (good_mergeSortLoop (hh hs)) fun r hr => ?_
  exact good_setHead hs hr

/-! ### Iterators -/

/-- An iterator over a state that belongs to the thread. -/
structure ItOwn (o : Owned) (it : SIter) : Prop where
  state : OwnS o it.state
  next : OwnP o it.next
  curr : OwnP o it.curr
  prev : OwnP o it.prev

theorem good_iterNew (s head : Nat) :
    Good0 nodes o (Thr.iterNew s head) fun it => OwnS o s → OwnP o head → ItOwn o it := by
  refine Good.ite (fun _ => ?_) fun _ => Good.ret ⟨rfl, fun hs _ => ⟨hs, OwnP.zero, OwnP.zero, OwnP.zero⟩⟩
  refine Good.then (good_getCell head) fun c hc => Good.ret ⟨rfl, fun hs hh => ⟨hs, hc hh, hh, OwnP.zero⟩⟩

theorem good_siterBegin (s : Nat) : Good0 nodes o (Thr.siterBegin s) fun it => OwnS o s → ItOwn o it := by
  refine Good.then (good_getHead s) fun h hh => ?_
  exact (good_iterNew s h).imp fun it o' _ ⟨h1, h2⟩ => ⟨h1, fun hs => h2 hs (hh hs)⟩

theorem good_siterAdvance (it : SIter) : Good0 nodes o (Thr.siterAdvance it) fun it' => ItOwn o it → ItOwn o it' := by
  have hp : ItOwn o it → OwnP o (if it.curr ≠ 0 then it.curr else it.prev) := by
    intro h
    split
    · exact h.curr
    · exact h.prev
  refine Good.ite (fun _ => ?_) fun _ => Good.ret ⟨rfl, fun h => ⟨h.state, OwnP.zero, h.next, hp h⟩⟩
  exact Good.then (good_getCell it.next) fun c hc => Good.ret ⟨rfl, fun h => ⟨h.state, hc h.next, h.next, hp h⟩⟩

theorem good_skipRemoved {curr : Nat} {oi : Option SIter} (ho : ∀ it ∈ oi, ItOwn o it) :
    Good0 nodes o (Thr.skipRemoved curr oi) fun oi' => ∀ it ∈ oi', ItOwn o it := by
  cases oi with
  | none => exact Good.ret ⟨rfl, by rintro it ⟨⟩⟩
  | some it =>
    have h := ho it rfl
    refine Good.ite (fun _ => ?_) fun _ => Good.ret ⟨rfl, ho⟩
    refine Good.then (good_getCell it.next) fun c hc => Good.ret ⟨rfl, ?_⟩
    rintro it' ⟨⟩
    exact ⟨h.state, hc h.next, h.curr, h.prev⟩

theorem good_iterRemove {it : SIter} {oi : Option SIter} (h : ItOwn o it) (ho : ∀ it ∈ oi, ItOwn o it) :
    Good0 nodes o (Thr.iterRemove it oi) fun r => ItOwn o r.1 ∧ ∀ it ∈ r.2, ItOwn o it := by
  refine Good.ite (fun _ => ?_) fun _ => Good.ret ⟨rfl, h, ho⟩
  refine Good.then (good_skipRemoved ho) fun oi' ho' => ?_
  refine Good.then (good_stateRemove h.state h.prev h.curr) fun _ _ => ?_
  exact Good.ret ⟨rfl, ⟨h.state, h.next, OwnP.zero, h.prev⟩, ho'⟩

/-! ### Merging and removing -/

theorem good_insertAfter {s curr a : Nat} (hs : OwnS o s) (hc : OwnP o curr) (ha : OwnP o a) :
    Good0 nodes o (Thr.insertAfter s curr a) fun _ => True :=
  Good.ite (fun _ => good_stateHead hs ha) fun _ => good_stateInsertAfter hs hc ha

theorem good_mergeSearch {A : Algorithm} {a : Pos} {fuel : Nat} {it : SIter} {p : Nat} (h : ItOwn o it) (hp : OwnP o p) :
    Good0 nodes o (Thr.mergeSearch A a fuel it p) fun r => ItOwn o r.1 ∧ OwnP o r.2 := by
  induction fuel generalizing it p with
  | zero => exact Good.fail
  | succ fuel ih =>
    refine Good.ite (fun _ => Good.ret ⟨rfl, h, hp⟩) fun _ => ?_
    refine Good.then (good_getCell it.curr) fun b _ => ?_
    refine Good.ite (fun _ => ?_) fun _ => Good.ret ⟨rfl, h, hp⟩
    exact Good.then (good_siterAdvance it) fun it' h' => ih (h' h) h.curr

theorem good_mergeStep {A : Algorithm} {it : SIter} : Good0 nodes o (Thr.mergeStep A it) fun _ => True :=
  Good.ite (fun _ => Good.ret ⟨rfl, trivial⟩) fun _ => (good_siterAdvance it).imp fun _ _ _ h => ⟨h.1, trivial⟩

theorem good_mergeOneH {A : Algorithm} {s a : Nat} (hs : OwnS o s) (ha : OwnP o a) :
    Good0 nodes o (Thr.mergeOneH A s a) fun _ => True := by
  refine Good.then (good_getCell a) fun c _ => ?_
  refine Good.then (good_siterBegin s) fun it hit => ?_
  refine Good.then good_steps fun n _ => ?_
  refine Good.then (good_mergeSearch (hit hs) OwnP.zero) fun r hr => ?_
  obtain ⟨it', p⟩ := r
  refine Good.ite (fun _ => good_insertAfter hs hr.2 ha) fun _ => ?_
  refine Good.then good_mergeStep fun _ _ => ?_
  refine Good.then (good_getCell it'.curr) fun b _ => ?_
  exact Good.ite (fun _ => good_insertAfter hs hr.2 ha) fun _ => good_deletePos ha

theorem good_mergeAllH {A : Algorithm} {s : Nat} {as : List Nat} (hs : OwnS o s) (ha : ∀ a ∈ as, OwnP o a) :
    Good0 nodes o (Thr.mergeAllH A s as) fun _ => True := by
  induction as with
  | nil => exact Good.ret ⟨rfl, trivial⟩
  | cons a as ih =>
    exact Good.then (good_mergeOneH hs (ha a (by simp))) fun _ _ => ih fun b hb => ha b (by simp [hb])

theorem good_unsubSkip {errors fuel : Nat} {it : SIter} (h : ItOwn o it) :
    Good0 nodes o (Thr.unsubSkip errors fuel it) fun it => ItOwn o it := by
  induction fuel generalizing it with
  | zero => exact Good.fail
  | succ fuel ih =>
    refine Good.ite (fun _ => Good.ret ⟨rfl, h⟩) fun _ => ?_
    refine Good.then (good_getCell it.curr) fun c _ => ?_
    refine Good.ite (fun _ => Good.ret ⟨rfl, h⟩) fun _ => ?_
    exact Good.then (good_siterAdvance it) fun it' h' => ih (h' h)

theorem good_unsubDrop {sub : Pos → Pos → Bool} {outer fuel : Nat} {it : SIter} {oi : Option SIter} (h : ItOwn o it)
    (ho : ∀ it ∈ oi, ItOwn o it) :
    Good0 nodes o (Thr.unsubDrop sub outer fuel it oi) fun oi' => ∀ it ∈ oi', ItOwn o it := by
  induction fuel generalizing it oi with
  | zero => exact Good.fail
  | succ fuel ih =>
    refine Good.ite (fun _ => Good.ret ⟨rfl, ho⟩) fun _ => ?_
    refine Good.then (good_getCell outer) fun c _ => ?_
    refine Good.then (good_getCell it.curr) fun d _ => ?_
    refine Good.ite (fun _ => ?_) fun _ => ?_
    · refine Good.then (good_iterRemove h ho) fun r hr => ?_
      obtain ⟨it', oi'⟩ := r
      exact Good.then (good_siterAdvance it') fun it'' h' => ih (h' hr.1) hr.2
    · exact Good.then (good_siterAdvance it) fun it'' h' => ih (h' h) ho

theorem good_unsubLoop {sub : Pos → Pos → Bool} {s fuel : Nat} {oi : SIter} (hs : OwnS o s) (h : ItOwn o oi) :
    Good0 nodes o (Thr.unsubLoop sub s fuel oi) fun _ => True := by
  induction fuel generalizing oi with
  | zero => exact Good.fail
  | succ fuel ih =>
    refine Good.ite (fun _ => Good.ret ⟨rfl, trivial⟩) fun _ => ?_
    refine Good.then (good_getCell oi.curr) fun c _ => ?_
    refine Good.then (good_iterNew s oi.curr) fun it hit => ?_
    refine Good.then (good_siterAdvance it) fun it2 hit2 => ?_
    refine Good.then good_steps fun n _ => ?_
    refine Good.then (good_unsubSkip (hit2 (hit hs h.curr))) fun it3 hit3 => ?_
    refine Good.then good_steps fun n _ => ?_
    refine Good.then (good_unsubDrop hit3 (by rintro _ ⟨⟩; exact h)) fun oi' ho' => ?_
    cases oi' with
    | none => exact Good.fail
    | some oi' => exact Good.then (good_siterAdvance oi') fun oi'' h' => ih (h' (ho' oi' rfl))

theorem good_unsubsumeH {sub : Pos → Pos → Bool} {s : Nat} (hs : OwnS o s) :
    Good0 nodes o (Thr.unsubsumeH sub s) fun _ => True := by
  refine Good.then (good_siterBegin s) fun it hit => ?_
  exact Good.then good_steps fun n _ => good_unsubLoop hs (hit hs)

/-! ### Transitions -/

theorem good_newPositions {ps : List Pos} : Good nodes o (Thr.newPositions ps) fun as o' => ∀ a ∈ as, OwnP o' a := by
  induction ps generalizing o with
  | nil => exact Good.ret (by simp)
  | cons p ps ih =>
    refine Good.bind (good_newPos p) fun a o1 _ ha => ?_
    refine Good.bind ih fun as o2 ho2 has => ?_
    refine Good.ret ?_
    intro b hb
    rcases List.mem_cons.1 hb with rfl | hb
    · exact ha.mono ho2
    · exact has b hb

theorem good_transLoopH {A : Algorithm} {n : Nat} {cv : List Bool} {offset next fuel : Nat} {it : SIter} (hs : OwnS o next) :
    Good nodes o (Thr.transLoopH A n cv offset next fuel it) fun _ _ => True := by
  induction fuel generalizing o it with
  | zero => exact Good.fail
  | succ fuel ih =>
    refine Good.ite (fun _ => Good.ret trivial) fun _ => ?_
    refine Good.then (good_getCell it.curr) fun c _ => ?_
    refine Good.then Good.lift fun ps _ => ?_
    refine Good.bind good_newPositions fun as o1 ho1 has => ?_
    refine Good.then (good_mergeAllH (hs.mono ho1) has) fun _ _ => ?_
    exact Good.then (good_siterAdvance it) fun it' _ => ih (hs.mono ho1)

theorem good_stateTransH {first : Bool} {A : Algorithm} {n ql s : Nat} {cv : List Bool} :
    Good nodes o (Thr.stateTransH first A n ql s cv) fun r o' => ∀ s ∈ r, OwnS o' s := by
  refine Good.then (good_getHead s) fun h _ => ?_
  refine Good.then (good_getCell h) fun c _ => ?_
  refine Good.bind good_newState fun next o1 _ hn => ?_
  refine Good.then (good_siterBegin s) fun it _ => ?_
  refine Good.then good_steps fun f _ => ?_
  refine Good.bind (good_transLoopH hn) fun _ o2 ho2 _ => ?_
  have hn2 := hn.mono ho2
  refine Good.then (good_unsubsumeH hn2) fun _ _ => ?_
  refine Good.then (good_getHead next) fun h _ => ?_
  refine Good.ite (fun _ => ?_) fun _ => ?_
  · exact Good.then (good_stateSort hn2) fun _ _ => Good.ret (by rintro _ ⟨⟩; exact hn2)
  · exact Good.then (good_deleteState hn2) fun _ _ => Good.ret (by rintro _ ⟨⟩)

theorem good_distLoopH {A : Algorithm} {ql fuel : Nat} {it : SIter} {d : Nat} :
    Good0 nodes o (Thr.distLoopH A ql fuel it d) fun _ => True := by
  induction fuel generalizing it d with
  | zero => exact Good.fail
  | succ fuel ih =>
    refine Good.ite (fun _ => Good.ret ⟨rfl, trivial⟩) fun _ => ?_
    refine Good.then (good_getCell it.curr) fun c _ => ?_
    exact Good.then (good_siterAdvance it) fun it' _ => ih

theorem good_stateDistH {A : Algorithm} {s ql : Nat} : Good0 nodes o (Thr.stateDistH A s ql) fun _ => True :=
  Good.then (good_siterBegin s) fun _ _ => Good.then good_steps fun _ _ => good_distLoopH

theorem good_newTransducer : Good nodes o Thr.newTransducer fun s o' => OwnS o' s := by
  refine Good.bind (good_newPos _) fun a o1 _ ha => ?_
  exact good_newStateOf (by simpa using ha)

theorem good_interStr {fuel a : Nat} : Good0 nodes o (Thr.interStr fuel a) fun _ => True := by
  induction fuel generalizing a with
  | zero => exact Good.fail
  | succ fuel ih =>
    refine Good.then (good_getInter a) fun c _ => ?_
    refine Good.ite (fun _ => Good.ret ⟨rfl, trivial⟩) fun _ => ?_
    exact Good.then ih fun s _ => Good.ret ⟨rfl, trivial⟩

/-! ### Queries -/

section
variable {R : Type} {first : Bool} {A : Algorithm} {n ql : Nat} {upd : Str → Nat → R}

/-- The intersections of the query belong to the thread. -/
def QOwn (o : Owned) (Q : PQuery R) : Prop := ∀ a ∈ Q.owned, OwnI o a

theorem QOwn.mono {o' : Owned} {Q : PQuery R} (h : QOwn o Q) (ho : ∀ q, o q → o' q) : QOwn o' Q := fun a ha => (h a ha).mono ho

theorem good_ptrIter {Q : PQuery R} (h : QOwn o Q) :
    Good nodes o (Thr.ptrIter first A n ql upd Q) fun r o' => QOwn o' r.1 := by
  unfold Thr.ptrIter
  split
  · split
    · exact Good.fail
    · rename_i a rest _
      refine Good.then (good_getInter a) fun c _ => ?_
      refine Good.then (good_getHead c.state) fun hd _ => ?_
      refine Good.then (good_getCell hd) fun d _ => ?_
      exact Good.then (good_deref c.node) fun nd _ => Good.ret h
  · rename_i label target es _
    refine Good.then (good_getInter Q.cur) fun c _ => ?_
    refine Good.then Good.lift fun cv _ => ?_
    refine Good.bind good_stateTransH fun next o1 ho1 hn => ?_
    have h1 := h.mono ho1
    cases next with
    | none => exact Good.ret h1
    | some s =>
      refine Good.bind (good_newInter (hn s rfl)) fun j o2 ho2 hj => ?_
      have h2 : QOwn o2 { Q with edges := es, pending := Q.pending ++ [j], owned := Q.owned ++ [j] } := by
        intro a ha
        rcases List.mem_append.1 ha with ha | ha
        · exact (h1 a ha).mono ho2
        · rw [List.mem_singleton.1 ha]; exact hj
      refine Good.then (good_deref target) fun nd _ => ?_
      refine Good.ite (fun _ => ?_) fun _ => Good.ret h2
      refine Good.then good_stateDistH fun d _ => ?_
      refine Good.ite (fun _ => ?_) fun _ => Good.ret h2
      refine Good.then good_isteps fun f _ => ?_
      exact Good.then good_interStr fun t _ => Good.ret h2

theorem good_ptrLoop {fuel : Nat} {Q : PQuery R} (h : QOwn o Q) :
    Good nodes o (Thr.ptrLoop first A n ql upd fuel Q) fun r o' => QOwn o' r := by
  induction fuel generalizing o Q with
  | zero => exact Good.fail
  | succ fuel ih =>
    refine Good.bind (good_ptrIter h) fun r o1 _ hr => ?_
    obtain ⟨Q', stop⟩ := r
    exact Good.ite (fun _ => Good.ret hr) fun _ => Good.ite (fun _ => Good.ret hr) fun _ => ih hr

theorem good_ptrAdvance {fuel : Nat} {Q : PQuery R} (h : QOwn o Q) :
    Good nodes o (Thr.ptrAdvance first A n ql upd fuel Q) fun r o' => QOwn o' r :=
  Good.ite (fun _ => Good.ret h) fun _ => good_ptrLoop h

theorem good_ptrBegin {fuel : Nat} {dflt : R} {t : Nat} {term : Str} {n' : Nat} :
    Good nodes o (Thr.ptrBegin first A n ql upd fuel dflt t term n') fun r o' => QOwn o' r := by
  refine Good.then (good_getInter t) fun c _ => ?_
  refine Good.then (good_deref c.node) fun nd _ => ?_
  refine Good.ite (fun _ => Good.ret ?_) fun _ => good_ptrAdvance ?_
  · simp [QOwn]
  · simp [QOwn]

end

theorem good_deleteInter {a : Nat} (h : OwnI o a) : Good0 nodes o (Thr.deleteInter a) fun _ => True := by
  refine Good.ite (fun _ => Good.ret ⟨rfl, trivial⟩) fun _ => ?_
  refine Good.then (good_getInter a) fun c hc => ?_
  refine Good.then (good_deleteState (hc h)) fun _ _ => ?_
  exact good_freeInter h

theorem good_deleteInters {as : List Nat} (h : ∀ a ∈ as, OwnI o a) : Good0 nodes o (Thr.deleteInters as) fun _ => True := by
  induction as with
  | nil => exact Good.ret ⟨rfl, trivial⟩
  | cons a as ih =>
    exact Good.then (good_deleteInter (h a (by simp))) fun _ _ => ih fun b hb => h b (by simp [hb])

/-! ### Programs of a thread -/

section
variable {R : Type} {first : Bool} {upd : Str → Nat → R} {dflt : R} {root fuel : Nat}

/-- All objects but the first `nt` transducers and the first `nq` queries belong to the thread. -/
structure ObjOwn (nt nq : Nat) (o : Owned) (w : Thr.Objects R) : Prop where
  ts : ∀ t A a, nt ≤ t → w.ts[t]? = some (some (A, a)) → OwnI o a
  qs : ∀ i A Q, nq ≤ i → w.qs[i]? = some (some (A, Q)) → QOwn o Q

theorem good_lifeStep {nt nq : Nat} {op : LOp} {w : Thr.Objects R} (hop : OwnOp nt nq op) (hw : ObjOwn nt nq o w) :
    Good nodes o (Thr.lifeStep first upd dflt root fuel op w) fun w' o' => ObjOwn nt nq o' w' := by
  cases op with
  | transducer A =>
    refine Good.bind good_newTransducer fun s o1 ho1 hs => ?_
    refine Good.bind (good_newInter hs) fun t o2 ho2 ht => ?_
    refine Good.ret ⟨fun t' A' a ht' h => ?_, fun i A Q hi h => ((hw.qs i A Q hi h).mono ho1).mono ho2⟩
    rcases Nat.lt_or_ge t' w.ts.length with hlt | hge
    · rw [List.getElem?_append_left hlt] at h
      exact ((hw.ts t' A' a ht' h).mono ho1).mono ho2
    · rw [List.getElem?_append_right hge, List.getElem?_singleton] at h
      split at h
      · cases h; exact ht
      · cases h
  | start t q n =>
    unfold Thr.lifeStep
    dsimp only
    split
    · rename_i A a _
      refine Good.bind good_ptrBegin fun Q o1 ho1 hQ => ?_
      refine Good.ret ⟨fun t A a ht h => (hw.ts t A a ht h).mono ho1, fun i A' Q' hi h => ?_⟩
      rcases Nat.lt_or_ge i w.qs.length with hlt | hge
      · rw [List.getElem?_append_left hlt] at h
        exact (hw.qs i A' Q' hi h).mono ho1
      · rw [List.getElem?_append_right hge, List.getElem?_singleton] at h
        split at h
        · cases h; exact hQ
        · cases h
    · exact Good.fail
  | next i =>
    unfold Thr.lifeStep
    dsimp only
    split
    · rename_i A Q hQi
      refine Good.bind (good_ptrAdvance (hw.qs i A Q hop hQi)) fun Q1 o1 ho1 hQ => ?_
      refine Good.ret ⟨fun t A a ht h => (hw.ts t A a ht h).mono ho1, fun j A' Q' hj h => ?_⟩
      rw [List.getElem?_set] at h
      split at h
      · split at h
        · cases h; exact hQ
        · cases h
      · exact (hw.qs j A' Q' hj h).mono ho1
    · exact Good.fail
  | copy i => exact absurd hop id
  | copyTransducer i => exact absurd hop id
  | dropDictionary => exact absurd hop id
  | dropQuery i =>
    unfold Thr.lifeStep
    dsimp only
    split
    · rename_i A Q hQi
      refine Good.then (good_deleteInters (hw.qs i A Q hop hQi)) fun _ _ => ?_
      refine Good.ret ⟨hw.ts, fun j A' Q' hj h => ?_⟩
      rw [List.getElem?_set] at h
      split at h
      · split at h <;> cases h
      · exact hw.qs j A' Q' hj h
    · exact Good.fail
  | dropTransducer t =>
    unfold Thr.lifeStep
    dsimp only
    split
    · rename_i A a hta
      refine Good.then (good_deleteInter (hw.ts t A a hop hta)) fun _ _ => ?_
      refine Good.ret ⟨fun j A' a' hj h => ?_, hw.qs⟩
      rw [List.getElem?_set] at h
      split at h
      · split at h <;> cases h
      · exact hw.ts j A' a' hj h
    · exact Good.fail

theorem good_lifeRun {nt nq : Nat} {ops : List LOp} {w : Thr.Objects R} (hop : ∀ op ∈ ops, OwnOp nt nq op)
    (hw : ObjOwn nt nq o w) :
    Good nodes o (Thr.lifeRun first upd dflt root fuel ops w) fun w' o' => ObjOwn nt nq o' w' := by
  induction ops generalizing o w with
  | nil => exact Good.ret hw
  | cons op ops ih =>
    refine Good.bind (good_lifeStep (hop op (by simp)) hw) fun w' o1 _ hw' => ?_
    exact ih (fun op' h => hop op' (by simp [h])) hw'

end

end

end Lev
