import Verif.Proofs.ThreadsRun
import Verif.Proofs.Alloc
import Verif.Proofs.StateHeap

/-!
Programs of accesses in several threads: what holds of every program that succeeds when run alone, with every allocator,
and changes only objects that it has made itself.
-/

namespace Lev

/-! ### Accesses -/

section
variable {nodes : Mem} {new : Nat} {x : Access} {l l' : LMem} {r : x.Res}

theorem getCell_eq {m : SMem} {a : Nat} {c : PCell} (h : getCell m a = .ok c) : m.pos a = some c := by
  unfold getCell at h; split at h <;> simp_all

theorem getHead_eq {m : SMem} {s h : Nat} (e : getHead m s = .ok h) : m.st s = some h := by
  unfold getHead at e; split at e <;> simp_all

theorem getInter_eq {im : IMem Nat} {a : Nat} {c : ICell Nat} (e : getInter im a = .ok c) : im.cell a = some c := by
  unfold getInter at e; split at e <;> simp_all

theorem ebind_eq_ok {α β : Type} {e : Except Err α} {f : α → Except Err β} {y : β} (h : e.bind f = .ok y) :
    ∃ x, e = .ok x ∧ f x = .ok y := by
  cases e with
  | error e => cases h
  | ok x => exact ⟨x, rfl, h⟩

theorem setNext_eq {m m' : SMem} {a nx : Nat} (e : setNext a nx m = .ok m') :
    ∃ c, m.pos a = some c ∧ m' = { m with pos := upd1 m.pos a (some { c with next := nx }) } := by
  obtain ⟨c, h1, h2⟩ := ebind_eq_ok e
  cases h2
  exact ⟨c, getCell_eq h1, rfl⟩

theorem freePos_eq {m m' : SMem} {a : Nat} (e : freePos a m = .ok m') :
    ∃ c, m.pos a = some c ∧ m' = { m with pos := upd1 m.pos a none } := by
  obtain ⟨c, h1, h2⟩ := ebind_eq_ok e
  cases h2
  exact ⟨c, getCell_eq h1, rfl⟩

theorem setHead_eq {m m' : SMem} {s h : Nat} (e : setHead s h m = .ok m') :
    ∃ c, m.st s = some c ∧ m' = { m with st := upd1 m.st s (some h) } := by
  obtain ⟨c, h1, h2⟩ := ebind_eq_ok e
  cases h2
  exact ⟨c, getHead_eq h1, rfl⟩

theorem freeState_eq {m m' : SMem} {s : Nat} (e : freeState s m = .ok m') :
    ∃ c, m.st s = some c ∧ m' = { m with st := upd1 m.st s none } := by
  obtain ⟨c, h1, h2⟩ := ebind_eq_ok e
  cases h2
  exact ⟨c, getHead_eq h1, rfl⟩

/-- What a successful access did. -/
local macro "performed" h:ident : tactic => `(tactic| (
    obtain ⟨y, h1, h2⟩ := ebind_eq_ok $h
    clear $h
    cases h2
    first
      | (have h3 := getCell_eq h1; clear h1)
      | (have h3 := getHead_eq h1; clear h1)
      | (have h3 := getInter_eq h1; clear h1)
      | (obtain ⟨z, h3, e⟩ := setNext_eq h1; clear h1; subst e)
      | (obtain ⟨z, h3, e⟩ := setHead_eq h1; clear h1; subst e)
      | (obtain ⟨z, h3, e⟩ := freePos_eq h1; clear h1; subst e)
      | (obtain ⟨z, h3, e⟩ := freeState_eq h1; clear h1; subst e)
      | skip))

/-- An access has no effect elsewhere. -/
theorem perform_other (h : x.perform nodes new l = .ok (r, l')) {p : Loc} (hp : x.loc new ≠ some p) : l'.at p = l.at p := by
  cases x <;> simp only [Access.perform, bind] at h
  case newPos => cases h; cases p <;> simp_all [Access.loc, LMem.at, newPos, upd1] <;> grind
  case newState => cases h; cases p <;> simp_all [Access.loc, LMem.at, newState, upd1] <;> grind
  case newInter => cases h; cases p <;> simp_all [Access.loc, LMem.at, newInter, upd1] <;> grind
  case steps => cases h; rfl
  case isteps => cases h; rfl
  all_goals
    performed h
    cases p <;> simp [Access.loc, LMem.at, upd1] at hp ⊢ <;> grind

/-- An access to an object succeeds only if it is there. -/
theorem perform_live (h : x.perform nodes new l = .ok (r, l')) {p : Loc} (hp : x.touches = some p) : l.at p ≠ none := by
  cases x <;> simp only [Access.perform, bind] at h <;>
    simp only [Access.touches, Access.isNew, Access.loc, if_true, Bool.false_eq_true, if_false, Option.some.injEq, reduceCtorEq] at hp
  all_goals
    subst hp
    performed h
    simp_all [LMem.at]

/-- What an allocation makes is there. -/
theorem perform_new (h : x.perform nodes new l = .ok (r, l')) (hx : x.isNew = true) {p : Loc} (hp : x.loc new = some p) :
    l'.at p ≠ none := by
  cases x <;> cases hx <;> cases h <;> cases hp <;> simp [LMem.at, newPos, newState, newInter]

theorem perform_readonly (h : x.perform nodes new l = .ok (r, l')) (hn : x.isNew = false) (hw : x.writes = false) : l' = l := by
  cases x <;> simp only [Access.isNew, Access.writes, Bool.true_eq_false] at hn hw <;>
    simp only [Access.perform, bind] at h
  case steps => cases h; rfl
  case isteps => cases h; rfl
  all_goals
    performed h
    rfl

theorem perform_count (h : x.perform nodes new l = .ok (r, l')) :
    l.sm.count ≤ l'.sm.count ∧ l.im.count ≤ l'.im.count := by
  cases x <;> simp only [Access.perform, bind] at h
  case newPos => cases h; simp [newPos]
  case newState => cases h; simp [newState]
  case newInter => cases h; simp [newInter]
  case steps => cases h; simp
  case isteps => cases h; simp
  all_goals
    performed h
    simp

theorem perform_irrel (hn : x.isNew = false) (new new' : Nat) : x.perform nodes new l = x.perform nodes new' l := by
  cases x <;> first | rfl | cases hn

/-- An access does the same in two memories that agree in its place. -/
theorem perform_transfer {g : LMem} (h : x.perform nodes new l = .ok (r, l'))
    (ha : ∀ p, x.loc new = some p → g.at p = l.at p) (hc : g.sm.count = l.sm.count) (hi : g.im.count = l.im.count) :
    ∃ g', x.perform nodes new g = .ok (r, g') ∧ (∀ p, x.loc new = some p → g'.at p = l'.at p) ∧
      g'.sm.count = l'.sm.count ∧ g'.im.count = l'.im.count := by
  have inj1 : ∀ a, (g.sm.pos a).map Val.pos = (l.sm.pos a).map Val.pos → g.sm.pos a = l.sm.pos a := by
    intro a h; cases h1 : g.sm.pos a <;> cases h2 : l.sm.pos a <;> simp_all
  have inj2 : ∀ a, (g.sm.st a).map Val.st = (l.sm.st a).map Val.st → g.sm.st a = l.sm.st a := by
    intro a h; cases h1 : g.sm.st a <;> cases h2 : l.sm.st a <;> simp_all
  have inj3 : ∀ a, (g.im.cell a).map Val.inter = (l.im.cell a).map Val.inter → g.im.cell a = l.im.cell a := by
    intro a h; cases h1 : g.im.cell a <;> cases h2 : l.im.cell a <;> simp_all
  cases x
  case readPos a =>
    have e := inj1 a (ha (.pos a) rfl)
    simp only [Access.perform, bind, getCell, e] at h ⊢
    obtain ⟨y, h1, h2⟩ := ebind_eq_ok h
    rw [h1]; cases h2
    exact ⟨g, rfl, ha, hc, hi⟩
  case writeNext a nx =>
    have e := inj1 a (ha (.pos a) rfl)
    simp only [Access.perform, bind, setNext, getCell, e] at h ⊢
    obtain ⟨y, h1, h2⟩ := ebind_eq_ok h
    obtain ⟨z, h3, h4⟩ := ebind_eq_ok h1
    rw [h3]; cases h4; cases h2
    refine ⟨_, rfl, ?_, hc, hi⟩
    intro p hp; cases hp; simp [LMem.at]
  case newPos q =>
    cases h
    refine ⟨_, rfl, ?_, by simp [newPos, hc], hi⟩
    intro p hp; cases hp; simp [LMem.at, newPos]
  case freePos a =>
    have e := inj1 a (ha (.pos a) rfl)
    simp only [Access.perform, bind, freePos, getCell, e] at h ⊢
    obtain ⟨y, h1, h2⟩ := ebind_eq_ok h
    obtain ⟨z, h3, h4⟩ := ebind_eq_ok h1
    rw [h3]; cases h4; cases h2
    refine ⟨_, rfl, ?_, hc, hi⟩
    intro p hp; cases hp; simp [LMem.at]
  case readHead a =>
    have e := inj2 a (ha (.st a) rfl)
    simp only [Access.perform, bind, getHead, e] at h ⊢
    obtain ⟨y, h1, h2⟩ := ebind_eq_ok h
    rw [h1]; cases h2
    exact ⟨g, rfl, ha, hc, hi⟩
  case writeHead a hd =>
    have e := inj2 a (ha (.st a) rfl)
    simp only [Access.perform, bind, setHead, getHead, e] at h ⊢
    obtain ⟨y, h1, h2⟩ := ebind_eq_ok h
    obtain ⟨z, h3, h4⟩ := ebind_eq_ok h1
    rw [h3]; cases h4; cases h2
    refine ⟨_, rfl, ?_, hc, hi⟩
    intro p hp; cases hp; simp [LMem.at]
  case newState =>
    cases h
    refine ⟨_, rfl, ?_, by simp [newState, hc], hi⟩
    intro p hp; cases hp; simp [LMem.at, newState]
  case freeState a =>
    have e := inj2 a (ha (.st a) rfl)
    simp only [Access.perform, bind, freeState, getHead, e] at h ⊢
    obtain ⟨y, h1, h2⟩ := ebind_eq_ok h
    obtain ⟨z, h3, h4⟩ := ebind_eq_ok h1
    rw [h3]; cases h4; cases h2
    refine ⟨_, rfl, ?_, hc, hi⟩
    intro p hp; cases hp; simp [LMem.at]
  case readInter a =>
    have e := inj3 a (ha (.inter a) rfl)
    simp only [Access.perform, bind, getInter, e] at h ⊢
    obtain ⟨y, h1, h2⟩ := ebind_eq_ok h
    rw [h1]; cases h2
    exact ⟨g, rfl, ha, hc, hi⟩
  case newInter c =>
    cases h
    refine ⟨_, rfl, ?_, hc, by simp [newInter, hi]⟩
    intro p hp; cases hp; simp [LMem.at, newInter]
  case freeInter a =>
    have e := inj3 a (ha (.inter a) rfl)
    simp only [Access.perform, bind, getInter, e] at h ⊢
    obtain ⟨y, h1, h2⟩ := ebind_eq_ok h
    rw [h1]; cases h2
    refine ⟨_, rfl, ?_, hc, hi⟩
    intro p hp; cases hp; simp [LMem.at]
  case readNode a =>
    simp only [Access.perform, bind] at h ⊢
    obtain ⟨y, h1, h2⟩ := ebind_eq_ok h
    rw [h1]; cases h2
    exact ⟨g, rfl, ha, hc, hi⟩
  case steps =>
    cases h
    refine ⟨g, ?_, ha, hc, hi⟩
    simp [Access.perform, SMem.steps, hc]
  case isteps =>
    cases h
    refine ⟨g, ?_, ha, hc, hi⟩
    simp [Access.perform, IMem.steps, hi]

end

/-! ### Programs -/

/-- The program succeeds, whatever addresses it is given, and ends with `Q`. -/
def Sure {α : Type} (nodes : Mem) (Q : α → LMem → Prop) : HProg α → LMem → Prop
  | .ret x, l => Q x l
  | .fail _, _ => False
  | .act x k, l => ∀ new, x.Fresh new l → ∃ r l', x.perform nodes new l = .ok (r, l') ∧ Sure nodes Q (k r) l'

/-- Places that belong to a thread. -/
abbrev Owned := Loc → Prop

/-- What belongs to a thread after an access. -/
def Access.grow (x : Access) (new : Nat) (o : Owned) : Owned := fun p => o p ∨ (x.isNew = true ∧ x.loc new = some p)

/-- The program changes only objects that belong to it, and ends with `Q`. -/
def Keeps {α : Type} (nodes : Mem) (Q : α → LMem → Owned → Prop) : HProg α → LMem → Owned → Prop
  | .ret x, l, o => Q x l o
  | .fail _, _, _ => True
  | .act x k, l, o => ∀ new, x.Fresh new l → ∀ r l', x.perform nodes new l = .ok (r, l') →
      (∀ p, x.touches = some p → x.writes = true → o p) ∧ Keeps nodes Q (k r) l' (x.grow new o)

theorem Keeps.imp {α : Type} {nodes : Mem} {Q Q' : α → LMem → Owned → Prop} {p : HProg α} {l : LMem} {o : Owned}
    (h : Keeps nodes Q p l o) (hQ : ∀ x l o, Q x l o → Q' x l o) : Keeps nodes Q' p l o := by
  induction p generalizing l o with
  | ret x => exact hQ _ _ _ h
  | fail e => trivial
  | act x k ih => exact fun new hf r l' hp => ⟨(h new hf r l' hp).1, ih _ (h new hf r l' hp).2⟩

theorem Keeps.bind {α β : Type} {nodes : Mem} {Q : α → LMem → Owned → Prop} {Q' : β → LMem → Owned → Prop} {p : HProg α}
    {f : α → HProg β} {l : LMem} {o : Owned} (h : Keeps nodes Q p l o) (hf : ∀ x l o, Q x l o → Keeps nodes Q' (f x) l o) :
    Keeps nodes Q' (p.bind f) l o := by
  induction p generalizing l o with
  | ret x => exact hf _ _ _ h
  | fail e => trivial
  | act x k ih => exact fun new hn r l' hp => ⟨(h new hn r l' hp).1, ih _ (h new hn r l' hp).2⟩

theorem run_congr {α : Type} {nodes : Mem} {paddr saddr paddr' saddr' : SMem → Nat} {iaddr iaddr' : IMem Nat → Nat} {c ic : Nat}
    (hp : ∀ m : SMem, c ≤ m.count → paddr m = paddr' m) (hs : ∀ m : SMem, c ≤ m.count → saddr m = saddr' m)
    (hi : ∀ im : IMem Nat, ic ≤ im.count → iaddr im = iaddr' im) (p : HProg α) (l : LMem) (hc : c ≤ l.sm.count)
    (hic : ic ≤ l.im.count) : p.run nodes paddr saddr iaddr l = p.run nodes paddr' saddr' iaddr' l := by
  induction p generalizing l with
  | ret x => rfl
  | fail e => rfl
  | act x k ih =>
    have e : x.address paddr saddr iaddr l = x.address paddr' saddr' iaddr' l := by
      cases x <;> simp [Access.address, hp _ hc, hs _ hc, hi _ hic]
    rw [run_act, run_act, e]
    cases h : x.perform nodes (x.address paddr' saddr' iaddr' l) l with
    | error e => rfl
    | ok y =>
      have := perform_count h
      exact ih _ _ (by omega) (by omega)

open Classical in
/-- A program that succeeds with all allocators is sure to succeed. -/
theorem sure_of_run {α : Type} {nodes : Mem} {Q : α → LMem → Prop} {paddr0 saddr0 : SMem → Nat} {iaddr0 : IMem Nat → Nat}
    (hA0 : SAlloc paddr0 saddr0) (hI0 : IAlloc iaddr0) (p : HProg α) (l : LMem)
    (h : ∀ paddr saddr iaddr, SAlloc paddr saddr → IAlloc iaddr →
      ∃ x l', p.run nodes paddr saddr iaddr l = .ok (x, l') ∧ Q x l') : Sure nodes Q p l := by
  induction p generalizing l with
  | ret x =>
    obtain ⟨y, l', e, hQ⟩ := h _ _ _ hA0 hI0
    cases e
    exact hQ
  | fail e =>
    obtain ⟨y, l', e, hQ⟩ := h _ _ _ hA0 hI0
    cases e
  | act x k ih =>
    intro new hnew
    have key : ∀ paddr' saddr' iaddr', SAlloc paddr' saddr' → IAlloc iaddr' → ∃ r l1, x.perform nodes new l = .ok (r, l1) ∧
        ∃ y l2, (k r).run nodes paddr' saddr' iaddr' l1 = .ok (y, l2) ∧ Q y l2 := by
      intro paddr' saddr' iaddr' hA hI
      cases hx : x.isNew with
      | false =>
        obtain ⟨y, l', e, hQ⟩ := h _ _ _ hA hI
        rw [run_act, perform_irrel hx _ new] at e
        obtain ⟨z, e1, e2⟩ := ebind_eq_ok e
        exact ⟨z.1, z.2, e1, y, l', e2, hQ⟩
      | true =>
        cases x <;> simp only [Access.isNew, Bool.false_eq_true] at hx
        case newPos q =>
          have hn := hnew rfl
          have hA' : SAlloc (fun m => if m = l.sm then new else paddr' m) saddr' := by
            refine ⟨fun m hm => ?_, hA.st⟩
            split
            · subst m
              refine ⟨hn.1, ?_⟩
              simpa [LMem.at] using hn.2 (.pos new) rfl
            · exact hA.pos m hm
          obtain ⟨y, l', e, hQ⟩ := h _ _ _ hA' hI
          rw [run_act] at e
          obtain ⟨z, e1, e2⟩ := ebind_eq_ok e
          simp only [Access.address, if_true] at e1
          cases e1
          refine ⟨_, _, rfl, y, l', ?_, hQ⟩
          rw [← e2]
          refine run_congr (c := l.sm.count + 1) (ic := l.im.count) ?_ (fun _ _ => rfl) (fun _ _ => rfl) _ _ ?_ (Nat.le_refl _)
          · intro m hm
            have : m ≠ l.sm := by rintro rfl; omega
            simp [this]
          · simp [newPos]
        case newState =>
          have hn := hnew rfl
          have hA' : SAlloc paddr' (fun m => if m = l.sm then new else saddr' m) := by
            refine ⟨hA.pos, fun m hm => ?_⟩
            split
            · subst m
              refine ⟨hn.1, ?_⟩
              simpa [LMem.at] using hn.2 (.st new) rfl
            · exact hA.st m hm
          obtain ⟨y, l', e, hQ⟩ := h _ _ _ hA' hI
          rw [run_act] at e
          obtain ⟨z, e1, e2⟩ := ebind_eq_ok e
          simp only [Access.address, if_true] at e1
          cases e1
          refine ⟨_, _, rfl, y, l', ?_, hQ⟩
          rw [← e2]
          refine run_congr (c := l.sm.count + 1) (ic := l.im.count) (fun _ _ => rfl) ?_ (fun _ _ => rfl) _ _ ?_ (Nat.le_refl _)
          · intro m hm
            have : m ≠ l.sm := by rintro rfl; omega
            simp [this]
          · simp [newState]
        case newInter c =>
          have hn := hnew rfl
          have hI' : IAlloc (fun im => if im = l.im then new else iaddr' im) := by
            intro m hm
            dsimp only
            split
            · subst m
              refine ⟨hn.1, ?_⟩
              simpa [LMem.at] using hn.2 (.inter new) rfl
            · exact hI m hm
          obtain ⟨y, l', e, hQ⟩ := h _ _ _ hA hI'
          rw [run_act] at e
          obtain ⟨z, e1, e2⟩ := ebind_eq_ok e
          simp only [Access.address, if_true] at e1
          cases e1
          refine ⟨_, _, rfl, y, l', ?_, hQ⟩
          rw [← e2]
          refine run_congr (c := l.sm.count) (ic := l.im.count + 1) (fun _ _ => rfl) (fun _ _ => rfl) ?_ _ _ (Nat.le_refl _) ?_
          · intro m hm
            have : m ≠ l.im := by rintro rfl; omega
            simp [this]
          · simp [newInter]
    obtain ⟨r, l1, e, _⟩ := key _ _ _ hA0 hI0
    refine ⟨r, l1, e, ih r l1 fun paddr saddr iaddr hA hI => ?_⟩
    obtain ⟨r', l1', e', y, l2, h1, h2⟩ := key _ _ _ hA hI
    rw [e] at e'
    cases e'
    exact ⟨y, l2, h1, h2⟩

/-! ### Threads -/

/-- The memory of a system. -/
def HSys.at {α : Type} (s : HSys α) (p : Loc) : Option Val := (s.mem.view 0 0).at p

theorem view_at (g : GMem) (c ic : Nat) (p : Loc) : (g.view c ic).at p = (g.view 0 0).at p := by
  cases p <;> rfl

/-- The invariant of threads that share the objects `b`.  `l i` is the memory as thread `i` would see it if it were alone,
`o i` are the places that belong to it. -/
structure TInv {α : Type} (nodes : Mem) (b : Loc → Option Val) (Q : Nat → α → LMem → Prop) (s : HSys α) (l : Nat → LMem)
    (o : Nat → Owned) : Prop where
  count : ∀ i t, s.threads[i]? = some t → (l i).sm.count = t.count ∧ (l i).im.count = t.icount
  sure : ∀ i t, s.threads[i]? = some t → Sure nodes (Q i) t.prog (l i)
  keeps : ∀ i t, s.threads[i]? = some t → Keeps nodes (fun _ _ _ => True) t.prog (l i) (o i)
  base : ∀ i p v, i < s.threads.length → b p = some v → (l i).at p = some v ∧ ¬ o i p
  sub : ∀ i p v, i < s.threads.length → (l i).at p = some v → s.at p = some v
  own : ∀ i p, i < s.threads.length → (l i).at p ≠ none → b p ≠ none ∨ o i p
  disj : ∀ i j p, i < s.threads.length → j < s.threads.length → i ≠ j → b p = none → (l i).at p ≠ none → (l j).at p = none
  all : ∀ p, s.at p ≠ none → b p ≠ none ∨ ∃ i < s.threads.length, (l i).at p ≠ none

section
variable {α : Type} {nodes : Mem} {b : Loc → Option Val} {Q : Nat → α → LMem → Prop} {s : HSys α} {l : Nat → LMem}
  {o : Nat → Owned}

theorem TInv.step1 (h : TInv nodes b Q s l o) {i : Nat} {x : Access} {k : x.Res → HProg α} {c ic new : Nat}
    (ht : s.threads[i]? = some ⟨.act x k, c, ic⟩) (hf : x.Fresh new (s.mem.view c ic)) :
    ∃ r l1, x.perform nodes new (l i) = .ok (r, l1) ∧ Sure nodes (Q i) (k r) l1 ∧
      Keeps nodes (fun _ _ _ => True) (k r) l1 (x.grow new (o i)) ∧
      (∀ p, x.touches = some p → x.writes = true → o i p) ∧
      ∃ g, x.perform nodes new (s.mem.view c ic) = .ok (r, g) ∧ (∀ p, x.loc new = some p → g.at p = l1.at p) ∧
        g.sm.count = l1.sm.count ∧ g.im.count = l1.im.count := by
  have hi : i < s.threads.length := (List.getElem?_eq_some_iff.1 ht).1
  have hfr : x.Fresh new (l i) := by
    intro hx
    obtain ⟨h1, h2⟩ := hf hx
    refine ⟨h1, fun p hp => ?_⟩
    have := h2 p hp
    rw [view_at] at this
    cases hl : (l i).at p with
    | none => rfl
    | some v => have h3 := h.sub i p v hi hl; rw [HSys.at, this] at h3; cases h3
  obtain ⟨r, l1, e, hS⟩ := h.sure i _ ht new hfr
  obtain ⟨hw, hK⟩ := h.keeps i _ ht new hfr r l1 e
  refine ⟨r, l1, e, hS, hK, hw, ?_⟩
  have hc := h.count i _ ht
  refine perform_transfer e ?_ hc.1.symm hc.2.symm
  intro p hp
  rw [view_at]
  cases hx : x.isNew with
  | true =>
    rw [(hfr hx).2 p hp]
    have := (hf hx).2 p hp
    rwa [view_at] at this
  | false =>
    have hto : x.touches = some p := by
      cases x <;> first | exact hp | cases hx
    cases hl : (l i).at p with
    | none => exact absurd hl (perform_live e hto)
    | some v => exact h.sub i p v hi hl

theorem loc_of_touches {x : Access} {p : Loc} (h : x.touches = some p) (new : Nat) : x.loc new = some p := by
  cases x <;> first | exact h | cases h

theorem touches_of_loc {x : Access} {p : Loc} {new : Nat} (h : x.loc new = some p) (hn : x.isNew = false) :
    x.touches = some p := by
  cases x <;> first | exact h | cases hn

theorem TInv.step {s' : HSys α} (h : TInv nodes b Q s l o) (hs : HStep nodes s s') : ∃ l' o', TInv nodes b Q s' l' o' := by
  cases hs with
  | step g pre post x k c ic new r gl hf hp =>
    have hlen : ∀ t : HThread α, (pre ++ t :: post).length = (pre ++ (⟨.act x k, c, ic⟩ : HThread α) :: post).length := by simp
    have hat : (pre ++ (⟨.act x k, c, ic⟩ : HThread α) :: post)[pre.length]? = some ⟨.act x k, c, ic⟩ := by simp
    have hi : pre.length < (pre ++ (⟨.act x k, c, ic⟩ : HThread α) :: post).length := by simp
    have hother : ∀ (t t' : HThread α) j, j ≠ pre.length → (pre ++ t :: post)[j]? = (pre ++ t' :: post)[j]? := by
      intro t t' j hj
      rcases Nat.lt_or_ge j pre.length with h1 | h1
      · rw [List.getElem?_append_left h1, List.getElem?_append_left h1]
      · rw [List.getElem?_append_right h1, List.getElem?_append_right h1]
        obtain ⟨d, hd⟩ : ∃ d, j - pre.length = d + 1 := ⟨j - pre.length - 1, by omega⟩
        rw [hd]; rfl
    obtain ⟨r', l1, e1, hS, hK, hw, g', e2, hloc, hc1, hc2⟩ := h.step1 hat hf
    simp only at e2
    rw [hp] at e2
    cases e2
    -- the new memory elsewhere
    have hgo : ∀ p, x.loc new ≠ some p → gl.at p = (g.view 0 0).at p := by
      intro p hp'; rw [perform_other hp hp', view_at]
    have hlo : ∀ p, x.loc new ≠ some p → l1.at p = (l pre.length).at p := fun p hp' => perform_other e1 hp'
    have hsat : ∀ p, (HSys.at (α := α) ⟨⟨gl.sm.pos, gl.sm.st, gl.im.cell⟩, pre ++ ⟨k r, gl.sm.count, gl.im.count⟩ :: post⟩ p) =
        gl.at p := by intro p; cases p <;> rfl
    have hsat0 : ∀ p, (HSys.at (α := α) ⟨g, pre ++ ⟨.act x k, c, ic⟩ :: post⟩ p) = (g.view 0 0).at p := fun _ => rfl
    -- nobody else has the place that changes
    have hchg : ∀ p, x.loc new = some p → (x.writes = true ∨ x.isNew = true) → b p = none ∧
        ∀ j, j < (pre ++ (⟨.act x k, c, ic⟩ : HThread α) :: post).length → j ≠ pre.length → (l j).at p = none := by
      intro p hpl hx
      cases hn : x.isNew with
      | true =>
        have hgn : (g.view 0 0).at p = none := by
          have := (hf hn).2 p hpl
          rwa [view_at] at this
        have hall : ∀ j, j < (pre ++ (⟨.act x k, c, ic⟩ : HThread α) :: post).length → (l j).at p = none := by
          intro j hj
          cases hl : (l j).at p with
          | none => rfl
          | some v => have := h.sub j p v hj hl; rw [hsat0, hgn] at this; cases this
        refine ⟨?_, fun j hj _ => hall j hj⟩
        cases hb : b p with
        | none => rfl
        | some v => have := (h.base _ p v hi hb).1; rw [hall _ hi] at this; cases this
      | false =>
        have hto := touches_of_loc hpl hn
        have hwr : x.writes = true := by simpa [hn] using hx
        have hown := hw p hto hwr
        have hb : b p = none := by
          cases hb : b p with
          | none => rfl
          | some v => exact absurd hown (h.base _ p v hi hb).2
        exact ⟨hb, fun j hj hne => h.disj pre.length j p hi hj (Ne.symm hne) hb (perform_live e1 hto)⟩
    have hsame : ∀ p, x.loc new = some p → ¬ (x.writes = true ∨ x.isNew = true) → l1 = l pre.length ∧ gl = g.view c ic := by
      intro p _ hx
      simp only [not_or, Bool.not_eq_true] at hx
      exact ⟨perform_readonly e1 hx.2 hx.1, perform_readonly hp hx.2 hx.1⟩
    refine ⟨fun j => if j = pre.length then l1 else l j, fun j => if j = pre.length then x.grow new (o pre.length) else o j, ?_⟩
    constructor
    · intro j t hj
      by_cases hji : j = pre.length
      · subst hji
        simp only [List.getElem?_append_right (Nat.le_refl _), Nat.sub_self, List.getElem?_cons_zero, Option.some.injEq] at hj
        subst hj
        simp [hc1, hc2]
      · simp only [hji, if_false]
        rw [hother _ ⟨.act x k, c, ic⟩ j hji] at hj
        exact h.count j t hj
    · intro j t hj
      by_cases hji : j = pre.length
      · subst hji
        simp only [List.getElem?_append_right (Nat.le_refl _), Nat.sub_self, List.getElem?_cons_zero, Option.some.injEq] at hj
        subst hj
        simpa using hS
      · simp only [hji, if_false]
        rw [hother _ ⟨.act x k, c, ic⟩ j hji] at hj
        exact h.sure j t hj
    · intro j t hj
      by_cases hji : j = pre.length
      · subst hji
        simp only [List.getElem?_append_right (Nat.le_refl _), Nat.sub_self, List.getElem?_cons_zero, Option.some.injEq] at hj
        subst hj
        simpa using hK
      · simp only [hji, if_false]
        rw [hother _ ⟨.act x k, c, ic⟩ j hji] at hj
        exact h.keeps j t hj
    · intro j p v hj hb
      rw [hlen] at hj
      by_cases hji : j = pre.length
      · subst hji
        simp only [if_true]
        obtain ⟨h1, h2⟩ := h.base _ p v hj hb
        by_cases hpl : x.loc new = some p
        · by_cases hx : x.writes = true ∨ x.isNew = true
          · rw [(hchg p hpl hx).1] at hb; cases hb
          · obtain ⟨q1, _⟩ := hsame p hpl hx
            rw [q1]
            refine ⟨h1, ?_⟩
            rintro (h3 | h3)
            · exact h2 h3
            · exact hx (Or.inr h3.1)
        · rw [hlo p hpl]
          refine ⟨h1, ?_⟩
          rintro (h3 | h3)
          · exact h2 h3
          · exact hpl h3.2
      · simp only [hji, if_false]
        exact h.base j p v hj hb
    · intro j p v hj hl
      rw [hlen] at hj
      rw [hsat]
      by_cases hji : j = pre.length
      · simp only [hji, if_true] at hl
        by_cases hpl : x.loc new = some p
        · rw [hloc p hpl]; exact hl
        · rw [hgo p hpl, ← hsat0]
          rw [hlo p hpl] at hl
          exact h.sub _ p v hi hl
      · simp only [hji, if_false] at hl
        by_cases hpl : x.loc new = some p
        · by_cases hx : x.writes = true ∨ x.isNew = true
          · rw [(hchg p hpl hx).2 j hj hji] at hl; cases hl
          · obtain ⟨_, q2⟩ := hsame p hpl hx
            rw [q2, view_at, ← hsat0]
            exact h.sub j p v hj hl
        · rw [hgo p hpl, ← hsat0]
          exact h.sub j p v hj hl
    · intro j p hj hl
      rw [hlen] at hj
      by_cases hji : j = pre.length
      · subst hji
        simp only [if_true] at hl ⊢
        by_cases hpl : x.loc new = some p
        · cases hn : x.isNew with
          | true => exact Or.inr (Or.inr ⟨hn, hpl⟩)
          | false =>
            rcases h.own _ p hj (perform_live e1 (touches_of_loc hpl hn)) with h1 | h1
            · exact Or.inl h1
            · exact Or.inr (Or.inl h1)
        · rw [hlo p hpl] at hl
          rcases h.own _ p hj hl with h1 | h1
          · exact Or.inl h1
          · exact Or.inr (Or.inl h1)
      · simp only [hji, if_false] at hl ⊢
        exact h.own j p hj hl
    · intro j j' p hj hj' hne hb hl
      rw [hlen] at hj hj'
      by_cases hji : j = pre.length
      · subst hji
        simp only [if_true, Ne.symm hne, if_false] at hl ⊢
        by_cases hpl : x.loc new = some p
        · by_cases hx : x.writes = true ∨ x.isNew = true
          · exact (hchg p hpl hx).2 j' hj' (Ne.symm hne)
          · rw [(hsame p hpl hx).1] at hl
            exact h.disj _ j' p hj hj' hne hb hl
        · rw [hlo p hpl] at hl
          exact h.disj _ j' p hj hj' hne hb hl
      · simp only [hji, if_false] at hl
        by_cases hji' : j' = pre.length
        · subst hji'
          simp only [if_true]
          by_cases hpl : x.loc new = some p
          · by_cases hx : x.writes = true ∨ x.isNew = true
            · rw [(hchg p hpl hx).2 j hj hji] at hl
              exact absurd rfl hl
            · rw [(hsame p hpl hx).1]
              exact h.disj j _ p hj hj' hne hb hl
          · rw [hlo p hpl]
            exact h.disj j _ p hj hj' hne hb hl
        · simp only [hji', if_false]
          exact h.disj j j' p hj hj' hne hb hl
    · intro p hg
      rw [hsat] at hg
      by_cases hpl : x.loc new = some p
      · rw [hloc p hpl] at hg
        exact Or.inr ⟨pre.length, by rw [hlen]; exact hi, by simpa using hg⟩
      · rw [hgo p hpl, ← hsat0] at hg
        rcases h.all p hg with h1 | ⟨j, hj, h1⟩
        · exact Or.inl h1
        · refine Or.inr ⟨j, by rw [hlen]; exact hj, ?_⟩
          by_cases hji : j = pre.length
          · subst hji
            simp only [if_true]
            rw [hlo p hpl]; exact h1
          · simpa only [hji, if_false] using h1

theorem TInv.steps {s' : HSys α} (h : ∃ l o, TInv nodes b Q s l o) (hs : HSteps nodes s s') : ∃ l o, TInv nodes b Q s' l o := by
  induction hs with
  | refl => exact h
  | tail _ h1 ih =>
    obtain ⟨l, o, h2⟩ := ih
    exact h2.step h1

theorem TInv.no_fault (h : TInv nodes b Q s l o) : ¬ s.Fault nodes := by
  rintro ⟨t, ht, hc⟩
  obtain ⟨i, hi, rfl⟩ := List.getElem_of_mem ht
  have hi' := List.getElem?_eq_getElem hi
  rcases hc with ⟨e, he⟩ | ⟨x, k, new, e, he, hf, hp⟩
  · have := h.sure i _ hi'
    rw [he] at this
    exact this
  · generalize s.threads[i] = t at hi' he hf hp
    obtain ⟨prog, c, ic⟩ := t
    simp only at he hf hp
    subst he
    obtain ⟨r, l1, _, _, _, _, g, e2, _⟩ := h.step1 hi' hf
    rw [hp] at e2
    cases e2

/-- Some address is free. -/
theorem TInv.no_race (h : TInv nodes b Q s l o) (hfree : ∀ x : Access, ∃ new, x.Fresh new (s.mem.view 0 0)) : ¬ s.Race := by
  rintro ⟨pre, mid, post, t, t', x, k, x', k', p, hth, ht, ht', hx, hx', hw⟩
  have fresh' : ∀ (x : Access) new c ic, x.Fresh new (s.mem.view 0 0) → x.Fresh new (s.mem.view c ic) := by
    intro x new c ic hf hn
    obtain ⟨h1, h2⟩ := hf hn
    exact ⟨h1, fun p hp => by rw [view_at]; exact h2 p hp⟩
  have i1 : s.threads[pre.length]? = some t := by rw [hth]; simp
  have i2 : s.threads[pre.length + 1 + mid.length]? = some t' := by
    rw [hth]
    rw [List.getElem?_append_right (by simp; omega)]
    simp
    have : pre.length + 1 + mid.length - (pre.length + (mid.length + 1)) = 0 := by omega
    rw [this]; rfl
  obtain ⟨prog, c, ic⟩ := t
  obtain ⟨prog', c', ic'⟩ := t'
  simp only at ht ht'
  subst ht ht'
  obtain ⟨new, hf⟩ := hfree x
  obtain ⟨new', hf'⟩ := hfree x'
  obtain ⟨r, l1, e, _, _, hw1, _⟩ := h.step1 i1 (fresh' _ _ c ic hf)
  obtain ⟨r', l1', e', _, _, hw2, _⟩ := h.step1 i2 (fresh' _ _ c' ic' hf')
  have j1 := (List.getElem?_eq_some_iff.1 i1).1
  have j2 := (List.getElem?_eq_some_iff.1 i2).1
  have a1 := perform_live e hx
  have a2 := perform_live e' hx'
  have hb : b p = none := by
    cases hb : b p with
    | none => rfl
    | some v =>
      rcases hw with hw | hw
      · exact absurd (hw1 p hx hw) (h.base _ p v j1 hb).2
      · exact absurd (hw2 p hx' hw) (h.base _ p v j2 hb).2
  exact a2 (h.disj _ _ p j1 j2 (by omega) hb a1)

end

end Lev
