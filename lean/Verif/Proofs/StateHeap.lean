import Verif.Model.StateHeap
import Verif.Proofs.StateOps

/-!
The operations on states in memory implement the list operations of `Verif/Model/Transition.lean`.
-/

namespace Lev

/-- Positions with their addresses. -/
abbrev Cells := List (Nat × Pos)

def addrs (l : Cells) : List Nat := l.map (·.1)
def poss (l : Cells) : List Pos := l.map (·.2)

@[simp] theorem addrs_nil : addrs [] = [] := rfl
@[simp] theorem addrs_cons (x : Nat × Pos) (l : Cells) : addrs (x :: l) = x.1 :: addrs l := rfl
@[simp] theorem addrs_append (l l' : Cells) : addrs (l ++ l') = addrs l ++ addrs l' := List.map_append
@[simp] theorem poss_nil : poss [] = [] := rfl
@[simp] theorem poss_cons (x : Nat × Pos) (l : Cells) : poss (x :: l) = x.2 :: poss l := rfl
@[simp] theorem poss_append (l l' : Cells) : poss (l ++ l') = poss l ++ poss l' := List.map_append
@[simp] theorem addrs_length (l : Cells) : (addrs l).length = l.length := by simp [addrs]
@[simp] theorem poss_length (l : Cells) : (poss l).length = l.length := by simp [poss]

/-- The pointer to the first of `l`, or `b`. -/
def hd : Cells → Nat → Nat
  | [], b => b
  | (x, _) :: _, _ => x

@[simp] theorem hd_nil (b : Nat) : hd [] b = b := rfl
@[simp] theorem hd_cons (x : Nat × Pos) (l : Cells) (b : Nat) : hd (x :: l) b = x.1 := rfl
@[simp] theorem hd_append (l l' : Cells) (b : Nat) : hd (l ++ l') b = hd l (hd l' b) := by
  cases l <;> rfl

/-- In memory, the cells of `l` follow each other, the last one linked to `b`. -/
def PLinked (pos : Nat → Option PCell) : Cells → Nat → Prop
  | [], _ => True
  | (x, p) :: l, b => x ≠ 0 ∧ pos x = some ⟨p, hd l b⟩ ∧ PLinked pos l b

theorem PLinked.append {pos : Nat → Option PCell} {l l' : Cells} {b : Nat} :
    PLinked pos (l ++ l') b ↔ PLinked pos l (hd l' b) ∧ PLinked pos l' b := by
  induction l with
  | nil => simp [PLinked]
  | cons x l ih =>
    obtain ⟨x, p⟩ := x
    simp only [List.cons_append, PLinked, ih, hd_append]
    constructor
    · rintro ⟨h1, h2, h3, h4⟩; exact ⟨⟨h1, h2, h3⟩, h4⟩
    · rintro ⟨⟨h1, h2, h3⟩, h4⟩; exact ⟨h1, h2, h3, h4⟩

theorem PLinked.frame {pos pos' : Nat → Option PCell} {l : Cells} {b : Nat} (h : PLinked pos l b)
    (hf : ∀ a ∈ addrs l, pos' a = pos a) : PLinked pos' l b := by
  induction l with
  | nil => trivial
  | cons x l ih =>
    obtain ⟨x, p⟩ := x
    obtain ⟨h1, h2, h3⟩ := h
    exact ⟨h1, by rw [hf x (by simp)]; exact h2, ih h3 fun a ha => hf a (by simp [ha])⟩

theorem PLinked.nonnull {pos : Nat → Option PCell} {l : Cells} {b : Nat} (h : PLinked pos l b) :
    ∀ a ∈ addrs l, a ≠ 0 := by
  induction l with
  | nil => simp
  | cons x l ih =>
    obtain ⟨x, p⟩ := x
    obtain ⟨h1, h2, h3⟩ := h
    intro a ha
    rcases List.mem_cons.1 ha with rfl | ha
    · exact h1
    · exact ih h3 a ha

theorem PLinked.alive {pos : Nat → Option PCell} {l : Cells} {b : Nat} (h : PLinked pos l b) :
    ∀ a ∈ addrs l, ∃ c, pos a = some c := by
  induction l with
  | nil => simp
  | cons x l ih =>
    obtain ⟨x, p⟩ := x
    obtain ⟨h1, h2, h3⟩ := h
    intro a ha
    rcases List.mem_cons.1 ha with rfl | ha
    · exact ⟨_, h2⟩
    · exact ih h3 a ha

/-- A change of the link of the last cell. -/
theorem PLinked.relink {pos : Nat → Option PCell} {l : Cells} {x : Nat} {p : Pos} {b b' : Nat}
    (h : PLinked pos (l ++ [(x, p)]) b) (hn : (addrs (l ++ [(x, p)])).Nodup) :
    PLinked (upd1 pos x (some ⟨p, b'⟩)) (l ++ [(x, p)]) b' := by
  obtain ⟨h1, h2, h3, _⟩ := PLinked.append.1 h
  refine PLinked.append.2 ⟨?_, h2, by simp [upd1], trivial⟩
  refine PLinked.frame h1 fun a ha => ?_
  have : a ≠ x := by
    rintro rfl
    simp only [addrs_append, addrs_cons, addrs_nil] at hn
    exact (List.nodup_append.1 hn).2.2 a ha a (by simp) rfl
  simp [upd1, this]

/-- The chain from a pointer is determined by the memory. -/
theorem PLinked.unique {pos : Nat → Option PCell} {l l' : Cells} (h : PLinked pos l 0) (h' : PLinked pos l' 0)
    (he : hd l 0 = hd l' 0) : l = l' := by
  induction l generalizing l' with
  | nil =>
    cases l' with
    | nil => rfl
    | cons x l' => obtain ⟨x, p⟩ := x; exact absurd he.symm h'.1
  | cons x l ih =>
    obtain ⟨x, p⟩ := x
    cases l' with
    | nil => exact absurd he h.1
    | cons y l' =>
      obtain ⟨y, q⟩ := y
      have : x = y := he
      subst this
      have h2 := h.2.1.symm.trans h'.2.1
      simp only [Option.some.injEq, PCell.mk.injEq] at h2
      rw [h2.1, ih h.2.2 h'.2.2 h2.2]

theorem linked_length {m : SMem} {l : Cells} {b : Nat} (hf : m.Finite) (h : PLinked m.pos l b)
    (hn : (addrs l).Nodup) : l.length ≤ m.count := by
  obtain ⟨⟨L, hL, hmem⟩, _⟩ := hf
  rw [← addrs_length]
  refine Nat.le_trans (hn.length_le_of_subset fun a ha => ?_) hL
  obtain ⟨c, hc⟩ := h.alive a ha
  exact hmem a c hc

/-! ### Basic operations -/

theorem getCell_ok {m : SMem} {a : Nat} {c : PCell} (h : m.pos a = some c) : getCell m a = .ok c := by
  unfold getCell; rw [h]

theorem getHead_ok {m : SMem} {s h : Nat} (e : m.st s = some h) : getHead m s = .ok h := by
  unfold getHead; rw [e]

theorem setNext_ok {m : SMem} {a nx : Nat} {c : PCell} (h : m.pos a = some c) :
    setNext a nx m = .ok ⟨upd1 m.pos a (some ⟨c.pos, nx⟩), m.st, m.count⟩ := by
  unfold setNext; rw [getCell_ok h]; rfl

theorem setHead_ok {m : SMem} {s h h' : Nat} (e : m.st s = some h) :
    setHead s h' m = .ok ⟨m.pos, upd1 m.st s (some h'), m.count⟩ := by
  unfold setHead; rw [getHead_ok e]; rfl

@[simp] theorem upd1_self {α : Type} (f : Nat → α) (a : Nat) (v : α) : upd1 f a v a = v := by simp [upd1]
theorem upd1_ne {α : Type} (f : Nat → α) {a x : Nat} (v : α) (h : x ≠ a) : upd1 f a v x = f x := by simp [upd1, h]

theorem upd1_eq_self {α : Type} {f : Nat → α} {a : Nat} {v : α} (h : f a = v) : upd1 f a v = f := by
  funext x; unfold upd1; split
  · subst x; exact h.symm
  · rfl

/-- Memory without the cells of `l`. -/
def without (m : SMem) (l : List Nat) : SMem := ⟨fun a => if a ∈ l then none else m.pos a, m.st, m.count⟩

theorem deletePosLoop_ok {fuel : Nat} {l : Cells} {m : SMem} (h : PLinked m.pos l 0) (hn : (addrs l).Nodup)
    (hfu : l.length < fuel) : deletePosLoop fuel (hd l 0) m = .ok (without m (addrs l)) := by
  induction fuel generalizing l with
  | zero => omega
  | succ fuel ih =>
    cases l with
    | nil => simp [deletePosLoop, without]
    | cons x l =>
      obtain ⟨x, p⟩ := x
      obtain ⟨h1, h2, h3⟩ := h
      have hnd : (addrs l).Nodup := (List.nodup_cons.1 hn).2
      have := ih h3 hnd (by simp only [List.length_cons] at hfu; omega)
      have hx : (without m (addrs l)).pos x = some ⟨p, hd l 0⟩ := by
        have : x ∉ addrs l := (List.nodup_cons.1 hn).1
        simp only [without, this, if_false]
        exact h2
      simp only [deletePosLoop, hd_cons, h1, if_false, getCell_ok h2, this, freePos, getCell_ok hx, bind, Except.bind]
      congr 1
      unfold without
      congr 1
      funext a
      simp only [upd1, addrs_cons, List.mem_cons]
      split
      · simp [*]
      · simp [*]

theorem deletePos_ok {l : Cells} {m : SMem} (hf : m.Finite) (h : PLinked m.pos l 0) (hn : (addrs l).Nodup) :
    deletePos (hd l 0) m = .ok (without m (addrs l)) :=
  deletePosLoop_ok h hn (by have := linked_length hf h hn; unfold SMem.steps; omega)

theorem deletePos_single {m : SMem} {a : Nat} {p : Pos} (h : m.pos a = some ⟨p, 0⟩) (ha : a ≠ 0) :
    deletePos a m = .ok (without m [a]) := by
  have := deletePosLoop_ok (fuel := m.steps) (l := [(a, p)]) (m := m) ⟨ha, h, trivial⟩ (by simp)
    (by simp [SMem.steps])
  simpa [deletePos] using this

/-! ### Footprints -/

/-- From `m` to `m'` only the cells at `C` and the head of `s` may have changed, and nothing has become alive. -/
structure Only (C : List Nat) (s : Nat) (m m' : SMem) : Prop where
  pos : ∀ a, a ∉ C → m'.pos a = m.pos a
  alive : ∀ a c, m'.pos a = some c → ∃ c', m.pos a = some c'
  st : ∀ s', s' ≠ s → m'.st s' = m.st s'
  stAlive : m'.st s ≠ none → m.st s ≠ none
  count : m'.count = m.count

theorem Only.refl {C : List Nat} {s : Nat} (m : SMem) : Only C s m m :=
  ⟨fun _ _ => rfl, fun _ c h => ⟨c, h⟩, fun _ _ => rfl, id, rfl⟩

theorem Only.trans {C : List Nat} {s : Nat} {m m' m'' : SMem} (h : Only C s m m') (h' : Only C s m' m'') :
    Only C s m m'' :=
  ⟨fun a ha => (h'.pos a ha).trans (h.pos a ha), fun a c hc => let ⟨c', hc'⟩ := h'.alive a c hc; h.alive a c' hc',
    fun s' hs => (h'.st s' hs).trans (h.st s' hs), fun hn => h.stAlive (h'.stAlive hn), h'.count.trans h.count⟩

theorem Only.mono {C C' : List Nat} {s : Nat} {m m' : SMem} (h : Only C s m m') (hC : ∀ a ∈ C, a ∈ C') :
    Only C' s m m' :=
  ⟨fun a ha => h.pos a fun hc => ha (hC a hc), h.alive, h.st, h.stAlive, h.count⟩

theorem Only.finite {C : List Nat} {s : Nat} {m m' : SMem} (h : Only C s m m') (hf : m.Finite) : m'.Finite := by
  obtain ⟨⟨L, hL, hm⟩, L', hL', hm'⟩ := hf
  refine ⟨⟨L, by rw [h.count]; exact hL, fun a c hc => ?_⟩, L', by rw [h.count]; exact hL', fun s' h' hs => ?_⟩
  · obtain ⟨c', hc'⟩ := h.alive a c hc
    exact hm a c' hc'
  · by_cases he : s' = s
    · subst he
      cases hs' : m.st s' with
      | none => exact absurd hs' (h.stAlive (by rw [hs]; simp))
      | some x => exact hm' s' x hs'
    · rw [h.st s' he] at hs
      exact hm' s' h' hs

theorem Only.setNext {C : List Nat} {s : Nat} {m : SMem} {a : Nat} {c c' : PCell} (ha : a ∈ C) (h : m.pos a = some c) :
    Only C s m ⟨upd1 m.pos a (some c'), m.st, m.count⟩ := by
  refine ⟨fun x hx => upd1_ne _ _ (by rintro rfl; exact hx ha), fun x d hd => ?_, fun _ _ => rfl, id, rfl⟩
  by_cases hxa : x = a
  · subst hxa; exact ⟨c, h⟩
  · simp only [upd1_ne _ _ hxa] at hd; exact ⟨d, hd⟩

theorem setNext_only {C : List Nat} {s : Nat} {m m' : SMem} {a nx : Nat} (ha : a ∈ C) (h : setNext a nx m = .ok m') :
    Only C s m m' := by
  unfold Lev.setNext getCell at h
  split at h
  · rename_i c hc
    simp only [bind, Except.bind, Except.ok.injEq] at h
    rw [← h]
    exact Only.setNext ha hc
  · simp [bind, Except.bind] at h

theorem Only.setHead {C : List Nat} {s : Nat} {m : SMem} {h h' : Nat} (e : m.st s = some h) :
    Only C s m ⟨m.pos, upd1 m.st s (some h'), m.count⟩ :=
  ⟨fun _ _ => rfl, fun _ c h => ⟨c, h⟩, fun _ hs => upd1_ne _ _ hs, fun _ => by rw [e]; simp, rfl⟩

theorem Only.without {C : List Nat} {s : Nat} {m : SMem} {L : List Nat} (hL : ∀ a ∈ L, a ∈ C) :
    Only C s m (without m L) := by
  refine ⟨fun a ha => ?_, fun a c hc => ?_, fun _ _ => rfl, id, rfl⟩
  · have : a ∉ L := fun h => ha (hL a h)
    simp [Lev.without, this]
  · simp only [Lev.without] at hc
    split at hc
    · simp at hc
    · exact ⟨c, hc⟩

/-- In memory `m` the state `s` consists of the cells `l`. -/
structure IsState (m : SMem) (s : Nat) (l : Cells) : Prop where
  st : m.st s = some (hd l 0)
  linked : PLinked m.pos l 0
  nodup : (addrs l).Nodup

theorem IsState.unique {m : SMem} {s : Nat} {l l' : Cells} (h : IsState m s l) (h' : IsState m s l') : l = l' := by
  have := h.st.symm.trans h'.st
  exact h.linked.unique h'.linked (by simpa using this)

theorem IsState.length {m : SMem} {s : Nat} {l : Cells} (h : IsState m s l) (hf : m.Finite) : l.length ≤ m.count :=
  linked_length hf h.linked h.nodup

/-- A change elsewhere leaves a state as it is. -/
theorem IsState.frame {m m' : SMem} {s s' : Nat} {l : Cells} {C : List Nat} (h : IsState m s l) (ho : Only C s' m m')
    (hs : s ≠ s') (hd : ∀ a ∈ addrs l, a ∉ C) : IsState m' s l :=
  ⟨by rw [ho.st s hs]; exact h.st, PLinked.frame h.linked fun a ha => ho.pos a (hd a ha), h.nodup⟩

/-! ### `head`, `add`, `insert_after`, `remove` -/

theorem stateHead_ok {m : SMem} {s a nx : Nat} {p : Pos} {l : Cells} (h : IsState m s l) (ha : a ≠ 0)
    (hc : m.pos a = some ⟨p, nx⟩) (hn : a ∉ addrs l) :
    ∃ m', stateHead s a m = .ok m' ∧ IsState m' s ((a, p) :: l) ∧ Only [a] s m m' := by
  have e : stateHead s a m = .ok ⟨upd1 m.pos a (some ⟨p, hd l 0⟩), upd1 m.st s (some a), m.count⟩ := by
    simp only [stateHead, getHead_ok h.st, setNext_ok hc, bind, Except.bind]
    exact setHead_ok (m := ⟨_, m.st, m.count⟩) h.st
  refine ⟨_, e, ⟨by simp, ⟨ha, by simp, ?_⟩, ?_⟩, ?_⟩
  · exact PLinked.frame h.linked fun x hx => upd1_ne _ _ (by rintro rfl; exact hn hx)
  · simp only [addrs_cons, List.nodup_cons]; exact ⟨hn, h.nodup⟩
  · refine (Only.setNext (c' := ⟨p, hd l 0⟩) (by simp) hc).trans ?_
    exact Only.setHead (m := ⟨_, m.st, m.count⟩) h.st

theorem addLoop_ok {m : SMem} {l : Cells} {x : Nat} {p : Pos} {fuel : Nat} (h : PLinked m.pos (l ++ [(x, p)]) 0)
    (hfu : l.length < fuel) : addLoop m fuel (hd (l ++ [(x, p)]) 0) = .ok x := by
  induction l generalizing fuel with
  | nil =>
    cases fuel with
    | zero => simp at hfu
    | succ fuel => simp [addLoop, getCell_ok h.2.1, bind, Except.bind]
  | cons y l ih =>
    obtain ⟨y, q⟩ := y
    cases fuel with
    | zero => simp at hfu
    | succ fuel =>
      obtain ⟨h1, h2, h3⟩ := h
      have hne : hd (l ++ [(x, p)]) 0 ≠ 0 := by
        apply PLinked.nonnull h3
        cases l <;> simp
      have h2' : m.pos y = some ⟨q, hd (l ++ [(x, p)]) 0⟩ := h2
      simp only [List.cons_append, hd_cons, addLoop, getCell_ok h2', bind, Except.bind, ne_eq, hne,
        not_false_eq_true, if_true]
      exact ih h3 (by simp only [List.length_cons] at hfu; omega)

theorem eq_append_last {l : Cells} (h : l ≠ []) : ∃ l' x p, l = l' ++ [(x, p)] :=
  ⟨l.dropLast, (l.getLast h).1, (l.getLast h).2, (List.dropLast_concat_getLast h).symm⟩

theorem stateAdd_ok {m : SMem} {s a : Nat} {p : Pos} {l : Cells} (hf : m.Finite) (h : IsState m s l) (ha : a ≠ 0)
    (hc : m.pos a = some ⟨p, 0⟩) (hn : a ∉ addrs l) :
    ∃ m', stateAdd s a m = .ok m' ∧ IsState m' s (l ++ [(a, p)]) ∧ Only (addrs l) s m m' := by
  by_cases hl : l = []
  · subst hl
    have e : stateAdd s a m = .ok ⟨m.pos, upd1 m.st s (some a), m.count⟩ := by
      simp only [stateAdd, getHead_ok h.st, hd_nil, bind, Except.bind, if_true]
      exact setHead_ok h.st
    exact ⟨_, e, ⟨by simp, ⟨ha, hc, trivial⟩, by simp⟩, Only.setHead h.st⟩
  · obtain ⟨l', x, q, rfl⟩ := eq_append_last hl
    have hx : m.pos x = some ⟨q, 0⟩ := (PLinked.append.1 h.linked).2.2.1
    have hne : hd (l' ++ [(x, q)]) 0 ≠ 0 := by
      apply PLinked.nonnull h.linked
      cases l' <;> simp
    have hlen := h.length hf
    have e : stateAdd s a m = .ok ⟨upd1 m.pos x (some ⟨q, a⟩), m.st, m.count⟩ := by
      simp only [stateAdd, getHead_ok h.st, bind, Except.bind, hne, if_false]
      rw [addLoop_ok h.linked (by simp only [List.length_append] at hlen; simp [SMem.steps]; omega)]
      exact setNext_ok hx
    have hax : a ≠ x := by rintro rfl; simp at hn
    refine ⟨_, e, ⟨?_, ?_, ?_⟩, Only.setNext (by simp) hx⟩
    · simp only [h.st]; cases l' <;> rfl
    · exact PLinked.append.2 ⟨h.linked.relink h.nodup, ha, by simp [upd1, hax, hc], trivial⟩
    · rw [addrs_append]
      refine List.nodup_append.2 ⟨h.nodup, by simp, ?_⟩
      rintro x hx y hy rfl
      simp at hy
      subst hy
      exact hn hx

theorem stateInsertAfter_ok {m : SMem} {s x a nx : Nat} {p q : Pos} {l1 l2 : Cells}
    (h : IsState m s (l1 ++ (x, q) :: l2)) (ha : a ≠ 0) (hc : m.pos a = some ⟨p, nx⟩)
    (hn : a ∉ addrs (l1 ++ (x, q) :: l2)) :
    ∃ m', stateInsertAfter s x a m = .ok m' ∧ IsState m' s (l1 ++ (x, q) :: (a, p) :: l2) ∧ Only [x, a] s m m' := by
  obtain ⟨h1, hx0, hx, h2⟩ := PLinked.append.1 h.linked
  have hax : a ≠ x := by rintro rfl; simp at hn
  have hnd := h.nodup
  simp only [addrs_append, addrs_cons] at hnd hn
  obtain ⟨n1, n2, n3⟩ := List.nodup_append.1 hnd
  have e : stateInsertAfter s x a m =
      .ok ⟨upd1 (upd1 m.pos a (some ⟨p, hd l2 0⟩)) x (some ⟨q, a⟩), m.st, m.count⟩ := by
    simp only [stateInsertAfter, ne_eq, hx0, not_false_eq_true, if_true, getCell_ok hx, setNext_ok hc, bind, Except.bind]
    exact setNext_ok (m := ⟨_, m.st, m.count⟩) (c := ⟨q, hd l2 0⟩) (by simp only [upd1_ne _ _ (Ne.symm hax)]; exact hx)
  refine ⟨_, e, ⟨?_, ?_, ?_⟩, ?_⟩
  · simp only [h.st]; cases l1 <;> rfl
  · refine PLinked.append.2 ⟨?_, hx0, by simp, ha, ?_, ?_⟩
    · refine PLinked.frame h1 fun y hy => ?_
      have : y ≠ x := fun e => n3 y hy x (by simp) e
      have : y ≠ a := by rintro rfl; simp [hy] at hn
      simp [upd1, *]
    · simp [upd1, hax]
    · refine PLinked.frame h2 fun y hy => ?_
      have : y ≠ x := by rintro rfl; simp [hy] at n2
      have : y ≠ a := by rintro rfl; simp [hy] at hn
      simp [upd1, *]
  · simp only [addrs_append, addrs_cons]
    simp only [List.mem_append, List.mem_cons, not_or] at hn
    refine List.nodup_append.2 ⟨n1, ?_, ?_⟩
    · simp only [List.nodup_cons, List.mem_cons, not_or] at n2 ⊢
      exact ⟨⟨hn.2.1 ∘ Eq.symm, n2.1⟩, hn.2.2, n2.2⟩
    · intro y hy z hz
      rcases List.mem_cons.1 hz with rfl | hz
      · exact n3 y hy _ (by simp)
      rcases List.mem_cons.1 hz with rfl | hz
      · rintro rfl; exact hn.1 hy
      · exact n3 y hy z (by simp [hz])
  · refine (Only.setNext (c' := ⟨p, hd l2 0⟩) (by simp) hc).trans ?_
    exact Only.setNext (m := ⟨_, m.st, m.count⟩) (c := ⟨q, hd l2 0⟩) (by simp)
      (by simp only [upd1_ne _ _ (Ne.symm hax)]; exact hx)

/-- `remove` of a position that is not the first. -/
theorem stateRemove_ok {m : SMem} {s w x : Nat} {p q : Pos} {l1 l2 : Cells}
    (h : IsState m s (l1 ++ (w, q) :: (x, p) :: l2)) :
    ∃ m', stateRemove s w x m = .ok m' ∧ IsState m' s (l1 ++ (w, q) :: l2) ∧ Only [w, x] s m m' ∧
      m'.pos x = none ∧ m'.st = m.st := by
  obtain ⟨h1, hw0, hw, hx0, hx, h2⟩ := PLinked.append.1 h.linked
  have hnd := h.nodup
  simp only [addrs_append, addrs_cons] at hnd
  obtain ⟨n1, n2, n3⟩ := List.nodup_append.1 hnd
  have hxw : x ≠ w := by rintro rfl; simp at n2
  have e1 : setNext w (hd l2 0) m = .ok ⟨upd1 m.pos w (some ⟨q, hd l2 0⟩), m.st, m.count⟩ := setNext_ok hw
  have e2 : setNext x 0 ⟨upd1 m.pos w (some ⟨q, hd l2 0⟩), m.st, m.count⟩ =
      .ok ⟨upd1 (upd1 m.pos w (some ⟨q, hd l2 0⟩)) x (some ⟨p, 0⟩), m.st, m.count⟩ :=
    setNext_ok (m := ⟨_, m.st, m.count⟩) (c := ⟨p, hd l2 0⟩) (by simp only [upd1_ne _ _ hxw]; exact hx)
  have e3 := deletePos_single (m := ⟨upd1 (upd1 m.pos w (some ⟨q, hd l2 0⟩)) x (some ⟨p, 0⟩), m.st, m.count⟩) (a := x)
    (p := p) (by simp) hx0
  have e : stateRemove s w x m = .ok (without ⟨upd1 (upd1 m.pos w (some ⟨q, hd l2 0⟩)) x (some ⟨p, 0⟩), m.st, m.count⟩
      [x]) := by
    simp only [hd_cons] at hw
    simp only [stateRemove, ne_eq, hw0, not_false_eq_true, if_true, getCell_ok hw, getCell_ok hx, bind, Except.bind, e1,
      e2, e3]
  refine ⟨_, e, ⟨?_, ?_, ?_⟩, ?_, by simp [without], rfl⟩
  · simp only [without, h.st]; cases l1 <;> rfl
  · refine PLinked.append.2 ⟨?_, hw0, ?_, ?_⟩
    · refine PLinked.frame h1 fun y hy => ?_
      have : y ≠ w := fun e => n3 y hy w (by simp) e
      have : y ≠ x := fun e => n3 y hy x (by simp) e
      simp [without, upd1, *]
    · simp [without, upd1, Ne.symm hxw]
    · refine PLinked.frame h2 fun y hy => ?_
      have : y ≠ w := by rintro rfl; simp [hy] at n2
      have : y ≠ x := by rintro rfl; simp [hy] at n2
      simp [without, upd1, *]
  · simp only [addrs_append, addrs_cons]
    refine List.nodup_append.2 ⟨n1, ?_, ?_⟩
    · simp only [List.nodup_cons, List.mem_cons, not_or] at n2 ⊢
      exact ⟨n2.1.2, n2.2.2⟩
    · intro y hy z hz
      rcases List.mem_cons.1 hz with rfl | hz
      · exact n3 y hy _ (by simp)
      · exact n3 y hy z (by simp [hz])
  · refine ((setNext_only (by simp) e1).trans (setNext_only (by simp) e2)).trans ?_
    exact Only.without (by simp)

/-- `remove` of the first position. -/
theorem stateRemove_first {m : SMem} {s x y : Nat} {p : Pos} {l : Cells} (h : IsState m s ((x, p) :: l)) :
    ∃ m', stateRemove s 0 y m = .ok m' ∧ IsState m' s l ∧ Only [x] s m m' ∧ m'.pos x = none := by
  obtain ⟨hx0, hx, h2⟩ := h.linked
  have hnd := h.nodup
  simp only [addrs_cons, List.nodup_cons] at hnd
  have hst : m.st s = some x := h.st
  have e1 : setHead s (hd l 0) m = .ok ⟨m.pos, upd1 m.st s (some (hd l 0)), m.count⟩ := setHead_ok h.st
  have e2 : setNext x 0 ⟨m.pos, upd1 m.st s (some (hd l 0)), m.count⟩ =
      .ok ⟨upd1 m.pos x (some ⟨p, 0⟩), upd1 m.st s (some (hd l 0)), m.count⟩ :=
    setNext_ok (m := ⟨m.pos, upd1 m.st s (some (hd l 0)), m.count⟩) hx
  have e3 := deletePos_single (m := ⟨upd1 m.pos x (some ⟨p, 0⟩), upd1 m.st s (some (hd l 0)), m.count⟩) (a := x) (p := p)
    (by simp) hx0
  have e : stateRemove s 0 y m =
      .ok (without ⟨upd1 m.pos x (some ⟨p, 0⟩), upd1 m.st s (some (hd l 0)), m.count⟩ [x]) := by
    simp only [stateRemove, ne_eq, not_true_eq_false, if_false, getHead_ok hst, getCell_ok hx, bind, Except.bind, e1,
      e2, e3]
  refine ⟨_, e, ⟨by simp [without], ?_, hnd.2⟩, ?_, by simp [without]⟩
  · refine PLinked.frame h2 fun z hz => ?_
    have : z ≠ x := by rintro rfl; exact hnd.1 hz
    simp [without, upd1, *]
  · refine ((Only.setHead (h' := hd l 0) h.st).trans (setNext_only (by simp) e2)).trans ?_
    exact Only.without (by simp)

end Lev
