import Verif.Proofs.StateHeapRun
import Verif.Model.ListProgram

/-!
A program on a state in memory does what the program on a sequence does.
-/

namespace Lev

open Spec

def adr (T : List Nat) (i : Nat) : Nat := T.getD i 0

/-- The cells of positions. -/
def cellsOf (T : List Nat) (c : Config) (l : List Nat) : Cells := l.map fun i => (adr T i, c.val i)

theorem addrs_cellsOf (T : List Nat) (c : Config) (l : List Nat) : addrs (cellsOf T c l) = l.map (adr T) := by
  simp [addrs, cellsOf]

theorem poss_cellsOf (T : List Nat) (c : Config) (l : List Nat) : poss (cellsOf T c l) = l.map c.val := by
  simp [poss, cellsOf]

/-- The memory `m`, which was `m0`, holds the configuration `c`, the positions being at the addresses `T`. -/
structure Sim (m0 : SMem) (s : Nat) (m : SMem) (T : List Nat) (c : Config) : Prop where
  finite : m.Finite
  len : T.length = c.made.length
  bound : ∀ i ∈ c.seq ++ c.loose, i < c.made.length
  nodup : ((c.seq ++ c.loose).map (adr T)).Nodup
  state : IsState m s (cellsOf T c c.seq)
  loose : ∀ i ∈ c.loose, adr T i ≠ 0 ∧ m.pos (adr T i) = some ⟨c.val i, 0⟩
  new : ∀ i ∈ c.seq ++ c.loose, m0.pos (adr T i) = none
  pos : ∀ a, a ∉ (c.seq ++ c.loose).map (adr T) → m.pos a = m0.pos a
  st : ∀ s', s' ≠ s → m.st s' = m0.st s'

theorem pointer_ok {T : List Nat} {i : Nat} (h : i < T.length) : pointer T i = .ok (adr T i) := by
  simp [pointer, adr, List.getElem?_eq_getElem h]

theorem Sim.pointer {m0 m : SMem} {s : Nat} {T : List Nat} {c : Config} (h : Sim m0 s m T c) {i : Nat}
    (hi : i ∈ c.seq ++ c.loose) : pointer T i = .ok (adr T i) := pointer_ok (by rw [h.len]; exact h.bound i hi)

/-- A position moves from outside into the sequence. -/
theorem Sim.insert {m0 m m' : SMem} {s : Nat} {T : List Nat} {c : Config} (h : Sim m0 s m T c) {i : Nat}
    (hi : i ∈ c.loose) {l : List Nat} (hl : l.Perm (i :: c.seq)) (hs : IsState m' s (cellsOf T c l)) {C : List Nat}
    (ho : Only C s m m') (hC : ∀ a ∈ C, a = adr T i ∨ a ∈ c.seq.map (adr T)) :
    Sim m0 s m' T ⟨c.made, l, c.loose.erase i⟩ := by
  have hperm : (l ++ c.loose.erase i).Perm (c.seq ++ c.loose) := by
    refine (hl.append_right _).trans ?_
    rw [List.cons_append]
    exact List.perm_middle.symm.trans ((List.perm_cons_erase hi).symm.append_left _)
  have hnd := h.nodup
  refine ⟨ho.finite h.finite, h.len, fun j hj => h.bound j (hperm.mem_iff.1 hj), ((hperm.map _).nodup_iff).2 hnd, hs,
    fun j hj => ?_, fun j hj => h.new j (hperm.mem_iff.1 hj), fun a ha => ?_, fun s' hs' => (ho.st s' hs').trans (h.st s' hs')⟩
  · obtain ⟨h1, h2⟩ := h.loose j (List.mem_of_mem_erase hj)
    refine ⟨h1, ?_⟩
    have : (l.map (adr T) ++ (c.loose.erase i).map (adr T)).Nodup := by
      rw [← List.map_append]; exact ((hperm.map _).nodup_iff).2 hnd
    rw [ho.pos _ fun hc => ?_]
    · exact h2
    · refine (List.nodup_append.1 this).2.2 (adr T j) ?_ (adr T j) (List.mem_map_of_mem hj) rfl
      rcases hC _ hc with hc | hc
      · rw [hc]; exact List.mem_map_of_mem (hl.mem_iff.2 (by simp))
      · obtain ⟨k, hk, hk'⟩ := List.mem_map.1 hc
        rw [← hk']; exact List.mem_map_of_mem (hl.mem_iff.2 (by simp [hk]))
  · have ha' : a ∉ (c.seq ++ c.loose).map (adr T) := fun hc => ha ((hperm.map _).mem_iff.2 hc)
    rw [ho.pos a fun hc => ?_, h.pos a ha']
    apply ha'
    rcases hC a hc with rfl | hc
    · exact List.mem_map_of_mem (by simp [hi])
    · rw [List.map_append]; exact List.mem_append_left _ hc

/-- A position of the sequence is deleted. -/
theorem Sim.delete {m0 m m' : SMem} {s : Nat} {T : List Nat} {c : Config} (h : Sim m0 s m T c) {i : Nat}
    {l : List Nat} (hl : c.seq.Perm (i :: l)) (hs : IsState m' s (cellsOf T c l)) {C : List Nat}
    (ho : Only C s m m') (hC : ∀ a ∈ C, a ∈ c.seq.map (adr T)) (hd : m'.pos (adr T i) = none) :
    Sim m0 s m' T ⟨c.made, l, c.loose⟩ := by
  have hperm : (c.seq ++ c.loose).Perm (i :: (l ++ c.loose)) := by
    rw [← List.cons_append]; exact hl.append_right _
  have hmem : ∀ j ∈ l ++ c.loose, j ∈ c.seq ++ c.loose := fun j hj => hperm.mem_iff.2 (by simp only [List.mem_cons]; exact .inr hj)
  have hnd : ((i :: (l ++ c.loose)).map (adr T)).Nodup := ((hperm.map _).nodup_iff).1 h.nodup
  simp only [List.map_cons, List.nodup_cons] at hnd
  refine ⟨ho.finite h.finite, h.len, fun j hj => h.bound j (hmem j hj), hnd.2, hs, fun j hj => ?_,
    fun j hj => h.new j (hmem j hj), fun a ha => ?_, fun s' hs' => (ho.st s' hs').trans (h.st s' hs')⟩
  · obtain ⟨h1, h2⟩ := h.loose j hj
    refine ⟨h1, ?_⟩
    have := h.nodup
    rw [List.map_append] at this
    rw [ho.pos _ fun hc => (List.nodup_append.1 this).2.2 _ (hC _ hc) _ (List.mem_map_of_mem hj) rfl]
    exact h2
  · by_cases hai : a = adr T i
    · rw [hai, hd, h.new i (hperm.mem_iff.2 (by simp))]
    · have ha' : a ∉ (c.seq ++ c.loose).map (adr T) := fun hc => by
        rcases List.mem_cons.1 ((hperm.map (adr T)).mem_iff.1 hc) with h' | h'
        · exact hai h'
        · exact ha h'
      rw [ho.pos a fun hc => ha' (by rw [List.map_append]; exact List.mem_append_left _ (hC a hc)), h.pos a ha']

theorem perm_map_inv {α β : Type} {f : α → β} {R L : List β} (h : R.Perm L) {l : List α} (hl : l.map f = L) :
    ∃ l' : List α, l'.Perm l ∧ l'.map f = R := by
  induction h generalizing l with
  | nil => exact ⟨l, .refl _, hl⟩
  | cons x _ ih =>
    match l, hl with
    | a :: l, hl =>
      simp only [List.map_cons, List.cons.injEq] at hl
      obtain ⟨l', h1, h2⟩ := ih hl.2
      exact ⟨a :: l', h1.cons a, by simp [hl.1, h2]⟩
  | swap x y _ =>
    match l, hl with
    | a :: b :: l, hl =>
      simp only [List.map_cons, List.cons.injEq] at hl
      exact ⟨b :: a :: l, .swap a b l, by simp [hl.1, hl.2.1, hl.2.2]⟩
  | trans _ _ ih1 ih2 =>
    obtain ⟨l1, h1, h2⟩ := ih2 hl
    obtain ⟨l2, h3, h4⟩ := ih1 h2
    exact ⟨l2, h3.trans h1, h4⟩

theorem adr_append {T : List Nat} {a i : Nat} (h : i < T.length) : adr (T ++ [a]) i = adr T i := by
  simp [adr, List.getD_eq_getElem?_getD, List.getElem?_append_left h]

theorem val_append {c : Config} {p : Pos} {i : Nat} {x y : List Nat} (h : i < c.made.length) :
    (⟨c.made ++ [p], x, y⟩ : Config).val i = c.val i := by
  simp [Config.val, List.getD_eq_getElem?_getD, List.getElem?_append_left h]

section
variable {paddr saddr : SMem → Nat} {first : Bool} {cmp : Pos → Pos → Int} {s : Nat}

theorem newPos_finite {m : SMem} (h : m.Finite) (p : Pos) : (newPos paddr p m).2.Finite := by
  obtain ⟨⟨L, hL, hm⟩, L', hL', hm'⟩ := h
  refine ⟨⟨paddr m :: L, by simp [newPos]; omega, fun a c hc => ?_⟩, L', by simp [newPos]; omega, hm'⟩
  by_cases ha : a = paddr m
  · simp [ha]
  · simp only [newPos, upd1_ne _ _ ha] at hc
    simp [hm a c hc]

theorem Sim.make (hA : SAlloc paddr saddr) {m0 m : SMem} {T : List Nat} {c : Config} (h : Sim m0 s m T c) (p : Pos) :
    Sim m0 s (newPos paddr p m).2 (T ++ [(newPos paddr p m).1]) ⟨c.made ++ [p], c.seq, c.made.length :: c.loose⟩ := by
  obtain ⟨h0, hfree⟩ := hA.pos m h.finite
  have hadr : ∀ i ∈ c.seq ++ c.loose, adr (T ++ [paddr m]) i = adr T i := fun i hi =>
    adr_append (by rw [h.len]; exact h.bound i hi)
  have hval : ∀ i ∈ c.seq ++ c.loose, (⟨c.made ++ [p], c.seq, c.made.length :: c.loose⟩ : Config).val i = c.val i :=
    fun i hi => val_append (h.bound i hi)
  have hadr' : adr (T ++ [paddr m]) c.made.length = paddr m := by simp [adr, ← h.len]
  have hval' : (⟨c.made ++ [p], c.seq, c.made.length :: c.loose⟩ : Config).val c.made.length = p := by simp [Config.val]
  have hlive : ∀ i ∈ c.seq ++ c.loose, ∃ x, m.pos (adr T i) = some x := by
    intro i hi
    rcases List.mem_append.1 hi with hi | hi
    · exact h.state.linked.alive _ (by rw [addrs_cellsOf]; exact List.mem_map_of_mem hi)
    · exact ⟨_, (h.loose i hi).2⟩
  have hne : ∀ i ∈ c.seq ++ c.loose, adr T i ≠ paddr m := by
    intro i hi he
    obtain ⟨x, hx⟩ := hlive i hi
    rw [he, hfree] at hx
    cases hx
  have hperm : (c.seq ++ c.made.length :: c.loose).Perm (c.made.length :: (c.seq ++ c.loose)) := List.perm_middle
  have hmap : (c.seq ++ c.loose).map (adr (T ++ [paddr m])) = (c.seq ++ c.loose).map (adr T) :=
    List.map_congr_left hadr
  have hcells : cellsOf (T ++ [paddr m]) ⟨c.made ++ [p], c.seq, c.made.length :: c.loose⟩ c.seq = cellsOf T c c.seq :=
    List.map_congr_left fun i hi => by
      rw [hadr i (by simp [hi]), hval i (by simp [hi])]
  have hnew : paddr m ∉ (c.seq ++ c.loose).map (adr T) := fun hc => by
    obtain ⟨i, hi, he⟩ := List.mem_map.1 hc
    exact hne i hi he
  refine ⟨newPos_finite h.finite p, by simp [h.len], fun i hi => ?_, ?_, ?_, fun i hi => ?_, fun i hi => ?_, fun a ha => ?_, h.st⟩
  · rcases List.mem_cons.1 (hperm.mem_iff.1 hi) with rfl | hi
    · simp
    · have := h.bound i hi; simp; omega
  · refine ((hperm.map _).nodup_iff).2 ?_
    simp only [newPos, List.map_cons, List.nodup_cons, hadr', hmap]
    exact ⟨hnew, h.nodup⟩
  · simp only [newPos, hcells]
    refine ⟨h.state.st, PLinked.frame h.state.linked fun a ha => upd1_ne _ _ ?_, h.state.nodup⟩
    rintro rfl
    rw [addrs_cellsOf] at ha
    exact hnew (by rw [List.map_append]; exact List.mem_append_left _ ha)
  · rcases List.mem_cons.1 hi with rfl | hi
    · simp only [newPos, hadr', hval', upd1_self]
      exact ⟨h0, trivial⟩
    · have hi' : i ∈ c.seq ++ c.loose := by simp [hi]
      simp only [newPos]
      rw [hadr i hi', hval i hi', upd1_ne _ _ (hne i hi')]
      exact h.loose i hi
  · rcases List.mem_cons.1 (hperm.mem_iff.1 hi) with rfl | hi
    · simp only [newPos, hadr']
      rw [← h.pos _ hnew]; exact hfree
    · simp only [newPos]
      rw [hadr i hi]; exact h.new i hi
  · have ha' : a ≠ paddr m ∧ a ∉ (c.seq ++ c.loose).map (adr T) := by
      simp only [newPos] at ha
      constructor
      · rintro rfl
        exact ha (List.mem_map.2 ⟨c.made.length, hperm.mem_iff.2 (by simp), hadr'⟩)
      · intro hc
        rw [← hmap] at hc
        exact ha ((hperm.map _).mem_iff.2 (by rw [List.map_cons]; exact List.mem_cons_of_mem _ hc))
    simp only [newPos, upd1_ne _ _ ha'.1]
    exact h.pos a ha'.2

theorem Sim.drop {m0 m : SMem} {T : List Nat} {c : Config} (h : Sim m0 s m T c) {i : Nat} (hi : i ∈ c.loose) :
    ∃ m', deletePos (adr T i) m = .ok m' ∧ Sim m0 s m' T ⟨c.made, c.seq, c.loose.erase i⟩ := by
  obtain ⟨h1, h2⟩ := h.loose i hi
  have hperm : (c.seq ++ c.loose).Perm (i :: (c.seq ++ c.loose.erase i)) :=
    ((List.perm_cons_erase hi).append_left _).trans List.perm_middle
  have hmem : ∀ j ∈ c.seq ++ c.loose.erase i, j ∈ c.seq ++ c.loose := fun j hj => hperm.mem_iff.2 (by simp only [List.mem_cons]; exact .inr hj)
  have hnd : ((i :: (c.seq ++ c.loose.erase i)).map (adr T)).Nodup := ((hperm.map _).nodup_iff).1 h.nodup
  simp only [List.map_cons, List.nodup_cons] at hnd
  have hne : ∀ j ∈ c.seq ++ c.loose.erase i, adr T j ≠ adr T i := fun j hj he =>
    hnd.1 (he ▸ List.mem_map_of_mem hj)
  have ho : Only [adr T i] s m (without m [adr T i]) := Only.without (by simp)
  refine ⟨_, deletePos_single h2 h1, ho.finite h.finite, h.len, fun j hj => h.bound j (hmem j hj), hnd.2, ?_,
    fun j hj => ?_, fun j hj => h.new j (hmem j hj), fun a ha => ?_, h.st⟩
  · refine ⟨h.state.st, PLinked.frame h.state.linked fun a ha => ho.pos a ?_, h.state.nodup⟩
    intro hc
    simp only [List.mem_singleton] at hc
    subst hc
    obtain ⟨j, hj, he⟩ := List.mem_map.1 (by rw [addrs_cellsOf] at ha; exact ha)
    exact hne j (by simp [hj]) he
  · obtain ⟨g1, g2⟩ := h.loose j (List.mem_of_mem_erase hj)
    refine ⟨g1, ?_⟩
    rw [ho.pos _ (by simpa using hne j (by simp [hj]))]
    exact g2
  · by_cases hai : a = adr T i
    · subst hai
      rw [h.new i (by simp [hi])]
      simp [without]
    · rw [ho.pos a (by simpa using hai)]
      refine h.pos a fun hc => ?_
      rcases List.mem_cons.1 ((hperm.map (adr T)).mem_iff.1 hc) with h' | h'
      · exact hai h'
      · exact ha h'

theorem cellsOf_append (T : List Nat) (c : Config) (a b : List Nat) : cellsOf T c (a ++ b) = cellsOf T c a ++ cellsOf T c b :=
  List.map_append

theorem cellsOf_cons (T : List Nat) (c : Config) (i : Nat) (l : List Nat) :
    cellsOf T c (i :: l) = (adr T i, c.val i) :: cellsOf T c l := rfl

/-- Every operation that respects the conventions succeeds and does what the specification says. -/
theorem map_inj_of_nodup {α β : Type} {f : α → β} {k : List α} (hk : (k.map f).Nodup) {l l' : List α}
    (hl : ∀ x ∈ l, x ∈ k) (hl' : ∀ x ∈ l', x ∈ k) (h : l.map f = l'.map f) : l = l' := by
  have hinj : ∀ x ∈ k, ∀ y ∈ k, f x = f y → x = y := by
    intro x hx y hy hxy
    obtain ⟨i, hi, rfl⟩ := List.getElem_of_mem hx
    obtain ⟨j, hj, rfl⟩ := List.getElem_of_mem hy
    have := (List.getElem_inj (xs := k.map f) (i := i) (j := j) (h₀ := by simpa using hi) (h₁ := by simpa using hj) hk).1
      (by simpa using hxy)
    subst this; rfl
  induction l generalizing l' with
  | nil => cases l' with
    | nil => rfl
    | cons y l' => simp at h
  | cons x l ih =>
    cases l' with
    | nil => simp at h
    | cons y l' =>
      simp only [List.map_cons, List.cons.injEq] at h
      rw [hinj x (hl x (by simp)) y (hl' y (by simp)) h.1,
        ih (fun z hz => hl z (by simp [hz])) (fun z hz => hl' z (by simp [hz])) h.2]

theorem Sim.step (hA : SAlloc paddr saddr) (hc : TotalPre cmp) {m0 m : SMem} {T : List Nat} {c : Config}
    (h : Sim m0 s m T c) {op : ListOp} {c1 : Config} (hop : SeqStep cmp op c c1) :
    ∃ T' m' c', listStep paddr first cmp s T m op = .ok (T', m') ∧ SeqStep cmp op c c' ∧ Sim m0 s m' T' c' := by
  have hnot : ∀ {i}, i ∈ c.loose → adr T i ∉ addrs (cellsOf T c c.seq) := by
    intro i hi hcon
    rw [addrs_cellsOf] at hcon
    have := h.nodup
    rw [List.map_append] at this
    exact (List.nodup_append.1 this).2.2 _ hcon _ (List.mem_map_of_mem hi) rfl
  cases hop with
  | make p => exact ⟨_, _, _, rfl, .make p, h.make hA p⟩
  | @drop _ i hi =>
    obtain ⟨m', e, hs⟩ := h.drop hi
    exact ⟨T, m', _, by simp only [listStep, h.pointer (i := i) (by simp [hi]), e, bind, Except.bind], .drop hi, hs⟩
  | @head _ i hi =>
    obtain ⟨h1, h2⟩ := h.loose i hi
    obtain ⟨m', e, hs, ho⟩ := stateHead_ok h.state h1 h2 (hnot hi)
    exact ⟨T, m', _, by simp only [listStep, h.pointer (i := i) (by simp [hi]), e, bind, Except.bind], .head hi,
      h.insert hi (.refl _) hs ho (by simp)⟩
  | @add _ i hi =>
    obtain ⟨h1, h2⟩ := h.loose i hi
    obtain ⟨m', e, hs, ho⟩ := stateAdd_ok h.finite h.state h1 h2 (hnot hi)
    refine ⟨T, m', _, by simp only [listStep, h.pointer (i := i) (by simp [hi]), e, bind, Except.bind], .add hi,
      h.insert hi (List.perm_append_comm (l₂ := [i])) ?_ ho fun a ha => .inr ?_⟩
    · rw [cellsOf_append]; exact hs
    · rw [addrs_cellsOf] at ha; exact ha
  | @insertLast _ i hi =>
    obtain ⟨h1, h2⟩ := h.loose i hi
    obtain ⟨m', e, hs, ho⟩ := stateAdd_ok h.finite h.state h1 h2 (hnot hi)
    refine ⟨T, m', _, ?_, .insertLast hi, h.insert hi (List.perm_append_comm (l₂ := [i])) ?_ ho fun a ha => .inr ?_⟩
    · simp [listStep, pointerOr, h.pointer (i := i) (by simp [hi]), stateInsertAfter, e, bind, Except.bind]
    · rw [cellsOf_append]; exact hs
    · rw [addrs_cellsOf] at ha; exact ha
  | @insertAfter _ i j a b hi hseq =>
    obtain ⟨h1, h2⟩ := h.loose i hi
    have hst := h.state
    have hn := hnot hi
    rw [hseq, cellsOf_append, cellsOf_cons] at hst hn
    obtain ⟨m', e, hs, ho⟩ := stateInsertAfter_ok hst h1 h2 hn
    refine ⟨T, m', _, ?_, .insertAfter hi hseq, h.insert hi ?_ ?_ ho ?_⟩
    · simp [listStep, pointerOr, h.pointer (i := i) (by simp [hi]), h.pointer (i := j) (by simp [hseq]), e, bind,
        Except.bind]
    · rw [hseq]
      refine List.Perm.trans ?_ (List.perm_middle (a := i) (l₁ := a) (l₂ := j :: b))
      exact (List.Perm.swap i j b).append_left a
    · rw [cellsOf_append, cellsOf_cons, cellsOf_cons]; exact hs
    · intro x hx
      simp only [List.mem_cons, List.not_mem_nil, or_false] at hx
      rcases hx with rfl | rfl
      · exact .inr (List.mem_map_of_mem (by simp [hseq]))
      · exact .inl rfl
  | @removeFirst _ i b hseq =>
    have hst := h.state
    rw [hseq, cellsOf_cons] at hst
    obtain ⟨m', e, hs, ho, hd⟩ := stateRemove_first (y := adr T i) hst
    refine ⟨T, m', _, ?_, .removeFirst hseq, h.delete (by rw [hseq]) hs ho ?_ hd⟩
    · simp [listStep, pointerOr, h.pointer (i := i) (by simp [hseq]), e, bind, Except.bind]
    · intro x hx
      simp only [List.mem_singleton] at hx
      subst hx
      exact List.mem_map_of_mem (by simp [hseq])
  | @remove _ i j a b hseq =>
    have hst := h.state
    rw [hseq, cellsOf_append, cellsOf_cons, cellsOf_cons] at hst
    obtain ⟨m', e, hs, ho, hd, _⟩ := stateRemove_ok hst
    refine ⟨T, m', _, ?_, .remove hseq, h.delete (i := i) ?_ ?_ ho ?_ hd⟩
    · simp [listStep, pointerOr, h.pointer (i := i) (by simp [hseq]), h.pointer (i := j) (by simp [hseq]), e, bind,
        Except.bind]
    · rw [hseq]
      refine List.Perm.trans ?_ (List.perm_middle (a := i) (l₁ := a) (l₂ := j :: b))
      exact (List.Perm.swap i j b).append_left a
    · rw [cellsOf_append, cellsOf_cons]; exact hs
    · intro x hx
      simp only [List.mem_cons, List.not_mem_nil, or_false] at hx
      rcases hx with rfl | rfl
      · exact List.mem_map_of_mem (by simp [hseq])
      · exact List.mem_map_of_mem (by simp [hseq])
  | sort =>
    obtain ⟨m', R, e, hs, hposs, hperm, ho⟩ := stateSort_ok (first := first) (cmp := cmp) h.finite h.state
    obtain ⟨l, hl, hR⟩ := perm_map_inv hperm (l := c.seq) (f := fun i => (adr T i, c.val i)) rfl
    have hR' : R = cellsOf T c l := hR.symm
    subst hR'
    have hp2 : (l ++ c.loose).Perm (c.seq ++ c.loose) := hl.append_right _
    refine ⟨T, m', ⟨c.made, l, c.loose⟩, by simp only [listStep, e, bind, Except.bind], .sort hl ?_ ?_, ho.finite h.finite, h.len,
      fun i hi => h.bound i (hp2.mem_iff.1 hi), ((hp2.map _).nodup_iff).2 h.nodup, hs, fun i hi => ?_,
      fun i hi => h.new i (hp2.mem_iff.1 hi), fun a ha => ?_, fun s' hs' => (ho.st s' hs').trans (h.st s' hs')⟩
    · have := mergeSort_sorted hc (poss (cellsOf T c c.seq))
      rw [← poss_mergeSort, ← hposs, poss_cellsOf] at this
      exact (List.pairwise_map.1 this).imp fun h => by omega
    · intro i _
      have hc' : TotalPre (cellCmp cmp) := ⟨fun x y => hc.total x.2 y.2, fun x y z => hc.trans x.2 y.2 z.2⟩
      have hf := mergeSort_filter hc' (fun x => decide (cmp (c.val i) x.2 ≤ 0) && decide (cmp x.2 (c.val i) ≤ 0))
        (fun x y hx hy => hc.trans x.2 (c.val i) y.2 (by simp at hx; omega) (by simp at hy; omega)) (cellsOf T c c.seq)
      rw [← hposs] at hf
      have hcells : ∀ k : List Nat, (cellsOf T c k).filter
          (fun x => decide (cmp (c.val i) x.2 ≤ 0) && decide (cmp x.2 (c.val i) ≤ 0)) =
            cellsOf T c (k.filter (c.tie cmp i)) := by
        intro k
        simp only [cellsOf, List.filter_map]
        rfl
      rw [hcells, hcells] at hf
      have hf' := congrArg addrs hf
      rw [addrs_cellsOf, addrs_cellsOf] at hf'
      have hnd : (c.seq.map (adr T)).Nodup := (List.nodup_append.1 (List.map_append ▸ h.nodup)).1
      exact map_inj_of_nodup hnd (fun x hx => hl.mem_iff.1 (List.mem_filter.1 hx).1) (fun x hx => (List.mem_filter.1 hx).1)
        hf'
    · obtain ⟨g1, g2⟩ := h.loose i hi
      refine ⟨g1, ?_⟩
      rw [ho.pos _ (hnot hi)]
      exact g2
    · have ha' : a ∉ (c.seq ++ c.loose).map (adr T) := fun hc => ha ((hp2.map _).mem_iff.2 hc)
      rw [ho.pos a fun hc => ha' ?_, h.pos a ha']
      rw [addrs_cellsOf] at hc
      rw [List.map_append]; exact List.mem_append_left _ hc

theorem Sim.run (hA : SAlloc paddr saddr) (hc : TotalPre cmp) {m0 m : SMem} {T : List Nat} {c : Config}
    (h : Sim m0 s m T c) {ops : List ListOp} (hops : Respects cmp ops c) :
    ∃ T' m' c', listRun paddr first cmp s ops T m = .ok (T', m') ∧ SeqSteps cmp ops c c' ∧ Sim m0 s m' T' c' := by
  induction ops generalizing T m c with
  | nil => exact ⟨T, m, c, rfl, .nil, h⟩
  | cons op ops ih =>
    obtain ⟨⟨c1, h1⟩, h2⟩ := hops
    obtain ⟨T', m', c', e, hs, hsim⟩ := h.step (first := first) hA hc h1
    obtain ⟨T2, m2, c2, e2, hs2, hsim2⟩ := ih hsim (h2 c' hs)
    exact ⟨T2, m2, c2, by simp only [listRun, e, e2, bind, Except.bind], .cons hs hs2, hsim2⟩

end

theorem traverse_ok {m : SMem} {s : Nat} {l : Cells} (hf : m.Finite) (h : IsState m s l) : traverse s m = .ok (addrs l) := by
  simp only [traverse, siterBegin_ok h, bind, Except.bind]
  exact iterCollect_ok h.linked (by have := h.length hf; unfold SMem.steps; omega)

/-! ### The constructor -/

theorem fillState_ok {m : SMem} {s : Nat} {l as : Cells} (hf : m.Finite) (h : IsState m s l)
    (ha : ∀ x ∈ as, x.1 ≠ 0 ∧ m.pos x.1 = some ⟨x.2, 0⟩) (hn : (addrs (l ++ as)).Nodup) :
    ∃ m', fillState s (addrs as) (lastOr l) m = .ok m' ∧ IsState m' s (l ++ as) ∧ Only (addrs (l ++ as)) s m m' := by
  induction as generalizing m l with
  | nil => exact ⟨m, rfl, by simpa using h, Only.refl m⟩
  | cons x as ih =>
    obtain ⟨x, p⟩ := x
    obtain ⟨hx0, hx⟩ := ha (x, p) (by simp)
    have hnd := hn
    simp only [addrs_append, addrs_cons] at hnd
    obtain ⟨n1, n2, n3⟩ := List.nodup_append.1 hnd
    have hxl : x ∉ addrs l := fun hc => n3 x hc x (by simp) rfl
    have hins : ∃ m', stateInsertAfter s (lastOr l) x m = .ok m' ∧ IsState m' s (l ++ [(x, p)]) ∧
        Only (addrs (l ++ [(x, p)])) s m m' := by
      by_cases hl : l = []
      · subst hl
        obtain ⟨m', e1, e2, e3⟩ := stateAdd_ok hf h hx0 hx hxl
        exact ⟨m', by simp [stateInsertAfter, e1], e2, e3.mono (by simp)⟩
      · obtain ⟨l, y, q, rfl⟩ := eq_append_last hl
        obtain ⟨m', e1, e2, e3⟩ := stateInsertAfter_ok (l1 := l) (x := y) (q := q) (l2 := []) h hx0 hx hxl
        exact ⟨m', by simpa using e1, by simpa using e2, e3.mono (by simp)⟩
    obtain ⟨m1, e1, e2, e3⟩ := hins
    have heq : l ++ (x, p) :: as = (l ++ [(x, p)]) ++ as := by simp
    rw [heq] at hn ⊢
    obtain ⟨m2, f1, f2, f3⟩ := ih (e3.finite hf) e2 (fun y hy => by
      obtain ⟨g1, g2⟩ := ha y (by simp [hy])
      refine ⟨g1, ?_⟩
      rw [e3.pos y.1 fun hc => ?_]
      · exact g2
      · rw [addrs_append] at hn
        exact (List.nodup_append.1 hn).2.2 y.1 hc y.1 (List.mem_map_of_mem hy) rfl) hn
    rw [lastOr_append] at f1
    refine ⟨m2, by simp only [addrs_cons, fillState, e1, f1, bind, Except.bind], f2, (e3.mono ?_).trans f3⟩
    intro a ha'
    rw [addrs_append]
    exact List.mem_append_left _ ha'

theorem buildState_ok {paddr saddr : SMem → Nat} (hA : SAlloc paddr saddr) {m : SMem} (hf : m.Finite) (ps : List Pos) :
    ∃ m' s l, buildState paddr saddr ps m = .ok (s, m') ∧ StBuilt m m' s l ∧ poss l = ps := by
  obtain ⟨m1, as, e1, e2, e3, e4, e5, e6, e7, e8⟩ := newPositions_ok hA hf ps
  have hb := newState_built hA e8
  obtain ⟨m2, f1, f2, f3⟩ := fillState_ok (l := []) hb.finite hb.isState (as := as)
    (fun x hx => by rw [hb.pos x.1 (by simp)]; exact e3 x hx) (by simpa using e4)
  refine ⟨m2, (newState saddr m1).1, as, ?_, ⟨by simpa using f2, hb.nonnull, by rw [← e7]; exact hb.fresh, e5,
    fun a ha => ?_, fun s' hs' => ?_, f3.finite hb.finite⟩, e2⟩
  · simp only [buildState, e1, newStateOf]
    rw [show newState saddr m1 = ((newState saddr m1).1, (newState saddr m1).2) from rfl]
    simp only [lastOr_nil] at f1
    simp only [f1, bind, Except.bind]
  · rw [f3.pos a (by simpa using ha), hb.pos a (by simp), e6 a ha]
  · rw [f3.st s' hs', hb.st s' hs', e7]

/-! ### Iterators -/

/-- The iterator between `pre` and `post`, at `cur`. -/
def curIter (s : Nat) (pre cur post : Cells) : SIter :=
  { state := s, next := hd post 0, curr := hd cur 0, prev := lastOr pre }

/-- The iterator `it` is the cursor `c` in the state at `s`. -/
def IterSim (m0 : SMem) (s : Nat) (it : SIter) (m : SMem) (c : Cursor) : Prop :=
  ∃ pre cur post : Cells, StBuilt m0 m s (pre ++ (cur ++ post)) ∧ poss pre = c.pre ∧ poss cur = c.cur.toList ∧
    poss post = c.post ∧ it = curIter s pre cur post

theorem IterSim.step {paddr saddr : SMem → Nat} (hA : SAlloc paddr saddr) {m0 m : SMem} {s : Nat} {it : SIter}
    {c c' : Cursor} {op : CursorOp} (h : IterSim m0 s it m c) (hop : cursorStep c op = some c') :
    ∃ it' m', iterStep paddr it m op = .ok (it', m') ∧ IterSim m0 s it' m' c' := by
  obtain ⟨pre, cur, post, hb, h1, h2, h3, rfl⟩ := h
  have hlk := hb.isState.linked
  have hlen : cur.length ≤ 1 := by
    have := congrArg List.length h2
    rw [poss_length] at this
    rw [this]; cases c.cur <;> simp
  obtain ⟨hlk1, hlk2⟩ := PLinked.append.1 hlk
  obtain ⟨hlk2, hlk3⟩ := PLinked.append.1 hlk2
  cases op with
  | next =>
    simp only [cursorStep, Option.some.injEq] at hop
    subst hop
    have hp : (if hd cur 0 ≠ 0 then hd cur 0 else lastOr pre) = lastOr (pre ++ cur) := by
      match cur, hlen, hlk2 with
      | [], _, _ => simp
      | [(x, p)], _, hx => simp [hx.1]
    cases post with
    | nil =>
      refine ⟨curIter s (pre ++ cur) [] [], m, ?_, pre ++ cur, [], [], by simpa using hb, by simp [h1, h2],
        by simp [← h3], by simp [← h3], rfl⟩
      simp [iterStep, siterAdvance, curIter, ← hp, bind, Except.bind]
      by_cases hc : hd cur 0 = 0 <;> simp [hc]
    | cons y post =>
      obtain ⟨y, q⟩ := y
      refine ⟨curIter s (pre ++ cur) [(y, q)] post, m, ?_, pre ++ cur, [(y, q)], post, by simpa using hb,
        by simp [h1, h2], by simp [← h3], by simp [← h3], rfl⟩
      have hy : m.pos y = some ⟨q, hd post 0⟩ := hlk3.2.1
      simp [iterStep, siterAdvance, curIter, ← hp, hlk3.1, getCell_ok hy, bind, Except.bind]
      by_cases hc : hd cur 0 = 0 <;> simp [hc]
  | insert p =>
    match hcur : c.cur, hop with
    | none, hop => simp [cursorStep, hcur] at hop
    | some v, hop =>
      simp only [cursorStep, hcur, Option.map_some, Option.some.injEq] at hop
      subst hop
      rw [hcur] at h2
      match cur, h2, hlen with
      | [(x, q)], h2, _ =>
        obtain ⟨h0, hfree⟩ := hA.pos m hb.finite
        have hne : ∀ a ∈ addrs (pre ++ ([(x, q)] ++ post)), a ≠ paddr m := by
          intro a ha he
          obtain ⟨cc, hcc⟩ := hlk.alive a ha
          rw [he, hfree] at hcc
          cases hcc
        have hs1 : IsState (newPos paddr p m).2 s (pre ++ (x, q) :: post) :=
          ⟨hb.isState.st, PLinked.frame hlk fun a ha => upd1_ne _ _ (hne a ha), hb.isState.nodup⟩
        have hnew : paddr m ∉ addrs (pre ++ (x, q) :: post) := fun hc => hne _ hc rfl
        obtain ⟨m', e1, e2, e3⟩ := stateInsertAfter_ok (a := paddr m) (p := p) (nx := 0) hs1 h0 (by simp [newPos]) hnew
        refine ⟨curIter s pre [(x, q)] ((paddr m, p) :: post), m', ?_, pre, [(x, q)], (paddr m, p) :: post,
          ⟨by simpa using e2, hb.nonnull, hb.fresh, ?_, ?_, ?_, e3.finite (newPos_finite hb.finite p)⟩, h1, h2,
          by simp [h3], rfl⟩
        · have hx0 : x ≠ 0 := hlk2.1
          have e1' : stateInsertAfter s x (newPos paddr p m).1 (newPos paddr p m).2 = .ok m' := e1
          simp only [iterStep, iterInsert, curIter, hd_cons, hx0, ne_eq, not_false_eq_true, if_true, e1', bind, Except.bind]
          rfl
        · intro a ha
          by_cases hap : a = paddr m
          · rw [hap, ← hb.pos _ hnew]; exact hfree
          · refine hb.new a ?_
            simp only [addrs_append, addrs_cons, List.mem_append, List.mem_cons, addrs_nil, List.not_mem_nil,
              or_false] at ha ⊢
            grind
        · intro a ha
          have ha' : a ≠ paddr m ∧ a ∉ addrs (pre ++ ([(x, q)] ++ post)) := by
            simp only [addrs_append, addrs_cons, List.mem_append, List.mem_cons, addrs_nil, List.not_mem_nil,
              or_false, not_or] at ha ⊢
            grind
          rw [e3.pos a, ← hb.pos a ha'.2]
          · exact upd1_ne _ _ ha'.1
          · have : a ≠ x := by rintro rfl; exact ha'.2 (by simp)
            simp [this, ha'.1]
        · intro s' hs'
          rw [e3.st s' hs']
          exact hb.st s' hs'
  | remove =>
    simp only [cursorStep, Option.some.injEq] at hop
    subst hop
    match cur, h2, hlen with
    | [], h2, _ =>
      exact ⟨curIter s pre [] post, m, by simp [iterStep, iterRemove, curIter, bind, Except.bind], pre, [], post, hb,
        h1, by simp, h3, rfl⟩
    | [(x, q)], h2, _ =>
      have hx0 : x ≠ 0 := hlk2.1
      have hrem : ∃ m', stateRemove s (lastOr pre) x m = .ok m' ∧ IsState m' s (pre ++ post) ∧
          Only (addrs (pre ++ (x, q) :: post)) s m m' ∧ m'.pos x = none := by
        by_cases hp : pre = []
        · subst hp
          obtain ⟨m', e1, e2, e3, e4⟩ := stateRemove_first (y := x) (x := x) (p := q) (l := post) hb.isState
          exact ⟨m', e1, e2, e3.mono (by simp), e4⟩
        · obtain ⟨pre, w, p, rfl⟩ := eq_append_last hp
          obtain ⟨m', e1, e2, e3, e4, _⟩ := stateRemove_ok (l1 := pre) (w := w) (q := p) (x := x) (p := q) (l2 := post)
            (by simpa using hb.isState)
          refine ⟨m', by simpa using e1, by simpa using e2, e3.mono ?_, e4⟩
          simp
      obtain ⟨m', e1, e2, e3, e4⟩ := hrem
      refine ⟨curIter s pre [] post, m', ?_, pre, [], post, hb.step e2 e3 ⟨?_, ?_⟩, h1, by simp, h3, rfl⟩
      · simp only [iterStep, iterRemove, curIter, hd_cons, hx0, ne_eq, not_false_eq_true, if_true, skipRemoved, e1, bind,
          Except.bind]
        rfl
      · intro a ha
        simp only [addrs_append, addrs_cons, List.mem_append, List.mem_cons] at ha ⊢
        grind
      · intro a ha hna
        have : a = x := by
          simp only [addrs_append, addrs_cons, List.mem_append, List.mem_cons, not_or] at ha hna
          grind
        rw [this]; exact e4

theorem IterSim.run {paddr saddr : SMem → Nat} (hA : SAlloc paddr saddr) {m0 m : SMem} {s : Nat} {it : SIter}
    {c c' : Cursor} {ops : List CursorOp} (h : IterSim m0 s it m c) (hops : cursorRun ops c = some c') :
    ∃ it' m', iterRun paddr ops it m = .ok (it', m') ∧ IterSim m0 s it' m' c' := by
  induction ops generalizing it m c with
  | nil =>
    simp only [cursorRun, Option.some.injEq] at hops
    subst hops
    exact ⟨it, m, rfl, h⟩
  | cons op ops ih =>
    simp only [cursorRun, Option.bind_eq_some_iff] at hops
    obtain ⟨c1, h1, h2⟩ := hops
    obtain ⟨it1, m1, e1, hs1⟩ := h.step hA h1
    obtain ⟨it2, m2, e2, hs2⟩ := ih hs1 h2
    exact ⟨it2, m2, by simp only [iterRun, e1, e2, bind, Except.bind], hs2⟩

end Lev
