import Verif.Model.Copies
import Verif.Props.AnyCursor

/-!
# Property C115: copies of positions, states and intersections

(src/liblevenshtein/transducer/{position,state,intersection}.{h,cpp}).
-/

namespace Lev.Props

open Lev Spec

section
variable {paddr saddr : SMem → Nat} {m0 m : SMem} {s : Nat}

theorem deleteState_eq {l : Cells} (hf : m.Finite) (hs : IsState m s l) (h0 : s ≠ 0) :
    deleteState s m = .ok ⟨fun a => if a ∈ addrs l then none else m.pos a, upd1 m.st s none, m.count⟩ := by
  have hst : (without m (addrs l)).st s = some (hd l 0) := hs.st
  simp only [deleteState, h0, if_false, getHead_ok hs.st, deletePos_ok hf hs.linked hs.nodup, freeState, getHead_ok hst, bind,
    Except.bind]
  rfl

/-- Deleting a list with a deleted position in it. -/
theorem deletePosLoop_dead {l : Cells} {b fuel : Nat} (h : PLinked m.pos l b) (hb0 : b ≠ 0) (hb : m.pos b = none)
    (hfu : l.length < fuel) : deletePosLoop fuel (hd l b) m = .error .ub := by
  induction fuel generalizing l with
  | zero => omega
  | succ fuel ih =>
    cases l with
    | nil => simp [deletePosLoop, hb0, getCell, hb, bind, Except.bind]
    | cons x l =>
      obtain ⟨x, p⟩ := x
      have := ih h.2.2 (by simp at hfu; omega)
      simp [deletePosLoop, h.1, getCell_ok h.2.1, this, bind, Except.bind]

theorem deleteState_dead {l : Cells} {b : Nat} (hst : m.st s = some (hd l b)) (h : PLinked m.pos l b) (hb0 : b ≠ 0)
    (hb : m.pos b = none) (hfu : l.length < m.steps) (h0 : s ≠ 0) : deleteState s m = .error .ub := by
  simp only [deleteState, h0, if_false, getHead_ok hst, deletePos, deletePosLoop_dead h hb0 hb hfu, bind, Except.bind]

theorem finite_count {m' : SMem} (h : m.Finite) (hp : ∀ a, m.pos a = none → m'.pos a = none)
    (hs : ∀ a, m.st a = none → m'.st a = none) (hc : m.count ≤ m'.count) : m'.Finite := by
  obtain ⟨⟨L, hL, h1⟩, L', hL', h2⟩ := h
  refine ⟨⟨L, by omega, fun a c e => ?_⟩, L', by omega, fun a c e => ?_⟩
  · cases h : m.pos a with
    | none => rw [hp a h] at e; cases e
    | some c => exact h1 a c h
  · cases h : m.st a with
    | none => rw [hs a h] at e; cases e
    | some c => exact h2 a c h

/-- Two states with one list: if it is not empty, to delete both is undefined behaviour. -/
theorem two_heads {l : Cells} {s' : Nat} (hf : m.Finite) (hs : IsState m s l) (hs' : m.st s' = some (hd l 0)) (h0 : s ≠ 0) (h0' : s' ≠ 0)
    (hne : s' ≠ s) :
    ∃ m', deleteState s m = .ok m' ∧ (∀ a, a ∈ addrs l → m'.pos a = none) ∧ (l ≠ [] → deleteState s' m' = .error .ub ∧ traverse s' m' = .error .ub) ∧
      (l = [] → ∃ m'', deleteState s' m' = .ok m'' ∧ m''.pos = m.pos ∧ m''.st = upd1 (upd1 m.st s none) s' none) := by
  refine ⟨_, deleteState_eq hf hs h0, fun a ha => by simp [ha], fun hl => ?_, fun hl => ?_⟩
  · obtain ⟨⟨x, p⟩, l, rfl⟩ := List.exists_cons_of_ne_nil hl
    have hx0 : x ≠ 0 := hs.linked.1
    refine ⟨deleteState_dead (l := []) (b := x) (by simp [upd1_ne _ _ hne, hs']) trivial hx0 (by simp)
      (by simp [SMem.steps]) h0', ?_⟩
    simp [traverse, siterBegin, getHead, upd1_ne _ _ hne, hs', iterNew, hx0, getCell, bind, Except.bind]
  · subst hl
    refine ⟨_, deleteState_eq (l := []) (finite_count hf (by simp) (fun a ha => ?_) (Nat.le_refl _))
      ⟨by simp [upd1_ne _ _ hne, hs'], trivial, by simp⟩ h0', by simp, rfl⟩
    by_cases he : a = s
    · simp [he]
    · simp [upd1_ne _ _ he, ha]

theorem copyState_ok (hA : SAlloc paddr saddr) {l : Cells} (hb : StBuilt m0 m s l) :
    ∃ s' m', copyState saddr s m = .ok (s', m') ∧ s' ≠ 0 ∧ s' ≠ s ∧ m.st s' = none ∧ m'.Finite ∧ m'.pos = m.pos ∧
      m'.st = upd1 m.st s' (some (hd l 0)) ∧ IsState m' s l ∧ IsState m' s' l := by
  obtain ⟨h0, hfree⟩ := hA.st m hb.finite
  have hne : saddr m ≠ s := fun h => by rw [h, hb.isState.st] at hfree; cases hfree
  refine ⟨saddr m, ⟨m.pos, upd1 m.st (saddr m) (some (hd l 0)), m.count + 1⟩,
    by simp only [copyState, getHead_ok hb.isState.st, bind, Except.bind], h0, hne, hfree, ?_, rfl, rfl,
    ⟨by simp [upd1_ne _ _ (Ne.symm hne), hb.isState.st], hb.isState.linked, hb.isState.nodup⟩,
    ⟨by simp, hb.isState.linked, hb.isState.nodup⟩⟩
  obtain ⟨⟨L, hL, h1⟩, L', hL', h2⟩ := hb.finite
  refine ⟨⟨L, by simp; omega, h1⟩, saddr m :: L', by simp; omega, fun a c e => ?_⟩
  by_cases he : a = saddr m
  · simp [he]
  · simp only [upd1_ne _ _ he] at e
    exact List.mem_cons_of_mem _ (h2 a c e)

/-- C115: a copy of a state shows the same positions.  Destroying one of them and then using or destroying the other is
undefined behaviour unless the state is empty. -/
theorem c115_copied_state (hA : SAlloc paddr saddr) (hm : m.Finite) (ps : List Pos) :
    ∃ s m1 s' m2, buildState paddr saddr ps m = .ok (s, m1) ∧ copyState saddr s m1 = .ok (s', m2) ∧ s' ≠ s ∧
      (∃ as, traverse s m2 = .ok as ∧ traverse s' m2 = .ok as ∧ as.map (fun a => (m2.pos a).map PCell.pos) = ps.map some) ∧
      ∀ a b, [a, b].Perm [s, s'] → ∃ m3, deleteState a m2 = .ok m3 ∧ (ps ≠ [] → deleteState b m3 = .error .ub ∧ traverse b m3 = .error .ub) ∧
        (ps = [] → ∃ m4, deleteState b m3 = .ok m4 ∧ m4.pos = m.pos ∧ m4.st = m.st) := by
  obtain ⟨m1, s, l, e, hb, rfl⟩ := buildState_ok hA hm ps
  obtain ⟨s', m2, e2, h0, hne, hfree, hf, hpos, hst, hs, hs'⟩ := copyState_ok hA hb
  refine ⟨s, m1, s', m2, e, e2, hne, ⟨addrs l, traverse_ok hf hs, traverse_ok hf hs', linked_values hs.linked⟩, ?_⟩
  have hl : poss l ≠ [] → l ≠ [] := fun h h' => h (by rw [h']; rfl)
  have hl' : poss l = [] → l = [] := fun h => by cases l with | nil => rfl | cons x l => simp at h
  have hback : ∀ {f : Nat → Option Nat}, (∀ x, x ≠ s → x ≠ s' → f x = m2.st x) → f s = none → f s' = none → f = m.st := by
    intro f h1 h2 h3
    funext x
    by_cases hx : x = s
    · rw [hx, h2, hb.fresh]
    by_cases hx' : x = s'
    · rw [hx', h3, ← hb.st s' hne, hfree]
    rw [h1 x hx hx', hst, upd1_ne _ _ hx', hb.st x hx]
  have hpb : poss l = [] → m2.pos = m.pos := fun h => by
    rw [hpos]; funext a
    exact hb.pos a (by rw [hl' h]; simp)
  intro a b hab
  have hcase : (a = s ∧ b = s') ∨ (a = s' ∧ b = s) := by
    have ha : a ∈ [s, s'] := hab.mem_iff.1 (by simp)
    have hb : b ∈ [s, s'] := hab.mem_iff.1 (by simp)
    have hnd : a ≠ b := by
      have : [a, b].Nodup := hab.nodup_iff.2 (by simp [Ne.symm hne])
      simpa using this
    simp only [List.mem_cons, List.not_mem_nil, or_false] at ha hb
    rcases ha with rfl | rfl <;> rcases hb with rfl | rfl <;> simp_all
  rcases hcase with ⟨rfl, rfl⟩ | ⟨rfl, rfl⟩
  · obtain ⟨m3, f1, _, f2, f3⟩ := two_heads hf hs hs'.st hb.nonnull h0 hne
    refine ⟨m3, f1, fun h => f2 (hl h), fun h => ?_⟩
    obtain ⟨m4, g1, g2, g3⟩ := f3 (hl' h)
    exact ⟨m4, g1, by rw [g2, hpb h], hback (fun x h1 h2 => by rw [g3, upd1_ne _ _ h2, upd1_ne _ _ h1])
      (by rw [g3, upd1_ne _ _ (Ne.symm hne)]; simp) (by rw [g3]; simp)⟩
  · obtain ⟨m3, f1, _, f2, f3⟩ := two_heads hf hs' hs.st h0 hb.nonnull (Ne.symm hne)
    refine ⟨m3, f1, fun h => f2 (hl h), fun h => ?_⟩
    obtain ⟨m4, g1, g2, g3⟩ := f3 (hl' h)
    exact ⟨m4, g1, by rw [g2, hpb h], hback (fun x h1 h2 => by rw [g3, upd1_ne _ _ h1, upd1_ne _ _ h2])
      (by rw [g3]; simp) (by rw [g3, upd1_ne _ _ hne]; simp)⟩

/-- C115: assigning a state to another loses the positions of the latter; to destroy one of them and then use or destroy the other is
undefined behaviour unless the assigned state is empty. -/
theorem c115_assigned_state (hA : SAlloc paddr saddr) (hm : m.Finite) (ps qs : List Pos) :
    ∃ s m1 t m2 as m3 m4, buildState paddr saddr ps m = .ok (s, m1) ∧ buildState paddr saddr qs m1 = .ok (t, m2) ∧
      traverse t m2 = .ok as ∧ as.length = qs.length ∧ assignState t s m2 = .ok m3 ∧ deleteState s m3 = .ok m4 ∧
      (∀ a ∈ as, m.pos a = none ∧ m4.pos a ≠ none) ∧ (ps ≠ [] → deleteState t m4 = .error .ub ∧ traverse t m4 = .error .ub) ∧
      (ps = [] → ∃ m5, deleteState t m4 = .ok m5 ∧ m5.st = m.st ∧ m5.pos = m4.pos) := by
  obtain ⟨m1, s, l, e, hb, rfl⟩ := buildState_ok hA hm ps
  obtain ⟨m2, t, k, e2, hb2, rfl⟩ := buildState_ok hA hb.finite qs
  have hl : poss l ≠ [] → l ≠ [] := fun h h' => h (by rw [h']; rfl)
  have hl' : poss l = [] → l = [] := fun h => by cases l with | nil => rfl | cons x l => simp at h
  have hs2 : IsState m2 s l := hb2.keep hb.isState
  have hne : t ≠ s := fun h => by have := hb2.fresh; rw [h, hb.isState.st] at this; cases this
  have hs3 : IsState ⟨m2.pos, upd1 m2.st t (some (hd l 0)), m2.count⟩ s l :=
    ⟨by simp [upd1_ne _ _ (Ne.symm hne), hs2.st], hs2.linked, hs2.nodup⟩
  have hf3 : SMem.Finite ⟨m2.pos, upd1 m2.st t (some (hd l 0)), m2.count⟩ :=
    finite_count hb2.finite (fun _ h => h) (fun a ha => by
      have : a ≠ t := fun h => by rw [h, hb2.isState.st] at ha; cases ha
      simp [upd1_ne _ _ this, ha]) (Nat.le_refl _)
  have hdis : ∀ a ∈ addrs k, a ∉ addrs l := fun a ha hc => by
    have h1 := hb2.new a ha
    obtain ⟨c, hc⟩ := hb.isState.linked.alive a hc
    rw [h1] at hc; cases hc
  obtain ⟨m4, f1, f0, f2, f3⟩ := two_heads hf3 hs3 (s' := t) (by simp) hb.nonnull hb2.nonnull hne
  have f1' := f1
  rw [deleteState_eq hf3 hs3 hb.nonnull, Except.ok.injEq] at f1'
  refine ⟨s, m1, t, m2, addrs k, _, m4, e, e2, traverse_ok hb2.finite hb2.isState, by simp,
    by simp only [assignState, getHead_ok hs2.st, setHead_ok hb2.isState.st, bind, Except.bind], f1, fun a ha => ?_,
    fun h => f2 (hl h), fun h => ?_⟩
  · refine ⟨?_, ?_⟩
    · rw [← hb.pos a (hdis a ha)]; exact hb2.new a ha
    · rw [← f1']
      obtain ⟨c, hc⟩ := hb2.isState.linked.alive a ha
      simp [hdis a ha, hc]
  · obtain ⟨m5, g1, g2, g3⟩ := f3 (hl' h)
    refine ⟨m5, g1, ?_, ?_⟩
    · rw [g3]
      funext x
      by_cases hx : x = t
      · rw [hx, upd1_self, ← hb.st t hne]; exact hb2.fresh.symm
      · rw [upd1_ne _ _ hx]
        by_cases hx' : x = s
        · rw [hx', upd1_self, hb.fresh]
        · rw [upd1_ne _ _ hx']
          simp only [upd1_ne _ _ hx]
          rw [hb2.st x hx, hb.st x hx']
    · rw [g2, ← f1']
      funext a
      simp [hl' h]

/-- C115: assigning a state to itself is harmless. -/
theorem c115_self_assigned (hA : SAlloc paddr saddr) (hm : m.Finite) (ps : List Pos) :
    ∃ s m1 m2, buildState paddr saddr ps m = .ok (s, m1) ∧ assignState s s m1 = .ok m2 ∧ m2.pos = m1.pos ∧ m2.st = m1.st := by
  obtain ⟨m1, s, l, e, hb, rfl⟩ := buildState_ok hA hm ps
  refine ⟨s, m1, ⟨m1.pos, upd1 m1.st s (some (hd l 0)), m1.count⟩, e,
    by simp only [assignState, getHead_ok hb.isState.st, setHead_ok hb.isState.st, bind, Except.bind], rfl, ?_⟩
  funext x
  by_cases hx : x = s
  · simp [hx, hb.isState.st]
  · simp [upd1_ne _ _ hx]

/-- C115: a copy of a position of a state owns what follows the position.  Destroying the copy and the state, in either order, is
undefined behaviour unless it is a copy of the last position. -/
theorem c115_copied_position (hA : SAlloc paddr saddr) (hm : m.Finite) (ps qs : List Pos) (p : Pos) :
    ∃ s m1 as a b m2, buildState paddr saddr (ps ++ p :: qs) m = .ok (s, m1) ∧ traverse s m1 = .ok as ∧ as[ps.length]? = some a ∧
      copyPos paddr a m1 = .ok (b, m2) ∧ b ∉ as ∧ m2.pos b = m2.pos a ∧
      (∃ m3, deletePos b m2 = .ok m3 ∧ (qs ≠ [] → deleteState s m3 = .error .ub) ∧
        (qs = [] → ∃ m4, deleteState s m3 = .ok m4 ∧ m4.pos = m.pos ∧ m4.st = m.st)) ∧
      ∃ m3, deleteState s m2 = .ok m3 ∧ (qs ≠ [] → deletePos b m3 = .error .ub) ∧
        (qs = [] → ∃ m4, deletePos b m3 = .ok m4 ∧ m4.pos = m.pos ∧ m4.st = m.st) := by
  obtain ⟨m1, s, l, e, hb, hl⟩ := buildState_ok hA hm (ps ++ p :: qs)
  obtain ⟨pre, r, rfl, h1, h2⟩ := List.map_eq_append_iff.1 hl
  obtain ⟨⟨x, q⟩, post, rfl, rfl, h3⟩ := List.map_eq_cons_iff.1 h2
  obtain ⟨h0, hfree⟩ := hA.pos m1 hb.finite
  obtain ⟨hl1, hx0, hx, hl2⟩ := PLinked.append.1 hb.isState.linked
  have hnb : paddr m1 ∉ addrs (pre ++ (x, q) :: post) := fun hc => by
    obtain ⟨c, hc⟩ := hb.isState.linked.alive _ hc
    rw [hfree] at hc; cases hc
  have hmb : m.pos (paddr m1) = none := by rw [← hb.pos _ hnb]; exact hfree
  have hnd := hb.isState.nodup
  simp only [addrs_append, addrs_cons, List.mem_append, List.mem_cons, not_or] at hnb hnd
  obtain ⟨hnd1, hnd2, hnd3⟩ := List.nodup_append.1 hnd
  have hxp : x ∉ addrs post := (List.nodup_cons.1 hnd2).1
  have hpq : qs ≠ [] → post ≠ [] := fun h h' => h (by rw [← h3, h']; rfl)
  have hpq' : qs = [] → post = [] := fun h => by rw [h] at h3; simpa using h3
  let m2 : SMem := ⟨upd1 m1.pos (paddr m1) (some ⟨q, hd post 0⟩), m1.st, m1.count + 1⟩
  have hsame : ∀ a, a ≠ paddr m1 → m2.pos a = m1.pos a := fun a ha => upd1_ne _ _ ha
  have hne : ∀ a ∈ addrs (pre ++ (x, q) :: post), a ≠ paddr m1 := fun a ha he => by
    rw [he, addrs_append, addrs_cons] at ha
    simp only [List.mem_append, List.mem_cons] at ha
    rcases ha with ha | ha | ha
    · exact hnb.1 ha
    · exact hnb.2.1 ha
    · exact hnb.2.2 ha
  have hs2 : IsState m2 s (pre ++ (x, q) :: post) :=
    ⟨hb.isState.st, hb.isState.linked.frame fun a ha => hsame a (hne a ha), hb.isState.nodup⟩
  have hf2 : m2.Finite := by
    obtain ⟨⟨L, hL, h1⟩, L', hL', h2⟩ := hb.finite
    refine ⟨⟨paddr m1 :: L, by simp [m2]; omega, fun a c e => ?_⟩, L', by simp [m2]; omega, h2⟩
    by_cases he : a = paddr m1
    · simp [he]
    · rw [hsame a he] at e
      exact List.mem_cons_of_mem _ (h1 a c e)
  have hbl : PLinked m2.pos ((paddr m1, q) :: post) 0 :=
    ⟨h0, by simp [m2], hl2.frame fun a ha => hsame a (hne a (by simp [ha]))⟩
  have hbn : (addrs ((paddr m1, q) :: post)).Nodup := by
    rw [addrs_cons]
    exact List.nodup_cons.2 ⟨hnb.2.2, (List.nodup_cons.1 hnd2).2⟩
  refine ⟨s, m1, _, x, paddr m1, m2, e, traverse_ok hb.finite hb.isState, ?_, ?_, ?_, ?_, ?_, ?_⟩
  · have : pre.length = ps.length := by rw [← h1]; simp
    rw [← this]
    simp [addrs]
  · simp only [copyPos, getCell_ok hx, bind, Except.bind]; rfl
  · simp [hnb]
  · rw [hsame x (hne x (by simp)), hx]; simp [m2]
  · refine ⟨_, deletePos_ok hf2 hbl hbn, fun h => ?_, fun h => ?_⟩
    · obtain ⟨⟨y, r⟩, post, rfl⟩ := List.exists_cons_of_ne_nil (hpq h)
      have hy0 : y ≠ 0 := hl2.1
      refine deleteState_dead (l := pre ++ [(x, q)]) (b := y) ?_ ?_ hy0 (by simp [without]) ?_ hb.nonnull
      · have := hs2.st
        simp only [without, this]
        cases pre <;> simp
      · have hlk : PLinked m1.pos (pre ++ [(x, q)]) y := by
          refine PLinked.append.2 ⟨?_, hx0, hx, trivial⟩
          simpa using hl1
        refine hlk.frame fun a ha => ?_
        have h4 : a ∉ addrs ((paddr m1, q) :: (y, r) :: post) := by
          rw [addrs_cons, List.mem_cons, not_or]
          simp only [addrs_append, addrs_cons, addrs_nil, List.mem_append, List.mem_cons, List.not_mem_nil, or_false] at ha
          refine ⟨hne a (by simp; grind), fun hc => ?_⟩
          rcases ha with ha | rfl
          · exact hnd3 a ha a (List.mem_cons_of_mem _ hc) rfl
          · exact hxp hc
        simp only [without, h4, if_false]
        exact hsame a (by rw [addrs_cons, List.mem_cons, not_or] at h4; exact h4.1)
      · have := hb.isState.length hb.finite
        simp only [List.length_append, List.length_cons, List.length_nil] at this ⊢
        simp only [SMem.steps, without, m2]
        omega
    · have hp := hpq' h
      subst hp
      have hs3 : IsState (without m2 (addrs [(paddr m1, q)])) s (pre ++ [(x, q)]) :=
        ⟨hs2.st, hs2.linked.frame fun a ha => by simp [without, hne a ha], hs2.nodup⟩
      refine ⟨_, deleteState_eq (finite_count hf2 (fun a ha => by simp [without, ha]) (fun a ha => by simp [without, ha])
        (by simp [without])) hs3 hb.nonnull, ?_, ?_⟩
      · funext a
        by_cases ha : a ∈ addrs (pre ++ [(x, q)])
        · simp only [ha, if_true, hb.new a ha]
        · simp only [ha, if_false, without]
          by_cases hab : a = paddr m1
          · simp [hab, hmb]
          · simp [hab, hsame a hab, hb.pos a ha]
      · funext y
        by_cases hy : y = s
        · simp [hy, hb.fresh]
        · simp [upd1_ne _ _ hy, without, m2, hb.st y hy]
  · refine ⟨_, deleteState_eq hf2 hs2 hb.nonnull, fun h => ?_, fun h => ?_⟩
    · obtain ⟨⟨y, r⟩, post, rfl⟩ := List.exists_cons_of_ne_nil (hpq h)
      refine deletePosLoop_dead (l := [(paddr m1, q)]) (b := y) ⟨h0, ?_, trivial⟩ hl2.1 ?_ (by simp [SMem.steps])
      · have : paddr m1 ∉ addrs (pre ++ (x, q) :: (y, r) :: post) := fun hc => hne _ hc rfl
        simp only [this, if_false]
        simp [m2]
      · simp
    · have hp := hpq' h
      subst hp
      have hnm : paddr m1 ∉ addrs (pre ++ [(x, q)]) := fun hc => hne _ hc rfl
      refine ⟨_, deletePos_single (p := q) ?_ h0, ?_, ?_⟩
      · simp only [hnm, if_false]; simp [m2]
      · funext a
        simp only [without]
        by_cases hab : a = paddr m1
        · simp [hab, hmb]
        · simp only [List.mem_singleton, hab, if_false]
          by_cases ha : a ∈ addrs (pre ++ [(x, q)])
          · simp only [ha, if_true, hb.new a ha]
          · simp only [ha, if_false, hsame a hab, hb.pos a ha]
      · funext y
        by_cases hy : y = s
        · simp [hy, hb.fresh, without]
        · simp [upd1_ne _ _ hy, without, m2, hb.st y hy]

/-- C115: a copy of an intersection has the same state, even if it is empty.  Destroying both, in either order, is undefined
behaviour. -/
theorem c115_copied_intersection {iaddr : IMem Nat → Nat} (hA : SAlloc paddr saddr) (hI : IAlloc iaddr) (hm : m.Finite) {im : IMem Nat}
    (hi : im.Finite) (ps : List Pos) {a : Nat} (ha : a ≠ 0) (label : UInt8) (node parent : Nat) :
    ∃ s m1, buildState paddr saddr ps m = .ok (s, m1) ∧ (im.cell a = some ⟨label, node, s, parent⟩ →
      ∃ b im', copyInter iaddr a im = .ok (b, im') ∧ b ≠ a ∧
        ∀ x y, [x, y].Perm [a, b] → ∃ m2 im2, deleteInter x m1 im' = .ok (m2, im2) ∧ m2.pos = m.pos ∧ m2.st = m.st ∧
          deleteInter y m2 im2 = .error .ub) := by
  obtain ⟨m1, s, l, e, hb, rfl⟩ := buildState_ok hA hm ps
  refine ⟨s, m1, e, fun hc => ?_⟩
  obtain ⟨h0, hfree⟩ := hI im hi
  have hne : iaddr im ≠ a := fun h => by rw [h, hc] at hfree; cases hfree
  refine ⟨iaddr im, (newInter iaddr ⟨label, node, s, parent⟩ im).2,
    by simp only [copyInter, getInter, hc, bind, Except.bind]; rfl, hne, fun x y hxy => ?_⟩
  have hcell : ∀ z ∈ [a, iaddr im], z ≠ 0 ∧
      (newInter iaddr ⟨label, node, s, parent⟩ im).2.cell z = some ⟨label, node, s, parent⟩ := by
    intro z hz
    simp only [List.mem_cons, List.not_mem_nil, or_false] at hz
    rcases hz with rfl | rfl
    · exact ⟨ha, by simp [newInter, upd1_ne _ _ (Ne.symm hne), hc]⟩
    · exact ⟨h0, by simp [newInter]⟩
  generalize (newInter iaddr ⟨label, node, s, parent⟩ im).2 = im' at hcell ⊢
  obtain ⟨hx0, hx⟩ := hcell x (hxy.mem_iff.1 (by simp))
  obtain ⟨hy0, hy⟩ := hcell y (hxy.mem_iff.1 (by simp))
  have hxyn : y ≠ x := by
    have : [x, y].Nodup := hxy.nodup_iff.2 (by simp [Ne.symm hne])
    simp only [List.nodup_cons, List.mem_singleton] at this
    exact Ne.symm this.1
  obtain ⟨m2, f1, f2, f3⟩ : ∃ m2, deleteState s m1 = .ok m2 ∧ m2.pos = m.pos ∧ m2.st = m.st := by
    obtain ⟨m2, f1, hacc, _⟩ := ((Accounted.refl hm).grow hb).delete (o := [])
    exact ⟨m2, f1, hacc.all.1, hacc.all.2⟩
  refine ⟨m2, { im' with cell := upd1 im'.cell x none },
    by simp only [deleteInter, hx0, if_false, getInter, hx, f1, bind, Except.bind], f2, f3, ?_⟩
  have hst : m2.st s = none := by rw [f3]; exact hb.fresh
  simp only [deleteInter, hy0, if_false, getInter, upd1_ne _ _ hxyn, hy, deleteState, hb.nonnull, getHead, hst, bind, Except.bind]

/-- C115: assigning to a position of a state one that comes later in it takes the positions behind the former, up to and including
the latter, out of the state; they are lost. -/
theorem c115_assigned_later_position (hA : SAlloc paddr saddr) (hm : m.Finite) (ps ms qs : List Pos) (p q : Pos) :
    ∃ s m1 as1 a as2 b as3 m2 m3, buildState paddr saddr (ps ++ p :: (ms ++ q :: qs)) m = .ok (s, m1) ∧
      traverse s m1 = .ok (as1 ++ a :: (as2 ++ b :: as3)) ∧ as1.length = ps.length ∧ as2.length = ms.length ∧
      assignPos a b m1 = .ok m2 ∧ traverse s m2 = .ok (as1 ++ a :: as3) ∧
      (as1 ++ a :: as3).map (fun a => (m2.pos a).map PCell.pos) = (ps ++ q :: qs).map some ∧
      deleteState s m2 = .ok m3 ∧ m3.st = m.st ∧ (∀ x, x ∉ as2 ++ [b] → m3.pos x = m.pos x) ∧
      ∀ x ∈ as2 ++ [b], m.pos x = none ∧ m3.pos x ≠ none := by
  obtain ⟨m1, s, l, e, hb, hl⟩ := buildState_ok hA hm (ps ++ p :: (ms ++ q :: qs))
  obtain ⟨pre, r, rfl, rfl, h2⟩ := List.map_eq_append_iff.1 hl
  obtain ⟨⟨x, p⟩, r, rfl, rfl, h3⟩ := List.map_eq_cons_iff.1 h2
  obtain ⟨mid, r, rfl, rfl, h4⟩ := List.map_eq_append_iff.1 h3
  obtain ⟨⟨y, q⟩, post, rfl, rfl, rfl⟩ := List.map_eq_cons_iff.1 h4
  obtain ⟨hl1, hx0, hx, hl2⟩ := PLinked.append.1 hb.isState.linked
  obtain ⟨hl2, hy0, hy, hl3⟩ := PLinked.append.1 hl2
  have hnd := hb.isState.nodup
  simp only [addrs_append, addrs_cons] at hnd
  obtain ⟨n1, n2, n3⟩ := List.nodup_append.1 hnd
  obtain ⟨n4, n5⟩ := List.nodup_cons.1 n2
  obtain ⟨n6, n7, n8⟩ := List.nodup_append.1 n5
  obtain ⟨n9, n10⟩ := List.nodup_cons.1 n7
  simp only [List.mem_append, List.mem_cons, not_or] at n4 n3 n8
  have hs2 : IsState ⟨upd1 m1.pos x (some ⟨q, hd post 0⟩), m1.st, m1.count⟩ s (pre ++ (x, q) :: post) := by
    refine ⟨?_, PLinked.append.2 ⟨?_, hx0, by simp, hl3.frame fun a ha => upd1_ne _ _ ?_⟩, ?_⟩
    · have := hb.isState.st
      simp only [this]
      cases pre <;> simp
    · exact hl1.frame fun a ha => upd1_ne _ _ (n3 a ha x (.inl rfl))
    · rintro rfl; exact n4.2.2 ha
    · simp only [addrs_append, addrs_cons]
      refine List.nodup_append.2 ⟨n1, List.nodup_cons.2 ⟨n4.2.2, n10⟩, fun a ha b hb => n3 a ha b ?_⟩
      rcases List.mem_cons.1 hb with h | h
      · exact .inl h
      · exact .inr (.inr (.inr h))
  have hf2 : SMem.Finite ⟨upd1 m1.pos x (some ⟨q, hd post 0⟩), m1.st, m1.count⟩ :=
    finite_count hb.finite (fun a ha => by
      have : a ≠ x := fun h => by rw [h, hx] at ha; cases ha
      simp [upd1_ne _ _ this, ha]) (fun _ h => h) (Nat.le_refl _)
  refine ⟨s, m1, addrs pre, x, addrs mid, y, addrs post, _, _, e, ?_, by simp, by simp,
    by simp only [assignPos, getCell_ok hy, getCell_ok hx, bind, Except.bind], ?_, ?_, deleteState_eq hf2 hs2 hb.nonnull, ?_,
    fun a ha => ?_, fun a ha => ?_⟩
  · rw [traverse_ok hb.finite hb.isState]; simp
  · rw [traverse_ok hf2 hs2]; simp
  · have := linked_values hs2.linked
    simpa [poss, List.map_map] using this
  · funext z
    by_cases hz : z = s
    · simp [hz, hb.fresh]
    · simp [upd1_ne _ _ hz, hb.st z hz]
  · simp only [List.mem_append, List.mem_singleton, not_or] at ha
    by_cases hin : a ∈ addrs (pre ++ (x, q) :: post)
    · simp only [hin, if_true]
      refine (hb.new a ?_).symm
      simp only [addrs_append, addrs_cons, List.mem_append, List.mem_cons] at hin ⊢
      grind
    · simp only [hin, if_false]
      have hax : a ≠ x := fun h => hin (by simp [h])
      simp only [upd1_ne _ _ hax]
      refine hb.pos a fun hc => hin ?_
      simp only [addrs_append, addrs_cons, List.mem_append, List.mem_cons] at hc ⊢
      grind
  · have hal : a ∈ addrs (pre ++ (x, p) :: (mid ++ (y, q) :: post)) := by
      simp only [List.mem_append, List.mem_singleton] at ha
      simp only [addrs_append, addrs_cons, List.mem_append, List.mem_cons]
      grind
    refine ⟨hb.new a hal, ?_⟩
    have hin : a ∉ addrs (pre ++ (x, q) :: post) := by
      simp only [List.mem_append, List.mem_singleton] at ha
      simp only [addrs_append, addrs_cons, List.mem_append, List.mem_cons, not_or]
      refine ⟨fun hc => ?_, fun hc => ?_, fun hc => ?_⟩
      · exact n3 a hc a (.inr (ha.elim .inl fun h => .inr (.inl h))) rfl
      · subst hc; exact ha.elim n4.1 n4.2.1
      · rcases ha with ha | rfl
        · exact n8 a ha a (.inr hc) rfl
        · exact n9 hc
    have hax : a ≠ x := fun h => hin (by simp [h])
    simp only [hin, if_false, upd1_ne _ _ hax]
    obtain ⟨c, hc⟩ := hb.isState.linked.alive a hal
    rw [hc]; simp

/-- A list whose last position points back into it. -/
theorem Round.of_linked {l : Cells} {b : Nat} (h : PLinked m.pos l b) (hb : b ∈ addrs l) : Round m (· ∈ addrs l) := by
  have : ∀ k : Cells, (∃ j, l = j ++ k) → ∀ a ∈ addrs k, a ≠ 0 ∧ ∃ c, m.pos a = some c ∧ c.next ∈ addrs l := by
    intro k
    induction k with
    | nil => simp
    | cons z k ih =>
      obtain ⟨z, r⟩ := z
      rintro ⟨j, rfl⟩ a ha
      rcases List.mem_cons.1 (by simpa using ha) with rfl | ha
      · obtain ⟨_, h1, h2, _⟩ := PLinked.append.1 h
        refine ⟨h1, _, h2, ?_⟩
        cases k with
        | nil => exact hb
        | cons w k => simp
      · exact ih ⟨j ++ [(z, r)], by simp⟩ a ha
  exact this l ⟨[], rfl⟩

/-- C115: assigning to a position of a state one that comes earlier in it makes the list circular: neither a loop over the state nor its
destructor ends. -/
theorem c115_assigned_earlier_position (hA : SAlloc paddr saddr) (hm : m.Finite) (ps ms qs : List Pos) (p q : Pos) :
    ∃ s m1 as1 a as2 b as3 m2 it h, buildState paddr saddr (ps ++ p :: (ms ++ q :: qs)) m = .ok (s, m1) ∧
      traverse s m1 = .ok (as1 ++ a :: (as2 ++ b :: as3)) ∧ as1.length = ps.length ∧ as2.length = ms.length ∧
      assignPos b a m1 = .ok m2 ∧ siterBegin s m2 = .ok it ∧ (∀ fuel, iterCollect m2 fuel it = .error .diverge) ∧
      getHead m2 s = .ok h ∧ (∀ fuel, deletePosLoop fuel h m2 = .error .diverge) ∧ deleteState s m2 = .error .diverge := by
  obtain ⟨m1, s, l, e, hb, hl⟩ := buildState_ok hA hm (ps ++ p :: (ms ++ q :: qs))
  obtain ⟨pre, r, rfl, rfl, h2⟩ := List.map_eq_append_iff.1 hl
  obtain ⟨⟨x, p⟩, r, rfl, rfl, h3⟩ := List.map_eq_cons_iff.1 h2
  obtain ⟨mid, r, rfl, rfl, h4⟩ := List.map_eq_append_iff.1 h3
  obtain ⟨⟨y, q⟩, post, rfl, rfl, rfl⟩ := List.map_eq_cons_iff.1 h4
  obtain ⟨hl1, hx0, hx, hl2⟩ := PLinked.append.1 hb.isState.linked
  obtain ⟨hl2, hy0, hy, hl3⟩ := PLinked.append.1 hl2
  have hnd := hb.isState.nodup
  simp only [addrs_append, addrs_cons] at hnd
  obtain ⟨n1, n2, n3⟩ := List.nodup_append.1 hnd
  obtain ⟨n4, n5⟩ := List.nodup_cons.1 n2
  obtain ⟨n6, n7, n8⟩ := List.nodup_append.1 n5
  simp only [List.mem_append, List.mem_cons, not_or] at n4 n3 n8
  have hN : hd (mid ++ (y, q) :: post) 0 = hd (mid ++ [(y, p)]) 0 := by cases mid <;> simp
  let m2 : SMem := ⟨upd1 m1.pos y (some ⟨p, hd (mid ++ (y, q) :: post) 0⟩), m1.st, m1.count⟩
  have hlk : PLinked m2.pos (pre ++ (x, p) :: (mid ++ [(y, p)])) (hd (mid ++ [(y, p)]) 0) := by
    refine PLinked.append.2 ⟨?_, hx0, ?_, PLinked.append.2 ⟨?_, hy0, ?_, trivial⟩⟩
    · exact hl1.frame fun a ha => upd1_ne _ _ (n3 a ha y (.inr (.inr (.inl rfl))))
    · have : m2.pos x = m1.pos x := upd1_ne _ _ n4.2.1
      rw [this, hx]
      cases mid <;> simp
    · exact hl2.frame fun a ha => upd1_ne _ _ (n8 a ha y (.inl rfl))
    · simp only [m2, upd1_self, hN]
      cases mid <;> simp
  have hmem : ∀ {z}, z ∈ addrs (mid ++ [(y, p)]) → z ∈ addrs (pre ++ (x, p) :: (mid ++ [(y, p)])) := fun h => by
    rw [addrs_append, addrs_cons]
    exact List.mem_append_right _ (List.mem_cons_of_mem _ h)
  have hround := Round.of_linked hlk (hmem (by cases mid <;> simp))
  have hh : m2.st s = some (hd (pre ++ (x, p) :: (mid ++ [(y, p)])) 0) := by
    have := hb.isState.st
    simp only [m2, this]
    cases pre <;> simp
  have hhd : hd (pre ++ (x, p) :: (mid ++ [(y, p)])) 0 ∈ addrs (pre ++ (x, p) :: (mid ++ [(y, p)])) := by cases pre <;> simp
  obtain ⟨h0, c, hc, hcn⟩ := hround _ hhd
  refine ⟨s, m1, addrs pre, x, addrs mid, y, addrs post, m2, ⟨s, c.next, hd (pre ++ (x, p) :: (mid ++ [(y, p)])) 0, 0⟩, _, e, ?_,
    by simp, by simp, ?_, ?_, fun fuel => hround.collect fuel hhd hcn, getHead_ok hh, fun fuel => hround.delete fuel hhd, ?_⟩
  · rw [traverse_ok hb.finite hb.isState]; simp
  · simp only [assignPos, getCell_ok hy, getCell_ok hx, bind, Except.bind]; rfl
  · simp only [siterBegin, getHead_ok hh, iterNew, h0, getCell_ok hc, ne_eq, not_false_eq_true, if_true, bind, Except.bind]
  · simp only [deleteState, hb.nonnull, if_false, getHead_ok hh, deletePos, hround.delete _ hhd, bind, Except.bind]

/-- Two states whose lists end in the same positions. -/
theorem shared_tail {t : Nat} {k l post : Cells} (hf : m.Finite) (hs : IsState m s (k ++ post)) (ht : IsState m t (l ++ post))
    (h0 : s ≠ 0) (h0' : t ≠ 0) (hne : t ≠ s) (hdis : ∀ a ∈ addrs l, a ∉ addrs (k ++ post)) :
    ∃ m', deleteState s m = .ok m' ∧ (post ≠ [] → deleteState t m' = .error .ub) ∧
      (post = [] → ∃ m'', deleteState t m' = .ok m'' ∧ m''.st = upd1 (upd1 m.st s none) t none ∧
        ∀ a, m''.pos a = if a ∈ addrs k ∨ a ∈ addrs l then none else m.pos a) := by
  refine ⟨_, deleteState_eq hf hs h0, fun hp => ?_, fun hp => ?_⟩
  · obtain ⟨⟨y, r⟩, post, rfl⟩ := List.exists_cons_of_ne_nil hp
    obtain ⟨h1, hy0, hy, _⟩ := PLinked.append.1 ht.linked
    refine deleteState_dead (l := l) (b := y) ?_ ?_ hy0 (by simp) ?_ h0'
    · have := ht.st
      simp only [upd1_ne _ _ hne, this]
      cases l <;> simp
    · refine PLinked.frame (pos := m.pos) ?_ fun a ha => by simp only [hdis a ha, if_false]
      simpa using h1
    · have := ht.length hf
      simp only [List.length_append, List.length_cons] at this
      simp only [SMem.steps]
      omega
  · subst hp
    rw [List.append_nil] at *
    refine ⟨_, deleteState_eq (l := l) (finite_count hf (fun a ha => by simp [ha]) (fun a ha => ?_) (Nat.le_refl _))
      ⟨by simp [upd1_ne _ _ hne, ht.st], ht.linked.frame fun a ha => by simp only [hdis a ha, if_false], ht.nodup⟩ h0', rfl,
      fun a => ?_⟩
    · by_cases he : a = s
      · simp [he]
      · simp [upd1_ne _ _ he, ha]
    · by_cases h1 : a ∈ addrs l <;> by_cases h2 : a ∈ addrs k <;> simp [h1, h2]

/-- C115: assigning to a position of a state one of another state makes the first state go on with the positions of the second one; what
followed in the first state is lost.  Destroying both, in either order, is undefined behaviour unless the assigned position is the last
one. -/
theorem c115_assigned_foreign_position (hA : SAlloc paddr saddr) (hm : m.Finite) (ps qs ps' qs' : List Pos) (p p' : Pos) :
    ∃ s m1 t m2 as1 a as2 bs1 b bs2 m3, buildState paddr saddr (ps ++ p :: qs) m = .ok (s, m1) ∧
      buildState paddr saddr (ps' ++ p' :: qs') m1 = .ok (t, m2) ∧ traverse s m2 = .ok (as1 ++ a :: as2) ∧
      traverse t m2 = .ok (bs1 ++ b :: bs2) ∧ as1.length = ps.length ∧ bs1.length = ps'.length ∧
      assignPos a b m2 = .ok m3 ∧ traverse s m3 = .ok (as1 ++ a :: bs2) ∧ traverse t m3 = .ok (bs1 ++ b :: bs2) ∧
      (as1 ++ a :: bs2).map (fun a => (m3.pos a).map PCell.pos) = (ps ++ p' :: qs').map some ∧
      ∀ x y, [x, y].Perm [s, t] → ∃ m4, deleteState x m3 = .ok m4 ∧ (qs' ≠ [] → deleteState y m4 = .error .ub) ∧
        (qs' = [] → ∃ m5, deleteState y m4 = .ok m5 ∧ m5.st = m.st ∧ (∀ z, z ∉ as2 → m5.pos z = m.pos z) ∧
          ∀ z ∈ as2, m.pos z = none ∧ m5.pos z ≠ none) := by
  obtain ⟨m1, s, l, e, hb, hl⟩ := buildState_ok hA hm (ps ++ p :: qs)
  obtain ⟨pre, r, rfl, rfl, h2⟩ := List.map_eq_append_iff.1 hl
  obtain ⟨⟨x, p⟩, post, rfl, rfl, rfl⟩ := List.map_eq_cons_iff.1 h2
  obtain ⟨m2, t, l', e2, hb2, hl'⟩ := buildState_ok hA hb.finite (ps' ++ p' :: qs')
  obtain ⟨pre', r, rfl, rfl, h2'⟩ := List.map_eq_append_iff.1 hl'
  obtain ⟨⟨y, p'⟩, post', rfl, rfl, rfl⟩ := List.map_eq_cons_iff.1 h2'
  have hs2 := hb2.keep hb.isState
  have hne : t ≠ s := fun h => by have := hb2.fresh; rw [h, hb.isState.st] at this; cases this
  have hdis : ∀ a ∈ addrs (pre' ++ (y, p') :: post'), a ∉ addrs (pre ++ (x, p) :: post) := fun a ha hc => by
    have h1 := hb2.new a ha
    obtain ⟨c, hc⟩ := hb.isState.linked.alive a hc
    rw [h1] at hc; cases hc
  obtain ⟨hl1, hx0, hx, hl2⟩ := PLinked.append.1 hs2.linked
  obtain ⟨hk1, hy0, hy, hk2⟩ := PLinked.append.1 hb2.isState.linked
  have hxt : ∀ a ∈ addrs (pre' ++ (y, p') :: post'), a ≠ x := fun a ha h => hdis a ha (by simp [h])
  have hnd := hs2.nodup
  simp only [addrs_append, addrs_cons] at hnd
  obtain ⟨n1, n2, n3⟩ := List.nodup_append.1 hnd
  obtain ⟨n4, n5⟩ := List.nodup_cons.1 n2
  have hnd' := hb2.isState.nodup
  simp only [addrs_append, addrs_cons] at hnd'
  obtain ⟨n1', n2', n3'⟩ := List.nodup_append.1 hnd'
  obtain ⟨n4', n5'⟩ := List.nodup_cons.1 n2'
  have hs3 : IsState ⟨upd1 m2.pos x (some ⟨p', hd post' 0⟩), m2.st, m2.count⟩ s ((pre ++ [(x, p')]) ++ post') := by
    rw [List.append_assoc]
    refine ⟨?_, PLinked.append.2 ⟨?_, hx0, by simp, hk2.frame fun a ha => upd1_ne _ _ (hxt a (by simp [ha]))⟩, ?_⟩
    · have := hs2.st
      simp only [this]
      cases pre <;> simp
    · exact hl1.frame fun a ha => upd1_ne _ _ (n3 a ha x (by simp))
    · simp only [addrs_append, addrs_cons, List.singleton_append]
      refine List.nodup_append.2 ⟨n1, List.nodup_cons.2 ⟨fun hc => hxt x (by simp [hc]) rfl, n5'⟩, fun a ha b hb he => ?_⟩
      subst he
      rcases List.mem_cons.1 hb with h | h
      · exact n3 a ha x (by simp) h
      · exact hdis a (by simp [h]) (by simp [ha])
  have ht3 : IsState ⟨upd1 m2.pos x (some ⟨p', hd post' 0⟩), m2.st, m2.count⟩ t ((pre' ++ [(y, p')]) ++ post') := by
    rw [List.append_assoc]
    exact ⟨hb2.isState.st, hb2.isState.linked.frame fun a ha => upd1_ne _ _ (hxt a ha), hb2.isState.nodup⟩
  have hf3 : SMem.Finite ⟨upd1 m2.pos x (some ⟨p', hd post' 0⟩), m2.st, m2.count⟩ :=
    finite_count hb2.finite (fun a ha => by
      have : a ≠ x := fun h => by rw [h, hx] at ha; cases ha
      simp [upd1_ne _ _ this, ha]) (fun _ h => h) (Nat.le_refl _)
  have hd1 : ∀ a ∈ addrs (pre' ++ [(y, p')]), a ∉ addrs ((pre ++ [(x, p')]) ++ post') := fun a ha hc => by
    simp only [addrs_append, addrs_cons, addrs_nil, List.mem_append, List.mem_singleton] at ha hc
    have ht : a ∈ addrs (pre' ++ (y, p') :: post') := by simp only [addrs_append, addrs_cons, List.mem_append, List.mem_cons]; grind
    rcases hc with (hc | hc) | hc
    · exact hdis a ht (by simp [hc])
    · exact hxt a ht hc
    · rcases ha with ha | rfl
      · exact n3' a ha a (List.mem_cons_of_mem _ hc) rfl
      · exact n4' hc
  have hd2 : ∀ a ∈ addrs (pre ++ [(x, p')]), a ∉ addrs ((pre' ++ [(y, p')]) ++ post') := fun a ha hc => by
    rw [List.append_assoc] at hc
    refine hdis a hc ?_
    simp only [addrs_append, addrs_cons, addrs_nil, List.mem_append, List.mem_singleton] at ha
    simp only [addrs_append, addrs_cons, List.mem_append, List.mem_cons]
    grind
  have hpost : poss post' ≠ [] → post' ≠ [] := fun h h' => h (by rw [h']; rfl)
  have hpost' : poss post' = [] → post' = [] := fun h => by cases post' with | nil => rfl | cons x l => simp at h
  have hend : post' = [] → ∀ m5 : SMem, (∀ z, z ≠ s → z ≠ t → m5.st z = m2.st z) → m5.st s = none → m5.st t = none →
      (∀ a, m5.pos a = if a ∈ addrs (pre ++ [(x, p')]) ∨ a ∈ addrs (pre' ++ [(y, p')]) then none
        else upd1 m2.pos x (some ⟨p', hd post' 0⟩) a) →
      m5.st = m.st ∧ (∀ z, z ∉ addrs post → m5.pos z = m.pos z) ∧ ∀ z ∈ addrs post, m.pos z = none ∧ m5.pos z ≠ none := by
    intro hp m5 g1 g2 g3 g4
    subst hp
    refine ⟨?_, fun z hz => ?_, fun z hz => ?_⟩
    · funext z
      by_cases hzs : z = s
      · rw [hzs, g2, hb.fresh]
      by_cases hzt : z = t
      · rw [hzt, g3, ← hb.st t hne]; exact hb2.fresh.symm
      rw [g1 z hzs hzt, hb2.st z hzt, hb.st z hzs]
    · rw [g4]
      by_cases hz1 : z ∈ addrs (pre ++ (x, p) :: post)
      · have : z ∈ addrs (pre ++ [(x, p')]) := by
          simp only [addrs_append, addrs_cons, addrs_nil, List.mem_append, List.mem_cons] at hz1 ⊢
          grind
        simp only [this, true_or, if_true]
        exact (hb.new z hz1).symm
      · have hzx : z ≠ x := fun h => hz1 (by simp [h])
        have h5 : z ∉ addrs (pre ++ [(x, p')]) := fun hc => hz1 (by
          simp only [addrs_append, addrs_cons, addrs_nil, List.mem_append, List.mem_cons] at hc ⊢
          grind)
        rw [← hb.pos z hz1]
        by_cases hz2 : z ∈ addrs (pre' ++ [(y, p')])
        · simp only [hz2, or_true, if_true]
          exact (hb2.new z hz2).symm
        · simp only [h5, hz2, or_self, if_false, upd1_ne _ _ hzx]
          exact hb2.pos z hz2
    · have hz1 : z ∈ addrs (pre ++ (x, p) :: post) := by simp [hz]
      have hzx : z ≠ x := fun h => n4 (h ▸ hz)
      have h5 : z ∉ addrs (pre ++ [(x, p')]) := fun hc => by
        simp only [addrs_append, addrs_cons, addrs_nil, List.mem_append, List.mem_singleton] at hc
        rcases hc with hc | hc
        · exact n3 z hc z (List.mem_cons_of_mem _ hz) rfl
        · exact hzx hc
      have h6 : z ∉ addrs (pre' ++ [(y, p')]) := fun hc => hdis z hc hz1
      refine ⟨hb.new z hz1, ?_⟩
      rw [g4]
      simp only [h5, h6, or_self, if_false, upd1_ne _ _ hzx]
      obtain ⟨c, hc⟩ := hs2.linked.alive z hz1
      rw [hc]; simp
  refine ⟨s, m1, t, m2, addrs pre, x, addrs post, addrs pre', y, addrs post',
    ⟨upd1 m2.pos x (some ⟨p', hd post' 0⟩), m2.st, m2.count⟩, e, e2, ?_, ?_, by simp, by simp,
    by simp only [assignPos, getCell_ok hy, getCell_ok hx, bind, Except.bind], ?_, ?_, ?_, fun u v huv => ?_⟩
  · rw [traverse_ok hb2.finite hs2]; simp
  · rw [traverse_ok hb2.finite hb2.isState]; simp
  · rw [traverse_ok hf3 hs3]; simp
  · rw [traverse_ok hf3 ht3]; simp
  · have := linked_values hs3.linked
    simpa [poss, List.map_map] using this
  have hcase : (u = s ∧ v = t) ∨ (u = t ∧ v = s) := by
    have h1 : u ∈ [s, t] := huv.mem_iff.1 (by simp)
    have h2 : v ∈ [s, t] := huv.mem_iff.1 (by simp)
    have hnd : u ≠ v := by
      have : [u, v].Nodup := huv.nodup_iff.2 (by simp [Ne.symm hne])
      simpa using this
    simp only [List.mem_cons, List.not_mem_nil, or_false] at h1 h2
    rcases h1 with h1 | h1 <;> rcases h2 with h2 | h2
    · exact absurd (h1.trans h2.symm) hnd
    · exact .inl ⟨h1, h2⟩
    · exact .inr ⟨h1, h2⟩
    · exact absurd (h1.trans h2.symm) hnd
  rcases hcase with ⟨rfl, rfl⟩ | ⟨rfl, rfl⟩
  · obtain ⟨m4, f1, f2, f3⟩ := shared_tail hf3 hs3 ht3 hb.nonnull hb2.nonnull hne hd1
    refine ⟨m4, f1, fun h => f2 (hpost h), fun h => ?_⟩
    obtain ⟨m5, g1, g2, g3⟩ := f3 (hpost' h)
    exact ⟨m5, g1, hend (hpost' h) m5 (fun z h1 h2 => by rw [g2, upd1_ne _ _ h2, upd1_ne _ _ h1])
      (by rw [g2, upd1_ne _ _ (Ne.symm hne)]; simp) (by rw [g2]; simp) g3⟩
  · obtain ⟨m4, f1, f2, f3⟩ := shared_tail hf3 ht3 hs3 hb2.nonnull hb.nonnull (Ne.symm hne) hd2
    refine ⟨m4, f1, fun h => f2 (hpost h), fun h => ?_⟩
    obtain ⟨m5, g1, g2, g3⟩ := f3 (hpost' h)
    exact ⟨m5, g1, hend (hpost' h) m5 (fun z h1 h2 => by rw [g2, upd1_ne _ _ h1, upd1_ne _ _ h2])
      (by rw [g2]; simp) (by rw [g2, upd1_ne _ _ hne]; simp) fun a => by rw [g3]; simp only [or_comm]⟩

/-- C115: assigning an intersection to another one loses the state of the latter; destroying both, in either order, is undefined
behaviour. -/
theorem c115_assigned_intersection (hA : SAlloc paddr saddr) (hm : m.Finite) (im : IMem Nat) (ps qs : List Pos) {a b : Nat}
    (ha : a ≠ 0) (hb0 : b ≠ 0) (hab : a ≠ b) (c d : UInt8 × Nat × Nat) :
    ∃ s m1 t m2, buildState paddr saddr ps m = .ok (s, m1) ∧ buildState paddr saddr qs m1 = .ok (t, m2) ∧
      (im.cell a = some ⟨c.1, c.2.1, s, c.2.2⟩ → im.cell b = some ⟨d.1, d.2.1, t, d.2.2⟩ →
        ∃ im', assignInter a b im = .ok im' ∧
          ∀ x y, [x, y].Perm [a, b] → ∃ m3 im3, deleteInter x m2 im' = .ok (m3, im3) ∧ m3.pos = m1.pos ∧ m3.st = m1.st ∧
            deleteInter y m3 im3 = .error .ub) := by
  obtain ⟨m1, s, l, e, hb, rfl⟩ := buildState_ok hA hm ps
  obtain ⟨m2, t, k, e2, hb2, rfl⟩ := buildState_ok hA hb.finite qs
  refine ⟨s, m1, t, m2, e, e2, fun hca hcb => ?_⟩
  refine ⟨⟨upd1 im.cell a (some ⟨d.1, d.2.1, t, d.2.2⟩), im.count⟩,
    by simp only [assignInter, getInter, hca, hcb, bind, Except.bind], fun x y hxy => ?_⟩
  have hcell : ∀ z ∈ [a, b], z ≠ 0 ∧
      (IMem.mk (upd1 im.cell a (some ⟨d.1, d.2.1, t, d.2.2⟩)) im.count).cell z = some ⟨d.1, d.2.1, t, d.2.2⟩ := by
    intro z hz
    simp only [List.mem_cons, List.not_mem_nil, or_false] at hz
    rcases hz with rfl | rfl
    · exact ⟨ha, by simp⟩
    · exact ⟨hb0, by simp [upd1_ne _ _ (Ne.symm hab), hcb]⟩
  generalize IMem.mk (upd1 im.cell a (some ⟨d.1, d.2.1, t, d.2.2⟩)) im.count = im' at hcell ⊢
  obtain ⟨hx0, hx⟩ := hcell x (hxy.mem_iff.1 (by simp))
  obtain ⟨hy0, hy⟩ := hcell y (hxy.mem_iff.1 (by simp))
  have hxyn : y ≠ x := by
    have : [x, y].Nodup := hxy.nodup_iff.2 (by simp [hab])
    simp only [List.nodup_cons, List.mem_singleton] at this
    exact Ne.symm this.1
  obtain ⟨m3, f1, f2, f3⟩ : ∃ m3, deleteState t m2 = .ok m3 ∧ m3.pos = m1.pos ∧ m3.st = m1.st := by
    obtain ⟨m3, f1, hacc, _⟩ := ((Accounted.refl hb.finite).grow hb2).delete (o := [])
    exact ⟨m3, f1, hacc.all.1, hacc.all.2⟩
  refine ⟨m3, { im' with cell := upd1 im'.cell x none },
    by simp only [deleteInter, hx0, if_false, getInter, hx, f1, bind, Except.bind], f2, f3, ?_⟩
  have hst : m3.st t = none := by rw [f3]; exact hb2.fresh
  simp only [deleteInter, hy0, if_false, getInter, upd1_ne _ _ hxyn, hy, deleteState, hb2.nonnull, getHead, hst, bind, Except.bind]

end

/-! ### Examples -/

example : (do
    let (s, m) ← buildState (fun m => m.count + 1) (fun m => m.count + 1) [⟨1, 0, false⟩, ⟨2, 0, false⟩] ⟨fun _ => none, fun _ => none, 0⟩
    let (t, m) ← copyState (fun m => m.count + 1) s m
    let as ← traverse t m
    let m ← deleteState s m
    .ok (s, t, as, m.pos 1, m.st 4) : Except Err _) = .ok (3, 4, [1, 2], none, some 1) := rfl

example : (do
    let (s, m) ← buildState (fun m => m.count + 1) (fun m => m.count + 1) [⟨1, 0, false⟩, ⟨2, 0, false⟩] ⟨fun _ => none, fun _ => none, 0⟩
    let (t, m) ← copyState (fun m => m.count + 1) s m
    let m ← deleteState s m
    let _ ← deleteState t m
    .ok () : Except Err Unit) = .error .ub := rfl

/-- A copy of the first of two positions takes the second one with it. -/
example : (do
    let (s, m) ← buildState (fun m => m.count + 1) (fun m => m.count + 1) [⟨1, 0, false⟩, ⟨2, 0, false⟩] ⟨fun _ => none, fun _ => none, 0⟩
    let (b, m) ← copyPos (fun m => m.count + 1) 1 m
    let m ← deletePos b m
    .ok (s, b, m.pos 1, m.pos 2, m.pos 4) : Except Err _) = .ok (3, 4, some ⟨⟨1, 0, false⟩, 2⟩, none, none) := rfl

/-- A copy of an intersection. -/
example : (do
    let (s, m) ← buildState (fun m => m.count + 1) (fun m => m.count + 1) [⟨1, 0, false⟩] ⟨fun _ => none, fun _ => none, 0⟩
    let (a, im) := newInter (fun im => im.count + 1) ⟨97, 5, s, 0⟩ ⟨fun _ => none, 0⟩
    let (b, im) ← copyInter (fun im => im.count + 1) a im
    let (m, im) ← deleteInter a m im
    .ok (s, a, b, im.cell 1, im.cell 2, m.st 2) : Except Err _) = .ok (2, 1, 2, none, some ⟨97, 5, 2, 0⟩, none) := rfl

/-- Assigning the third of three positions to the first, and the first to the second. -/
example : (do
    let (s, m) ← buildState (fun m => m.count + 1) (fun m => m.count + 1) [⟨1, 0, false⟩, ⟨2, 0, false⟩, ⟨3, 0, false⟩]
      ⟨fun _ => none, fun _ => none, 0⟩
    let m1 ← assignPos 1 3 m
    let as ← traverse s m1
    let m1 ← deleteState s m1
    let m2 ← assignPos 2 1 m
    .ok (as, m1.pos 1, m1.pos 2, m1.pos 3, m2.pos 2) : Except Err _) =
      .ok ([1], none, some ⟨⟨2, 0, false⟩, 3⟩, some ⟨⟨3, 0, false⟩, 0⟩, some ⟨⟨1, 0, false⟩, 2⟩) := rfl

/-- Assigning the second of two positions of one state to the first of two of another one. -/
example : (do
    let (s, m) ← buildState (fun m => m.count + 1) (fun m => m.count + 1) [⟨1, 0, false⟩, ⟨2, 0, false⟩] ⟨fun _ => none, fun _ => none, 0⟩
    let (t, m) ← buildState (fun m => m.count + 1) (fun m => m.count + 1) [⟨3, 0, false⟩, ⟨4, 0, false⟩] m
    let m1 ← assignPos 1 5 m
    let m1 ← deleteState s m1
    let m1 ← deleteState t m1
    let m2 ← assignPos 1 4 m
    let as ← traverse s m2
    .ok (t, m1.pos 1, m1.pos 2, m1.pos 4, m1.pos 5, as) : Except Err _) =
      .ok (6, none, some ⟨⟨2, 0, false⟩, 0⟩, none, none, [1, 5]) := rfl

end Lev.Props
