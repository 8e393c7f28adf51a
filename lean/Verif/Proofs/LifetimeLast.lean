import Verif.Proofs.LifetimeUB

/-!
Queries that show their last candidate when their transducer is destroyed.
-/

namespace Lev

open Spec

section
variable {R : Type} {B : Backend SMem Nat} {iaddr : IMem Nat → Nat} {mem : Mem} {upd : Str → Nat → R}
  {Z : Nat → Prop}

/-- The query has no further use for the intersection at `t`. -/
def Away (t : Nat) (PQ : PQuery R) : Prop := t ∉ PQ.pending ∧ ¬ (PQ.edges ≠ [] ∧ PQ.cur = t)

theorem ptrIter_away {m m' : SMem} {im im' : IMem Nat} {t : Nat} {PQ PQ' : PQuery R} {stop : Bool} (h : Away t PQ)
    (hne : iaddr im ≠ t) (e : ptrIter B iaddr mem upd m im PQ = .ok (m', im', PQ', stop)) : Away t PQ' := by
  obtain ⟨h1, h2⟩ := h
  unfold ptrIter at e
  cases hed : PQ.edges with
  | nil =>
    simp only [hed] at e
    cases hp : PQ.pending with
    | nil => simp [hp] at e
    | cons a rest =>
      simp only [hp, List.mem_cons, not_or] at h1
      simp only [hp, bind, Except.bind] at e
      split at e
      · cases e
      · split at e
        · cases e
        · split at e
          · cases e
          · simp only [pure, Except.pure, Except.ok.injEq, Prod.mk.injEq] at e
            obtain ⟨_, _, rfl, rfl⟩ := e
            exact ⟨h1.2, fun hc => h1.1 hc.2.symm⟩
  | cons ed es =>
    have hcur : PQ.cur ≠ t := fun hc => h2 ⟨by simp [hed], hc⟩
    obtain ⟨l, b⟩ := ed
    have hp : t ∉ PQ.pending ++ [iaddr im] := by simp [h1, Ne.symm hne]
    simp only [hed, bind, Except.bind, newInter] at e
    split at e
    · cases e
    · split at e
      · cases e
      · split at e
        · cases e
        · split at e
          · simp only [pure, Except.pure, Except.ok.injEq, Prod.mk.injEq] at e
            obtain ⟨_, _, rfl, rfl⟩ := e
            exact ⟨h1, fun hc => hcur hc.2⟩
          · split at e
            · cases e
            · split at e
              · split at e
                · cases e
                · split at e
                  · split at e
                    · cases e
                    · simp only [pure, Except.pure, Except.ok.injEq, Prod.mk.injEq] at e
                      obtain ⟨_, _, rfl, rfl⟩ := e
                      exact ⟨hp, fun hc => hcur hc.2⟩
                  · simp only [pure, Except.pure, Except.ok.injEq, Prod.mk.injEq] at e
                    obtain ⟨_, _, rfl, rfl⟩ := e
                    exact ⟨hp, fun hc => hcur hc.2⟩
              · simp only [pure, Except.pure, Except.ok.injEq, Prod.mk.injEq] at e
                obtain ⟨_, _, rfl, rfl⟩ := e
                exact ⟨hp, fun hc => hcur hc.2⟩

theorem queryIter_stopped {m m1 : SMem} {Q Q1 : Query Nat R} (e : queryIter B mem upd m Q = .ok (m1, Q1, true)) :
    Q1.complete = false := by
  unfold queryIter at e
  cases h : Q.edges with
  | nil =>
    simp only [h] at e
    cases hp : Q.pending with
    | nil => simp [hp] at e
    | cons I rest =>
      simp only [hp, bind, Except.bind] at e
      split at e
      · cases e
      · split at e
        · cases e
        · simp [pure, Except.pure] at e
  | cons ed es =>
    obtain ⟨l, b⟩ := ed
    simp only [h] at e
    cases hc : Q.cur with
    | none => simp [hc] at e
    | some I =>
      simp only [hc, bind, Except.bind] at e
      split at e
      · cases e
      · split at e
        · cases e
        · split at e
          · simp [pure, Except.pure] at e
          · split at e
            · cases e
            · split at e
              · split at e
                · cases e
                · split at e
                  · simp only [pure, Except.pure, Except.ok.injEq, Prod.mk.injEq] at e
                    rw [← e.2.1]
                  · simp [pure, Except.pure] at e
              · simp [pure, Except.pure] at e

theorem ptrLoop_cut_ok (hI : IAlloc iaddr) (hZ : Closed mem Z) (fuel : Nat) {m m' : SMem} {im : IMem Nat} (hfin : im.Finite)
    {t : Nat} {PQ : PQuery R} {Q Q' : Query Nat R} (h : QRel Z im t PQ Q) (haw : Away t PQ)
    (hne : ∀ im', im.count ≤ im'.count → iaddr im' ≠ t)
    (e : queryLoop B mem upd fuel m Q = .ok (m', Q')) (hn : Q'.complete = true) :
    ∃ im' PQ', ptrLoop B iaddr mem upd fuel m (cut im t) PQ = .ok (m', im', PQ') ∧ PQ'.complete = true := by
  induction fuel generalizing m im PQ Q with
  | zero => simp [queryLoop] at e
  | succ fuel ih =>
    rw [queryLoop] at e
    cases hi : queryIter B mem upd m Q with
    | error er => rw [hi] at e; simp [bind, Except.bind] at e
    | ok r =>
      obtain ⟨m1, Q1, stop⟩ := r
      obtain ⟨im1, PQ1, new, e1, hrel, hg⟩ := ptrIter_sim (beside_alloc iaddr t) hZ hfin h hi
      have hb : beside iaddr t im ≠ t := by
        rw [beside_eq hI hfin (hne _ (Nat.le_refl _))]
        exact hne _ (Nat.le_refl _)
      have haw1 := ptrIter_away haw hb e1
      rw [hi] at e
      simp only [bind, Except.bind] at e
      have hst : stop = false := by
        cases stop with
        | false => rfl
        | true =>
          simp only [if_true, pure, Except.pure, Except.ok.injEq, Prod.mk.injEq] at e
          obtain ⟨_, rfl⟩ := e
          rw [queryIter_stopped hi] at hn; cases hn
      rw [ptrLoop]
      rcases ptrIter_cut hI hfin h (queryIter_cur hi) (hne _ (Nat.le_refl _)) e1 with ⟨_, h1 | h1 | h1⟩ | ⟨_, h1⟩
      · rw [hst] at h1; cases h1
      · exact absurd h1 haw.1
      · exact absurd h1 haw.2
      · rw [h1]
        subst hst
        simp only [bind, Except.bind, Bool.false_eq_true, if_false] at e ⊢
        have hemp : PQ1.pending.isEmpty = Q1.pending.isEmpty := hrel.pending.isEmpty
        rw [hrel.edges, hemp]
        split at e
        · rename_i hcond
          rw [if_pos hcond]
          simp only [pure, Except.pure, Except.ok.injEq, Prod.mk.injEq] at e
          obtain ⟨rfl, rfl⟩ := e
          exact ⟨_, PQ1, rfl, by rw [hrel.complete]; exact hn⟩
        · rename_i hcond
          rw [if_neg hcond]
          exact ih (hg.finite hfin) hrel haw1 (fun im' h' => hne im' (Nat.le_trans hg.count h')) e

theorem ptrAdvance_cut_ok (hI : IAlloc iaddr) (hZ : Closed mem Z) (fuel : Nat) {m m' : SMem} {im : IMem Nat} (hfin : im.Finite)
    {t : Nat} {PQ : PQuery R} {Q Q' : Query Nat R} (h : QRel Z im t PQ Q) (haw : Away t PQ)
    (hne : ∀ im', im.count ≤ im'.count → iaddr im' ≠ t)
    (e : queryAdvance B mem upd fuel m Q = .ok (m', Q')) (hn : Q'.complete = true) :
    ∃ m' im' PQ', ptrAdvance B iaddr mem upd fuel m (cut im t) PQ = .ok (m', im', PQ') ∧ PQ'.complete = true := by
  unfold queryAdvance at e
  unfold ptrAdvance
  have hemp : (PQ.edges.isEmpty && PQ.pending.isEmpty) = (Q.edges.isEmpty && Q.pending.isEmpty) := by
    rw [h.edges, h.pending.isEmpty]
  split at e
  · rename_i hc
    rw [if_pos (by rw [hemp]; exact hc)]
    exact ⟨_, _, _, rfl, rfl⟩
  · rename_i hc
    rw [if_neg (by rw [hemp]; exact hc)]
    obtain ⟨im', PQ', h1, h2⟩ := ptrLoop_cut_ok hI hZ fuel hfin h.mark (t := t) (PQ := { PQ with complete := true }) haw hne e hn
    exact ⟨m', im', PQ', h1, h2⟩

theorem IRep.base {im : IMem Nat} {t : Nat} {own : List Nat} {a : Nat} {I : Inter Nat} (h : IRep im t own a I) :
    ∃ l n s, im.cell t = some ⟨l, n, s, 0⟩ := by
  induction h with
  | root h1 h2 => exact ⟨_, _, _, h2⟩
  | child _ _ _ _ ih => exact ih

/-- The intersection of the transducer is the one with the empty string. -/
theorem IRep.at_root {im : IMem Nat} {t : Nat} {own : List Nat} {a : Nat} {I : Inter Nat} (h : IRep im t own a I) :
    a = t ↔ I.str = [] := by
  cases h with
  | root h1 h2 => simp [Inter.str]
  | child h1 h2 h3 h4 =>
    obtain ⟨l, n, s, hb⟩ := h4.base
    constructor
    · rintro rfl
      rw [hb] at h2
      cases h2
      exact absurd rfl h3
    · simp [Inter.str]

end

section
variable {R : Type} {paddr saddr : SMem → Nat} {iaddr : IMem Nat → Nat} {first : Bool} {A : Algorithm}
  {upd : Str → Nat → R} {dflt : R} {mem : Mem} {root s0 : Nat} {sgn : Bool} {nd : DNode} {F : Forest}
  {h1 h2 : Heap} {d : SDawg} {m0 : SMem} {im0 : IMem Nat} {w : World R} {p : Done} {fuel : Nat}

theorem AllPairs.last {α β : Type} {r : α → β → Prop} {l : List α} {l' : List β} {a : α} {b : β}
    (h : AllPairs r (l ++ [a]) (l' ++ [b])) : r a b := by
  induction l generalizing l' with
  | nil =>
    cases l' with
    | nil => cases h with | cons h _ => exact h
    | cons x xs => cases h with | cons _ h => cases xs <;> cases h
  | cons x xs ih =>
    cases l' with
    | nil => cases h with | cons _ h => cases xs <;> cases h
    | cons y ys => cases h with | cons _ h => exact ih h

/-- A query that shows `v` needs the intersection of the transducer exactly if `v` is empty, or has one letter and is not that of the
last edge of the root. -/
theorem QueryAt.away_iff {m : SMem} {im : IMem Nat} {t : Nat} {PQ : PQuery R} {Q : Query Nat R} {q : Str} {n k : Nat} {Z : Nat → Prop}
    (h : QueryAt A upd mem s0 nd F m q n k Q) (hr : QRel Z im t PQ Q) {l0 : UInt8} {s : Nat}
    (hc : im.cell t = some ⟨l0, root, s, 0⟩) (hm : mem root = some nd)
    (hs : nd.edges.Pairwise (fun e f => charLt sgn e.1 f.1)) {v : Str} {e : Nat} (hv : (allOut A n q nd F)[k]? = some (v, e)) :
    Away t PQ ↔ ¬ (v = [] ∨ ∃ c, v = [c] ∧ ∃ f ∈ nd.edges, charLt sgn c f.1) := by
  obtain ⟨P, ch, hinv, _, _, _, ⟨ws, _, _, h1⟩, h2⟩ := h
  have hcf : Q.complete = false := by
    rcases h2 with ⟨h2, _⟩ | ⟨_, h2, _⟩
    · exact h2
    · rw [← List.head?_drop, h2] at hv; cases hv
  obtain ⟨t', d', h3, _, ⟨P0, x, rfl, hx⟩, r, hfront⟩ := h1 hcf
  rw [hv] at h3
  cases h3
  rcases hfront with ⟨f1, f2⟩ | ⟨pre, l, b, s', I, nd', f1, f2, f3, f4⟩
  · have hp := hr.pending
    have hi := hinv.pending
    rw [f1] at hp hi
    have hstr := (AllPairs.last (l := []) hi).str
    rw [hx] at hstr
    generalize hpp : PQ.pending = pp at hp
    cases hp with
    | @cons a _ _ _ h4 h5 =>
      have := h4.1.at_root.2 rfl
      constructor
      · intro haw
        exact absurd (by rw [hpp, this]; simp) haw.1
      · intro hno
        exact absurd (.inl hstr.symm) hno
  · have hi := hinv.pending
    rw [f1] at hi
    have hstr := (AllPairs.last hi).str
    rw [hx] at hstr
    simp only [Inter.str] at hstr
    have hnp : t ∉ PQ.pending := by
      intro hin
      have hp := hr.pending
      rw [(hr.rootFirst hin).1, f1] at hp
      have := (AllPairs.last (l := []) hp).1.at_root.1 rfl
      simp [Inter.str] at this
    obtain ⟨hI, _⟩ := hr.cur I f2
    have hcur : PQ.cur = t ↔ I.str = [] := hI.at_root
    have hvne : v ≠ [] := by rw [← hstr]; simp
    simp only [Away, hnp, not_false_eq_true, true_and, hvne, false_or, hcur]
    refine not_congr ?_
    constructor
    · rintro ⟨g1, g2⟩
      refine ⟨l, by rw [← hstr, g2]; rfl, ?_⟩
      have hnode : I.node = root := by
        obtain ⟨c, c1, c2, _⟩ := hI.cell
        rw [hcur.2 g2, hc] at c1
        cases c1
        exact c2.symm
      rw [hnode, hm] at f3
      cases f3
      cases hq : PQ.edges with
      | nil => exact absurd hq g1
      | cons f fs =>
        rw [← hr.edges, hq] at f4
        obtain ⟨es, f4⟩ := f4
        refine ⟨f, by rw [← f4]; simp, ?_⟩
        rw [← f4] at hs
        exact (List.pairwise_cons.1 (List.pairwise_append.1 hs).2.1).1 f (by simp)
    · rintro ⟨c, g1, f, g2, g3⟩
      rw [g1] at hstr
      have g4 : I.str = [] ∧ l = c := by
        cases hs' : I.str with
        | nil => rw [hs'] at hstr; simpa using hstr
        | cons y ys => rw [hs'] at hstr; simp at hstr
      refine ⟨fun hq => ?_, g4.1⟩
      have hnode : I.node = root := by
        obtain ⟨c, c1, c2, _⟩ := hI.cell
        rw [hcur.2 g4.1, hc] at c1
        cases c1
        exact c2.symm
      rw [hnode, hm] at f3
      cases f3
      rw [← hr.edges, hq] at f4
      obtain ⟨es, f4⟩ := f4
      rw [← f4] at hs g2
      rcases List.mem_append.1 g2 with g2 | g2
      · have := (List.pairwise_append.1 hs).2.2 f g2 (l, b) (by simp)
        rw [← g4.2] at g3
        exact charLt_irrefl (charLt_trans this g3)
      · simp only [List.mem_singleton] at g2
        subst g2
        rw [← g4.2] at g3
        exact charLt_irrefl g3

/-- Advancing a query that shows its last candidate and has no further use for the transducer that is gone. -/
theorem QueryAt.advance_cut_ok (hA : SAlloc paddr saddr) (hI : IAlloc iaddr) (ht : Tree sgn mem root nd F) {Z : Nat → Prop}
    (hZ : Closed mem Z) {m m' : SMem} {im : IMem Nat} (hfin : im.Finite) {t : Nat} {PQ : PQuery R} {Q : Query Nat R}
    {q : Str} {n k : Nat} (h : QueryAt A upd mem s0 nd F m q n k Q) (hr : QRel Z im t PQ Q) (hf : F.wt + 3 ≤ fuel)
    (hne : ∀ im', im.count ≤ im'.count → iaddr im' ≠ t)
    (hs : ∀ x ∈ PQ.owned, ∀ l, HRep m (stateOf im x) l → HRep m' (stateOf im x) l)
    (haw : Away t PQ) (hlast : (allOut A n q nd F).drop (k + 1) = []) :
    ∃ m2 im2 PQ2, ptrAdvance (heapBackend paddr saddr first A PQ.maxD PQ.term.length) iaddr mem upd fuel m' (cut im t) PQ =
      .ok (m2, im2, PQ2) ∧ PQ2.complete = true := by
  obtain ⟨P, ch, hinv, hdrop, hq2, hq, hn⟩ := h.cut_inv hr hs haw.1 haw.2
  obtain ⟨m2, Q2, P2, ch2, e, hinv2, hgrow, hadv⟩ := queryAdvance_spec (upd := upd)
    (heapBackend_ok hA first A n q.length) (by have := sizeMax_val; omega) hq ht.height fuel hinv (by omega)
  rw [hdrop] at hlast
  rw [hr.maxD, hr.term, hinv.maxD, hinv.term]
  refine ptrAdvance_cut_ok hI hZ fuel hfin hr haw hne e ?_
  rcases hadv with ⟨_, _, t, d, a2, _⟩ | ⟨a1, _⟩
  · rw [hlast] at a2; simp at a2
  · exact a1

theorem LifeInv.next_last_noTransducer (hA : SAlloc paddr saddr) (hI : IAlloc iaddr) (ht : Tree sgn h1.mem root nd F)
    (hZ : Closed h1.mem (Reaches h1.mem root)) (hm : h1.mem root = some nd)
    (hse : nd.edges.Pairwise (fun e f => charLt sgn e.1 f.1))
    (h : LifeInv upd root nd F m0 im0 h1 h2 d p w) (hf : F.wt + 3 ≤ fuel) {i t a : Nat} {q : Str} {n : Nat} {A : Algorithm}
    (hi : p.started[i]? = some (t, q, n)) (hdq : ¬ p.dq i) (hdt : ¬ p.dt t) (hdd : ¬ p.dd)
    (ha : w.ts[t]? = some (some (A, a))) (hne : ∀ im', w.im.count ≤ im'.count → iaddr im' ≠ a)
    {v : Str} {e : Nat} (hv : (allOut A n q nd F)[p.cnt i]? = some (v, e)) :
    ∃ w', lifeStep paddr saddr iaddr first upd dflt root fuel (.dropTransducer t) w = .ok w' ∧
      ((v = [] ∨ ∃ c, v = [c] ∧ ∃ f ∈ nd.edges, charLt sgn c f.1) →
        lifeStep paddr saddr iaddr first upd dflt root fuel (.next i) w' = .error .ub) ∧
      (¬ (v = [] ∨ ∃ c, v = [c] ∧ ∃ f ∈ nd.edges, charLt sgn c f.1) → (allOut A n q nd F).drop (p.cnt i + 1) = [] →
        ∃ w2 PQ2, lifeStep paddr saddr iaddr first upd dflt root fuel (.next i) w' = .ok w2 ∧
          w2.qs[i]? = some (some (A, PQ2)) ∧ PQ2.complete = true) := by
  obtain ⟨w', PQ, Q, e, k1, k2, k3, k4, k5, k6, k7⟩ := h.dropTransducer_cut (paddr := paddr) (saddr := saddr) (iaddr := iaddr)
    (first := first) (dflt := dflt) (fuel := fuel) hi hdq hdt ha
  rw [(h.dict hdd).1] at k1
  replace k1 := k1.1
  obtain ⟨A', PQ', g1, g2, _, _⟩ := h.qlive i t q n hi hdq
  rw [k4] at g2
  cases g2
  obtain ⟨a', s', j1, _, j2, _⟩ := h.tlive t A g1 hdt
  rw [ha] at j1
  cases j1
  have haw := k6.away_iff k5 j2 hm hse hv
  refine ⟨w', e, fun hno => ?_, fun hyes hlast => ?_⟩
  · have hna : ¬ Away a PQ := fun h' => haw.1 h' hno
    have : ∀ B : Backend SMem Nat, ptrAdvance B iaddr h1.mem upd fuel w'.sm (cut w.im a) PQ = .error .ub := by
      intro B
      obtain ⟨fuel', rfl⟩ : ∃ f, fuel = f + 1 := ⟨fuel - 1, by omega⟩
      by_cases hp : a ∈ PQ.pending
      · obtain ⟨h1, h2⟩ := k5.rootFirst hp
        exact ptrAdvance_cut_root (.inl ⟨h2, [], h1⟩)
      · by_cases hcu : PQ.edges ≠ [] ∧ PQ.cur = a
        · exact ptrAdvance_cut_root (.inr hcu)
        · exact absurd ⟨hp, hcu⟩ hna
    simp only [lifeStep, k3, k4, k1, k2, this, bind, Except.bind]
  · obtain ⟨m2, im2, PQ2, e2, hc⟩ := k6.advance_cut_ok (first := first) (m' := w'.sm) hA hI ht hZ h.acc.finite k5 hf hne k7
      (haw.2 hyes) hlast
    refine ⟨{ w' with sm := m2, im := im2, qs := w.qs.set i (some (A, PQ2)) }, PQ2,
      by simp only [lifeStep, k3, k4, k1, k2, e2, bind, Except.bind], ?_, hc⟩
    have := (List.getElem?_eq_some_iff.1 k4).1
    simp [this]

/-! ### Without dictionary and transducer -/

/-- An allocator that hands out addresses beyond `t` only. -/
def beyond (t : Nat) (im : IMem Nat) : Nat := t + firstFree (fun a => im.cell (t + a)) im.count

theorem beyond_alloc (t : Nat) : IAlloc (beyond t) := fun im ⟨L, h1, h2⟩ =>
  ⟨by simp [beyond, firstFree], firstFree_free (f := fun a => im.cell (t + a)) (L := L.map (· - t)) (by simpa using h1)
    fun a c h => List.mem_map.2 ⟨t + a, h2 _ c h, by omega⟩⟩

theorem beyond_ne (t : Nat) (im : IMem Nat) : beyond t im ≠ t := by simp [beyond, firstFree]

/-- Something is pending: the loop gets to a node that is gone, or to something undefined before.  No memory is requested until
then, so that the allocator does not matter. -/
theorem ptrLoop_gone {B : Backend SMem Nat} {mem mem' : Mem} {Z : Nat → Prop} {iaddr iaddr' : IMem Nat → Nat}
    (hdead : ∀ x, Z x → mem' x = none) (fuel : Nat) {m : SMem} {im : IMem Nat} {PQ : PQuery R}
    (hp : ∀ x ∈ PQ.pending, ∀ c, im.cell x = some c → Z c.node)
    (hes : ∀ c b, (c, b) ∈ PQ.edges → Z b) (hne : PQ.pending ≠ [])
    (e : ∀ er, ptrLoop B iaddr mem upd fuel m im PQ = .error er → er = .ub) :
    ptrLoop B iaddr' mem' upd fuel m im PQ = .error .ub := by
  induction fuel generalizing m im PQ with
  | zero => simpa using e .diverge (by simp [ptrLoop])
  | succ fuel ih =>
    rw [ptrLoop] at e ⊢
    simp only [ptrIter] at e ⊢
    cases hed : PQ.edges with
    | nil =>
      simp only [hed] at e ⊢
      cases hpp : PQ.pending with
      | nil => exact absurd hpp hne
      | cons a rest =>
        simp only [hpp, getInter, bind, Except.bind] at e ⊢
        cases hcell : im.cell a with
        | none => simp only
        | some c =>
          simp only [hcell] at e ⊢
          cases hh : B.headIdx m c.state with
          | error er => simp only [hh] at e ⊢; rw [e er rfl]
          | ok i =>
            simp only [deref, hdead _ (hp a (by simp [hpp]) c hcell)]
    | cons ed es =>
      obtain ⟨label, target⟩ := ed
      simp only [hed, getInter, bind, Except.bind] at e ⊢
      cases hcell : im.cell PQ.cur with
      | none => simp only
      | some c =>
        simp only [hcell] at e ⊢
        cases hcv : charVec label PQ.term PQ.k PQ.i with
        | error er => simp only [hcv] at e ⊢; rw [e er rfl]
        | ok cv =>
          simp only [hcv] at e ⊢
          cases htr : B.trans m c.state cv with
          | error er => simp only [htr] at e ⊢; rw [e er rfl]
          | ok r =>
            obtain ⟨m1, next⟩ := r
            simp only [htr] at e ⊢
            cases next with
            | none =>
              have hcond : ¬ (es.isEmpty && PQ.pending.isEmpty) = true := by simp [hne]
              simp only [pure, Except.pure, Bool.false_eq_true, if_false, hcond] at e ⊢
              exact ih hp (fun c b hm => hes c b (by rw [hed]; exact List.mem_cons_of_mem _ hm)) hne e
            | some s =>
              simp only [deref, hdead _ (hes label target (by simp [hed]))]

/-- Advancing a query whose transducer and dictionary are gone. -/
theorem QueryAt.advance_gone (hA : SAlloc paddr saddr) (ht : Tree sgn mem root nd F) {Z : Nat → Prop}
    (hZ : Closed mem Z) {mem' : Mem} (hdead : ∀ x, Z x → mem' x = none) {m m' : SMem} {im : IMem Nat} (hfin : im.Finite) {t : Nat}
    {PQ : PQuery R} {Q : Query Nat R} {q : Str} {n k : Nat} (h : QueryAt A upd mem s0 nd F m q n k Q) (hr : QRel Z im t PQ Q)
    (hf : F.wt + 3 ≤ fuel) (hs : ∀ x ∈ PQ.owned, ∀ l, HRep m (stateOf im x) l → HRep m' (stateOf im x) l)
    (hmore : (allOut A n q nd F).drop k ≠ []) :
    ptrAdvance (heapBackend paddr saddr first A PQ.maxD PQ.term.length) iaddr mem' upd fuel m' (cut im t) PQ = .error .ub := by
  have hne : ∀ im' : IMem Nat, im.count ≤ im'.count → beyond t im' ≠ t := fun im' _ => beyond_ne t im'
  have hpn := h.pending_ne hr hmore
  by_cases haw : Away t PQ
  · have he : ∀ er, ptrAdvance (heapBackend paddr saddr first A PQ.maxD PQ.term.length) (beyond t) mem upd fuel m' (cut im t) PQ =
        .error er → er = .ub := by
      intro er her
      by_cases hl : (allOut A n q nd F).drop (k + 1) = []
      · obtain ⟨_, _, _, e, _⟩ := h.advance_cut_ok (first := first) hA (beyond_alloc t) ht hZ hfin hr hf hne hs haw hl
        rw [e] at her; cases her
      · rw [h.advance_cut (first := first) hA (beyond_alloc t) ht hZ hfin hr hf hne hs hl] at her
        cases her; rfl
    unfold ptrAdvance at he ⊢
    have hc : ¬ (PQ.edges.isEmpty && PQ.pending.isEmpty) = true := by simp [hpn]
    rw [if_neg hc] at he ⊢
    refine ptrLoop_gone (Z := Z) hdead fuel ?_ hr.targets hpn he
    intro x hx c hcell
    obtain ⟨I, hI⟩ : ∃ I, IRep im t (t :: PQ.owned) x I := by
      have := hr.pending
      clear hc he hpn haw
      simp only at hx
      generalize PQ.pending = pp at this hx
      generalize Q.pending = qp at this
      induction this with
      | nil => cases hx
      | cons h1 _ ih =>
        rcases List.mem_cons.1 hx with rfl | hx
        · exact ⟨_, h1.1⟩
        · exact ih hx
    refine hr.nodes x hI.own c ?_
    by_cases hxt : x = t
    · subst hxt; simp [cut] at hcell
    · simpa only [cut, upd1_ne _ _ hxt] using hcell
  · obtain ⟨fuel', rfl⟩ : ∃ f, fuel = f + 1 := ⟨fuel - 1, by omega⟩
    by_cases hp : t ∈ PQ.pending
    · obtain ⟨h1, h2⟩ := hr.rootFirst hp
      exact ptrAdvance_cut_root (.inl ⟨h2, [], h1⟩)
    · by_cases hcu : PQ.edges ≠ [] ∧ PQ.cur = t
      · exact ptrAdvance_cut_root (.inr hcu)
      · exact absurd ⟨hp, hcu⟩ haw

/-- The transducer is destroyed, before or after the dictionary, and the query is advanced. -/
theorem LifeInv.next_gone (hA : SAlloc paddr saddr) (ht : Tree sgn h1.mem root nd F)
    (hZ : Closed h1.mem (Reaches h1.mem root)) (hdead : ∀ x, Reaches h1.mem root x → h2.mem x = none)
    (hdel : destroyDawg fuel h1 d = .ok h2)
    (h : LifeInv upd root nd F m0 im0 h1 h2 d p w) (hf : F.wt + 3 ≤ fuel) {i t a : Nat} {q : Str} {n : Nat} {A : Algorithm}
    (hi : p.started[i]? = some (t, q, n)) (hdq : ¬ p.dq i) (hdt : ¬ p.dt t) (ha : w.ts[t]? = some (some (A, a)))
    (hmore : (allOut A n q nd F).drop (p.cnt i) ≠ []) :
    (p.dd → lifeRun paddr saddr iaddr first upd dflt root fuel [.dropTransducer t, .next i] w = .error .ub) ∧
    (¬ p.dd → lifeRun paddr saddr iaddr first upd dflt root fuel [.dropTransducer t, .dropDictionary, .next i] w = .error .ub) := by
  obtain ⟨w', PQ, Q, e, ⟨k1, k1'⟩, k2, k3, k4, k5, k6, k7⟩ := h.dropTransducer_cut (paddr := paddr) (saddr := saddr)
    (iaddr := iaddr) (first := first) (dflt := dflt) (fuel := fuel) hi hdq hdt ha
  have := k6.advance_gone (first := first) (iaddr := iaddr) (A := A) (m' := w'.sm) hA ht hZ hdead h.acc.finite k5 hf k7 hmore
  refine ⟨fun hdd => ?_, fun hdd => ?_⟩
  · simp only [lifeRun, e, bind, Except.bind]
    simp only [lifeStep, k3, k4, k1, k2, (h.nodict hdd).1, this, bind, Except.bind]
  · simp only [lifeRun, e, bind, Except.bind]
    simp only [lifeStep, k1', k1, (h.dict hdd).1, (h.dict hdd).2, hdel, k3, k4, k2, this, bind, Except.bind]

end

end Lev
