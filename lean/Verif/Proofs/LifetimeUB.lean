import Verif.Proofs.LifetimeRun
import Verif.Proofs.Alloc

/-!
Queries that outlive their transducer or their dictionary.
-/

namespace Lev

open Spec

section
variable {R : Type} {B : Backend SMem Nat} {iaddr : IMem Nat → Nat} {mem : Mem} {upd : Str → Nat → R}
  {Z : Nat → Prop}

/-! ### Without the dictionary -/

/-- Something is pending: the loop gets to a node that is gone. -/
theorem ptrLoop_noNodes_pending {mem' : Mem} (hdead : ∀ x, Z x → mem' x = none) (fuel : Nat) {m m' : SMem} {im im' : IMem Nat}
    {PQ PQ' : PQuery R} (hp : ∀ x ∈ PQ.pending, ∀ c, im.cell x = some c → Z c.node)
    (hes : ∀ c b, (c, b) ∈ PQ.edges → Z b) (hne : PQ.pending ≠ [])
    (e : ptrLoop B iaddr mem upd fuel m im PQ = .ok (m', im', PQ')) :
    ptrLoop B iaddr mem' upd fuel m im PQ = .error .ub := by
  induction fuel generalizing m im PQ with
  | zero => simp [ptrLoop] at e
  | succ fuel ih =>
    rw [ptrLoop] at e ⊢
    simp only [ptrIter] at e ⊢
    cases hed : PQ.edges with
    | nil =>
      simp only [hed] at e ⊢
      cases hpp : PQ.pending with
      | nil => simp only [hpp, bind, Except.bind] at e ⊢
      | cons a rest =>
        simp only [hpp, getInter, bind, Except.bind] at e ⊢
        cases hcell : im.cell a with
        | none => simp only [hcell] at e ⊢
        | some c =>
          simp only [hcell] at e ⊢
          cases hh : B.headIdx m c.state with
          | error er => simp [hh] at e
          | ok i =>
            simp only [deref, hdead _ (hp a (by simp [hpp]) c hcell)]
    | cons ed es =>
      obtain ⟨label, target⟩ := ed
      simp only [hed, getInter, bind, Except.bind] at e ⊢
      cases hcell : im.cell PQ.cur with
      | none => simp only [hcell] at e ⊢
      | some c =>
        simp only [hcell] at e ⊢
        cases hcv : charVec label PQ.term PQ.k PQ.i with
        | error er => simp [hcv] at e
        | ok cv =>
          simp only [hcv] at e ⊢
          cases htr : B.trans m c.state cv with
          | error er => simp [htr] at e
          | ok r =>
            obtain ⟨m1, next⟩ := r
            simp only [htr] at e ⊢
            cases next with
            | none =>
              have hcond : ¬ (es.isEmpty && PQ.pending.isEmpty) = true := by simp [hne]
              simp only [pure, Except.pure, Bool.false_eq_true, if_false, hcond] at e ⊢
              exact ih hp (fun c b hm => hes c b (by rw [hed]; exact List.mem_cons_of_mem _ hm)) hne e
            | some s =>
              simp only [deref, hdead _ (hes label target (by simp [hed]))]

theorem ptrAdvance_noNodes {mem' : Mem} (hdead : ∀ x, Z x → mem' x = none) (fuel : Nat) {m m' : SMem} {im im' : IMem Nat}
    {t : Nat} {PQ PQ' : PQuery R} {Q : Query Nat R} (h : QRel Z im t PQ Q)
    (e : ptrAdvance B iaddr mem upd fuel m im PQ = .ok (m', im', PQ')) (hn : PQ.pending ≠ []) :
    ptrAdvance B iaddr mem' upd fuel m im PQ = .error .ub := by
  unfold ptrAdvance at e ⊢
  have hc : ¬ (PQ.edges.isEmpty && PQ.pending.isEmpty) = true := by simp [hn]
  rw [if_neg hc] at e ⊢
  refine ptrLoop_noNodes_pending hdead fuel (Z := Z) ?_ h.targets hn e
  intro x hx c hcell
  obtain ⟨I, hI⟩ : ∃ I, IRep im t (t :: PQ.owned) x I := by
    have := h.pending
    clear hc e hn
    simp only at hx
    generalize PQ.pending = pp at this hx
    generalize Q.pending = qp at this
    induction this with
    | nil => cases hx
    | cons h1 _ ih =>
      rcases List.mem_cons.1 hx with rfl | hx
      · exact ⟨_, h1.1⟩
      · exact ih hx
  exact h.nodes x hI.own c hcell

/-! ### Without the transducer -/

/-- Memory without the intersection at `t`. -/
def cut (im : IMem Nat) (t : Nat) : IMem Nat := { im with cell := upd1 im.cell t none }

theorem cut_finite {im : IMem Nat} (h : im.Finite) (t : Nat) : (cut im t).Finite := by
  obtain ⟨L, h1, h2⟩ := h
  refine ⟨L, h1, fun a c hc => ?_⟩
  by_cases ha : a = t
  · subst ha; simp [cut] at hc
  · simp only [cut, upd1_ne _ _ ha] at hc
    exact h2 a c hc

/-- An allocator for memory with `t` that does what `iaddr` does without. -/
def beside (iaddr : IMem Nat → Nat) (t : Nat) (im : IMem Nat) : Nat :=
  if iaddr (cut im t) ≠ 0 ∧ (im.cell (iaddr (cut im t))).isNone then iaddr (cut im t) else firstFree im.cell im.count

theorem beside_alloc (iaddr : IMem Nat → Nat) (t : Nat) : IAlloc (beside iaddr t) := by
  intro im hf
  unfold beside
  split
  · rename_i h
    exact ⟨h.1, by simpa using h.2⟩
  · obtain ⟨L, h1, h2⟩ := hf
    exact ⟨by simp [firstFree], firstFree_free h1 h2⟩

theorem beside_eq (hI : IAlloc iaddr) {t : Nat} {im : IMem Nat} (hf : im.Finite) (hne : iaddr (cut im t) ≠ t) :
    beside iaddr t im = iaddr (cut im t) := by
  obtain ⟨h1, h2⟩ := hI (cut im t) (cut_finite hf t)
  have h3 : im.cell (iaddr (cut im t)) = none := by
    rw [← h2]; exact (upd1_ne _ _ hne).symm
  unfold beside
  rw [if_pos ⟨h1, by rw [h3]; rfl⟩]

theorem IRep.cut_str {im : IMem Nat} {t : Nat} {own : List Nat} {a : Nat} {I : Inter Nat} (h : IRep im t own a I) (fuel : Nat)
    (hf : I.depth < fuel) : interStr (cut im t) fuel a = .error .ub := by
  induction h generalizing fuel with
  | root h1 h2 =>
    obtain ⟨f, rfl⟩ : ∃ f, fuel = f + 1 := ⟨fuel - 1, by omega⟩
    simp [interStr, getInter, cut, bind, Except.bind]
  | @child a p l n s P h1 h2 h3 _ ih =>
    simp only [Inter.depth] at hf
    obtain ⟨f, rfl⟩ : ∃ f, fuel = f + 1 := ⟨fuel - 1, by omega⟩
    by_cases ha : a = t
    · subst ha
      simp [interStr, getInter, cut, bind, Except.bind]
    · have : (cut im t).cell a = some ⟨l, n, s, p⟩ := by simp only [cut, upd1_ne _ _ ha]; exact h2
      simp only [interStr, getInter, this, bind, Except.bind, h3, if_false, ih f (by omega)]

theorem ptrIter_cut (hI : IAlloc iaddr) {m m1 : SMem} {im im1 : IMem Nat} (hfin : im.Finite) {t : Nat} {PQ PQ1 : PQuery R}
    {Q : Query Nat R} {stop : Bool} (h : QRel Z im t PQ Q) (hcur : Q.edges ≠ [] → ∃ I, Q.cur = some I)
    (hne : iaddr (cut im t) ≠ t)
    (e : ptrIter B (beside iaddr t) mem upd m im PQ = .ok (m1, im1, PQ1, stop)) :
    (ptrIter B iaddr mem upd m (cut im t) PQ = .error .ub ∧ (stop = true ∨ t ∈ PQ.pending ∨ (PQ.edges ≠ [] ∧ PQ.cur = t))) ∨
      (stop = false ∧ ptrIter B iaddr mem upd m (cut im t) PQ = .ok (m1, cut im1 t, PQ1, false)) := by
  have hcell : ∀ x, x ≠ t → (cut im t).cell x = im.cell x := fun x hx => upd1_ne _ _ hx
  have hcut : (cut im t).cell t = none := by simp [cut]
  unfold ptrIter at e ⊢
  cases hed : PQ.edges with
  | nil =>
    simp only [hed] at e ⊢
    cases hpp : PQ.pending with
    | nil => simp [hpp] at e
    | cons a rest =>
      simp only [hpp] at e ⊢
      by_cases ha : a = t
      · left
        simp only [ha, getInter, hcut, bind, Except.bind, true_and]
        simp
      · simp only [getInter, hcell a ha] at e ⊢
        cases hc : im.cell a with
        | none => simp [hc, bind, Except.bind] at e
        | some c =>
          simp only [hc, bind, Except.bind] at e ⊢
          cases hh : B.headIdx m c.state with
          | error er => simp [hh] at e
          | ok i =>
            simp only [hh] at e ⊢
            cases hd : deref mem c.node with
            | error er => simp [hd] at e
            | ok nd =>
              simp only [hd, pure, Except.pure, Except.ok.injEq, Prod.mk.injEq] at e ⊢
              obtain ⟨rfl, rfl, rfl, rfl⟩ := e
              simp
  | cons ed es =>
    obtain ⟨label, target⟩ := ed
    simp only [hed] at e ⊢
    by_cases ha : PQ.cur = t
    · left
      simp only [ha, getInter, hcut, bind, Except.bind, true_and]
      simp
    · obtain ⟨I, hQI⟩ := hcur (by rw [← h.edges, hed]; simp)
      obtain ⟨hIrep, hdep⟩ := h.cur I hQI
      simp only [getInter, hcell _ ha] at e ⊢
      cases hc : im.cell PQ.cur with
      | none => simp [hc, bind, Except.bind] at e
      | some c =>
        simp only [hc, bind, Except.bind] at e ⊢
        cases hcv : charVec label PQ.term PQ.k PQ.i with
        | error er => simp [hcv] at e
        | ok cv =>
          simp only [hcv] at e ⊢
          cases htr : B.trans m c.state cv with
          | error er => simp [htr] at e
          | ok r =>
            obtain ⟨m2, next⟩ := r
            simp only [htr] at e ⊢
            cases next with
            | none =>
              simp only [pure, Except.pure, Except.ok.injEq, Prod.mk.injEq] at e ⊢
              obtain ⟨rfl, rfl, rfl, rfl⟩ := e
              simp
            | some s =>
              simp only at e ⊢
              generalize hci : ({ label := label, node := target, state := s, parent := PQ.cur } : ICell Nat) = ci at e ⊢
              have hb := beside_eq hI hfin hne
              have hnew : newInter iaddr ci (cut im t) =
                  ((newInter (beside iaddr t) ci im).1, cut (newInter (beside iaddr t) ci im).2 t) := by
                simp only [newInter, hb]
                clear hb
                generalize iaddr (cut im t) = j at hne ⊢
                refine Prod.ext rfl ?_
                simp only [cut, IMem.mk.injEq, and_true]
                funext x
                by_cases hx : x = t
                · subst hx
                  rw [upd1_ne _ _ (Ne.symm hne)]
                  simp
                · rw [upd1_ne _ _ hx]
                  by_cases hxj : x = j
                  · subst hxj
                    simp
                  · rw [upd1_ne _ _ hxj, upd1_ne _ _ hxj, upd1_ne _ _ hx]
              have hg := newInter_grow (beside_alloc iaddr t) hfin ci PQ.owned
              have hcl : (newInter (beside iaddr t) ci im).2.cell (newInter (beside iaddr t) ci im).1 = some ci := by
                simp [newInter]
              have hcount : (newInter (beside iaddr t) ci im).2.count = im.count + 1 := rfl
              rw [hnew]
              generalize newInter (beside iaddr t) ci im = w at e hg hcl hcount ⊢
              obtain ⟨j, im2⟩ := w
              simp only at e hg hcl hcount ⊢
              have hcurnz : PQ.cur ≠ 0 := by
                rcases List.mem_cons.1 hIrep.own with h' | h'
                · rw [h']; exact h.tnz
                · exact h.onz _ h'
              have hold : ∀ x ∈ t :: PQ.owned, im2.cell x = im.cell x := by
                intro x hx
                refine hg.same x fun hc' => ?_
                simp only [List.mem_singleton] at hc'
                subst hc'
                obtain ⟨c', hc'⟩ := h.alive x hx
                rw [(hg.fresh x (by simp)).2.1] at hc'; cases hc'
              have hJ : IRep im2 t (j :: t :: PQ.owned) j (.child label target s I) := by
                subst hci
                exact .child (by simp) hcl hcurnz (hIrep.mono (fun x hx => List.mem_cons_of_mem _ hx) hold)
              cases hd : deref mem target with
              | error er => simp [hd] at e
              | ok nd =>
                simp only [hd] at e ⊢
                split at e
                · rename_i hfn
                  rw [if_pos hfn]
                  cases hds : B.dist m2 s PQ.term.length with
                  | error er => simp [hds] at e
                  | ok d =>
                    simp only [hds] at e ⊢
                    split at e
                    · rename_i hle
                      left
                      rw [if_pos hle]
                      have : (cut im2 t).steps = im2.steps := rfl
                      rw [this, hJ.cut_str im2.steps (by simp only [Inter.depth, IMem.steps, hcount]; omega)]
                      simp only [pure, Except.pure] at e
                      cases hstr : interStr im2 im2.steps j with
                      | error er => simp [hstr] at e
                      | ok str =>
                        simp only [hstr, Except.ok.injEq, Prod.mk.injEq] at e
                        exact ⟨rfl, .inl e.2.2.2.symm⟩
                    · rename_i hle
                      rw [if_neg hle]
                      simp only [pure, Except.pure, Except.ok.injEq, Prod.mk.injEq] at e ⊢
                      obtain ⟨rfl, rfl, rfl, rfl⟩ := e
                      simp
                · rename_i hfn
                  rw [if_neg hfn]
                  simp only [pure, Except.pure, Except.ok.injEq, Prod.mk.injEq] at e ⊢
                  obtain ⟨rfl, rfl, rfl, rfl⟩ := e
                  simp

theorem queryIter_cur {m m1 : SMem} {Q Q1 : Query Nat R} {stop : Bool} (e : queryIter B mem upd m Q = .ok (m1, Q1, stop))
    (hed : Q.edges ≠ []) : ∃ I, Q.cur = some I := by
  unfold queryIter at e
  cases h : Q.edges with
  | nil => exact absurd h hed
  | cons ed es =>
    obtain ⟨l, b⟩ := ed
    simp only [h] at e
    cases hc : Q.cur with
    | none => simp [hc] at e
    | some I => exact ⟨I, rfl⟩

theorem queryIter_stop {m m1 : SMem} {Q Q1 : Query Nat R} (e : queryIter B mem upd m Q = .ok (m1, Q1, false)) :
    Q1.complete = Q.complete := by
  unfold queryIter at e
  cases h : Q.edges with
  | nil =>
    simp only [h] at e
    cases hp : Q.pending with
    | nil => simp [hp] at e
    | cons I rest =>
      simp only [hp, bind, Except.bind] at e
      split at e
      · cases e
      · split at e
        · cases e
        · simp only [pure, Except.pure, Except.ok.injEq, Prod.mk.injEq] at e
          rw [← e.2.1]
  | cons ed es =>
    obtain ⟨l, b⟩ := ed
    simp only [h] at e
    cases hc : Q.cur with
    | none => simp [hc] at e
    | some I =>
      simp only [hc, bind, Except.bind] at e
      split at e
      · cases e
      · split at e
        · cases e
        · split at e
          · simp only [pure, Except.pure, Except.ok.injEq, Prod.mk.injEq] at e
            rw [← e.2.1]
          · split at e
            · cases e
            · split at e
              · split at e
                · cases e
                · split at e
                  · simp [pure, Except.pure] at e
                  · simp only [pure, Except.pure, Except.ok.injEq, Prod.mk.injEq] at e
                    rw [← e.2.1]
              · simp only [pure, Except.pure, Except.ok.injEq, Prod.mk.injEq] at e
                rw [← e.2.1]

theorem ptrLoop_cut (hI : IAlloc iaddr) (hZ : Closed mem Z) (fuel : Nat) {m m' : SMem} {im : IMem Nat} (hfin : im.Finite)
    {t : Nat} {PQ : PQuery R} {Q Q' : Query Nat R} (h : QRel Z im t PQ Q)
    (hne : ∀ im', im.count ≤ im'.count → iaddr im' ≠ t) (hc : Q.complete = true)
    (e : queryLoop B mem upd fuel m Q = .ok (m', Q')) (hn : Q'.complete = false) :
    ptrLoop B iaddr mem upd fuel m (cut im t) PQ = .error .ub := by
  induction fuel generalizing m im PQ Q with
  | zero => simp [queryLoop] at e
  | succ fuel ih =>
    rw [queryLoop] at e
    cases hi : queryIter B mem upd m Q with
    | error er => rw [hi] at e; simp [bind, Except.bind] at e
    | ok r =>
      obtain ⟨m1, Q1, stop⟩ := r
      obtain ⟨im1, PQ1, new, e1, hrel, hg⟩ := ptrIter_sim (beside_alloc iaddr t) hZ hfin h hi
      rw [ptrLoop]
      rcases ptrIter_cut hI hfin h (queryIter_cur hi) (hne _ (Nat.le_refl _)) e1 with ⟨h1, _⟩ | ⟨rfl, h1⟩
      · rw [h1]; rfl
      · rw [h1]
        rw [hi] at e
        simp only [bind, Except.bind, Bool.false_eq_true, if_false] at e ⊢
        have hemp : PQ1.pending.isEmpty = Q1.pending.isEmpty := hrel.pending.isEmpty
        have hc1 := (queryIter_stop hi).trans hc
        rw [hrel.edges, hemp]
        split at e
        · simp only [pure, Except.pure, Except.ok.injEq, Prod.mk.injEq] at e
          obtain ⟨_, rfl⟩ := e
          rw [hc1] at hn; cases hn
        · rename_i hcond
          rw [if_neg hcond]
          exact ih (hg.finite hfin) hrel (fun im' h' => hne im' (Nat.le_trans hg.count h')) hc1 e

theorem ptrAdvance_cut (hI : IAlloc iaddr) (hZ : Closed mem Z) (fuel : Nat) {m m' : SMem} {im : IMem Nat} (hfin : im.Finite)
    {t : Nat} {PQ : PQuery R} {Q Q' : Query Nat R} (h : QRel Z im t PQ Q)
    (hne : ∀ im', im.count ≤ im'.count → iaddr im' ≠ t)
    (e : queryAdvance B mem upd fuel m Q = .ok (m', Q')) (hn : Q'.complete = false) :
    ptrAdvance B iaddr mem upd fuel m (cut im t) PQ = .error .ub := by
  unfold queryAdvance at e
  unfold ptrAdvance
  have hemp : (PQ.edges.isEmpty && PQ.pending.isEmpty) = (Q.edges.isEmpty && Q.pending.isEmpty) := by
    rw [h.edges, h.pending.isEmpty]
  split at e
  · simp only [pure, Except.pure, Except.ok.injEq, Prod.mk.injEq] at e
    obtain ⟨_, rfl⟩ := e
    cases hn
  · rename_i hc
    rw [if_neg (by rw [hemp]; exact hc)]
    exact ptrLoop_cut hI hZ fuel hfin h.mark hne rfl e hn

/-- The first iteration reads the intersection of the transducer. -/
theorem ptrAdvance_cut_root {m : SMem} {im : IMem Nat} {t fuel : Nat} {PQ : PQuery R}
    (h : (PQ.edges = [] ∧ ∃ rest, PQ.pending = t :: rest) ∨ (PQ.edges ≠ [] ∧ PQ.cur = t)) :
    ptrAdvance B iaddr mem upd (fuel + 1) m (cut im t) PQ = .error .ub := by
  unfold ptrAdvance
  have hcut : (cut im t).cell t = none := by simp [cut]
  rcases h with ⟨h1, rest, h2⟩ | ⟨h1, h2⟩
  · rw [if_neg (by simp [h2])]
    simp [ptrLoop, ptrIter, h1, h2, getInter, hcut, bind, Except.bind]
  · rw [if_neg (by simp [h1])]
    cases he : PQ.edges with
    | nil => exact absurd he h1
    | cons ed es =>
      obtain ⟨l, b⟩ := ed
      simp [ptrLoop, ptrIter, h2, getInter, hcut, bind, Except.bind]

end

section
variable {R : Type} {paddr saddr : SMem → Nat} {iaddr : IMem Nat → Nat} {first : Bool} {A : Algorithm}
  {upd : Str → Nat → R} {dflt : R} {mem : Mem} {root s0 : Nat} {sgn : Bool} {nd : DNode} {F : Forest}
  {h1 h2 : Heap} {d : SDawg} {m0 : SMem} {im0 : IMem Nat} {w : World R} {p : Done} {fuel : Nat}

theorem IRep.state {im : IMem Nat} {t : Nat} {own : List Nat} {a : Nat} {I : Inter Nat} (h : IRep im t own a I) :
    stateOf im a = I.state := by
  obtain ⟨c, h1, _, h2⟩ := h.cell
  simp [stateOf, h1, h2]

/-- What the query reads without the intersection of the transducer, if it has no further use for it. -/
theorem QueryAt.cut_inv {Z : Nat → Prop} {m m' : SMem} {im : IMem Nat} {t : Nat} {PQ : PQuery R} {Q : Query Nat R}
    {q : Str} {n k : Nat} (h : QueryAt A upd mem s0 nd F m q n k Q) (hr : QRel Z im t PQ Q)
    (hs : ∀ x ∈ PQ.owned, ∀ l, HRep m (stateOf im x) l → HRep m' (stateOf im x) l)
    (hp : t ∉ PQ.pending) (hcu : ¬ (PQ.edges ≠ [] ∧ PQ.cur = t)) :
    ∃ P ch, QueryInv A n q HRep mem s0 F.height m' Q P ch ∧ (allOut A n q nd F).drop (k + 1) = outOf A n q P ch ∧
      workOf P ch ≤ F.wt + 1 ∧ QueryFits n q ∧ n < 2 ^ 64 := by
  obtain ⟨P, ch, hq1, hq2, hq, hn, _, hq3⟩ := h
  have hown : ∀ x I, IRep im t (t :: PQ.owned) x I → x ≠ t → I.state ∈ Q.owned ∧
      ∀ l, HRep m I.state l → HRep m' I.state l := by
    intro x I hI hx
    have hxo : x ∈ PQ.owned := by
      rcases List.mem_cons.1 hI.own with h' | h'
      · exact absurd h' hx
      · exact h'
    rw [← hI.state]
    exact ⟨by rw [hr.owned]; exact List.mem_map_of_mem hxo, hs x hxo⟩
  have hpend : ∀ I ∈ Q.pending, ∃ x, IRep im t (t :: PQ.owned) x I ∧ x ≠ t := by
    have := hr.pending
    generalize PQ.pending = pp at this hp
    generalize Q.pending = qp at this
    clear hq1
    induction this with
    | nil => intro I hI; cases hI
    | cons g1 _ ih =>
      intro I hI
      simp only [List.mem_cons, not_or] at hp
      rcases List.mem_cons.1 hI with rfl | hI
      · exact ⟨_, g1.1, fun h' => hp.1 h'.symm⟩
      · exact ih hp.2 I hI
  have hinv : QueryInv A n q HRep mem s0 F.height m' Q P ch := by
    refine ⟨hq1.term, hq1.maxD, hq1.a, ?_, ?_, ?_⟩
    · refine forall₂_imp_mem hq1.pending fun I hI it hit => hit.frame ?_
      obtain ⟨x, g1, g2⟩ := hpend I hI
      exact (hown x I g1 g2).2
    · intro I hI
      obtain ⟨x, g1, g2⟩ := hpend I hI
      exact .inr (hown x I g1 g2).1
    · rcases hq1.cur with g | ⟨I, it, F', hd, tl, g1, g2, g3, g4, g5, g6, g7, g8⟩
      · exact .inl g
      · by_cases hed : PQ.edges = []
        · left
          rw [hr.edges] at hed
          rw [hed] at g4
          cases g4
          exact ⟨hed, by rw [g5]; rfl⟩
        · right
          have hx : PQ.cur ≠ t := fun h' => hcu ⟨hed, h'⟩
          obtain ⟨j1, j2⟩ := hown _ _ (hr.cur I g1).1 hx
          exact ⟨I, it, F', hd, tl, g1, g2.frame j2, .inr j1, g4, g5, g6, j2 _ g7, g8⟩
  refine ⟨P, ch, hinv, ?_, hq2, hq, hn⟩
  rw [← List.drop_drop]
  rcases hq3 with ⟨_, t, d, h4, _⟩ | ⟨_, h4, rfl, rfl⟩
  · rw [h4]; rfl
  · rw [h4, outOf_nil]; rfl

/-- Advancing a query whose transducer is gone. -/
theorem QueryAt.advance_cut (hA : SAlloc paddr saddr) (hI : IAlloc iaddr) (ht : Tree sgn mem root nd F) {Z : Nat → Prop}
    (hZ : Closed mem Z) {m m' : SMem} {im : IMem Nat} (hfin : im.Finite) {t : Nat} {PQ : PQuery R} {Q : Query Nat R}
    {q : Str} {n k : Nat} (h : QueryAt A upd mem s0 nd F m q n k Q) (hr : QRel Z im t PQ Q) (hf : F.wt + 3 ≤ fuel)
    (hne : ∀ im', im.count ≤ im'.count → iaddr im' ≠ t)
    (hs : ∀ x ∈ PQ.owned, ∀ l, HRep m (stateOf im x) l → HRep m' (stateOf im x) l)
    (hmore : (allOut A n q nd F).drop (k + 1) ≠ []) :
    ptrAdvance (heapBackend paddr saddr first A PQ.maxD PQ.term.length) iaddr mem upd fuel m' (cut im t) PQ = .error .ub := by
  obtain ⟨fuel', rfl⟩ : ∃ f, fuel = f + 1 := ⟨fuel - 1, by omega⟩
  by_cases hp : t ∈ PQ.pending
  · obtain ⟨h1, h2⟩ := hr.rootFirst hp
    exact ptrAdvance_cut_root (.inl ⟨h2, [], h1⟩)
  by_cases hcu : PQ.edges ≠ [] ∧ PQ.cur = t
  · exact ptrAdvance_cut_root (.inr hcu)
  obtain ⟨P, ch, hinv, hdrop, hq2, hq, hn⟩ := h.cut_inv hr hs hp hcu
  obtain ⟨m2, Q2, P2, ch2, e, hinv2, hgrow, hadv⟩ := queryAdvance_spec (upd := upd)
    (heapBackend_ok hA first A n q.length) (by have := sizeMax_val; omega) hq ht.height (fuel' + 1) hinv (by omega)
  rw [hdrop] at hmore
  rw [hr.maxD, hr.term, hinv.maxD, hinv.term]
  refine ptrAdvance_cut hI hZ (fuel' + 1) hfin hr hne e ?_
  rcases hadv with ⟨a1, _⟩ | ⟨_, a2, _⟩
  · exact a1
  · exact absurd a2 hmore

/-- Destroying the transducer of a query leaves the query without the intersection at its root. -/
theorem LifeInv.dropTransducer_cut
    (h : LifeInv upd root nd F m0 im0 h1 h2 d p w) {i t a : Nat} {q : Str} {n : Nat} {A : Algorithm}
    (hi : p.started[i]? = some (t, q, n)) (hdq : ¬ p.dq i) (hdt : ¬ p.dt t)
    (ha : w.ts[t]? = some (some (A, a))) :
    ∃ w' PQ Q, lifeStep paddr saddr iaddr first upd dflt root fuel (.dropTransducer t) w = .ok w' ∧
      (w'.heap = w.heap ∧ w'.dict = w.dict) ∧ w'.im = cut w.im a ∧ w'.qs = w.qs ∧ w.qs[i]? = some (some (A, PQ)) ∧
      QRel (Reaches h1.mem root) w.im a PQ Q ∧ QueryAt A upd h1.mem (stateOf w.im a) nd F w.sm q n (p.cnt i) Q ∧
      (∀ x ∈ PQ.owned, ∀ l, HRep w.sm (stateOf w.im x) l → HRep w'.sm (stateOf w.im x) l) := by
  obtain ⟨A', PQ, g1, g2, g3, g4⟩ := h.qlive i t q n hi hdq
  obtain ⟨a', Q, k1, k2, k3⟩ := g4 hdt
  rw [ha] at k1
  simp only [Option.some.injEq, Prod.mk.injEq] at k1
  obtain ⟨rfl, rfl⟩ := k1
  obtain ⟨l, r, hT, hlen, hset⟩ := split_at ha
  have hperm : (tOwned w.ts ++ qOwned w.qs).Perm ([a] ++ ((tOwned l ++ tOwned r) ++ qOwned w.qs)) := by
    have : tOwned w.ts = tOwned l ++ ([a] ++ tOwned r) := by rw [hT]; simp [tOwned]
    rw [this, ← List.append_assoc [a]]
    refine List.Perm.append_right _ ?_
    rw [← List.append_assoc, ← List.append_assoc]
    exact List.perm_append_comm.append_right _
  obtain ⟨m', im', e, hacc, hk, hc, hs'⟩ := (h.acc.perm hperm).delete
  have him : im' = cut w.im a := by
    simp only [deleteInter] at e
    split at e
    · rename_i h0
      exact absurd h0 k2.tnz
    · simp only [bind, Except.bind] at e
      split at e
      · cases e
      · split at e
        · cases e
        · simp only [Except.ok.injEq, Prod.mk.injEq] at e
          exact e.2.symm
  subst him
  refine ⟨{ w with sm := m', im := cut w.im a, ts := w.ts.set t none }, PQ, Q,
    by simp only [lifeStep, ha, e, bind, Except.bind], ⟨rfl, rfl⟩, rfl, rfl, g2, k2, k3, ?_⟩
  rintro x hx l' ⟨_, c, j1, j2⟩
  exact ⟨hacc.states.finite, c, hs' x (by simp [mem_qOwned g2 hx]) c j1, j2⟩

theorem LifeInv.next_noTransducer (hA : SAlloc paddr saddr) (hI : IAlloc iaddr) (ht : Tree sgn h1.mem root nd F)
    (hZ : Closed h1.mem (Reaches h1.mem root))
    (h : LifeInv upd root nd F m0 im0 h1 h2 d p w) (hf : F.wt + 3 ≤ fuel) {i t a : Nat} {q : Str} {n : Nat} {A : Algorithm}
    (hi : p.started[i]? = some (t, q, n)) (hdq : ¬ p.dq i) (hdt : ¬ p.dt t) (hdd : ¬ p.dd)
    (ha : w.ts[t]? = some (some (A, a))) (hne : ∀ im', w.im.count ≤ im'.count → iaddr im' ≠ a)
    (hmore : (allOut A n q nd F).drop (p.cnt i + 1) ≠ []) :
    ∃ w', lifeStep paddr saddr iaddr first upd dflt root fuel (.dropTransducer t) w = .ok w' ∧
      lifeStep paddr saddr iaddr first upd dflt root fuel (.next i) w' = .error .ub := by
  obtain ⟨w', PQ, Q, e, k1, k2, k3, k4, k5, k6, k7⟩ := h.dropTransducer_cut (paddr := paddr) (saddr := saddr) (iaddr := iaddr)
    (first := first) (dflt := dflt) (fuel := fuel) hi hdq hdt ha
  rw [(h.dict hdd).1] at k1
  replace k1 := k1.1
  refine ⟨w', e, ?_⟩
  have := k6.advance_cut (first := first) (A := A) (m' := w'.sm) hA hI ht hZ h.acc.finite k5 hf hne k7 hmore
  simp only [lifeStep, k3, k4, k1, k2, this, bind, Except.bind]

/-- A query that shows a candidate has something pending. -/
theorem QueryAt.pending_ne {m : SMem} {im : IMem Nat} {t : Nat} {PQ : PQuery R} {Q : Query Nat R} {q : Str} {n k : Nat}
    {Z : Nat → Prop} (h : QueryAt A upd mem s0 nd F m q n k Q) (hr : QRel Z im t PQ Q)
    (hmore : (allOut A n q nd F).drop k ≠ []) : PQ.pending ≠ [] := by
  obtain ⟨P, ch, _, _, _, _, ⟨ws, _, _, h1⟩, h2⟩ := h
  rcases h2 with ⟨h2, _⟩ | ⟨_, h2, _⟩
  · obtain ⟨_, _, _, _, _, r, h3⟩ := h1 h2
    intro h4
    have h5 := hr.pending.isEmpty
    rw [h4] at h5
    rcases h3 with ⟨h3, _⟩ | ⟨_, _, _, _, _, _, h3, _⟩
    · rw [h3] at h5; simp at h5
    · rw [h3] at h5; simp at h5
  · exact absurd h2 hmore

theorem LifeInv.next_noDictionary (hA : SAlloc paddr saddr) (hI : IAlloc iaddr) (ht : Tree sgn h1.mem root nd F)
    (hZ : Closed h1.mem (Reaches h1.mem root)) (hdead : ∀ x, Reaches h1.mem root x → h2.mem x = none)
    (h : LifeInv upd root nd F m0 im0 h1 h2 d p w) (hf : F.wt + 3 ≤ fuel) {i t : Nat} {q : Str} {n : Nat} {A : Algorithm}
    (hi : p.started[i]? = some (t, q, n)) (hm : p.made[t]? = some A) (hdq : ¬ p.dq i) (hdt : ¬ p.dt t) (hdd : p.dd)
    (hmore : (allOut A n q nd F).drop (p.cnt i) ≠ []) :
    lifeStep paddr saddr iaddr first upd dflt root fuel (.next i) w = .error .ub := by
  obtain ⟨A', PQ, g1, g2, g3, g4⟩ := h.qlive i t q n hi hdq
  rw [hm] at g1
  obtain rfl := Option.some.inj g1
  obtain ⟨a, Q, k1, k2, k3⟩ := g4 hdt
  obtain ⟨m', Q', e, hqa, hgrow⟩ := k3.advance (first := first) hA ht hf
  obtain ⟨im', PQ', new, e', hrel, hg⟩ := ptrAdvance_sim hI hZ fuel h.acc.finite k2 e
  have := ptrAdvance_noNodes hdead fuel k2 e' (k3.pending_ne k2 hmore)
  simp only [lifeStep, g2, (h.nodict hdd).1, k2.maxD, k2.term, this, bind, Except.bind]

/-- A query that is complete refers to nothing. -/
theorem LifeInv.next_complete (h : LifeInv upd root nd F m0 im0 h1 h2 d p w) {i t : Nat} {q : Str} {n : Nat} {A : Algorithm}
    (hi : p.started[i]? = some (t, q, n)) (hm : p.made[t]? = some A) (hdq : ¬ p.dq i)
    (hdone : (allOut A n q nd F).drop (p.cnt i) = []) :
    lifeStep paddr saddr iaddr first upd dflt root fuel (.next i) w = .ok w := by
  obtain ⟨A', PQ, g1, g2, g3, g4⟩ := h.qlive i t q n hi hdq
  rw [hm] at g1
  obtain rfl := Option.some.inj g1
  rcases g3 with ⟨_, _, t', d', r, h3, _⟩ | ⟨h3, _, h4, h5⟩
  · rw [hdone] at h3; cases h3
  · have hPQ : { PQ with complete := true } = PQ := by
      cases PQ; simp only at h3; subst h3; rfl
    have hadv : ∀ (B : Backend SMem Nat), ptrAdvance B iaddr w.heap.mem upd fuel w.sm w.im PQ = .ok (w.sm, w.im, PQ) := by
      intro B
      unfold ptrAdvance
      rw [if_pos (by simp [h4, h5]), hPQ]
      rfl
    have hself : w.qs.set i (some (A, PQ)) = w.qs := by
      obtain ⟨l, r, e1, e2, e3⟩ := split_at g2
      rw [e3]; exact e1.symm
    simp only [lifeStep, g2, hadv, bind, Except.bind, hself]

/-! ### Copies -/

theorem deleteInters_dead {m : SMem} {im : IMem Nat} {a : Nat} {O : List Nat} (h0 : a ≠ 0) (h : im.cell a = none) :
    deleteInters (a :: O) m im = .error .ub := by
  simp [deleteInters, deleteInter, h0, getInter, h, bind, Except.bind]

theorem LifeInv.copyQuery (h : LifeInv upd root nd F m0 im0 h1 h2 d p w) {i : Nat} {A : Algorithm} {PQ : PQuery R}
    (hi : w.qs[i]? = some (some (A, PQ))) :
    (PQ.owned ≠ [] → lifeRun paddr saddr iaddr first upd dflt root fuel [.copy i, .dropQuery i, .dropQuery w.qs.length] w =
      .error .ub) ∧
    (PQ.owned = [] → ∃ w', lifeRun paddr saddr iaddr first upd dflt root fuel [.copy i, .dropQuery i, .dropQuery w.qs.length] w =
      .ok w' ∧ w'.sm = w.sm ∧ w'.im = w.im) := by
  have hlt := (List.getElem?_eq_some_iff.1 hi).1
  have g1 : (w.qs ++ [some (A, PQ)])[i]? = some (some (A, PQ)) := by
    rw [List.getElem?_append_left hlt]; exact hi
  have g2 : ((w.qs ++ [some (A, PQ)]).set i none)[w.qs.length]? = some (some (A, PQ)) := by
    rw [List.getElem?_set_ne (by omega), List.getElem?_append_right (Nat.le_refl _)]
    simp
  constructor
  · intro hne
    obtain ⟨l, r, hT, hlen, hset⟩ := split_at hi
    have hperm : (tOwned w.ts ++ qOwned w.qs).Perm (PQ.owned ++ (tOwned w.ts ++ (qOwned l ++ qOwned r))) :=
      (qOwned_split hT _).trans List.perm_append_comm
    have hacc := h.acc.perm hperm
    obtain ⟨m', im', e, hacc', _⟩ := hacc.destroy
    cases ho : PQ.owned with
    | nil => exact absurd ho hne
    | cons a O =>
      obtain ⟨j1, j2, _⟩ := hacc.own a (by simp [ho])
      have hnd := (List.nodup_append.1 hacc.nodup).2.2
      have hdead : im'.cell a = none := by
        rw [hacc'.same a fun hc => hnd a (by simp [ho]) a hc rfl]; exact j2
      rw [ho] at e
      simp only [lifeRun, lifeStep, hi, g1, g2, ho, e, deleteInters_dead j1 hdead, bind, Except.bind]
  · intro ho
    exact ⟨{ w with qs := ((w.qs ++ [some (A, PQ)]).set i none).set w.qs.length none },
      by simp only [lifeRun, lifeStep, hi, g1, g2, ho, deleteInters, bind, Except.bind], rfl, rfl⟩

theorem LifeInv.copyTransducer (h : LifeInv upd root nd F m0 im0 h1 h2 d p w) {t : Nat} {A : Algorithm} {a : Nat}
    (hi : w.ts[t]? = some (some (A, a))) :
    lifeRun paddr saddr iaddr first upd dflt root fuel [.copyTransducer t, .dropTransducer t, .dropTransducer w.ts.length] w =
      .error .ub := by
  have hlt := (List.getElem?_eq_some_iff.1 hi).1
  have g1 : (w.ts ++ [some (A, a)])[t]? = some (some (A, a)) := by
    rw [List.getElem?_append_left hlt]; exact hi
  have g2 : ((w.ts ++ [some (A, a)]).set t none)[w.ts.length]? = some (some (A, a)) := by
    rw [List.getElem?_set_ne (by omega), List.getElem?_append_right (Nat.le_refl _)]
    simp
  obtain ⟨l, r, hT, hlen, hset⟩ := split_at hi
  have hperm : (tOwned w.ts ++ qOwned w.qs).Perm (a :: ((tOwned l ++ tOwned r) ++ qOwned w.qs)) := by
    have : tOwned w.ts = tOwned l ++ ([a] ++ tOwned r) := by rw [hT]; simp [tOwned]
    rw [this, ← List.singleton_append (l := (tOwned l ++ tOwned r) ++ qOwned w.qs), ← List.append_assoc [a]]
    refine List.Perm.append_right _ ?_
    rw [← List.append_assoc, ← List.append_assoc]
    exact List.perm_append_comm.append_right _
  have hacc := h.acc.perm hperm
  obtain ⟨m', im', e, hacc', _⟩ := hacc.delete
  obtain ⟨j1, j2, _⟩ := hacc.own a (by simp)
  have hdead : im'.cell a = none := by
    rw [hacc'.same a fun hc => (List.nodup_cons.1 hacc.nodup).1 hc]; exact j2
  have h2 : deleteInter a m' im' = .error .ub := by
    simp [deleteInter, j1, getInter, hdead, bind, Except.bind]
  simp only [lifeRun, lifeStep, hi, g1, g2, e, h2, bind, Except.bind]

end

end Lev
