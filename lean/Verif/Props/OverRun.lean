import Verif.Proofs.OverEnd
import Verif.Props.AnyOrder
import Verif.Props.Resume
import Verif.Spec.Second

/-!
`add` and `finish` in any order on a dictionary that already has words: the old root `o` lies over the new one, and `X` are
the nodes that were freed when edges of the old root were overwritten.
-/

namespace Lev.Props

open Lev Spec

section
variable {sgn : Bool} {addr : Nat → Nat} {c0 : Nat} {m0 : Mem} {L : Nat} {s : Draft} {h : Heap} {d : SDawg} {o : DNode} {X : List Nat}

theorem _root_.Lev.Freed.gone {m : Mem} {r : Nat} (hX : Freed m r o X) (fl : List Nat) : GoneOk o fl X := by
  intro a ha
  obtain ⟨c, hc, _⟩ := (hX.mem a).1 ha
  exact .inr ⟨c, hc⟩

theorem DraftedE.finishOver (haddr : AddrOk addr) (ho : OldOk sgn addr c0 m0 o) (hw : DraftedE sgn addr c0 m0 L s h d)
    (hX : Freed h.mem (addr c0) o X) :
    ∃ h' d', Ends (fun fuel => finishDawg sgn fuel h d) (h', d') ∧ DraftedE sgn addr c0 m0 L { s with path := [] } h' d' ∧
      ((∃ X', Freed h'.mem (addr c0) o X' ∧ Ends (fun fuel => finishDawg sgn fuel ((liftH sgn (addr c0) o h).without X) d)
          ((liftH sgn (addr c0) o h').without X', d')) ∨
        (Twice o (· ∈ s.words) ∧ ∃ N, ∀ fuel, N ≤ fuel →
          finishDawg sgn fuel ((liftH sgn (addr c0) o h).without X) d = .error .ub)) := by
  obtain ⟨h', d', hrun, hw'⟩ := hw.finish haddr
  obtain ⟨reg, st, fl, fs, rf, Z, hw⟩ := hw
  obtain ⟨h1, d1, _, _, _, _, _, ⟨N1, r1⟩, _, hcase⟩ := hw.site.loopExact haddr ho st.length 0 hw.good hw.full (Nat.le_refl _) hX
  have hrun1 : Ends (fun fuel => finishDawg sgn fuel h d) (h1, d1) := by
    refine ⟨N1, fun fuel hf => ?_⟩
    have := r1 fuel hf
    simp only [minimizeLoopF_none] at this
    obtain ⟨a, e1, e2⟩ := map_ok this
    simp only [finishDawg, minimize, hw.site.unchecked, Nat.sub_zero, e1]
    cases e2; rfl
  have heq := hrun.unique hrun1
  simp only [Prod.mk.injEq] at heq
  obtain ⟨rfl, rfl⟩ := heq
  refine ⟨h', d', hrun, hw', ?_⟩
  rcases hcase with ⟨X', hX', N2, r2⟩ | ⟨htw, N2, r2⟩
  · refine .inl ⟨X', hX', N2, fun fuel hf => ?_⟩
    have := r2 fuel hf
    simp only [minimizeLoopF_none] at this
    obtain ⟨a, e1, e2⟩ := map_ok this
    simp only [Prod.mk.injEq, and_true] at e2
    simp only [finishDawg, minimize, hw.site.unchecked, Nat.sub_zero, e1]
    exact congrArg _ (Prod.ext e2.1 e2.2)
  · refine .inr ⟨htw.mono fun t => (hw.lang t).1, N2, fun fuel hf => ?_⟩
    have := r2 fuel hf
    rw [minimizeLoopF_none] at this
    have := map_err this
    simp only [finishDawg, minimize, hw.site.unchecked, Nat.sub_zero, this]

theorem DraftedE.addOver (haddr : AddrOk addr) (ho : OldOk sgn addr c0 m0 o) (hw : DraftedE sgn addr c0 m0 L s h d)
    (hX : Freed h.mem (addr c0) o X) (t : Str) (hL : t.length ≤ L) (hlt : ¬ strLess t s.prev) :
    ∃ h' d', Ends (fun fuel => addTerm sgn addr fuel t h d) (true, h', d') ∧
      (s.taken t = false ∧ DraftedE sgn addr c0 m0 L (s.push t) h' d' ∨ s.taken t = true ∧ Doomed sgn addr c0 m0 h' d') ∧
      ((∃ X', Freed h'.mem (addr c0) o X' ∧ Ends (fun fuel => addTerm sgn addr fuel t ((liftH sgn (addr c0) o h).without X) d)
          (true, (liftH sgn (addr c0) o h').without X', d')) ∨
        (Twice o (· ∈ s.words) ∧ ∃ N, ∀ fuel, N ≤ fuel →
          addTerm sgn addr fuel t ((liftH sgn (addr c0) o h).without X) d = .error .ub)) := by
  obtain ⟨h', d', hrun, hafter⟩ := hw.add haddr t hL hlt
  refine ⟨h', d', hrun, hafter, ?_⟩
  obtain ⟨reg, st, fl, fs, rf, Z, hw⟩ := hw
  have hltF : strLt t d.prev = false := by rw [hw.prev]; exact (strLt_false_iff _ _).2 hlt
  -- the nodes that the stack goes along are not freed
  have hfresh : ∀ {h1 : Heap} {X1 : List Nat}, Freed h1.mem (addr c0) o X1 → c0 ≤ h1.count → ∀ a ∈ X1, ∀ j, h1.count ≤ j → addr j ≠ a := by
    intro h1 X1 hX1 hb a ha j hj
    obtain ⟨c, hc, _⟩ := (hX1.mem a).1 ha
    exact (ho.edges c a hc).2.2 j (by omega)
  by_cases ht : t = []
  · subst ht
    have hp0 : s.prev = [] := by
      cases hl : s.prev with
      | nil => rfl
      | cons x l => rw [hl] at hlt; exact absurd .nil hlt
    have hst : st = [] := by
      have h1 := hw.short
      rw [hp0, ← hw.path, ← hw.site.pathLength] at h1
      exact List.length_eq_zero_iff.1 (by simpa using h1)
    subst hst
    obtain ⟨h1, hrun1, _, _⟩ := hw.site.setFinal haddr
    have hrun1' : Lev.setFinal d.root h = .ok h1 := hrun1
    have hrun2 : Ends (fun fuel => addTerm sgn addr fuel [] h d) (true, h1, { d with prev := [], size := d.size + 1 }) :=
      .of_eq fun fuel => by simp [addTerm, hltF, hrun1', bind, Except.bind]
    have heq := hrun.unique hrun2
    simp only [Prod.mk.injEq, true_and] at heq
    obtain ⟨rfl, rfl⟩ := heq
    left
    refine ⟨X, hX.setFinal hrun1', .of_eq fun fuel => ?_⟩
    have hroot : d.root ∉ X := by
      intro h'
      obtain ⟨j, h1, h2, h3⟩ := (hw.site.stackRange _ (topNode_mem d.root [])).1
      exact hX.out ho h _ h' ⟨j, h1, h2, h3⟩
    have := (setFinal_over (sgn := sgn) (o := o) (r := addr c0) hrun1' X).2 hroot
    simp [addTerm, hltF, this, bind, Except.bind]
  · have hi : commonPrefix t d.prev = commonLen t s.prev := by rw [hw.prev, commonPrefix_eq]
    obtain ⟨h1, d1, reg1, st1, fs1, rf1, Z1, ⟨N1, r1⟩, hc1, hcase⟩ :=
      hw.site.loopExact haddr ho (st.length - commonLen t s.prev) 0 hw.good hw.full (by omega) hX
    obtain ⟨h2, d2, st2, fl2, hc2, _, hroot2, hpush, hpushX⟩ := hc1.pushOver haddr o (s.rest t) 0
    obtain ⟨h3, hrun3, hc3, _⟩ := hc2.setFinal haddr
    have hsrc := suffixSource_eq hc1.unchecked
    have hmk : ∀ {h h1 h2 h3 : Heap} {fuel : Nat},
        minimizeLoopF sgn fuel none (st.length - commonLen t s.prev) 0 h d = .ok (h1, d1, false) →
        pushSuffixF addr none 0 (topNode d1.root st1) (s.rest t) h1 d1 = .ok (some (topNode d2.root st2), h2, d2) →
        Lev.setFinal (topNode d2.root st2) h2 = .ok h3 →
        addTerm sgn addr fuel t h d = .ok (true, h3, { d2 with prev := t, size := d2.size + 1 }) := by
      intro h h1 h2 h3 fuel e1 e2 e3
      have e2' : pushSuffixF addr none 0 (topNode d1.root st1) (t.drop (commonLen t s.prev)) h1 d1 =
        .ok (some (topNode d2.root st2), h2, d2) := e2
      have e4 : addTermF sgn addr fuel none t h d = .ok (.added, h3, { d2 with prev := t, size := d2.size + 1 }) := by
        simp [addTermF, hltF, ht, minimizeF, hw.site.unchecked, hi, e1, bind, Except.bind, hsrc, e2', e3, pure, Except.pure]
      rw [addTermF_none] at e4
      obtain ⟨⟨b, x⟩, e4, e5⟩ := map_ok e4
      simp only [Prod.mk.injEq] at e5
      obtain ⟨e5, e6⟩ := e5
      have hb : b = true := fateOf_inj e5
      subst hb
      rw [e4]
      congr 2
      exact Prod.ext e6.1 e6.2
    have hrun2 : Ends (fun fuel => addTerm sgn addr fuel t h d) (true, h3, { d2 with prev := t, size := d2.size + 1 }) :=
      ⟨N1, fun fuel hf => hmk (r1 fuel hf) hpush hrun3⟩
    have heq := hrun.unique hrun2
    simp only [Prod.mk.injEq, true_and] at heq
    obtain ⟨rfl, rfl⟩ := heq
    rcases hcase with ⟨X1, hX1, N2, r2⟩ | ⟨htw, N2, r2⟩
    · left
      refine ⟨X1, (hX1.same hroot2).setFinal hrun3, N2, fun fuel hf => ?_⟩
      have hbase := hc1.heap.base
      refine hmk (r2 fuel hf) (hpushX X1 (hfresh hX1 (by omega))) ((setFinal_over hrun3 X1).2 fun h' => ?_)
      exact hX1.out ho h2 _ h' (hc2.stackRange _ (topNode_mem _ _)).1
    · right
      refine ⟨htw.mono fun t => (hw.lang t).1, N2, fun fuel hf => ?_⟩
      have e := r2 fuel hf
      have e4 : addTermF sgn addr fuel none t ((liftH sgn (addr c0) o h).without X) d = .error .ub := by
        simp [addTermF, hltF, ht, minimizeF, hw.site.unchecked, hi, e, bind, Except.bind]
      rw [addTermF_none] at e4
      exact map_err e4

theorem Site.runLost (haddr : AddrOk addr) (ho : OldOk sgn addr c0 m0 o) (ops : List BuildOp) {h : Heap} {d : SDawg}
    {reg : List RegEntry} {st : List Trans} {fl lk : List Nat} {fs : List (UInt8 × Frame)} {rf : Frame}
    {Z : Nat → Prop} (hc : Site sgn addr c0 m0 h d reg st fl lk fs rf Z) (hs : st.length ≤ d.prev.length) :
    ∃ N, ∀ X : List Nat, GoneOk o fl X → Spoilt fl X fs rf → ∀ fuel, N ≤ fuel → (do
      let (_, h, d) ← buildRun sgn addr fuel ops ((liftH sgn (addr c0) o h).without X) d
      closeRun sgn fuel h d) = .error .ub := by
  induction ops generalizing h d reg st fl fs rf Z with
  | nil =>
    obtain ⟨N, hN⟩ := hc.doomLost haddr ho
    refine ⟨N, fun X hX hcl fuel hf => ?_⟩
    have := hN X hX hcl fuel hf
    rw [finishF_none] at this
    simp only [buildRun, closeRun, bind, Except.bind] at this ⊢
    cases hf : finishDawg sgn fuel ((liftH sgn (addr c0) o h).without X) d with
    | error e => rw [hf] at this; simpa [Except.map] using this
    | ok r => rw [hf] at this; simpa [Except.map] using this
  | cons op ops ih =>
    cases op with
    | finish =>
      obtain ⟨N1, h1, d1, reg1, fs1, rf1, Z1, hc1, hloop⟩ := hc.loopLost haddr ho st.length 0 (Nat.le_refl _)
      obtain ⟨N2, hN2⟩ := ih hc1 (by simp)
      refine ⟨max N1 N2, fun X hX hcl fuel hf => ?_⟩
      rcases hloop X hX hcl fuel (by omega) with e | ⟨X1, e, hX1, hcl1⟩
      · rw [minimizeLoopF_none] at e
        have := map_err e
        simp [buildRun, finishDawg, minimize, hc.unchecked, this, bind, Except.bind]
      · rw [minimizeLoopF_none] at e
        obtain ⟨⟨a, b⟩, e1, e2⟩ := map_ok e
        simp only [Prod.mk.injEq, and_true] at e2
        obtain ⟨rfl, rfl⟩ := e2
        have := hN2 X1 hX1 hcl1 fuel (by omega)
        simpa [buildRun, finishDawg, minimize, hc.unchecked, e1, bind, Except.bind] using this
    | add t =>
      obtain ⟨N1, fate, h1, d1, reg1, st1, fl1, fs1, rf1, Z1, hc1, hs1, hadd⟩ := hc.addLost haddr ho t hs
      obtain ⟨N2, hN2⟩ := ih hc1 hs1
      refine ⟨max N1 N2, fun X hX hcl fuel hf => ?_⟩
      rcases hadd X hX hcl fuel (by omega) with e | ⟨X1, e, hX1, hcl1⟩
      · rw [addTermF_none] at e
        have := map_err e
        simp [buildRun, this, bind, Except.bind]
      · rw [addTermF_none] at e
        obtain ⟨r, e1, e2⟩ := map_ok e
        simp only [Prod.mk.injEq] at e2
        obtain ⟨_, e3, e4⟩ := e2
        have := hN2 X1 hX1 hcl1 fuel (by omega)
        rw [← e3, ← e4] at this
        simp only [buildRun, e1, bind, Except.bind] at this ⊢
        cases hb : buildRun sgn addr fuel ops r.2.1 r.2.2 with
        | error e => rw [hb] at this; exact this
        | ok r => rw [hb] at this; exact this

/-- The calls, from a dictionary whose words are known. -/
theorem DraftedE.runOver (haddr : AddrOk addr) (ho : OldOk sgn addr c0 m0 o) (ops : List BuildOp)
    (hL : ∀ t, BuildOp.add t ∈ ops → t.length ≤ L)
    (hw : DraftedE sgn addr c0 m0 L s h d) (hX : Freed h.mem (addr c0) o X) :
    (∀ bs s', s.run ops = some (bs, s') →
      ∃ h' d', DraftedE sgn addr c0 m0 L s' h' d' ∧
        ((∃ X', Freed h'.mem (addr c0) o X' ∧ Ends (fun fuel => buildRun sgn addr fuel ops ((liftH sgn (addr c0) o h).without X) d)
          (bs, (liftH sgn (addr c0) o h').without X', d')) ∨
        (Twice o (· ∈ s'.words) ∧ ∃ N, ∀ fuel, N ≤ fuel →
          buildRun sgn addr fuel ops ((liftH sgn (addr c0) o h).without X) d = .error .ub))) ∧
    (s.run ops = none → ∃ N, ∀ fuel, N ≤ fuel → (do
      let (_, h, d) ← buildRun sgn addr fuel ops ((liftH sgn (addr c0) o h).without X) d
      closeRun sgn fuel h d) = .error .ub) := by
  induction ops generalizing s h d X with
  | nil =>
    refine ⟨fun bs s' hr => ?_, by simp [Draft.run]⟩
    simp only [Draft.run, Option.some.injEq, Prod.mk.injEq] at hr
    obtain ⟨rfl, rfl⟩ := hr
    exact ⟨h, d, hw, .inl ⟨X, hX, .of_eq fun _ => rfl⟩⟩
  | cons op ops ih =>
    have hL' : ∀ t, BuildOp.add t ∈ ops → t.length ≤ L := fun t ht => hL t (by simp [ht])
    cases op with
    | finish =>
      obtain ⟨h1, d1, _, hw1, hcase⟩ := hw.finishOver haddr ho hX
      rcases hcase with ⟨X1, hX1, N1, r1⟩ | ⟨htw, N1, r1⟩
      · obtain ⟨i1, i2⟩ := ih hL' hw1 hX1
        refine ⟨fun bs s' hr => ?_, fun hr => ?_⟩
        · obtain ⟨h2, d2, hw2, hcase2⟩ := i1 bs s' hr
          refine ⟨h2, d2, hw2, ?_⟩
          rcases hcase2 with ⟨X2, hX2, N2, r2⟩ | ⟨htw, N2, r2⟩
          · refine .inl ⟨X2, hX2, max N1 N2, fun fuel hf => ?_⟩
            have e1 := r1 fuel (by omega)
            have e2 := r2 fuel (by omega)
            simp only at e1 e2
            simp [buildRun, e1, e2, bind, Except.bind]
          · refine .inr ⟨htw, max N1 N2, fun fuel hf => ?_⟩
            have e1 := r1 fuel (by omega)
            have e2 := r2 fuel (by omega)
            simp only at e1
            simp [buildRun, e1, e2, bind, Except.bind]
        · obtain ⟨N2, r2⟩ := i2 hr
          refine ⟨max N1 N2, fun fuel hf => ?_⟩
          have e1 := r1 fuel (by omega)
          have e2 := r2 fuel (by omega)
          simp only at e1
          simpa [buildRun, e1, bind, Except.bind] using e2
      · refine ⟨fun bs s' hr => ?_, fun hr => ⟨N1, fun fuel hf => by simp [buildRun, r1 fuel hf, bind, Except.bind]⟩⟩
        obtain ⟨h2, d2, _, hw2⟩ := (hw1.run haddr ops hL').1 bs s' hr
        refine ⟨h2, d2, hw2, .inr ⟨htw.mono fun w hw => (run_words (s := { s with path := [] }) hr).subset hw, N1, fun fuel hf => ?_⟩⟩
        simp [buildRun, r1 fuel hf, bind, Except.bind]
    | add t =>
      by_cases hlt : strLess t s.prev
      · have e1 : ∀ fuel, addTerm sgn addr fuel t ((liftH sgn (addr c0) o h).without X) d = .ok (false, (liftH sgn (addr c0) o h).without X, d) := by
          intro fuel
          have : d.prev = s.prev := by obtain ⟨_, _, _, _, _, _, hw⟩ := hw; exact hw.prev
          simp [addTerm, this, (strLt_iff _ _).2 hlt]
        obtain ⟨i1, i2⟩ := ih hL' hw hX
        refine ⟨fun bs s' hr => ?_, fun hr => ?_⟩
        · simp only [Draft.run, hlt, if_true, Option.map_eq_some_iff, Prod.mk.injEq] at hr
          obtain ⟨r, hr, rfl, rfl⟩ := hr
          obtain ⟨h2, d2, hw2, hcase2⟩ := i1 _ _ hr
          refine ⟨h2, d2, hw2, ?_⟩
          rcases hcase2 with ⟨X2, hX2, N2, r2⟩ | ⟨htw, N2, r2⟩
          · refine .inl ⟨X2, hX2, N2, fun fuel hf => ?_⟩
            have e2 := r2 fuel hf
            simp only at e2
            simp [buildRun, e1, e2, bind, Except.bind, pure, Except.pure]
          · refine .inr ⟨htw, N2, fun fuel hf => ?_⟩
            have e2 := r2 fuel hf
            simp [buildRun, e1, e2, bind, Except.bind]
        · simp only [Draft.run, hlt, if_true, Option.map_eq_none_iff] at hr
          obtain ⟨N2, r2⟩ := i2 hr
          refine ⟨N2, fun fuel hf => ?_⟩
          have e2 := r2 fuel (by omega)
          simp only [buildRun, e1, bind, Except.bind] at e2 ⊢
          cases hb : buildRun sgn addr fuel ops ((liftH sgn (addr c0) o h).without X) d with
          | error e => rw [hb] at e2; exact e2
          | ok r => rw [hb] at e2; exact e2
      · obtain ⟨h1, d1, _, hcase, hreal⟩ := hw.addOver haddr ho hX t (hL t (by simp)) hlt
        rcases hcase with ⟨htk, hw1⟩ | ⟨htk, reg, st, fl, fs, rf, Z, hc, hs, hcl⟩
        · have hrun0 : ∀ {r}, s.run (.add t :: ops) = r → ((s.push t).run ops).map (fun r => (true :: r.1, r.2)) = r := by
            intro r hr
            simpa only [Draft.run, hlt, if_false, htk, Bool.false_eq_true] using hr
          rcases hreal with ⟨X1, hX1, N1, r1⟩ | ⟨htw, N1, r1⟩
          · obtain ⟨i1, i2⟩ := ih hL' hw1 hX1
            refine ⟨fun bs s' hr => ?_, fun hr => ?_⟩
            · replace hr := hrun0 hr
              simp only [Option.map_eq_some_iff, Prod.mk.injEq] at hr
              obtain ⟨r, hr, rfl, rfl⟩ := hr
              obtain ⟨h2, d2, hw2, hcase2⟩ := i1 _ _ hr
              refine ⟨h2, d2, hw2, ?_⟩
              rcases hcase2 with ⟨X2, hX2, N2, r2⟩ | ⟨htw, N2, r2⟩
              · refine .inl ⟨X2, hX2, max N1 N2, fun fuel hf => ?_⟩
                have e1 := r1 fuel (by omega)
                have e2 := r2 fuel (by omega)
                simp only at e1 e2
                simp [buildRun, e1, e2, bind, Except.bind, pure, Except.pure]
              · refine .inr ⟨htw, max N1 N2, fun fuel hf => ?_⟩
                have e1 := r1 fuel (by omega)
                have e2 := r2 fuel (by omega)
                simp only at e1
                simp [buildRun, e1, e2, bind, Except.bind]
            · replace hr := hrun0 hr
              simp only [Option.map_eq_none_iff] at hr
              obtain ⟨N2, r2⟩ := i2 hr
              refine ⟨max N1 N2, fun fuel hf => ?_⟩
              have e1 := r1 fuel (by omega)
              have e2 := r2 fuel (by omega)
              simp only at e1
              simp only [buildRun, e1, bind, Except.bind] at e2 ⊢
              cases hb : buildRun sgn addr fuel ops ((liftH sgn (addr c0) o h1).without X1) d1 with
              | error e => rw [hb] at e2; exact e2
              | ok r => rw [hb] at e2; exact e2
          · refine ⟨fun bs s' hr => ?_, fun hr => ⟨N1, fun fuel hf => by simp [buildRun, r1 fuel hf, bind, Except.bind]⟩⟩
            replace hr := hrun0 hr
            simp only [Option.map_eq_some_iff, Prod.mk.injEq] at hr
            obtain ⟨r, hr, rfl, rfl⟩ := hr
            obtain ⟨h2, d2, _, hw2⟩ := (hw1.run haddr ops hL').1 _ _ hr
            refine ⟨h2, d2, hw2, .inr ⟨htw.mono fun w hw => (run_words hr).subset (by simp [Draft.push, hw]), N1, fun fuel hf => ?_⟩⟩
            simp [buildRun, r1 fuel hf, bind, Except.bind]
        · refine ⟨fun bs s' hr => ?_, fun _ => ?_⟩
          · simp [Draft.run, hlt, htk] at hr
          · rcases hreal with ⟨X1, hX1, N1, r1⟩ | ⟨htw, N1, r1⟩
            · obtain ⟨N2, r2⟩ := Site.runLost haddr ho ops hc hs
              refine ⟨max N1 N2, fun fuel hf => ?_⟩
              have e1 := r1 fuel (by omega)
              have e2 := r2 X1 (hX1.gone fl) (.inr hcl) fuel (by omega)
              simp only at e1
              simp only [buildRun, e1, bind, Except.bind] at e2 ⊢
              cases hb : buildRun sgn addr fuel ops ((liftH sgn (addr c0) o h1).without X1) d1 with
              | error e => rw [hb] at e2; exact e2
              | ok r => rw [hb] at e2; exact e2
            · exact ⟨N1, fun fuel hf => by simp [buildRun, r1 fuel hf, bind, Except.bind]⟩

/-! ### `finish` and `clean_up` -/

/-- A node that an edge of the old root leads to is still needed when the edge is overwritten; `C` are the letters whose edges
are. -/
def Shared (m : Mem) (o : DNode) (C : UInt8 → Prop) : Prop :=
  ∃ c a, (c, a) ∈ o.edges ∧ C c ∧ ((∃ c', c' ≠ c ∧ C c' ∧ (c', a) ∈ o.edges) ∨ BelowKept m o C a)

theorem twice_shared {m : Mem} {ws : List Str} (h : Twice o (· ∈ ws)) : Shared m o (firsts ws) := by
  obtain ⟨c, c', a, h1, h2, h3, h4, h5⟩ := h
  exact ⟨c, a, h2, h4, .inl ⟨c', fun h => h1 h.symm, h5, h3⟩⟩

/-- How the root `o'` of the dictionary afterwards is related to the root `o` before: edges with letters other than `C` are kept
and memory behind them is as it was; nodes behind new edges are `Fresh`, and no two of them mean the same. -/
structure Laid (m m' : Mem) (o o' : DNode) (C : UInt8 → Prop) (Fresh : Nat → Prop) : Prop where
  keep : ∀ c b, ¬ C c → ((c, b) ∈ o'.edges ↔ (c, b) ∈ o.edges)
  fresh : ∀ c b, C c → (c, b) ∈ o'.edges → ∀ a, Reaches m' b a → Fresh a
  same : ∀ a, BelowKept m o C a → m' a = m a
  minimal : ∀ c b c' b', C c → C c' → (c, b) ∈ o'.edges → (c', b') ∈ o'.edges → ∀ a a', Reaches m' b a → Reaches m' b' a' →
    (∀ t, Accepts m' a t ↔ Accepts m' a' t) → a = a'

theorem DraftedE.closeOver (haddr : AddrOk addr) (ho : OldOk sgn addr c0 m0 o)
    (hto : ∀ c b, (c, b) ∈ o.edges → ∃ nb K, m0 b = some nb ∧ Unf m0 nb.edges K ∧ (nb.final = true ∨ K ≠ .nil) ∧ K.Trim)
    (hsno : ∀ a nd, BelowOld m0 o a → m0 a = some nd → nd.edges.Pairwise (fun e f => charLt sgn e.1 f.1))
    (hw : DraftedE sgn addr c0 m0 L s h d) (hX : Freed h.mem (addr c0) o X) :
    (Shared m0 o (firsts s.words) → ∃ N, ∀ fuel, N ≤ fuel →
      closeRun sgn fuel ((liftH sgn (addr c0) o h).without X) d = .error .ub) ∧
    (¬ Shared m0 o (firsts s.words) →
      ∃ h' d', Ends (fun fuel => closeRun sgn fuel ((liftH sgn (addr c0) o h).without X) d) (h', d') ∧
        d'.root = addr c0 ∧ d'.prev = s.prev ∧ d'.size = s.size ∧
        (d'.unchecked = none ∧ d'.minimized = none ∧ d'.floating = none) ∧ c0 < h'.count ∧ h'.mem 0 = none ∧
        (∀ j, h'.count ≤ j → h'.mem (addr j) = none) ∧
        (∃ nd F, h'.mem (addr c0) = some nd ∧ Unf h'.mem nd.edges F ∧ F.Trim ∧ F.Sorted sgn ∧
          DictNode sgn h'.mem (F.height + 1) (addr c0)) ∧
        (∀ t, Accepts h'.mem (addr c0) t ↔ t ∈ s.words ∨ (t = [] ∧ o.final = true) ∨
          ∃ c b u, t = c :: u ∧ (c, b) ∈ o.edges ∧ ¬ firsts s.words c ∧ Accepts m0 b u) ∧
        (∀ a, Reaches h'.mem (addr c0) a → InRange addr c0 h' a ∨ BelowKept m0 o (firsts s.words) a) ∧
        (∀ a, BelowKept m0 o (firsts s.words) a → Reaches h'.mem (addr c0) a) ∧
        (∀ a, ¬ Reaches h'.mem (addr c0) a → InRange addr c0 h' a ∨ (∃ c, firsts s.words c ∧ (c, a) ∈ o.edges) →
          h'.mem a = none) ∧
        (∀ a, ¬ InRange addr c0 h' a → ¬ (∃ c, firsts s.words c ∧ (c, a) ∈ o.edges) → h'.mem a = m0 a) ∧
        ∃ o', h'.mem (addr c0) = some o' ∧
          Laid m0 h'.mem o o' (firsts s.words) (fun a => InRange addr c0 h' a ∧ a ≠ addr c0)) := by
  obtain ⟨h1, d1, _, hw1, hcase⟩ := hw.finishOver haddr ho hX
  obtain ⟨reg, st, fl, fs, rf, Z, hw1⟩ := hw1
  have hfs : fs = [] := by
    have := hw1.path
    simpa [Lev.path] using this
  subst hfs
  have hc := hw1.site
  have hst : st = [] := by
    have := hc.stack.length
    exact List.length_eq_zero_iff.1 (by simpa using this.symm)
  subst hst
  obtain ⟨nd, F, hm, hroot, hF, htrim, hdict, hreach, hacc, hlabel⟩ := hc.overDict ho hto hsno hw1.good.trim.1
  have hK : Labels nd = firsts s.words := by
    funext c
    refine propext ((hlabel c).trans ?_)
    exact ⟨fun ⟨u, hu⟩ => ⟨u, (hw1.lang _).1 hu⟩, fun ⟨u, hu⟩ => ⟨u, (hw1.lang _).2 hu⟩⟩
  rw [hK] at hreach
  simp only [hK] at hacc
  rcases hcase with ⟨X1, hX1, N1, r1⟩ | ⟨htw, N1, r1⟩
  rotate_left
  · refine ⟨fun _ => ⟨N1, fun fuel hf => by simp [closeRun, r1 fuel hf, bind, Except.bind]⟩, fun hns => ?_⟩
    exact absurd (twice_shared htw) hns
  have hov : ∀ c a, Overwritten h1.mem (addr c0) o c a ↔ (c, a) ∈ o.edges ∧ firsts s.words c := by
    intro c a
    rw [← hK]
    constructor
    · rintro ⟨h2, nd', b, h3, h4⟩
      rw [hm] at h3; obtain rfl := Option.some.inj h3
      exact ⟨h2, b, h4⟩
    · rintro ⟨h2, b, h3⟩
      exact ⟨h2, nd, b, hm, h3⟩
  have hX1m : ∀ a, a ∈ X1 ↔ ∃ c, firsts s.words c ∧ (c, a) ∈ o.edges := by
    intro a
    rw [hX1.mem]
    exact ⟨fun ⟨c, h⟩ => ⟨c, ((hov c a).1 h).2, ((hov c a).1 h).1⟩, fun ⟨c, h, h'⟩ => ⟨c, (hov c a).2 ⟨h', h⟩⟩⟩
  have hinr : ∀ a, Reaches h1.mem (addr c0) a → InRange addr c0 h1 a := fun a ha => by
    rw [← hc.root] at ha; exact (hc.reach ha).1
  constructor
  · rintro ⟨c, a, h2, h3, ⟨c', h4, h5, h6⟩ | h4⟩
    · exact absurd (hX1.once c' c a ((hov _ _).2 ⟨h6, h5⟩) ((hov _ _).2 ⟨h2, h3⟩)) h4
    · obtain ⟨N2, r2⟩ := hc.cleanOver_ub ho ((hX1m a).2 ⟨c, h3, h2⟩) ((hreach a).2 (.inr h4))
      refine ⟨max N1 N2, fun fuel hf => ?_⟩
      have e1 := r1 fuel (by omega)
      have e2 := r2 fuel (by omega)
      simp only at e1
      simp [closeRun, e1, e2, bind, Except.bind]
  · intro hns
    have hno : ∀ a ∈ X1, ¬ Reaches (liftH sgn (addr c0) o h1).mem (addr c0) a := by
      intro a ha hr
      obtain ⟨c, h2, h3⟩ := (hX1m a).1 ha
      rcases (hreach a).1 hr with h' | h'
      · exact ho.out h3 h1 (hinr a h')
      · exact hns ⟨c, a, h3, h2, .inr h'⟩
    obtain ⟨h', ⟨N2, r2⟩, hcnt, hkeep, hgone, hold⟩ := hc.cleanOver_ok haddr ho (hX1.out ho h1) hno
    have hcl := DictNode.closed hdict
    have hri := reaches_frame_iff hcl hkeep (a := addr c0) .refl
    have hin : ∀ a, InRange addr c0 h' a ↔ InRange addr c0 h1 a := fun a => by simp only [InRange, hcnt]
    have hlm : ∀ a, a ≠ addr c0 → (liftH sgn (addr c0) o h1).mem a = h1.mem a := fun a ha => liftM_ne ha
    have hbase := hc.heap.base
    have hr0 : InRange addr c0 h1 (addr c0) := ⟨c0, Nat.le_refl _, hbase, rfl⟩
    have hgone' : ∀ a, ¬ InRange addr c0 h1 a → ¬ (∃ c, firsts s.words c ∧ (c, a) ∈ o.edges) → h'.mem a = m0 a := by
      intro a h2 h3
      rw [hold a (fun h => h3 ((hX1m a).1 h)) h2, hlm a (fun h => h2 (h ▸ hr0))]
      exact hc.heap.old a fun j h3 h4 h5 => h2 ⟨j, h3, h4, h5⟩
    have hfree : ∀ a, h1.mem a = none → ¬ InRange addr c0 h1 a → h'.mem a = none := by
      intro a h2 h3
      by_cases hx : a ∈ X1
      · exact hgone a (hno a hx) (.inl hx)
      · rw [hold a hx h3, hlm a (fun h => h3 (h ▸ hr0))]; exact h2
    refine ⟨h', { d1 with unchecked := none, minimized := none, floating := none }, ⟨max N1 N2, fun fuel hf => ?_⟩, hc.root, hw1.prev, hw1.size, ⟨rfl, rfl, rfl⟩, by omega, ?_, ?_, ?_, ?_, ?_, ?_, ?_, ?_, ?_⟩
    · have e1 := r1 fuel (by omega)
      have e2 := r2 fuel (by omega)
      simp only at e1 e2
      simp [closeRun, e1, e2, bind, Except.bind]
    · refine hfree 0 hc.heap.null ?_
      rintro ⟨j, _, _, hj⟩; exact haddr.1 j hj.symm
    · intro j hj
      refine hfree _ (hc.heap.fresh j (by omega)) ?_
      rintro ⟨k, _, h2, h3⟩
      have := haddr.2 _ _ h3; omega
    · have hr' : h'.mem (addr c0) = some (liftN sgn o nd) := by rw [hkeep _ .refl]; exact hroot
      have hF' := hF.frame hcl hkeep (fun c b hb => .step hroot hb .refl)
      have hd' := DictNode.frame hcl hkeep hdict .refl
      exact ⟨_, F, hr', hF', htrim, DictNode.sorted hd' hr' hF', hd'⟩
    · intro t
      rw [accepts_frame_iff hcl hkeep .refl, hacc, hw1.lang]
    · intro a ha
      rw [hin]
      rcases (hreach a).1 ((hri a).1 ha) with h' | h'
      · exact .inl (hinr a h')
      · exact .inr h'
    · intro a ha
      exact (hri a).2 ((hreach a).2 (.inr ha))
    · intro a ha hor
      refine hgone a (fun h => ha ((hri a).2 h)) ?_
      rw [hX1m, ← hin]
      exact hor.symm
    · intro a h2 h3
      exact hgone' a (fun h => h2 ((hin a).2 h)) h3
    · obtain ⟨nd2, hm2, _, _, hss, hZ⟩ := hc.stack.rootNode
      rw [hc.root, hm] at hm2
      obtain rfl := Option.some.inj hm2
      have hE : ∀ c b, (c, b) ∈ (liftN sgn o nd).edges ↔ (c, b) ∈ nd.edges ∨ ((c, b) ∈ o.edges ∧ ¬ Labels nd c) := by
        intro c b
        refine (mem_mergeE_over ho.sorted hss (c, b)).trans (or_congr Iff.rfl (and_congr Iff.rfl ?_))
        exact ⟨fun h1 ⟨b', h2⟩ => h1 _ h2 rfl, fun h1 f hf hfc => h1 ⟨f.2, by have hfc : f.1 = c := hfc; rw [← hfc]; exact hf⟩⟩
      rw [hK] at hE
      have hEn : ∀ c b, firsts s.words c → (c, b) ∈ (liftN sgn o nd).edges → (c, b) ∈ nd.edges := by
        intro c b h2 h3
        exact ((hE c b).1 h3).resolve_right fun h4 => h4.2 h2
      have hnr : ¬ Z (addr c0) := by rw [← hc.root]; exact hc.notZone _ (by simp [stackNodes])
      have app : ∀ x y, Reaches h1.mem x y → ∀ n c z, h1.mem y = some n → (c, z) ∈ n.edges → Reaches h1.mem x z := by
        intro x y hxy
        induction hxy with
        | refl => exact fun n c z hm hz => .step hm hz .refl
        | step hm hb _ ih => exact fun n c z hm' hz => .step hm hb (ih n c z hm' hz)
      have hSc : Closed h1.mem (fun a => Z a ∧ Reaches h1.mem (addr c0) a) := by
        rintro a ⟨h2, h3⟩
        obtain ⟨n, h4, h5⟩ := hc.closed a h2
        exact ⟨n, h4, fun c b hb => ⟨h5 c b hb, app _ _ h3 n c b h4 hb⟩⟩
      have hSr : ∀ {b a}, Reaches h1.mem b a → Z b ∧ Reaches h1.mem (addr c0) b → Z a ∧ Reaches h1.mem (addr c0) a := by
        intro b a hr
        induction hr with
        | refl => exact fun h => h
        | step hm hb _ ih =>
          intro h2
          obtain ⟨n, h4, h5⟩ := hSc _ h2
          rw [hm] at h4; obtain rfl := Option.some.inj h4
          exact ih (h5 _ _ hb)
      have hSm : ∀ a, Z a ∧ Reaches h1.mem (addr c0) a → h'.mem a = h1.mem a := by
        rintro a ⟨h2, h3⟩
        rw [hkeep a ((hreach a).2 (.inl h3)), hlm a fun h => hnr (h ▸ h2)]
      have hSn : ∀ {c b}, (c, b) ∈ nd.edges → Z b ∧ Reaches h1.mem (addr c0) b := fun hb => ⟨hZ _ _ hb, .step hm hb .refl⟩
      refine ⟨liftN sgn o nd, by rw [hkeep _ .refl]; exact hroot, ⟨fun c b hC => ?_, fun c b hC hb a hr => ?_, fun a ha => ?_, ?_⟩⟩
      · rw [hE]
        exact ⟨fun h => h.elim (fun h => absurd (hK ▸ ⟨b, h⟩) hC) (·.1), fun h => .inr ⟨h, hC⟩⟩
      · have hb' := hSn (hEn c b hC hb)
        have := hSr ((reaches_frame_iff hSc hSm hb' a).1 hr) hb'
        exact ⟨(hin a).2 (hinr a this.2), fun h => hnr (h ▸ this.1)⟩
      · obtain ⟨hbmm, hbiff, hbes, _⟩ := ho.keeps hc.heap
        rw [hkeep a ((hreach a).2 (.inr ha)), hlm a, hbmm a ha.below]
        rintro rfl
        exact hbes.root ((hbiff _).2 ha.below)
      · intro c b c' b' hC hC' hb hb' a a' hr hr' hsame
        have g1 := hSn (hEn c b hC hb)
        have g2 := hSn (hEn c' b' hC' hb')
        have g3 := hSr ((reaches_frame_iff hSc hSm g1 a).1 hr) g1
        have g4 := hSr ((reaches_frame_iff hSc hSm g2 a').1 hr') g2
        have hZR' : Z = InReg reg := funext fun a => propext ⟨hw1.full.2 a, hc.inZone⟩
        have hcore : Core sgn addr c0 m0 h1 { d1 with prev := s.words.getLast?.getD [], size := s.words.length } reg [] fl [] rf :=
          ⟨hc.heap, hc.root, hc.unchecked, hc.minimized, hc.floating, ⟨hc.float.1, fun a => by rw [hc.float.2]; simp⟩, hw1.full.1,
            fun a ha => (hc.zoneRange a (hc.inZone ha)).1, hZR' ▸ hc.stack, fun a ha => (hc.stackRange a ha).1, hc.nodup,
            fun a ha => hZR' ▸ hc.notZone a ha, trivial, hw1.good.trim⟩
        have hmin := (hcore.finished haddr (terms := s.words) rfl rfl hw1.lang).minimal
        simp only [hc.root] at hmin
        have hSc' : Closed h1.mem (Reaches h1.mem (addr c0)) := by
          intro x hx
          obtain ⟨n, hn⟩ : ∃ n, h1.mem x = some n := by
            cases hx with
            | refl => exact ⟨nd, hm⟩
            | @step _ nd' c b _ h2 h3 h4 =>
              rw [hm] at h2; obtain rfl := Option.some.inj h2
              obtain ⟨n, h5, _⟩ := hSc x (hSr h4 (hSn h3))
              exact ⟨n, h5⟩
          exact ⟨n, hn, fun c z hz => app _ _ hx n c z hn hz⟩
        have hcl' : ∀ x, Reaches h1.mem (addr c0) x → cleaned addr c0 h1 (addr c0) x = h1.mem x := fun x hx => cleaned_reach hx
        refine hmin a a' ((reaches_frame_iff hSc' hcl' .refl a).2 g3.2) ((reaches_frame_iff hSc' hcl' .refl a').2 g4.2) fun t => ?_
        rw [accepts_frame_iff hSc' hcl' g3.2, accepts_frame_iff hSc' hcl' g4.2, ← accepts_frame_iff hSc hSm g3,
          ← accepts_frame_iff hSc hSm g4]
        exact hsame t

end

/-! ### A second construction -/

/-- `init`, the calls, `finish` and `clean_up` on a dictionary. -/
def secondRun (sgn : Bool) (addr : Nat → Nat) (fuel : Nat) (ops : List BuildOp) (h : Heap) (d : SDawg) :
    Except Err (List Bool × Heap × SDawg) := do
  let (bs, h, d) ← buildRun sgn addr fuel ops h (initDawg d)
  let (h, d) ← closeRun sgn fuel h d
  return (bs, h, d)

/-- Calls depend only on the addresses to come. -/
theorem buildRun_congr {sgn : Bool} {addr addr' : Nat → Nat} {fuel : Nat} (ops : List BuildOp) {h : Heap} {d : SDawg}
    (ha : ∀ j, h.count ≤ j → addr j = addr' j) : buildRun sgn addr fuel ops h d = buildRun sgn addr' fuel ops h d := by
  induction ops generalizing h d with
  | nil => rfl
  | cons op ops ih =>
    cases op with
    | finish =>
      simp only [buildRun]
      cases hm : finishDawg sgn fuel h d with
      | error => rfl
      | ok x =>
        obtain ⟨h1, d1⟩ := x
        have hc : h1.count = h.count := minimize_count hm
        simp only [bind, Except.bind]
        exact ih fun j hj => ha j (by omega)
    | add t =>
      simp only [buildRun]
      rw [addTerm_congr ha]
      cases hm : addTerm sgn addr' fuel t h d with
      | error => rfl
      | ok x =>
        obtain ⟨b, h1, d1⟩ := x
        have := addTerm_grows hm
        simp only [bind, Except.bind]
        rw [ih fun j hj => ha j (by omega)]

/-- A node that no edge leads to any more and that has not been freed; `C` are the letters of the edges that were overwritten. -/
def Astray (m : Mem) (o : DNode) (C : UInt8 → Prop) (a : Nat) : Prop :=
  BelowOld m o a ∧ ¬ BelowKept m o C a ∧ ¬ ∃ c, C c ∧ (c, a) ∈ o.edges

open Classical in
/-- What is in memory besides the dictionary then. -/
noncomputable def withAstray (m0 m : Mem) (o : DNode) (C : UInt8 → Prop) : Mem := fun a => if Astray m o C a then m a else m0 a

/-- A second construction on a dictionary, whatever letters it has. -/
theorem settled_second {sgn : Bool} {addr : Nat → Nat} {m0 : Mem} {L : Str → Prop} {h : Heap} {d : SDawg}
    (hf : Settled sgn m0 L h d) (ha : Allocator addr h) {o : DNode} (ho : h.mem d.root = some o) (ops : List BuildOp) :
    ((⟨d.prev, [], [], d.size⟩ : Draft).run ops = none → ∃ N, ∀ fuel, N ≤ fuel → secondRun sgn addr fuel ops h d = .error .ub) ∧
    ∀ bs s, (⟨d.prev, [], [], d.size⟩ : Draft).run ops = some (bs, s) →
      (Shared h.mem o (firsts s.words) → ∃ N, ∀ fuel, N ≤ fuel → secondRun sgn addr fuel ops h d = .error .ub) ∧
      (¬ Shared h.mem o (firsts s.words) →
        ∃ h' d', Ends (fun fuel => secondRun sgn addr fuel ops h d) (bs, h', d') ∧ d'.root = d.root ∧ d'.prev = s.prev ∧
          d'.size = s.size ∧ Allocator addr h' ∧
          Settled sgn (withAstray m0 h.mem o (firsts s.words))
            (fun t => t ∈ s.words ∨ L t ∧ ∀ c, t.head? = some c → ¬ firsts s.words c) h' d' ∧
          ∃ o', h'.mem d'.root = some o' ∧ Laid h.mem h'.mem o o' (firsts s.words) (fun a => h.mem a = none)) := by
  classical
  obtain ⟨addr', c0, r, haddr, hcong, hW, hm0⟩ := hf.whole ha
  obtain ⟨hclo, hrco, hnro, hso, hto, hsno, ⟨F0, hF0⟩, _⟩ := hW.below ho
  have hok : AddrOk (rootLast addr' r h) := swapAddr_ok haddr _ _
  have hrr := hW.rootLast_root
  have hcnt : 0 < h.count := by have := hW.count; omega
  -- memory without the root
  obtain ⟨hbes, hbiff, hbmm⟩ := hW.beside ho (gm := (emptied h d.root).mem) (fun a _ h2 => emptied_ne h2)
  have hBiff : BelowOld (emptied h d.root).mem o = BelowOld h.mem o := funext fun a => propext (hbiff a)
  have hreachE : ∀ c b, (c, b) ∈ o.edges → ∀ a, Reaches (emptied h d.root).mem b a ↔ Reaches h.mem b a :=
    fun c b hb a => reaches_frame_iff hclo hbmm (.edge hb) a
  have hKiff : ∀ C : UInt8 → Prop, BelowKept (emptied h d.root).mem o C = BelowKept h.mem o C := by
    intro C
    funext a
    refine propext ⟨?_, ?_⟩
    · rintro ⟨c, b, h1, h2, h3⟩; exact ⟨c, b, h1, h2, (hreachE c b h1 a).1 h3⟩
    · rintro ⟨c, b, h1, h2, h3⟩; exact ⟨c, b, h1, h2, (hreachE c b h1 a).2 h3⟩
  have hSiff : ∀ C : UInt8 → Prop, Shared (emptied h d.root).mem o C ↔ Shared h.mem o C := by
    intro C; simp only [Shared, hKiff]
  have hlive : ∀ a, BelowOld h.mem o a → h.mem a ≠ none := fun a ha => by
    obtain ⟨n, h1, _⟩ := hclo a ha; rw [h1]; simp
  have hOld : OldOk sgn (rootLast addr' r h) (h.count - 1) (emptied h d.root).mem o := by
    refine ⟨hso, ?_, hbes.closed, fun a hb j hj h' => ?_, F0, hF0.frame hclo hbmm (fun c b hb => .edge hb)⟩
    · simp only [emptied, Mem.set]
      split
      · rfl
      · exact hf.null
    · have hb' := (hbiff a).1 hb
      by_cases hj' : j = h.count - 1
      · rw [hj', hrr] at h'; exact hnro (h' ▸ hb')
      · rw [hW.rootLast_ge (by omega)] at h'
        exact hlive a hb' (h' ▸ hW.fresh j (by omega))
  have hto' : ∀ c b, (c, b) ∈ o.edges → ∃ nb K, (emptied h d.root).mem b = some nb ∧ Unf (emptied h d.root).mem nb.edges K ∧
      (nb.final = true ∨ K ≠ .nil) ∧ K.Trim := by
    intro c b hb
    obtain ⟨nb, K, h1, h2, h3, h4⟩ := hto c b hb
    obtain ⟨nb', h1', h5⟩ := hclo b (.edge hb)
    rw [h1] at h1'; obtain rfl := Option.some.inj h1'
    exact ⟨nb, K, by rw [hbmm b (.edge hb)]; exact h1, h2.frame hclo hbmm h5, h3, h4⟩
  have hsno' : ∀ a nd, BelowOld (emptied h d.root).mem o a → (emptied h d.root).mem a = some nd →
      nd.edges.Pairwise (fun e f => charLt sgn e.1 f.1) := by
    intro a nd hb hm
    have hb' := (hbiff a).1 hb
    rw [hbmm a hb'] at hm
    exact hsno a nd hb' hm
  -- the start
  obtain ⟨Lmax, hL⟩ := ops_bound ops
  have h0 : DraftedE sgn (rootLast addr' r h) (h.count - 1) (emptied h d.root).mem Lmax ⟨d.prev, [], [], d.size⟩
      (newDawg (rootLast addr' r h) (emptied h d.root)).1 (initDawg d) := by
    obtain ⟨reg, st, fl, fs, rf, Z, hw⟩ := newDawg_drafted (sgn := sgn) hok Lmax (h := emptied h d.root) hOld.null (fun j hj => by
      simp only [emptied] at hj
      by_cases hj' : j = h.count - 1
      · rw [hj', hrr]; simp [emptied, Mem.set]
      · rw [hW.rootLast_ge (by omega), emptied_ne]
        · exact hW.fresh j (by omega)
        · rw [hW.root]; exact fun h' => by have := haddr.2 _ _ h'; have := hW.count; omega)
    rw [← (hW.emptied_lift (sgn := sgn) ho).2]
    exact ⟨reg, st, fl, fs, rf, Z, ⟨hw.site.withPrev _ _, hw.good, hw.path, rfl, by
      simp only [liftD]
      have := hw.size
      simp only at this
      rw [this]; simp, hw.lang, by simp, hw.full⟩⟩
  have hX0 : Freed (newDawg (rootLast addr' r h) (emptied h d.root)).1.mem (rootLast addr' r h (h.count - 1)) o [] := by
    have hno : ∀ c a, ¬ Overwritten (newDawg (rootLast addr' r h) (emptied h d.root)).1.mem (rootLast addr' r h (h.count - 1)) o c a := by
      rintro c a ⟨_, nd, b, h1, h2⟩
      simp only [newDawg, newNode, emptied, Mem.set, if_true, Option.some.injEq] at h1
      subst h1
      simp at h2
    exact ⟨fun a => by simpa using fun c => hno c a, fun c c' a h1 => absurd h1 (hno c a)⟩
  have hlift := (hW.emptied_lift (sgn := sgn) ho).1
  obtain ⟨hgood, hbad⟩ := h0.runOver hok hOld ops hL hX0
  rw [hrr, hlift, Heap.without_nil] at hbad
  have hcg : ∀ fuel, buildRun sgn addr fuel ops h (initDawg d) = buildRun sgn (rootLast addr' r h) fuel ops h (initDawg d) :=
    fun fuel => buildRun_congr ops fun j hj => by rw [hW.rootLast_ge hj]; exact hcong j hj
  constructor
  · intro hr
    obtain ⟨N, hN⟩ := hbad hr
    refine ⟨N, fun fuel hf => ?_⟩
    have := hN fuel hf
    simp only [secondRun, hcg, bind, Except.bind] at this ⊢
    cases hb : buildRun sgn (rootLast addr' r h) fuel ops h (initDawg d) with
    | error e => rw [hb] at this; simpa using this
    | ok x =>
      rw [hb] at this
      simp only at this ⊢
      rw [this]
  · intro bs s hr
    obtain ⟨g1, d1, hw1, hcase⟩ := hgood bs s hr
    rw [hrr, hlift, Heap.without_nil] at hcase
    rcases hcase with ⟨X1, hX1, N1, r1⟩ | ⟨htw, N1, r1⟩
    rotate_left
    · refine ⟨fun _ => ⟨N1, fun fuel hf => ?_⟩, fun hns => absurd (twice_shared htw) hns⟩
      simp [secondRun, hcg, r1 fuel hf, bind, Except.bind]
    rw [← hrr] at hX1
    obtain ⟨hub, hfine⟩ := hw1.closeOver hok hOld hto' hsno' hX1
    rw [hSiff, hrr] at hub hfine
    constructor
    · intro hs
      obtain ⟨N2, r2⟩ := hub hs
      refine ⟨max N1 N2, fun fuel hf => ?_⟩
      have e1 := r1 fuel (by omega)
      have e2 := r2 fuel (by omega)
      simp only at e1
      simp [secondRun, hcg, e1, e2, bind, Except.bind]
    · intro hns
      obtain ⟨h', d', ⟨N2, r2⟩, hroot, hprev, hsize, hptrs, hbase, hnull, hfresh, hdict, hacc, hre1, hre2, hgone, hold, o', ho', hlaid⟩ := hfine hns
      rw [hKiff] at hre1 hre2
      have hir : ∀ a, InRange (rootLast addr' r h) (h.count - 1) h' a → a = d.root ∨ ∃ j, h.count ≤ j ∧ j < h'.count ∧ a = addr j := by
        intro a hi
        rcases hW.rootLast_range hi with h1 | ⟨j, h1, h2, h3⟩
        · exact .inl h1
        · exact .inr ⟨j, h1, h2, by rw [hcong j h1]; exact h3⟩
      have hnone : ∀ j, h.count ≤ j → m0 (addr j) = none := by
        intro j hj
        have h1 := ha.fresh j hj
        rw [← hf.other]
        · exact h1
        · intro h2
          obtain ⟨n, h3, _⟩ := hW.closed _ h2
          rw [h1] at h3; cases h3
      have hast : ∀ a, Astray h.mem o (firsts s.words) a → BelowOld h.mem o a := fun a h => h.1
      refine ⟨h', d', ⟨max N1 N2, fun fuel hf => ?_⟩, hroot, hprev, hsize, ⟨ha.nonnull, ha.inj, hnull, fun j hj => ?_⟩,
        ⟨hptrs, hnull, ?_, ?_, ?_, ?_, ?_⟩, o', by rw [hroot]; exact ho',
        ⟨hlaid.keep, fun c b hC hb a hr => ?_, fun a ha => ?_, hlaid.minimal⟩⟩
      · have e1 := r1 fuel (by omega)
        have e2 := r2 fuel (by omega)
        simp only at e1 e2
        simp [secondRun, hcg, e1, e2, bind, Except.bind, pure, Except.pure]
      · rw [hcong j (by omega), ← hW.rootLast_ge (by omega)]
        exact hfresh j hj
      · -- what is not reached
        intro a hna
        rw [hroot] at hna
        have har : a ≠ d.root := fun h => hna (h ▸ .refl)
        simp only [withAstray]
        by_cases hin : InRange (rootLast addr' r h) (h.count - 1) h' a
        · obtain ⟨j, h1, _, h3⟩ := (hir a hin).resolve_left har
          have : ¬ Astray h.mem o (firsts s.words) a := fun h' => hlive a h'.1 (h3 ▸ ha.fresh j h1)
          rw [if_neg this, hgone a hna (.inl hin), h3, hnone j h1]
        · by_cases hx : ∃ c, firsts s.words c ∧ (c, a) ∈ o.edges
          · have : ¬ Astray h.mem o (firsts s.words) a := fun h' => h'.2.2 hx
            rw [if_neg this, hgone a hna (.inr hx)]
            obtain ⟨c, _, h1⟩ := hx
            exact (hf.own a ((hrco a).2 (.inr (.edge h1)))).symm
          · rw [hold a hin hx, emptied_ne har]
            by_cases hb : BelowOld h.mem o a
            · rw [if_pos ⟨hb, fun h => hna (hre2 a h), hx⟩]
            · rw [if_neg fun h' => hb h'.1]
              exact hf.other a fun h' => (hrco a).1 h' |>.elim har hb
      · -- what is reached
        intro a hra
        rw [hroot] at hra
        simp only [withAstray]
        rcases hre1 a hra with h1 | h1
        · rcases hir a h1 with rfl | ⟨j, h2, _, h3⟩
          · rw [if_neg fun h' => hnro h'.1]
            exact hf.own _ .refl
          · rw [if_neg fun h' => hlive a h'.1 (h3 ▸ ha.fresh j h2), h3, hnone j h2]
        · rw [if_neg fun h' => h'.2.1 h1]
          exact hf.own a ((hrco a).2 (.inr h1.below))
      · -- not too many
        obtain ⟨R, hR1, hR2, hR3⟩ := hf.few
        obtain ⟨nd, F, h1, h2, _⟩ := hdict
        obtain ⟨l, _, hl1, hl2⟩ := allNodes_spec h1 h2
        refine ⟨l, hl1, fun a => by rw [hroot]; exact hl2 a, ?_⟩
        have hsub : l ⊆ R ++ (List.range (h'.count - h.count)).map fun j => addr (h.count + j) := by
          intro a hal
          simp only [List.mem_append, List.mem_map, List.mem_range]
          rcases hre1 a ((hl2 a).1 hal) with h3 | h3
          · rcases hir a h3 with rfl | ⟨j, h4, h5, h6⟩
            · exact .inl ((hR2 _).2 .refl)
            · exact .inr ⟨j - h.count, by omega, by rw [h6]; congr 1; omega⟩
          · exact .inl ((hR2 a).2 ((hrco a).2 (.inr h3.below)))
        have := hl1.length_le_of_subset hsub
        simp only [List.length_append, List.length_map, List.length_range] at this
        omega
      · rw [hroot]; exact hdict
      · intro t
        rw [hroot, hacc]
        refine or_congr Iff.rfl ?_
        rw [← hf.accepts, accepts_node ho]
        constructor
        · rintro (⟨rfl, h1⟩ | ⟨c, b, u, rfl, h1, h2, h3⟩)
          · exact ⟨.inl ⟨rfl, h1⟩, by simp⟩
          · refine ⟨.inr ⟨c, b, u, rfl, h1, (accepts_frame_iff hclo hbmm (.edge h1) u).1 h3⟩, ?_⟩
            intro c' hc'
            simp only [List.head?_cons, Option.some.injEq] at hc'
            exact hc' ▸ h2
        · rintro ⟨⟨rfl, h1⟩ | ⟨c, b, u, rfl, h1, h2⟩, h3⟩
          · exact .inl ⟨rfl, h1⟩
          · exact .inr ⟨c, b, u, rfl, h1, h3 c rfl, (accepts_frame_iff hclo hbmm (.edge h1) u).2 h2⟩
      · obtain ⟨h1, h2⟩ := hlaid.fresh c b hC hb a hr
        obtain ⟨j, h3, _, h4⟩ := (hir a h1).resolve_left h2
        rw [h4]; exact ha.fresh j h3
      · rw [← hbmm a ha.below]
        exact hlaid.same a (by rw [hKiff]; exact ha)

end Lev.Props
