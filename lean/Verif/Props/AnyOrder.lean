import Verif.Proofs.SiteOpen
import Verif.Props.BuildFail

/-!
# Property C107: `add` and `finish` in any order

`Spec/AnyOrder.lean` says what the calls do to the words of a dictionary, without nodes.
-/

namespace Lev.Props

open Lev Spec

/-- Calls of `add` and `finish` on a dictionary that is being built. -/
def buildRun (sgn : Bool) (addr : Nat → Nat) (fuel : Nat) : List BuildOp → Heap → SDawg → Except Err (List Bool × Heap × SDawg)
  | [], h, d => .ok ([], h, d)
  | .finish :: ops, h, d => do
      let (h, d) ← finishDawg sgn fuel h d
      buildRun sgn addr fuel ops h d
  | .add t :: ops, h, d => do
      let (b, h, d) ← addTerm sgn addr fuel t h d
      let (bs, h, d) ← buildRun sgn addr fuel ops h d
      return (b :: bs, h, d)

/-- `finish` and `clean_up`. -/
def closeRun (sgn : Bool) (fuel : Nat) (h : Heap) (d : SDawg) : Except Err (Heap × SDawg) := do
  let (h, d) ← finishDawg sgn fuel h d
  cleanUp fuel h d

theorem finishF_none (sgn : Bool) (fuel : Nat) (h : Heap) (d : SDawg) :
    finishF sgn fuel none h d = (finishDawg sgn fuel h d).map fun r => (r.1, r.2, false) := minimizeF_none sgn fuel 0 h d

theorem map_ok {α β : Type} {f : α → β} {x : Except Err α} {b : β} (h : x.map f = .ok b) : ∃ a, x = .ok a ∧ f a = b := by
  cases x with
  | error e => simp [Except.map] at h
  | ok a => exact ⟨a, rfl, by simpa [Except.map] using h⟩

theorem map_err {α β : Type} {f : α → β} {x : Except Err α} {e : Err} (h : x.map f = .error e) : x = .error e := by
  cases x with
  | error e => simpa [Except.map] using h
  | ok a => simp [Except.map] at h

theorem fateOf_inj {a b : Bool} (h : fateOf a = fateOf b) : a = b := by cases a <;> cases b <;> simp_all [fateOf]

/-! ### No edge is overwritten -/

/-- A dictionary that is being built, and what its words are. -/
structure Drafted (sgn : Bool) (addr : Nat → Nat) (c0 : Nat) (m0 : Mem) (L : Nat) (s : Draft) (h : Heap) (d : SDawg)
    (reg : List RegEntry) (st : List Trans) (fl : List Nat) (fs : List (UInt8 × Frame)) (rf : Frame) (Z : Nat → Prop) :
    Prop where
  site : Site sgn addr c0 m0 h d reg st fl [] fs rf Z
  good : Unclashed L fs rf
  path : path fs = s.path
  prev : d.prev = s.prev
  size : d.size = s.size
  lang : ∀ w, Lang fs rf w ↔ w ∈ s.words
  short : s.path.length ≤ s.prev.length
  full : Full sgn h reg Z

def DraftedE (sgn : Bool) (addr : Nat → Nat) (c0 : Nat) (m0 : Mem) (L : Nat) (s : Draft) (h : Heap) (d : SDawg) : Prop :=
  ∃ reg st fl fs rf Z, Drafted sgn addr c0 m0 L s h d reg st fl fs rf Z

/-- An edge is overwritten, or will be. -/
def Doomed (sgn : Bool) (addr : Nat → Nat) (c0 : Nat) (m0 : Mem) (h : Heap) (d : SDawg) : Prop :=
  ∃ reg st fl fs rf Z, Site sgn addr c0 m0 h d reg st fl [] fs rf Z ∧ st.length ≤ d.prev.length ∧ Clash fs rf

section
variable {sgn : Bool} {addr : Nat → Nat} {c0 : Nat} {m0 : Mem} {L : Nat} {s : Draft} {h : Heap} {d : SDawg}

theorem DraftedE.finish (haddr : AddrOk addr) (hw : DraftedE sgn addr c0 m0 L s h d) :
    ∃ h' d', Ends (fun fuel => finishDawg sgn fuel h d) (h', d') ∧ DraftedE sgn addr c0 m0 L { s with path := [] } h' d' := by
  obtain ⟨reg, st, fl, fs, rf, Z, hw⟩ := hw
  have hlen := hw.site.pathLength
  obtain ⟨h', d', reg', st', fs', rf', Z', ⟨N, hN⟩, hp, hs, hc, hg, hpath, hl, hfull⟩ :=
    hw.site.openLoop haddr st.length 0 hw.good hw.full (Nat.le_refl _)
  refine ⟨h', d', ⟨N, fun fuel hf => ?_⟩, reg', st', fl, fs', rf', Z',
    ⟨hc, hg, ?_, hp.trans hw.prev, hs.trans hw.size, fun w => (hl w).trans (hw.lang w), by simp, hfull⟩⟩
  · have := hN fuel hf
    simp only [minimizeLoopF_none] at this
    obtain ⟨a, h1, h2⟩ := map_ok this
    simp only [finishDawg, minimize, hw.site.unchecked, Nat.sub_zero, h1]
    cases h2; rfl
  · rw [hpath, hlen]; simp

theorem DraftedE.add (haddr : AddrOk addr) (hw : DraftedE sgn addr c0 m0 L s h d) (t : Str) (hL : t.length ≤ L)
    (hlt : ¬ strLess t s.prev) :
    ∃ h' d', Ends (fun fuel => addTerm sgn addr fuel t h d) (true, h', d') ∧
      (s.taken t = false ∧ DraftedE sgn addr c0 m0 L (s.push t) h' d' ∨ s.taken t = true ∧ Doomed sgn addr c0 m0 h' d') := by
  obtain ⟨reg, st, fl, fs, rf, Z, hw⟩ := hw
  have hltF : strLt t d.prev = false := by rw [hw.prev]; exact (strLt_false_iff _ _).2 hlt
  by_cases ht : t = []
  · subst ht
    have hp0 : s.prev = [] := by
      cases hl : s.prev with
      | nil => rfl
      | cons x l => rw [hl] at hlt; exact absurd .nil hlt
    have hv0 : s.path = [] := by
      have := hw.short
      rw [hp0] at this
      exact List.length_eq_zero_iff.1 (by simpa using this)
    have hfs : fs = [] := by
      have := hw.path
      rw [hv0] at this
      simpa [Lev.path] using this
    subst hfs
    have hst : st = [] := by
      have := hw.site.stack.length
      exact List.length_eq_zero_iff.1 (by simpa using this.symm)
    subst hst
    obtain ⟨h', hrun, hc', hl'⟩ := hw.site.setFinal haddr
    have hrun' : Lev.setFinal d.root h = .ok h' := hrun
    refine ⟨h', { d with prev := [], size := d.size + 1 }, .of_eq fun fuel => ?_, .inl ⟨?_, ?_⟩⟩
    · simp [addTerm, hltF, hrun', bind, Except.bind]
    · simp [Draft.taken, Draft.rest]
    · refine ⟨reg, [], fl, _, _, Z, ⟨hc'.withPrev _ _, ?_, ?_, rfl, ?_, fun w => ?_, ?_, hw.site.full hw.full (hw.site.finalKeeps hrun)⟩⟩
      · exact ⟨fun h => h, hw.good.low, ⟨hw.good.trim.1, by simp [setTopS]⟩, by simp [setTopS]⟩
      · simp [Lev.path, setTopS, Draft.push, Draft.stored, Draft.kept, Draft.rest, commonLen]
      · simp [Draft.push, hw.size]
      · rw [hl', hw.lang]
        simp [Draft.push, Draft.stored, Draft.kept, Draft.rest, commonLen, Lev.path]
      · simp [Draft.push, Draft.stored, Draft.kept, Draft.rest, commonLen]
  · have hi : commonPrefix t d.prev = commonLen t s.prev := by rw [hw.prev, commonPrefix_eq]
    have hil := commonLen_le_left t s.prev
    have hlen := hw.site.pathLength
    obtain ⟨h1, d1, reg1, st1, fs1, rf1, Z1, ⟨N, hN⟩, hp1, hs1, hc1, hg1, hpath1, hl1, hfull1⟩ :=
      hw.site.openLoop haddr (st.length - commonLen t s.prev) 0 hw.good hw.full (by omega)
    have hkept : Lev.path fs1 = s.kept t := by
      rw [hpath1, hlen, hw.path, Draft.kept]
      by_cases hle : s.path.length ≤ commonLen t s.prev
      · rw [List.take_of_length_le hle, List.take_of_length_le (by omega)]
      · congr 1; omega
    obtain ⟨h2, d2, st2, fl2, hc2, hp2, hs2, hfl, hmm2, hpush⟩ := hc1.pushAll haddr (s.rest t) 0
    obtain ⟨h3, hrun3, hc3, hl3⟩ := hc2.setFinal haddr
    have hsrc := suffixSource_eq hc1.unchecked
    have hstored : Lev.path (pushed (s.rest t) fs1) = s.stored t := by rw [pushed_path, hkept]; rfl
    have hkl : (s.kept t).length ≤ commonLen t s.prev := by simp only [Draft.kept, List.length_take]; omega
    have hrl : (s.rest t).length = t.length - commonLen t s.prev := by simp [Draft.rest]
    have hsl : (s.stored t).length ≤ t.length := by simp only [Draft.stored, List.length_append]; omega
    have hrun : Ends (fun fuel => addTerm sgn addr fuel t h d) (true, h3, { d2 with prev := t, size := d2.size + 1 }) := by
      refine ⟨N, fun fuel hf => ?_⟩
      have e1 := hN fuel hf
      simp only at e1
      have e2 := hpush [] (by simp)
      rw [Heap.without_nil, Heap.without_nil] at e2
      have e3 : addTermF sgn addr fuel none t h d = .ok (.added, h3, { d2 with prev := t, size := d2.size + 1 }) := by
        have e2' : pushSuffixF addr none 0 (topNode d1.root st1) (t.drop (commonLen t s.prev)) h1 d1 =
          .ok (some (topNode d2.root st2), h2, d2) := e2
        simp [addTermF, hltF, ht, minimizeF, hw.site.unchecked, hi, e1, bind, Except.bind, hsrc, e2', hrun3, pure, Except.pure]
      rw [addTermF_none] at e3
      obtain ⟨⟨b, x⟩, e4, e5⟩ := map_ok e3
      simp only [Prod.mk.injEq] at e5
      obtain ⟨e5, e6⟩ := e5
      have hb : b = true := fateOf_inj e5
      subst hb
      simp only
      rw [e4]
      congr 2
      exact Prod.ext e6.1 e6.2
    have hshort2 : st2.length ≤ t.length := by
      have := hc2.pathLength
      rw [hstored] at this
      omega
    refine ⟨h3, _, hrun, ?_⟩
    -- is there an edge with the label?
    have htaken : s.taken t = true ↔ ∃ c, (s.rest t).head? = some c ∧ ∃ e ∈ (topFrame fs1 rf1).kids.toList, e.1 = c := by
      unfold Draft.taken
      cases hr : s.rest t with
      | nil => simp
      | cons c rest =>
        simp only [List.any_eq_true, List.isPrefixOf_iff_prefix, List.head?_cons, Option.some.injEq]
        constructor
        · rintro ⟨v, hv, hpre⟩
          refine ⟨c, rfl, free_edge hg1.free ((hl1 v).2 ((hw.lang v).2 hv)) ?_⟩
          rw [hkept]; exact hpre
        · rintro ⟨_, rfl, e, he, rfl⟩
          obtain ⟨u, hu⟩ := hg1.word he
          refine ⟨_, (hw.lang _).1 ((hl1 _).1 hu), ?_⟩
          rw [hkept]
          exact ⟨u, by simp⟩
    by_cases htk : s.taken t = true
    · right
      refine ⟨htk, reg1, st2, fl2, _, _, Z1, hc3.withPrev t (d2.size + 1), hshort2, (clash_setTop _).2 ?_⟩
      obtain ⟨c, hc, e, he, hec⟩ := htaken.1 htk
      cases hr : s.rest t with
      | nil => rw [hr] at hc; simp at hc
      | cons x rest =>
        rw [hr] at hc
        simp only [List.head?_cons, Option.some.injEq] at hc
        subst hc
        exact pushed_clash rest (.inl ⟨e, he, hec⟩)
    · left
      refine ⟨by simpa using htk, reg1, st2, fl2, _, _, Z1, ⟨hc3.withPrev t (d2.size + 1), ⟨?_, ?_, ?_, ?_⟩, ?_, rfl, ?_, fun w => ?_, hsl,
        hc2.full (hc1.full hfull1 hmm2) (hc2.finalKeeps hrun3)⟩⟩
      · rw [clash_setTop]
        exact pushed_free _ hg1.free fun c hc e he hec => htk (htaken.2 ⟨c, hc, e, he, hec⟩)
      · have hlow := pushed_low (s.rest t) hg1.low (by rw [hkept]; omega)
        exact hlow.setTop hlow.top
      · have htrim := pushed_trim (s.rest t) hg1.trim
        exact htrim.setTop htrim.top
      · intro _
        rw [topFrame_set]
        exact .inl rfl
      · rw [path_setTop, hstored]; rfl
      · simp only [Draft.push]; rw [hs2, hs1, hw.size]
      · rw [hl3, pushed_lang, hl1, hw.lang, hstored]
        simp [Draft.push]

/-- The longest word of a list of calls. -/
theorem ops_bound (ops : List BuildOp) : ∃ L, ∀ t, BuildOp.add t ∈ ops → t.length ≤ L := by
  induction ops with
  | nil => exact ⟨0, by simp⟩
  | cons op ops ih =>
    obtain ⟨L, hL⟩ := ih
    cases op with
    | finish => exact ⟨L, fun t ht => hL t (by simpa using ht)⟩
    | add u =>
      refine ⟨max L u.length, fun t ht => ?_⟩
      rcases List.mem_cons.1 ht with h | h
      · cases h; omega
      · have := hL t h; omega

theorem Site.runAny (haddr : AddrOk addr) (ops : List BuildOp) {h : Heap} {d : SDawg} {reg : List RegEntry}
    {st : List Trans} {fl lk : List Nat} {fs : List (UInt8 × Frame)} {rf : Frame}
    {Z : Nat → Prop} (hc : Site sgn addr c0 m0 h d reg st fl lk fs rf Z) (hs : st.length ≤ d.prev.length) :
    ∃ N, ∀ X : List Nat, (∀ a ∈ X, a ∈ fl) → X ≠ [] ∨ Clash fs rf → ∀ fuel, N ≤ fuel → (do
      let (_, h, d) ← buildRun sgn addr fuel ops (h.without X) d
      closeRun sgn fuel h d) = .error .ub := by
  induction ops generalizing h d reg st fl fs rf Z with
  | nil =>
    obtain ⟨N, hN⟩ := hc.doom haddr
    refine ⟨N, fun X hX hcl fuel hf => ?_⟩
    have := hN X hX hcl fuel hf
    rw [finishF_none] at this
    simp only [buildRun, closeRun, bind, Except.bind] at this ⊢
    cases hf : finishDawg sgn fuel (h.without X) d with
    | error e => rw [hf] at this; simpa [Except.map] using this
    | ok r => rw [hf] at this; simpa [Except.map] using this
  | cons op ops ih =>
    cases op with
    | finish =>
      obtain ⟨N1, h1, d1, reg1, fs1, rf1, Z1, hc1, hloop⟩ := hc.loopAny haddr st.length 0 (Nat.le_refl _)
      obtain ⟨N2, hN2⟩ := ih hc1 (by simp)
      refine ⟨max N1 N2, fun X hX hcl fuel hf => ?_⟩
      rcases hloop X hX hcl fuel (by omega) with e | ⟨X1, e, hX1, hcl1⟩
      · rw [minimizeLoopF_none] at e
        have := map_err e
        simp [buildRun, finishDawg, minimize, hc.unchecked, this, bind, Except.bind]
      · rw [minimizeLoopF_none] at e
        obtain ⟨⟨a, b⟩, e1, e2⟩ := map_ok e
        simp only [Prod.mk.injEq, and_true] at e2
        obtain ⟨rfl, rfl⟩ := e2
        have := hN2 X1 hX1 hcl1 fuel (by omega)
        simpa [buildRun, finishDawg, minimize, hc.unchecked, e1, bind, Except.bind] using this
    | add t =>
      obtain ⟨N1, fate, h1, d1, reg1, st1, fl1, fs1, rf1, Z1, hc1, hs1, hadd⟩ := hc.addAny haddr t hs
      obtain ⟨N2, hN2⟩ := ih hc1 hs1
      refine ⟨max N1 N2, fun X hX hcl fuel hf => ?_⟩
      rcases hadd X hX hcl fuel (by omega) with e | ⟨X1, e, hX1, hcl1⟩
      · rw [addTermF_none] at e
        have := map_err e
        simp [buildRun, this, bind, Except.bind]
      · rw [addTermF_none] at e
        obtain ⟨r, e1, e2⟩ := map_ok e
        simp only [Prod.mk.injEq] at e2
        obtain ⟨_, e3, e4⟩ := e2
        have := hN2 X1 hX1 hcl1 fuel (by omega)
        rw [← e3, ← e4] at this
        simp only [buildRun, e1, bind, Except.bind] at this ⊢
        cases hb : buildRun sgn addr fuel ops r.2.1 r.2.2 with
        | error e => rw [hb] at this; exact this
        | ok r => rw [hb] at this; exact this

/-- The calls, from a dictionary whose words are known. -/
theorem DraftedE.run (haddr : AddrOk addr) (ops : List BuildOp) (hL : ∀ t, BuildOp.add t ∈ ops → t.length ≤ L)
    (hw : DraftedE sgn addr c0 m0 L s h d) :
    (∀ bs s', s.run ops = some (bs, s') →
      ∃ h' d', Ends (fun fuel => buildRun sgn addr fuel ops h d) (bs, h', d') ∧ DraftedE sgn addr c0 m0 L s' h' d') ∧
    (s.run ops = none → ∃ N, ∀ fuel, N ≤ fuel → (do
      let (_, h, d) ← buildRun sgn addr fuel ops h d
      closeRun sgn fuel h d) = .error .ub) := by
  induction ops generalizing s h d with
  | nil => exact ⟨fun bs s' hr => by simp only [Draft.run, Option.some.injEq, Prod.mk.injEq] at hr; obtain ⟨rfl, rfl⟩ := hr; exact ⟨h, d, .of_eq fun _ => rfl, hw⟩, by simp [Draft.run]⟩
  | cons op ops ih =>
    have hL' : ∀ t, BuildOp.add t ∈ ops → t.length ≤ L := fun t ht => hL t (by simp [ht])
    cases op with
    | finish =>
      obtain ⟨h1, d1, ⟨N1, r1⟩, hw1⟩ := hw.finish haddr
      obtain ⟨i1, i2⟩ := ih hL' hw1
      refine ⟨fun bs s' hr => ?_, fun hr => ?_⟩
      · obtain ⟨h2, d2, ⟨N2, r2⟩, hw2⟩ := i1 bs s' hr
        refine ⟨h2, d2, ⟨max N1 N2, fun fuel hf => ?_⟩, hw2⟩
        have e1 := r1 fuel (by omega)
        have e2 := r2 fuel (by omega)
        simp only at e1 e2
        simp [buildRun, e1, e2, bind, Except.bind]
      · obtain ⟨N2, r2⟩ := i2 hr
        refine ⟨max N1 N2, fun fuel hf => ?_⟩
        have e1 := r1 fuel (by omega)
        have e2 := r2 fuel (by omega)
        simp only at e1
        simpa [buildRun, e1, bind, Except.bind] using e2
    | add t =>
      by_cases hlt : strLess t s.prev
      · have e1 : ∀ fuel, addTerm sgn addr fuel t h d = .ok (false, h, d) := by
          intro fuel
          have : d.prev = s.prev := by obtain ⟨_, _, _, _, _, _, hw⟩ := hw; exact hw.prev
          simp [addTerm, this, (strLt_iff _ _).2 hlt]
        obtain ⟨i1, i2⟩ := ih hL' hw
        refine ⟨fun bs s' hr => ?_, fun hr => ?_⟩
        · simp only [Draft.run, hlt, if_true, Option.map_eq_some_iff, Prod.mk.injEq] at hr
          obtain ⟨r, hr, rfl, rfl⟩ := hr
          obtain ⟨h2, d2, ⟨N2, r2⟩, hw2⟩ := i1 _ _ hr
          refine ⟨h2, d2, ⟨N2, fun fuel hf => ?_⟩, hw2⟩
          have e2 := r2 fuel (by omega)
          simp only at e2
          simp [buildRun, e1, e2, bind, Except.bind, pure, Except.pure]
        · simp only [Draft.run, hlt, if_true, Option.map_eq_none_iff] at hr
          obtain ⟨N2, r2⟩ := i2 hr
          refine ⟨N2, fun fuel hf => ?_⟩
          have e2 := r2 fuel (by omega)
          simp only [buildRun, e1, bind, Except.bind] at e2 ⊢
          cases hb : buildRun sgn addr fuel ops h d with
          | error e => rw [hb] at e2; exact e2
          | ok r => rw [hb] at e2; exact e2
      · obtain ⟨h1, d1, ⟨N1, r1⟩, hcase⟩ := hw.add haddr t (hL t (by simp)) hlt
        rcases hcase with ⟨htk, hw1⟩ | ⟨htk, reg, st, fl, fs, rf, Z, hc, hs, hcl⟩
        · obtain ⟨i1, i2⟩ := ih hL' hw1
          refine ⟨fun bs s' hr => ?_, fun hr => ?_⟩
          · simp only [Draft.run, hlt, if_false, htk, Bool.false_eq_true, Option.map_eq_some_iff, Prod.mk.injEq] at hr
            obtain ⟨r, hr, rfl, rfl⟩ := hr
            obtain ⟨h2, d2, ⟨N2, r2⟩, hw2⟩ := i1 _ _ hr
            refine ⟨h2, d2, ⟨max N1 N2, fun fuel hf => ?_⟩, hw2⟩
            have e1 := r1 fuel (by omega)
            have e2 := r2 fuel (by omega)
            simp only at e1 e2
            simp [buildRun, e1, e2, bind, Except.bind, pure, Except.pure]
          · simp only [Draft.run, hlt, if_false, htk, Bool.false_eq_true, Option.map_eq_none_iff] at hr
            obtain ⟨N2, r2⟩ := i2 hr
            refine ⟨max N1 N2, fun fuel hf => ?_⟩
            have e1 := r1 fuel (by omega)
            have e2 := r2 fuel (by omega)
            simp only at e1
            simp only [buildRun, e1, bind, Except.bind] at e2 ⊢
            cases hb : buildRun sgn addr fuel ops h1 d1 with
            | error e => rw [hb] at e2; exact e2
            | ok r => rw [hb] at e2; exact e2
        · refine ⟨fun bs s' hr => ?_, fun _ => ?_⟩
          · simp [Draft.run, hlt, htk] at hr
          · obtain ⟨N2, r2⟩ := Site.runAny haddr ops hc hs
            refine ⟨max N1 N2, fun fuel hf => ?_⟩
            have e1 := r1 fuel (by omega)
            have e2 := r2 [] (by simp) (.inr hcl) fuel (by omega)
            rw [Heap.without_nil] at e2
            simp only at e1
            simp only [buildRun, e1, bind, Except.bind] at e2 ⊢
            cases hb : buildRun sgn addr fuel ops h1 d1 with
            | error e => rw [hb] at e2; exact e2
            | ok r => rw [hb] at e2; exact e2

end

/-- A new dictionary. -/
theorem newDawg_drafted {sgn : Bool} {addr : Nat → Nat} (haddr : AddrOk addr) (L : Nat) {h : Heap} (h0 : h.mem 0 = none)
    (hfresh : ∀ j, h.count ≤ j → h.mem (addr j) = none) :
    DraftedE sgn addr h.count h.mem L {} (newDawg addr h).1 (initDawg (newDawg addr h).2) := by
  obtain ⟨reg, st, fl, lk, fs, rf, Z, hw⟩ := newDawg_inWork (sgn := sgn) haddr L h0 hfresh
  have hfs : fs = [] := by
    have := hw.path
    simpa [path] using this
  subst hfs
  have hlk : lk = [] := by
    have := hw.stray
    exact List.length_eq_zero_iff.1 this
  subst hlk
  have hk : rf.kids = .nil := by
    cases hk : rf.kids with
    | nil => rfl
    | cons c b k F =>
      have := hw.kids [0] 0 (fun h => by cases h) rfl rfl (c, b, k) (by simp [topFrame, hk, Forest.toList])
      exact absurd this (Nat.not_lt_zero _)
  have hreg : reg = [] := by
    have := hw.site.minimized
    simpa [initDawg] using this.symm
  subst hreg
  have hst : st = [] := by
    have := hw.site.unchecked
    simpa [initDawg] using this.symm
  subst hst
  have hZ : ∀ a, ¬ Z a := by
    intro a ha
    have h1 := (hw.site.zoneRange a ha).1
    obtain ⟨j, h1, h2, rfl⟩ := h1
    simp only [newDawg, newNode] at h2
    have : j = h.count := by omega
    subst this
    exact hw.site.notZone _ (topNode_mem _ []) (by rw [show topNode _ [] = addr h.count from hw.site.root]; exact ha)
  exact ⟨[], [], fl, [], rf, Z, ⟨hw.site, ⟨fun h => h, hw.low, ⟨by rw [hk]; trivial, by simp⟩, by simp⟩, hw.path, hw.prev, hw.size,
    hw.lang, by simp, ⟨⟨by simp, .nil⟩, fun a ha => absurd ha (hZ a)⟩⟩⟩

/-- `finish` and `clean_up`: what the dictionary is then. -/
theorem DraftedE.close {sgn : Bool} {addr : Nat → Nat} {c0 : Nat} {m0 : Mem} {s : Draft} {h : Heap} {d : SDawg}
    (haddr : AddrOk addr) (hm0 : ∀ j, c0 ≤ j → m0 (addr j) = none) (hw : DraftedE sgn addr c0 m0 (2 ^ 62 - 1) s h d) :
    ∃ h' d', Ends (fun fuel => closeRun sgn fuel h d) (h', d') ∧ Dictionary sgn h'.mem d'.root ∧ h'.mem 0 = none ∧
      (∀ t, Accepts h'.mem d'.root t ↔ t ∈ s.words) ∧ d'.size = s.size ∧
      (∀ a b, Reaches h'.mem d'.root a → Reaches h'.mem d'.root b → (∀ t, Accepts h'.mem a t ↔ Accepts h'.mem b t) → a = b) ∧
      ∃ h'', Ends (fun fuel => destroyDawg fuel h' d') h'' ∧ ∀ a, h''.mem a = m0 a := by
  obtain ⟨h1, d1, ⟨N1, r1⟩, reg, st, fl, fs, rf, Z, hw⟩ := hw.finish haddr
  have hfs : fs = [] := by
    have := hw.path
    simpa [path] using this
  subst hfs
  have hc := hw.site
  have hC := hc.cleaned haddr hm0
  obtain ⟨N2, r2⟩ := hc.cleanUp (d' := d1) rfl hc.floating
  have hlow : rf.kids.height ≤ 2 ^ 62 - 1 := hw.good.low
  have hZR : ∀ a, Z a ↔ InReg reg a := fun a => ⟨hw.full.2 a, hc.inZone⟩
  have hZR' : Z = InReg reg := funext fun a => propext (hZR a)
  have hcore : Core sgn addr c0 m0 h1 { d1 with prev := s.words.getLast?.getD [], size := s.words.length } reg st fl [] rf :=
    ⟨hc.heap, hc.root, hc.unchecked, hc.minimized, hc.floating, ⟨hc.float.1, fun a => by rw [hc.float.2]; simp⟩, hw.full.1,
      fun a ha => (hc.zoneRange a (hc.inZone ha)).1, hZR' ▸ hc.stack, fun a ha => (hc.stackRange a ha).1, hc.nodup,
      fun a ha => hZR' ▸ hc.notZone a ha, trivial, hw.good.trim⟩
  have hfin := hcore.finished haddr (terms := s.words) rfl rfl hw.lang
  have hsw : swept addr c0 h1 [] d1.root = cleaned addr c0 h1 d1.root := by
    funext a
    by_cases h1 : InRange addr c0 h1 a ∧ ¬ Reaches h1.mem d1.root a
    · simp [swept, cleaned, h1]
    · simp only [swept, cleaned, h1, if_false, List.not_mem_nil, not_false_eq_true, and_true]
  refine ⟨⟨swept addr c0 h1 [] d1.root, h1.count⟩, { d1 with unchecked := none, minimized := none, floating := none },
    ⟨max N1 N2, fun fuel hf => ?_⟩, ⟨_, by omega, hC.dict⟩, hC.null, fun t => ?_, hw.size, ?_, ?_⟩
  · have e1 := r1 fuel (by omega)
    have e2 := r2 fuel (by omega)
    simp only at e1 e2
    simp [closeRun, e1, e2, bind, Except.bind]
  · exact (hC.accepts t).trans (hw.lang t)
  · have := hfin.minimal
    rw [← hsw] at this
    exact this
  · obtain ⟨h4, hrun4, l, _, hl, _, hst⟩ := hC.delete
    have hl0 : l = [] := List.length_eq_zero_iff.1 hl
    subst hl0
    exact ⟨h4, hrun4.congr fun fuel => rfl, fun a => hst a (by simp)⟩

/-! ### The property -/

/-- The calls on a new dictionary, then `finish` and `clean_up`. -/
def anyOrderRun (sgn : Bool) (addr : Nat → Nat) (fuel : Nat) (ops : List BuildOp) (h : Heap) :
    Except Err (List Bool × Heap × SDawg) := do
  let (h, d) := newDawg addr h
  let (bs, h, d) ← buildRun sgn addr fuel ops h (initDawg d)
  let (h, d) ← closeRun sgn fuel h d
  return (bs, h, d)

/-- C107: `add` and `finish` in any order: unless an edge is overwritten, all calls return, then `finish` and `clean_up` make
a minimal dictionary of the words that `Draft.run` says; deleting it, or deleting what there is before `finish`, leaves the
memory as it was. -/
theorem c107_words (sgn : Bool) {addr : Nat → Nat} {h : Heap} (ha : Allocator addr h) (ops : List BuildOp)
    (hlen : ∀ t, BuildOp.add t ∈ ops → t.length < 2 ^ 62) {bs : List Bool} {s : Draft} (hrun : ({} : Draft).run ops = some (bs, s)) :
    ∃ h' d', Ends (fun fuel => anyOrderRun sgn addr fuel ops h) (bs, h', d') ∧ Dictionary sgn h'.mem d'.root ∧
      h'.mem 0 = none ∧ (∀ t, Accepts h'.mem d'.root t ↔ t ∈ s.words) ∧ d'.size = s.size ∧
      (∀ a b, Reaches h'.mem d'.root a → Reaches h'.mem d'.root b → (∀ t, Accepts h'.mem a t ↔ Accepts h'.mem b t) → a = b) ∧
      ∃ h'', Ends (fun fuel => destroyDawg fuel h' d') h'' ∧ ∀ a, h''.mem a = h.mem a := by
  have haddr : AddrOk addr := ⟨ha.nonnull, ha.inj⟩
  obtain ⟨h1, d1, ⟨N1, r1⟩, hw1⟩ := ((newDawg_drafted (sgn := sgn) haddr (2 ^ 62 - 1) ha.null ha.fresh).run haddr ops
    (fun t ht => by have := hlen t ht; omega)).1 bs s hrun
  obtain ⟨h2, d2, ⟨N2, r2⟩, hrest⟩ := hw1.close haddr ha.fresh
  refine ⟨h2, d2, ⟨max N1 N2, fun fuel hf => ?_⟩, hrest⟩
  have e1 := r1 fuel (by omega)
  have e2 := r2 fuel (by omega)
  simp only at e1 e2
  simp [anyOrderRun, e1, e2, bind, Except.bind, pure, Except.pure]

/-- C107: without `finish` and `clean_up` at the end: the destructor frees all nodes. -/
theorem c107_delete_early (sgn : Bool) {addr : Nat → Nat} {h : Heap} (ha : Allocator addr h) (ops : List BuildOp)
    {bs : List Bool} {s : Draft} (hrun : ({} : Draft).run ops = some (bs, s)) :
    ∃ h' d', Ends (fun fuel => buildRun sgn addr fuel ops (newDawg addr h).1 (initDawg (newDawg addr h).2)) (bs, h', d') ∧
      d'.size = s.size ∧ ∃ h'', Ends (fun fuel => destroyDawg fuel h' d') h'' ∧ ∀ a, h''.mem a = h.mem a := by
  have haddr : AddrOk addr := ⟨ha.nonnull, ha.inj⟩
  obtain ⟨L, hL⟩ := ops_bound ops
  obtain ⟨h1, d1, r1, _, _, _, _, _, _, hw1⟩ := ((newDawg_drafted (sgn := sgn) haddr L ha.null ha.fresh).run haddr ops hL).1 bs s hrun
  obtain ⟨h2, r2, l, _, hl, _, hst⟩ := hw1.site.destroy haddr ha.fresh
  have hl0 : l = [] := List.length_eq_zero_iff.1 hl
  subst hl0
  exact ⟨h1, d1, r1, hw1.size, h2, r2, fun a => hst a (by simp)⟩

/-- C107: if an edge is overwritten, then the calls, `finish` and `clean_up` end in undefined behaviour. -/
theorem c107_undefined (sgn : Bool) {addr : Nat → Nat} {h : Heap} (ha : Allocator addr h) (ops : List BuildOp)
    (hrun : ({} : Draft).run ops = none) : ∃ N, ∀ fuel, N ≤ fuel → anyOrderRun sgn addr fuel ops h = .error .ub := by
  have haddr : AddrOk addr := ⟨ha.nonnull, ha.inj⟩
  obtain ⟨L, hL⟩ := ops_bound ops
  obtain ⟨N, hN⟩ := ((newDawg_drafted (sgn := sgn) haddr L ha.null ha.fresh).run haddr ops hL).2 hrun
  refine ⟨N, fun fuel hf => ?_⟩
  have := hN fuel hf
  simp only [anyOrderRun, bind, Except.bind] at this ⊢
  cases hb : buildRun sgn addr fuel ops (newDawg addr h).1 (initDawg (newDawg addr h).2) with
  | error e => rw [hb] at this; simpa using this
  | ok r =>
    rw [hb] at this
    simp only at this ⊢
    rw [this]

/-- C107: the calls, `finish` and `clean_up` are defined exactly if no edge is overwritten. -/
theorem c107_defined_iff (sgn : Bool) {addr : Nat → Nat} {h : Heap} (ha : Allocator addr h) (ops : List BuildOp)
    (hlen : ∀ t, BuildOp.add t ∈ ops → t.length < 2 ^ 62) :
    (∃ r, Ends (fun fuel => anyOrderRun sgn addr fuel ops h) r) ↔ ({} : Draft).run ops ≠ none := by
  constructor
  · rintro ⟨r, N, hN⟩ hr
    obtain ⟨N', hN'⟩ := c107_undefined sgn ha ops hr
    have h1 := hN (max N N') (by omega)
    have h2 := hN' (max N N') (by omega)
    simp only at h1
    rw [h1] at h2
    cases h2
  · intro hr
    cases hrun : ({} : Draft).run ops with
    | none => exact absurd hrun hr
    | some r =>
      obtain ⟨h', d', hends, _⟩ := c107_words sgn ha ops hlen (bs := r.1) (s := r.2) hrun
      exact ⟨_, hends⟩

/-! ### When the dictionary is right -/

/-- A word that goes the way of `t` is not before `p`, if `p` is before `t`. -/
theorem beyond {v p t : Str} (h1 : ¬ strLess p v) (h2 : ¬ strLess t p) (hk : commonLen t p < t.length)
    (hv : t.take (commonLen t p + 1) <+: v) : False := by
  induction t generalizing v p with
  | nil => simp at hk
  | cons c t ih =>
    cases p with
    | nil =>
      cases v with
      | nil => simp [commonLen] at hv
      | cons x v => exact h1 .nil
    | cons x p =>
      cases v with
      | nil => simp at hv
      | cons y v =>
        simp only [List.take_succ_cons, List.cons_prefix_cons] at hv
        obtain ⟨rfl, hv⟩ := hv
        by_cases hcx : c = x
        · subst hcx
          simp only [commonLen, if_true, List.length_cons] at hk hv
          exact ih (fun h => h1 (.cons h)) (fun h => h2 (.cons h)) (by omega) hv
        · have e1 : ¬ x.toNat < c.toNat := fun h => h1 (.rel h)
          have e2 : ¬ c.toNat < x.toNat := fun h => h2 (.rel h)
          exact hcx (UInt8.toNat_inj.1 (by omega))

theorem commonLen_zero_iff (t p : Str) : commonLen t p = 0 ↔ ∀ c, t.head? = some c → p.head? ≠ some c := by
  cases t with
  | nil => simp [commonLen]
  | cons c t =>
    cases p with
    | nil => simp [commonLen]
    | cons x p =>
      simp only [commonLen, List.head?_cons, Option.some.injEq]
      by_cases h : c = x
      · subst h; simp
      · simp [h]; exact fun h' => h h'.symm

/-- What has been stored stays. -/
theorem run_words {s s' : Draft} {ops : List BuildOp} {bs : List Bool} (hr : s.run ops = some (bs, s')) :
    s.words <+: s'.words := by
  induction ops generalizing s bs with
  | nil =>
    simp only [Draft.run, Option.some.injEq, Prod.mk.injEq] at hr
    rw [hr.2]
    exact List.prefix_refl _
  | cons op ops ih =>
    cases op with
    | finish => exact ih (s := { s with path := [] }) hr
    | add t =>
      simp only [Draft.run] at hr
      split at hr
      · obtain ⟨r, hr, h2⟩ := Option.map_eq_some_iff.1 hr
        simp only [Prod.mk.injEq] at h2
        have := ih (s := s) (bs := r.1) (by rw [hr, ← h2.2])
        exact this
      · split at hr
        · cases hr
        · obtain ⟨r, hr, h2⟩ := Option.map_eq_some_iff.1 hr
          simp only [Prod.mk.injEq] at h2
          have := ih (s := s.push t) (bs := r.1) (by rw [hr, ← h2.2])
          exact (List.prefix_append _ _).trans this

/-- The calls return what they should, and as many words are stored as terms taken. -/
theorem run_results {s s' : Draft} {ops : List BuildOp} {bs : List Bool} (hr : s.run ops = some (bs, s')) :
    bs = addResults s.prev ops ∧ s'.words.length = s.words.length + (takenTerms s.prev ops).length ∧
      s'.size = s.size + (takenTerms s.prev ops).length := by
  induction ops generalizing s bs with
  | nil =>
    simp only [Draft.run, Option.some.injEq, Prod.mk.injEq] at hr
    obtain ⟨rfl, rfl⟩ := hr
    simp [addResults, takenTerms]
  | cons op ops ih =>
    cases op with
    | finish => exact ih (s := { s with path := [] }) hr
    | add t =>
      simp only [Draft.run, addResults, takenTerms] at hr ⊢
      by_cases hlt : strLess t s.prev
      · simp only [hlt, if_true] at hr ⊢
        obtain ⟨r, hr, h2⟩ := Option.map_eq_some_iff.1 hr
        simp only [Prod.mk.injEq] at h2
        obtain ⟨i1, i2⟩ := ih (s := s) (bs := r.1) (by rw [hr, ← h2.2])
        exact ⟨by rw [← h2.1, i1], i2⟩
      · simp only [hlt, if_false] at hr ⊢
        split at hr
        · cases hr
        · obtain ⟨r, hr, h2⟩ := Option.map_eq_some_iff.1 hr
          simp only [Prod.mk.injEq] at h2
          obtain ⟨i1, i2, i3⟩ := ih (s := s.push t) (bs := r.1) (by rw [hr, ← h2.2])
          simp only [Draft.push, List.length_append, List.length_cons, List.length_nil] at i1 i2 i3 ⊢
          exact ⟨by rw [← h2.1, i1], by omega, by omega⟩

theorem apart_iff {s : Draft} {closed : Bool} (ops : List BuildOp) (hp : s.path = if closed then [] else s.prev)
    (hle : ∀ v ∈ s.words, ¬ strLess s.prev v) :
    Apart closed s.prev ops ↔ ∃ bs s', s.run ops = some (bs, s') ∧ s'.words = s.words ++ takenTerms s.prev ops := by
  induction ops generalizing s closed with
  | nil => exact ⟨fun _ => ⟨[], s, rfl, by simp [takenTerms]⟩, fun _ => trivial⟩
  | cons op ops ih =>
    cases op with
    | finish => exact ih (s := { s with path := [] }) (closed := true) rfl hle
    | add t =>
      by_cases hlt : strLess t s.prev
      · simp only [Apart, Draft.run, takenTerms, hlt, if_true]
        rw [ih hp hle]
        constructor
        · rintro ⟨bs, s', h1, h2⟩; exact ⟨_, s', by rw [h1]; rfl, h2⟩
        · rintro ⟨bs, s', h1, h2⟩
          obtain ⟨r, h3, h4⟩ := Option.map_eq_some_iff.1 h1
          simp only [Prod.mk.injEq] at h4
          exact ⟨r.1, s', by rw [h3, ← h4.2], h2⟩
      · simp only [Apart, Draft.run, takenTerms, hlt, if_false, ← commonLen_zero_iff]
        by_cases hok : closed = true → commonLen t s.prev = 0
        · -- the term is stored as it is
          have hkept : s.kept t = t.take (commonLen t s.prev) := by
            rw [Draft.kept, hp]
            cases closed with
            | true => rw [hok rfl]; simp
            | false => exact (commonLen_take t s.prev).symm
          have hst : s.stored t = t := by rw [Draft.stored, hkept, Draft.rest, List.take_append_drop]
          have htk : s.taken t = false := by
            cases htk : s.taken t with
            | false => rfl
            | true =>
              exfalso
              unfold Draft.taken at htk
              cases hr : s.rest t with
              | nil => rw [hr] at htk; simp at htk
              | cons c rest =>
                rw [hr] at htk
                simp only [List.any_eq_true, List.isPrefixOf_iff_prefix] at htk
                obtain ⟨v, hv, hpre⟩ := htk
                have hlen : commonLen t s.prev < t.length := by
                  have : (s.rest t).length = t.length - commonLen t s.prev := by simp [Draft.rest]
                  rw [hr] at this
                  simp only [List.length_cons] at this
                  omega
                refine beyond (hle v hv) hlt hlen ?_
                have hc : t[commonLen t s.prev]? = some c := by
                  have : (s.rest t).head? = some c := by rw [hr]; rfl
                  rw [Draft.rest, List.head?_drop] at this
                  exact this
                rw [List.take_add_one, hc, ← hkept]
                exact hpre
          simp only [htk, Bool.false_eq_true, if_false]
          have hstep := ih (s := s.push t) (closed := false) (by simp [Draft.push, hst]) (by
            intro v hv
            simp only [Draft.push, hst, List.mem_append, List.mem_singleton] at hv ⊢
            rcases hv with hv | rfl
            · intro h'
              rcases strLess_total s.prev t with h1 | h1 | h1
              · exact hle v hv (strLess_trans h1 h')
              · exact hle v hv (h1 ▸ h')
              · exact hlt h1
            · exact strLess_irrefl _)
          have hpv : (s.push t).prev = t := rfl
          have hwd : (s.push t).words = s.words ++ [t] := by simp [Draft.push, hst]
          rw [hpv, hwd] at hstep
          rw [and_iff_right hok, hstep]
          constructor
          · rintro ⟨bs, s', h1, h2⟩; exact ⟨_, s', by rw [h1]; rfl, by simpa using h2⟩
          · rintro ⟨bs, s', h1, h2⟩
            obtain ⟨r, h3, h4⟩ := Option.map_eq_some_iff.1 h1
            simp only [Prod.mk.injEq] at h4
            exact ⟨r.1, s', by rw [h3, ← h4.2], by simpa using h2⟩
        · refine ⟨fun h => absurd h.1 hok, ?_⟩
          rintro ⟨bs, s', h1, h2⟩
          exfalso
          split at h1
          · cases h1
          obtain ⟨r, h3, h4⟩ := Option.map_eq_some_iff.1 h1
          simp only [Prod.mk.injEq] at h4
          obtain ⟨u, hu⟩ := run_words (s := s.push t) (bs := r.1) (s' := s') (by rw [h3, ← h4.2])
          rw [h2] at hu
          simp only [Draft.push, List.append_assoc, List.append_cancel_left_eq, List.singleton_append, List.cons.injEq] at hu
          have hcl : closed = true := Classical.byContradiction fun h => hok fun h' => absurd h' h
          have hk : commonLen t s.prev ≠ 0 := fun h => hok fun _ => h
          have hlen := congrArg List.length hu.1
          rw [hcl] at hp
          simp only [if_true] at hp
          have := commonLen_le_left t s.prev
          simp [Draft.stored, Draft.kept, Draft.rest, hp] at hlen
          omega

/-- C107: the calls of `add` return what they should, if all is defined, and `size` is the number of terms taken. -/
theorem c107_results {ops : List BuildOp} {bs : List Bool} {s : Draft} (hrun : ({} : Draft).run ops = some (bs, s)) :
    bs = addResults [] ops ∧ s.words.length = (takenTerms [] ops).length ∧ s.size = (takenTerms [] ops).length := by
  simpa using run_results hrun

/-- C107: the dictionary has the terms that were taken exactly if no term taken after a call of `finish` begins with the
first letter of the term taken before. -/
theorem c107_right_iff (ops : List BuildOp) :
    Apart false [] ops ↔ ∃ bs s, ({} : Draft).run ops = some (bs, s) ∧ s.words = takenTerms [] ops := by
  simpa using apart_iff (s := {}) (closed := false) ops rfl (by simp)

/-- C107: in that case `finish` between calls of `add` does no harm. -/
theorem c107_right (sgn : Bool) {addr : Nat → Nat} {h : Heap} (ha : Allocator addr h) (ops : List BuildOp)
    (hlen : ∀ t, BuildOp.add t ∈ ops → t.length < 2 ^ 62) (hap : Apart false [] ops) :
    ∃ h' d', Ends (fun fuel => anyOrderRun sgn addr fuel ops h) (addResults [] ops, h', d') ∧ Dictionary sgn h'.mem d'.root ∧
      h'.mem 0 = none ∧ (∀ t, Accepts h'.mem d'.root t ↔ t ∈ takenTerms [] ops) ∧ d'.size = (takenTerms [] ops).length ∧
      (∀ a b, Reaches h'.mem d'.root a → Reaches h'.mem d'.root b → (∀ t, Accepts h'.mem a t ↔ Accepts h'.mem b t) → a = b) ∧
      ∃ h'', Ends (fun fuel => destroyDawg fuel h' d') h'' ∧ ∀ a, h''.mem a = h.mem a := by
  obtain ⟨bs, s, hrun, hw⟩ := (c107_right_iff ops).1 hap
  obtain ⟨h1, _, h3⟩ := c107_results hrun
  have := c107_words sgn ha ops hlen hrun
  rw [h1, hw, h3] at this
  exact this

/-! ### Examples -/

/-- `ab`, `finish`, `ac`: the dictionary has `ab` and `c`. -/
example : (({} : Draft).run [.add [97, 98], .finish, .add [97, 99]]).map (fun r => (r.1, r.2.words, r.2.size)) =
    some ([true, true], [[97, 98], [99]], 2) := by decide

/-- `ab`, `finish`, `ab`: the dictionary has `ab` and the empty word. -/
example : (({} : Draft).run [.add [97, 98], .finish, .add [97, 98]]).map (fun r => (r.1, r.2.words)) =
    some ([true, true], [[97, 98], []]) := by decide

/-- `ab`, `finish`, `ac`, `acd`: as the first two letters are the same, but only one is left, `d` is put behind `c`. -/
example : (({} : Draft).run [.add [97, 98], .finish, .add [97, 99], .add [97, 99, 100]]).map (fun r => (r.1, r.2.words)) =
    some ([true, true, true], [[97, 98], [99], [99, 100]]) := by decide

/-- `aa`, `finish`, `ab`, `b`: the node that `b` leads to is overwritten. -/
example : ({} : Draft).run [.add [97, 97], .finish, .add [97, 98], .add [98]] = none := by decide

/-- `aa`, `finish`, `aaa`: the node that `a` leads to is overwritten. -/
example : ({} : Draft).run [.add [97, 97], .finish, .add [97, 97, 97]] = none := by decide

/-- Both happen in the program, with its own memory. -/
example : (anyOrderRun true (fun k => k + 1) 100 [.add [97, 98], .finish, .add [97, 98]] exHeap).map (fun r =>
      (r.1, [[97, 98], [], [97]].map (containsTerm r.2.1.mem r.2.2.root))) =
    .ok ([true, true], [.ok true, .ok true, .ok false]) := by decide +kernel

example : (anyOrderRun true (fun k => k + 1) 100 [.add [97, 97], .finish, .add [97, 97, 97]] exHeap).map (fun r => r.1) =
    .error .ub := by decide +kernel

/-- `ab`, `finish`, `a` (not taken), `b`, `bc`, `finish`, `finish`, `c`: nothing is wrong. -/
example : Apart false [] [.add [97, 98], .finish, .add [97], .add [98], .add [98, 99], .finish, .finish, .add [99]] := by
  exact (c107_right_iff _).2 ⟨[true, false, true, true, true], ⟨[99], [99], [[97, 98], [98], [98, 99], [99]], 4⟩, by decide, by decide⟩

end Lev.Props
