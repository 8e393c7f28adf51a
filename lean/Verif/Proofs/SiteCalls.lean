import Verif.Proofs.SiteAdd
import Verif.Proofs.SiteWords

/-!
Calls of `add` when allocations fail.
-/

namespace Lev

open Spec

/-- A dictionary that is being built, and what its words are. -/
structure InWork (sgn : Bool) (addr : Nat → Nat) (c0 : Nat) (m0 : Mem) (L : Nat) (s : Progress) (h : Heap) (d : SDawg)
    (reg : List RegEntry) (st : List Trans) (fl lk : List Nat) (fs : List (UInt8 × Frame)) (rf : Frame) (Z : Nat → Prop) :
    Prop where
  site : Site sgn addr c0 m0 h d reg st fl lk fs rf Z
  fits : Fits fs rf
  path : path fs = s.path
  prev : d.prev = s.prev
  size : d.size = s.size
  stray : lk.length = s.stray
  lang : ∀ w, Lang fs rf w ↔ w ∈ s.words
  ordered : s.Ordered
  kids : ∀ t x, ¬ strLess t s.last → commonLen t s.prev = s.path.length → t[s.path.length]? = some x →
    ∀ e ∈ (topFrame fs rf).kids.toList, e.1.toNat < x.toNat
  low : Low L fs rf

/-- For some register, stack and so on. -/
def InWorkE (sgn : Bool) (addr : Nat → Nat) (c0 : Nat) (m0 : Mem) (L : Nat) (s : Progress) (h : Heap) (d : SDawg) : Prop :=
  ∃ reg st fl lk fs rf Z, InWork sgn addr c0 m0 L s h d reg st fl lk fs rf Z

section
variable {sgn : Bool} {addr : Nat → Nat} {c0 : Nat} {m0 : Mem} {L : Nat} {h : Heap} {d : SDawg} {reg : List RegEntry}
  {st : List Trans} {fl lk : List Nat} {fs : List (UInt8 × Frame)} {rf : Frame} {Z : Nat → Prop}

theorem Site.pathLength (hc : Site sgn addr c0 m0 h d reg st fl lk fs rf Z) : st.length = (path fs).length := by
  have := hc.stack.length
  simp [path, this]

theorem suffixSource_eq (h : d.unchecked = some st) : suffixSource d = .ok (topNode d.root st) := by
  rw [suffixSource, h]
  cases st <;> rfl

theorem Site.withPrev (hc : Site sgn addr c0 m0 h d reg st fl lk fs rf Z) (p : Str) (n : Nat) :
    Site sgn addr c0 m0 h { d with prev := p, size := n } reg st fl lk fs rf Z := { hc with }

theorem Fits.top {fs : List (UInt8 × Frame)} {rf : Frame} (h : Fits fs rf) (b : Bool) :
    Fits (setTopS ⟨b, (topFrame fs rf).kids⟩ fs) (setTopR ⟨b, (topFrame fs rf).kids⟩ fs rf) := by
  cases fs with
  | nil => exact h
  | cons x fs =>
    obtain ⟨c, f⟩ := x
    exact h

/-- What `minimize` leaves. -/
theorem minimizeF_spec (haddr : AddrOk addr) {s : Progress} (hw : InWork sgn addr c0 m0 L s h d reg st fl lk fs rf Z)
    (f : Option BFault) (i : Nat) :
    ∃ (kind : Kind) (q : Nat) (h' : Heap) (d' : SDawg) (reg' : List RegEntry) (st' : List Trans)
      (fs' : List (UInt8 × Frame)) (rf' : Frame) (Z' : Nat → Prop),
      Ends (fun fuel => minimizeF sgn fuel f i h d) (h', d', kind.threw) ∧
      Minimized sgn addr c0 m0 f 0 (s.path.length - i) kind q h d fs rf fl lk h' d' reg' st' fs' rf' Z' := by
  have hlen := hw.site.pathLength
  rw [hw.path] at hlen
  obtain ⟨kind, q, h', d', reg', st', fs', rf', Z', hrun, hM⟩ :=
    minimizeLoopF_spec haddr f (s.path.length - i) 0 hw.site hw.fits (by omega)
  refine ⟨kind, q, h', d', reg', st', fs', rf', Z', hrun.congr fun n => ?_, hM⟩
  rw [minimizeF, hw.site.unchecked, ← hlen]

/-- `minimize` has thrown. -/
theorem Minimized.stuck {s : Progress} (hw : InWork sgn addr c0 m0 L s h d reg st fl lk fs rf Z) {f : Option BFault} {i q : Nat}
    {kind : Kind} {h' : Heap} {d' : SDawg} {reg' : List RegEntry} {st' : List Trans}
    {fs' : List (UInt8 × Frame)} {rf' : Frame} {Z' : Nat → Prop}
    (hM : Minimized sgn addr c0 m0 f 0 (s.path.length - i) kind q h d fs rf fl lk h' d' reg' st' fs' rf' Z')
    (hk : kind ≠ .none) :
    ∃ b s', f = some b ∧ Stuck i s b s' ∧ s'.path = s.path.take (s.path.length - q) ∧ 0 < q ∧ q ≤ s.path.length - i ∧
      s'.prev = s.prev ∧ s'.last = s.last ∧ s'.size = s.size ∧ s'.stray = s.stray ∧ ∀ w, Lang fs' rf' w ↔ w ∈ s'.words := by
  obtain ⟨h1, h2, h3⟩ := hM.stop hk
  rw [show 0 + q - 1 = q - 1 by omega] at h3
  have hq : q - 1 + 1 = q := by omega
  cases kind with
  | none => exact absurd rfl hk
  | lost =>
    rcases h3 with h3 | h3
    all_goals
      refine ⟨_, _, h3, .lost (i := i) (s := s) (k := q - 1) (by simp) (by omega), by simp only [hq], h1, h2, rfl, rfl, rfl, rfl,
        fun w => ?_⟩
      rw [hM.lang, hw.lang, hw.path]
      simp [-List.isPrefixOf_iff_prefix, ← List.isPrefixOf_iff_prefix]
  | unregistered =>
    refine ⟨_, _, h3, .unregistered (i := i) (s := s) (k := q - 1) (by omega), by simp only [hq], h1, h2, rfl, rfl, rfl, rfl,
      fun w => ?_⟩
    rw [hM.lang, hw.lang]
    simp

theorem Spec.Progress.Ordered.only {s : Progress} (hs : s.Ordered) {t : Str} (ht : ¬ strLess t s.last) {t' : Str}
    (ht' : ¬ strLess t' t) {m : Nat} (hm : commonLen t' s.prev = m) (hi : commonLen t s.prev ≤ m) : m = commonLen t s.prev := by
  have := commonLen_between (ge_trans hs.prev ht) ht'
  omega

theorem addTermF_spec (haddr : AddrOk addr) {s : Progress} (hw : InWork sgn addr c0 m0 L s h d reg st fl lk fs rf Z)
    (f : Option BFault) (t : Str) (hsafe : Safe s t) (hL : t.length ≤ L) :
    ∃ fate s' h' d', Ends (fun fuel => addTermF sgn addr fuel f t h d) (fate, h', d') ∧ AddOut s t f fate s' ∧
      InWorkE sgn addr c0 m0 L s' h' d' := by
  by_cases hlt : strLess t s.prev
  · refine ⟨.refused, s, h, d, .of_eq fun n => ?_, .refused hlt, ⟨_, _, _, _, _, _, _, hw⟩⟩
    rw [addTermF, hw.prev, if_pos ((strLt_iff _ _).2 hlt)]
  rcases hsafe with h' | ⟨hlast, hcom⟩
  · exact absurd h' hlt
  obtain ⟨n1, n2, n3, n4⟩ := hw.ordered.next hlast hcom
  have hltF : strLt t d.prev = false := by rw [hw.prev]; exact (strLt_false_iff _ _).2 hlt
  have hil := commonLen_le_left t s.prev
  by_cases hterm : t = []
  · subst hterm
    have hl0 : s.last = [] := by
      cases hl : s.last with
      | nil => rfl
      | cons x l => rw [hl] at hlast; exact absurd (not_ge_nil x l) hlast
    have hp0 : s.path = [] := by
      have := hw.ordered.path
      rw [hl0] at this
      cases hl : s.path with
      | nil => rfl
      | cons x l => rw [hl] at this; exact absurd (not_ge_nil x l) this
    have hv0 : s.prev = [] := by
      have := hw.ordered.prev
      rw [hl0] at this
      cases hl : s.prev with
      | nil => rfl
      | cons x l => rw [hl] at this; exact absurd (not_ge_nil x l) this
    have hfs : fs = [] := by
      have := hw.path
      rw [hp0] at this
      simpa [path] using this
    subst hfs
    have hst : st = [] := by
      have := hw.site.stack.length
      cases st with
      | nil => rfl
      | cons => simp at this
    subst hst
    obtain ⟨h', hrun, hc', hl'⟩ := hw.site.setFinal haddr
    have hrun' : Lev.setFinal d.root h = .ok h' := hrun
    have hlang : ∀ w, Lang [] (setTopR ⟨true, (topFrame [] rf).kids⟩ [] rf) w ↔ w ∈ s.words ++ [[]] := by
      intro w
      have := hl' w
      simp only [setTopS] at this
      rw [this, hw.lang]
      simp [path]
    have hlow0 := hw.low.setTop (g := ⟨true, (topFrame [] rf).kids⟩) hw.low.top
    by_cases hf : f = some .prev
    · refine ⟨.threw, { s with last := [], path := [], words := s.words ++ [[]] }, h', d, .of_eq fun n => ?_,
        by subst hf; exact .prev hlt, ⟨_, _, _, _, _, _, _, ⟨hc', hw.fits.top true, by simp [path, setTopS], hw.prev, hw.size, hw.stray, hlang, ?_, ?_, hlow0⟩⟩⟩
      · simp only [addTermF, hltF, if_true, hrun', bind, Except.bind, Bool.false_eq_true, if_false, hf, pure, Except.pure]
      · exact .done hv0 rfl rfl
      · intro t' x hx1 hx2 hx3 e he
        refine hw.kids t' x (by rw [hl0]; exact hx1) (by rw [hp0]; exact hx2) (by rw [hp0]; exact hx3) e ?_
        rw [topFrame_set] at he; exact he
    · refine ⟨.added, { s with prev := [], last := [], path := [], words := s.words ++ [[]], size := s.size + 1 }, h',
        { d with prev := [], size := d.size + 1 }, .of_eq fun n => ?_,
        ?_, ⟨_, _, _, _, _, _, _, ⟨hc'.withPrev _ _, hw.fits.top true, by simp [path, setTopS], rfl, by simp [hw.size], hw.stray, hlang, ?_, ?_, hlow0⟩⟩⟩
      · simp only [addTermF, hltF, if_true, hrun', bind, Except.bind, Bool.false_eq_true, if_false, hf, pure, Except.pure]
      · refine .added hlt fun b hb => ⟨?_, ?_, ?_⟩
        · cases b <;> simp [Unmet, hp0]
        · cases b <;> simp [Beyond]
        · rintro rfl; exact hf hb
      · exact .done rfl rfl rfl
      · intro t' x hx1 hx2 hx3 e he
        refine hw.kids t' x (by rw [hl0]; exact hx1) (by rw [hp0, hv0]; exact hx2) (by rw [hp0]; exact hx3) e ?_
        rw [topFrame_set] at he; exact he
  · obtain ⟨kind, q, h1, d1, reg1, st1, fs1, rf1, Z1, ⟨N, hN⟩, hM⟩ := minimizeF_spec haddr hw f (commonLen t s.prev)
    simp only at hN
    have hi : commonPrefix t d.prev = commonLen t s.prev := by rw [hw.prev, commonPrefix_eq]
    by_cases hk : kind = .none
    · subst hk
      have hq : q = s.path.length - commonLen t s.prev := hM.all rfl
      have hpath1 : path fs1 = t.take (commonLen t s.prev) := by
        rw [hM.path, hw.path, ← n3, hq]
        congr 1; omega
      -- the labels at the top are smaller than the next letter
      have hkids : ∀ t' x, ¬ strLess t' t → commonLen t' s.prev = commonLen t s.prev → t'[commonLen t s.prev]? = some x →
          ∀ e ∈ (topFrame fs1 rf1).kids.toList, e.1.toNat < x.toNat := by
        intro t' x hx1 hx2 hx3 e he
        by_cases hq0 : q = 0
        · have hpl : s.path.length = commonLen t s.prev := by omega
          rw [hM.same hq0] at he
          exact hw.kids t' x (ge_trans hlast hx1) (by rw [hx2, hpl]) (by rw [hpl]; exact hx3) e he
        · have hlp : commonLen t s.prev < s.path.length := by omega
          have hgi : s.path[commonLen t s.prev]? = some s.path[commonLen t s.prev] := List.getElem?_eq_getElem hlp
          have hle := hM.kids (by omega) s.path[commonLen t s.prev] (by
            rw [hw.path, hq, show s.path.length - (s.path.length - commonLen t s.prev) = commonLen t s.prev by omega]
            exact hgi) e he
          obtain ⟨y, hy1, hy2⟩ := n4 _ hgi
          have htt : t'.take (commonLen t s.prev) = t.take (commonLen t s.prev) := by
            have a1 := commonLen_take t' s.prev
            have a2 := commonLen_take t s.prev
            rw [hx2] at a1
            rw [a1, a2]
          obtain ⟨z, hz1, hz2⟩ := ge_next hx1 htt hy1
          rw [hx3] at hz1; obtain rfl := Option.some.inj hz1
          omega
      have hlang1 : ∀ w, Lang fs1 rf1 w ↔ w ∈ s.words := fun w => by rw [hM.lang, hw.lang]; simp
      have hdl : (t.drop (commonLen t s.prev)).length = t.length - commonLen t s.prev := by simp
      have hhead : ∀ c, (t.drop (commonLen t s.prev)).head? = some c →
          ∀ e ∈ (topFrame fs1 rf1).kids.toList, e.1.toNat < c.toNat := by
        intro c hc
        exact hkids t c (ge_refl t) rfl (by rw [← hc]; simp)
      have hsrc := suffixSource_eq hM.site.unchecked
      rcases pushSuffixF_spec haddr f (t.drop (commonLen t s.prev)) 0 hM.site with
        ⟨h2, d2, st2, fl2, fs2, hrun2, hP, hno⟩ | ⟨h2, d2, st2, fl2, lk2, fs2, j, n, hj, hstop, hrun2, hP, hlk⟩
      · obtain ⟨h3, hrun3, hc3, hl3⟩ := hP.site.setFinal haddr
        have hpath2 : path fs2 = t := by rw [hP.path, hpath1, List.take_append_drop]
        have hlang3 : ∀ w, Lang (setTopS ⟨true, (topFrame fs2 rf1).kids⟩ fs2)
            (setTopR ⟨true, (topFrame fs2 rf1).kids⟩ fs2 rf1) w ↔ w ∈ s.words ++ [t] := by
          intro w
          rw [hl3, hP.lang, hlang1, hpath2]
          simp
        have hlow2 := hP.low L (hM.low L hw.low) (by rw [hpath1, List.length_take, hdl]; omega)
        have hlow3 := hlow2.setTop (g := ⟨true, (topFrame fs2 rf1).kids⟩) hlow2.top
        have hfit2 := (hP.fits hM.fits hhead).top true
        have htop : (topFrame fs2 rf1).kids = .nil ∨ t = s.prev ∧ s.path = t ∧ (topFrame fs2 rf1) = topFrame fs rf := by
          by_cases hd : t.drop (commonLen t s.prev) = []
          · right
            have hlen : t.length ≤ commonLen t s.prev := List.drop_eq_nil_iff.1 hd
            have e1 : commonLen t s.prev = t.length := by omega
            have hp : s.path.take t.length = t := by rw [← e1, n3, e1, List.take_length]
            have e2 : s.path = t := ge_antisymm (prefix_ge ⟨s.path.drop t.length, by
              conv => lhs; lhs; rw [← hp]
              exact List.take_append_drop _ _⟩) (ge_trans hw.ordered.path hlast)
            have hp' : s.prev.take t.length = t := by
              have := commonLen_take t s.prev
              rw [e1, List.take_length] at this; exact this.symm
            have e3 : t = s.prev := ge_antisymm n1 (prefix_ge ⟨s.prev.drop t.length, by
              conv => lhs; lhs; rw [← hp']
              exact List.take_append_drop _ _⟩)
            refine ⟨e3, e2, ?_⟩
            rw [hP.same hd, hM.same (by rw [hq, e1, e2]; omega)]
          · exact .inl (hP.nil hd)
        have hrun : ∀ fuel, N ≤ fuel → addTermF sgn addr fuel f t h d = .ok (if f = some .prev then (.threw, h3, d2)
            else (.added, h3, { d2 with prev := t, size := d2.size + 1 })) := by
          intro fuel hf
          have hN' := hN fuel hf
          simp only [Kind.threw] at hN'
          simp only [addTermF, hltF, hterm, Bool.false_eq_true, if_false, hi, hN', bind, Except.bind, hsrc, hrun2, hrun3]
          split <;> rfl
        by_cases hf : f = some .prev
        · refine ⟨.threw, { s with last := t, path := t, words := s.words ++ [t] }, h3, d2, ⟨N, fun fuel hn => ?_⟩,
            by subst hf; exact .prev hlt, ⟨_, _, _, _, _, _, _, ⟨hc3, hfit2, by rw [path_setTop, hpath2],
              hP.prev.trans (hM.prev.trans hw.prev), hP.size.trans (hM.size.trans hw.size), hw.stray, hlang3, ?_, ?_, hlow3⟩⟩⟩
          · simp only; rw [hrun fuel hn, if_pos hf]
          · exact hw.ordered.grow hlast (m := t.length) hil rfl rfl (by simp)
          · intro t' x hx1 hx2 hx3 e he
            rw [topFrame_set] at he
            rcases htop with htop | ⟨e1, e2, e3⟩
            · rw [htop] at he; simp [Forest.toList] at he
            · simp only at hx1 hx2 hx3 he
              rw [e3] at he
              exact hw.kids t' x (ge_trans hlast hx1) (by rw [e2]; exact hx2) (by rw [e2]; exact hx3) e he
        · refine ⟨.added, { s with prev := t, last := t, path := t, words := s.words ++ [t], size := s.size + 1 }, h3, _,
            ⟨N, fun fuel hn => ?_⟩,
            ?_, ⟨_, _, _, _, _, _, _, ⟨hc3.withPrev t (d2.size + 1), hfit2, by rw [path_setTop, hpath2],
              rfl, by simp [hP.size.trans (hM.size.trans hw.size)], hw.stray, hlang3, ?_, ?_, hlow3⟩⟩⟩
          · simp only; rw [hrun fuel hn, if_neg hf]
          · refine .added hlt fun b hb => ⟨?_, ?_, ?_⟩
            · have hun := hM.unmet rfl
              cases b with
              | find k =>
                simp only [Unmet]
                refine Nat.le_of_not_lt fun hk => ?_
                exact (hun k hk).1 (by simpa using hb)
              | edge k =>
                simp only [Unmet]
                refine Nat.le_of_not_lt fun hk => ?_
                exact (hun k hk).2 (by simpa using hb)
              | _ => trivial
            · cases b with
              | node j =>
                simp only [Beyond]
                refine Nat.le_of_not_lt fun hj => ?_
                exact hno j (by omega) 0 (.inl ⟨by simpa using hb, rfl⟩)
              | float j =>
                simp only [Beyond]
                refine Nat.le_of_not_lt fun hj => ?_
                exact hno j (by omega) 1 (.inr (.inl ⟨by simpa using hb, rfl⟩))
              | emplace j =>
                simp only [Beyond]
                refine Nat.le_of_not_lt fun hj => ?_
                exact hno j (by omega) 0 (.inr (.inr ⟨by simpa using hb, rfl⟩))
              | _ => trivial
            · rintro rfl; exact hf hb
          · exact .done rfl rfl rfl
          · intro t' x hx1 hx2 hx3 e he
            rw [topFrame_set] at he
            rcases htop with htop | ⟨e1, e2, e3⟩
            · rw [htop] at he; simp [Forest.toList] at he
            · simp only at hx1 hx2 hx3 he
              rw [e3] at he
              exact hw.kids t' x (ge_trans hlast hx1) (by rw [e2, ← e1]; exact hx2) (by rw [e2]; exact hx3) e he
      · have hrun : ∀ fuel, N ≤ fuel → addTermF sgn addr fuel f t h d = .ok (.threw, h2, d2) := by
          intro fuel hf
          have hN' := hN fuel hf
          simp only [Kind.threw] at hN'
          simp only [addTermF, hltF, hterm, Bool.false_eq_true, if_false, hi, hN', bind, Except.bind, hsrc, hrun2, pure, Except.pure]
        have hpath2 : path fs2 = t.take (commonLen t s.prev + j) := by
          rw [hP.path, hpath1, List.take_add]
        have hwork : ∀ s' : Progress, s'.prev = s.prev → s'.last = t → s'.path = t.take (commonLen t s.prev + j) →
            s'.words = s.words → s'.size = s.size → s'.stray = s.stray + n → InWorkE sgn addr c0 m0 L s' h2 d2 := by
          intro s' p1 p2 p3 p4 p5 p6
          refine ⟨_, _, _, _, _, _, _, ⟨hP.site, hP.fits hM.fits ?_, by rw [hpath2, p3],
            hP.prev.trans (hM.prev.trans (hw.prev.trans p1.symm)), hP.size.trans (hM.size.trans (hw.size.trans p5.symm)),
            by rw [hlk, hw.stray, p6], fun w => by rw [hP.lang, hlang1, p4],
            hw.ordered.grow hlast (m := commonLen t s.prev + j) (by omega) p1 p2 p3, ?_,
            hP.low L (hM.low L hw.low) (by rw [hpath1, List.length_take, List.length_take, hdl]; omega)⟩⟩
          · intro c hc
            refine hhead c ?_
            cases j with
            | zero => simp at hc
            | succ j =>
              cases hdd : t.drop (commonLen t s.prev) with
              | nil => rw [hdd] at hc; simp at hc
              | cons a l => rw [hdd] at hc; simpa using hc
          · intro t' x hx1 hx2 hx3 e he
            rw [p2] at hx1
            have hpl : s'.path.length = commonLen t s.prev + j := by
              rw [p3, List.length_take]; omega
            rw [hpl] at hx2 hx3
            rw [p1] at hx2
            have := hw.ordered.only hlast hx1 hx2 (by omega)
            have hj0 : j = 0 := by omega
            subst hj0
            rw [hP.same (by simp)] at he
            exact hkids t' x hx1 hx2 hx3 e he
        rw [Nat.zero_add] at hstop
        rcases hstop with ⟨hf, rfl⟩ | ⟨hf, rfl⟩ | ⟨hf, rfl⟩
        · exact ⟨.threw, { s with last := t, path := t.take (commonLen t s.prev + j) }, h2, d2, ⟨N, hrun⟩,
            by subst hf; exact .node hlt (by omega), hwork _ rfl rfl rfl rfl rfl rfl⟩
        · exact ⟨.threw, { s with last := t, path := t.take (commonLen t s.prev + j), stray := s.stray + 1 }, h2, d2, ⟨N, hrun⟩,
            by subst hf; exact .float hlt (by omega), hwork _ rfl rfl rfl rfl rfl rfl⟩
        · exact ⟨.threw, { s with last := t, path := t.take (commonLen t s.prev + j) }, h2, d2, ⟨N, hrun⟩,
            by subst hf; exact .emplace hlt (by omega), hwork _ rfl rfl rfl rfl rfl rfl⟩
    · obtain ⟨b, s', hb, hstuck, hp', hq0, hqn, e1, e2, e3, e4, hl'⟩ := hM.stuck hw hk
      refine ⟨.threw, { s' with last := t }, h1, d1, ⟨N, fun fuel hf => ?_⟩, by subst hb; exact .stuck hlt hstuck,
        ⟨_, _, _, _, _, _, _, ⟨hM.site, hM.fits, by rw [hM.path, hw.path]; exact hp'.symm, hM.prev.trans (hw.prev.trans e1.symm),
          hM.size.trans (hw.size.trans e3.symm), by rw [hw.stray]; exact e4.symm, hl',
          hw.ordered.cut hlast hcom (m := s.path.length - q) (by omega) e1 rfl hp', ?_, hM.low L hw.low⟩⟩⟩
      · have hN' := hN fuel hf
        have : kind.threw = true := by cases kind <;> simp_all [Kind.threw]
        rw [this] at hN'
        simp only [addTermF, hltF, hterm, Bool.false_eq_true, if_false, hi, hN', bind, Except.bind, if_true, pure, Except.pure]
      · intro t' x hx1 hx2 hx3 e he
        simp only at hx1 hx2 hx3
        have hpl : s'.path.length = s.path.length - q := by rw [hp', List.length_take]; omega
        rw [hpl] at hx2 hx3
        rw [e1] at hx2
        have hm := hw.ordered.only hlast hx1 hx2 (by omega)
        rw [hm] at hx2 hx3
        have hlp : commonLen t s.prev < s.path.length := by omega
        have hgi : s.path[commonLen t s.prev]? = some s.path[commonLen t s.prev] := List.getElem?_eq_getElem hlp
        have hle := hM.kids hq0 s.path[commonLen t s.prev] (by rw [hw.path, hm]; exact hgi) e he
        obtain ⟨y, hy1, hy2⟩ := n4 _ hgi
        have htt : t'.take (commonLen t s.prev) = t.take (commonLen t s.prev) := by
          have a1 := commonLen_take t' s.prev
          have a2 := commonLen_take t s.prev
          rw [hx2] at a1
          rw [a1, a2]
        obtain ⟨z, hz1, hz2⟩ := ge_next hx1 htt hy1
        rw [hx3] at hz1; obtain rfl := Option.some.inj hz1
        omega

end

end Lev
