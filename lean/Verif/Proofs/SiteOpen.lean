import Verif.Proofs.SiteClash
import Verif.Spec.AnyOrder

/-!
Calls of `add` and `finish` in any order: the words as long as no edge is overwritten, and that `clean_up` is undefined once
one is.
-/

namespace Lev

open Spec

/-! ### Frames -/

theorem clash_setTop {fs : List (UInt8 × Frame)} {rf : Frame} (g : Frame) :
    Clash (setTopS g fs) (setTopR g fs rf) ↔ Clash fs rf := by
  cases fs <;> exact Iff.rfl

/-- No edge will be overwritten, and every node is of use. -/
structure Unclashed (L : Nat) (fs : List (UInt8 × Frame)) (rf : Frame) : Prop where
  free : ¬ Clash fs rf
  low : Low L fs rf
  trim : TrimAll fs rf
  top : fs ≠ [] → (topFrame fs rf).fin = true ∨ (topFrame fs rf).kids ≠ .nil

theorem Unclashed.step {sgn : Bool} {L : Nat} {c : UInt8} {g : Frame} {fs : List (UInt8 × Frame)} {rf : Frame}
    (h : Unclashed L ((c, g) :: fs) rf) :
    Unclashed L (setTopS (putEdge sgn c g (topFrame fs rf)) fs) (setTopR (putEdge sgn c g (topFrame fs rf)) fs rf) ∧
    ∀ w, Lang (setTopS (putEdge sgn c g (topFrame fs rf)) fs) (setTopR (putEdge sgn c g (topFrame fs rf)) fs rf) w ↔
      Lang ((c, g) :: fs) rf w := by
  have hne : ∀ e ∈ (topFrame fs rf).kids.toList, e.1 ≠ c := fun e he hc => h.free (.inl ⟨e, he, hc⟩)
  have hfree : ¬ Clash fs rf := fun hc => h.free (.inr hc)
  have htop := h.top (by simp)
  have hbelow : TrimAll fs rf := ⟨h.trim.1, fun e he => h.trim.2 e (by simp [he])⟩
  refine ⟨⟨fun hc => hfree ((clash_setTop _).1 hc), ?_, hbelow.setTop ?_, fun _ => ?_⟩, fun w => lang_down hne w⟩
  · obtain ⟨h1, h2⟩ := h.low
    refine h2.setTop ?_
    have h3 := h2.top
    have h4 := Forest.ins_height (sgn := sgn) (c := c) (b := g.fin) (k := g.kids) (F := (topFrame fs rf).kids)
    simp only [putEdge]
    simp only [List.length_cons] at h1
    omega
  · rw [putEdge, Forest.trim_iff]
    intro e he
    rcases (Forest.mem_ins hne e).1 he with rfl | he
    · exact ⟨htop, h.trim.2 (c, g) (by simp)⟩
    · exact Forest.trim_iff.1 hbelow.top e he
  · rw [topFrame_set]
    exact .inr Forest.ins_ne_nil

/-- An edge of the topmost node belongs to a word. -/
theorem Unclashed.word {L : Nat} {fs : List (UInt8 × Frame)} {rf : Frame} (h : Unclashed L fs rf) {e : UInt8 × Bool × Forest}
    (he : e ∈ (topFrame fs rf).kids.toList) : ∃ u, Lang fs rf (path fs ++ e.1 :: u) := by
  obtain ⟨h1, h2⟩ := Forest.trim_iff.1 h.trim.top e he
  obtain ⟨u, hu⟩ := accT_exists h2 h1
  refine ⟨u, ?_⟩
  have : AccT (topFrame fs rf).fin (topFrame fs rf).kids (e.1 :: u) :=
    .inr (Forest.acc_iff_toList.2 ⟨e.1, e.2.1, e.2.2, u, rfl, he, hu⟩)
  cases fs with
  | nil => simpa [Lang, path, topFrame] using this
  | cons x fs => obtain ⟨c, f⟩ := x; exact .inl ⟨e.1 :: u, by rw [path_cons]; simp, this⟩

/-- A word that goes on behind the path goes along an edge of the topmost node. -/
theorem free_edge {fs : List (UInt8 × Frame)} {rf : Frame} (h : ¬ Clash fs rf) {c : UInt8} {v : Str} (hv : Lang fs rf v)
    (hp : (path fs ++ [c]) <+: v) : ∃ e ∈ (topFrame fs rf).kids.toList, e.1 = c := by
  induction fs generalizing c with
  | nil =>
    obtain ⟨u, rfl⟩ := hp
    have hv : AccT rf.fin rf.kids (c :: u) := by simpa [Lang, path] using hv
    exact accT_head hv
  | cons x fs ih =>
    obtain ⟨c1, f1⟩ := x
    obtain ⟨u, rfl⟩ := hp
    rcases hv with ⟨v, hv, hacc⟩ | hv
    · rw [path_cons] at hv
      have hv : v = c :: u := by simpa using hv.symm
      subst hv
      exact accT_head hacc
    · exact absurd (.inl (ih (fun hc => h (.inr hc)) hv ⟨[c] ++ u, by rw [path_cons]; simp⟩)) h

/-- New nodes for the letters of a word. -/
def pushed : Str → List (UInt8 × Frame) → List (UInt8 × Frame)
  | [], fs => fs
  | c :: rest, fs => pushed rest ((c, ⟨false, .nil⟩) :: fs)

theorem pushed_path (rest : Str) (fs : List (UInt8 × Frame)) : path (pushed rest fs) = path fs ++ rest := by
  induction rest generalizing fs with
  | nil => simp [pushed]
  | cons c rest ih => rw [pushed, ih, path_cons]; simp

theorem pushed_lang (rest : Str) (fs : List (UInt8 × Frame)) (rf : Frame) (w : Str) :
    Lang (pushed rest fs) rf w ↔ Lang fs rf w := by
  induction rest generalizing fs with
  | nil => exact Iff.rfl
  | cons c rest ih => rw [pushed, ih, lang_push]

theorem pushed_clash (rest : Str) {fs : List (UInt8 × Frame)} {rf : Frame} (h : Clash fs rf) : Clash (pushed rest fs) rf := by
  induction rest generalizing fs with
  | nil => exact h
  | cons c rest ih => exact ih (.inr h)

theorem pushed_free (rest : Str) {fs : List (UInt8 × Frame)} {rf : Frame} (h : ¬ Clash fs rf)
    (hc : ∀ c, rest.head? = some c → ∀ e ∈ (topFrame fs rf).kids.toList, e.1 ≠ c) : ¬ Clash (pushed rest fs) rf := by
  induction rest generalizing fs with
  | nil => exact h
  | cons c rest ih =>
    refine ih ?_ fun c' _ e he => ?_
    · rintro (⟨e, he, h'⟩ | h')
      · exact hc c rfl e he h'
      · exact h h'
    · simp [topFrame, Forest.toList] at he

theorem pushed_low (rest : Str) {L : Nat} {fs : List (UInt8 × Frame)} {rf : Frame} (h : Low L fs rf)
    (hl : (path fs).length + rest.length ≤ L) : Low L (pushed rest fs) rf := by
  have hpl : (path fs).length = fs.length := by simp [path]
  induction rest generalizing fs with
  | nil => exact h
  | cons c rest ih =>
    refine ih ⟨?_, h⟩ ?_ (by simp [path])
    · simp only [List.length_cons, Forest.height] at hl ⊢; omega
    · rw [path_cons]; simp only [List.length_cons, List.length_append, List.length_nil] at hl ⊢; omega

theorem pushed_trim (rest : Str) {fs : List (UInt8 × Frame)} {rf : Frame} (h : TrimAll fs rf) : TrimAll (pushed rest fs) rf := by
  induction rest generalizing fs with
  | nil => exact h
  | cons c rest ih =>
    refine ih ⟨h.1, fun e he => ?_⟩
    rcases List.mem_cons.1 he with rfl | he
    · trivial
    · exact h.2 e he

/-! ### Memory that lacks nodes -/

theorem Heap.without_nil (h : Heap) : h.without [] = h := by
  have : h.mem.without [] = h.mem := by funext a; simp [Mem.without]
  rw [Heap.without, this]

theorem newNode_without {addr : Nat → Nat} {h : Heap} {X : List Nat} (hX : addr h.count ∉ X) :
    newNode addr (h.without X) = ((newNode addr h).1, (newNode addr h).2.without X) := by
  simp only [newNode, Heap.without]
  congr 2
  funext a
  simp only [Mem.set, Mem.without]
  by_cases ha : a = addr h.count
  · subst ha; simp [hX]
  · simp [ha]

theorem setFinal_without {a : Nat} {h h' : Heap} (hs : setFinal a h = .ok h') (X : List Nat) :
    setFinal a (h.without X) = .error .ub ∨ setFinal a (h.without X) = .ok (h'.without X) := by
  by_cases ha : a ∈ X
  · left; simp [setFinal, deref, Heap.without, Mem.without, ha, bind, Except.bind]
  · right
    cases hm : h.mem a with
    | none => simp [setFinal, deref, hm, bind, Except.bind] at hs
    | some nd =>
      simp only [setFinal, deref, hm, bind, Except.bind, Except.ok.injEq] at hs
      subst hs
      have hm' : (h.without X).mem a = some nd := by simp [Heap.without, Mem.without, ha, hm]
      simp only [setFinal, deref, hm', bind, Except.bind, Except.ok.injEq]
      simp only [Heap.without]
      congr 1
      funext x
      simp only [Mem.set, Mem.without]
      by_cases hx : x = a
      · subst hx; simp [ha]
      · simp [hx]

section
variable {sgn : Bool} {addr : Nat → Nat} {c0 : Nat} {m0 : Mem}

/-- Every node that is no longer changed is in the register, and no two entries of the register are alike. -/
def Full (sgn : Bool) (h : Heap) (reg : List RegEntry) (Z : Nat → Prop) : Prop :=
  RegOk sgn h.mem reg ∧ ∀ a, Z a → InReg reg a

theorem Site.inZone {h : Heap} {d : SDawg} {reg : List RegEntry}
    {st : List Trans} {fl lk : List Nat} {fs : List (UInt8 × Frame)} {rf : Frame} {Z : Nat → Prop}
    (hc : Site sgn addr c0 m0 h d reg st fl lk fs rf Z) {a : Nat} (ha : InReg reg a) : Z a := by
  obtain ⟨e, he, rfl⟩ := ha
  exact (hc.regOk e he).1

theorem Site.full {h h' : Heap} {d : SDawg} {reg : List RegEntry}
    {st : List Trans} {fl lk : List Nat} {fs : List (UInt8 × Frame)} {rf : Frame} {Z : Nat → Prop}
    (hc : Site sgn addr c0 m0 h d reg st fl lk fs rf Z) (hf : Full sgn h reg Z) (hmm : ∀ a, Z a → h'.mem a = h.mem a) :
    Full sgn h' reg Z := ⟨hf.1.frame fun _ ha => hmm _ (hc.inZone ha), hf.2⟩

theorem Site.finalKeeps {h h' : Heap} {d : SDawg} {reg : List RegEntry}
    {st : List Trans} {fl lk : List Nat} {fs : List (UInt8 × Frame)} {rf : Frame} {Z : Nat → Prop}
    (hc : Site sgn addr c0 m0 h d reg st fl lk fs rf Z) (hs : Lev.setFinal (topNode d.root st) h = .ok h') :
    ∀ a, Z a → h'.mem a = h.mem a := by
  intro a ha
  cases hm : h.mem (topNode d.root st) with
  | none => simp [Lev.setFinal, deref, hm, bind, Except.bind] at hs
  | some nd =>
    simp only [Lev.setFinal, deref, hm, bind, Except.bind, Except.ok.injEq] at hs
    subst hs
    simp only [Mem.set]
    rw [if_neg]
    rintro rfl
    exact hc.notZone _ (topNode_mem d.root st) ha

/-- The loop of `add`. -/
theorem Site.pushAll (haddr : AddrOk addr) (rest : Str) (j : Nat) {h : Heap} {d : SDawg} {reg : List RegEntry}
    {st : List Trans} {fl lk : List Nat} {fs : List (UInt8 × Frame)} {rf : Frame} {Z : Nat → Prop}
    (hc : Site sgn addr c0 m0 h d reg st fl lk fs rf Z) :
    ∃ h' d' st' fl', Site sgn addr c0 m0 h' d' reg st' fl' lk (pushed rest fs) rf Z ∧ d'.prev = d.prev ∧ d'.size = d.size ∧
      (∀ a ∈ fl, a ∈ fl') ∧ (∀ a, Z a → h'.mem a = h.mem a) ∧ ∀ X : List Nat, (∀ a ∈ X, a ∈ fl) →
        pushSuffixF addr none j (topNode d.root st) rest (h.without X) d = .ok (some (topNode d'.root st'), h'.without X, d') := by
  induction rest generalizing j h d st fl fs with
  | nil => exact ⟨h, d, st, fl, hc, rfl, rfl, fun _ h => h, fun _ _ => rfl, fun _ _ => rfl⟩
  | cons c rest ih =>
    obtain ⟨h', d', st', fl', h1, h2, h3, h4, h6, h5⟩ := ih (j + 1) (hc.push haddr c)
    refine ⟨h', d', st', fl', h1, h2, h3, fun a ha => h4 a (by simp [ha]), fun a ha => ?_, fun X hX => ?_⟩
    · rw [h6 a ha]
      simp only [newNode, Mem.set]
      rw [if_neg ((hc.zoneRange a ha).1.fresh haddr)]
    have hfresh : addr h.count ∉ X := by
      intro h'
      obtain ⟨⟨j, _, h2, h3⟩, _⟩ := (hc.float.2 _).1 (hX _ h')
      have := haddr.2 _ _ h3; omega
    have := h5 X fun a ha => by simp [hX a ha]
    rw [pushSuffixF, hc.floating, hc.unchecked]
    simp only [reduceCtorEq, if_false, newNode_without hfresh]
    exact this

/-- One step of `minimize` that overwrites nothing. -/
theorem Site.openStep {h : Heap} {d : SDawg} {reg : List RegEntry} {t : Trans} {st : List Trans} {fl lk : List Nat} {c : UInt8}
    {g : Frame} {fs : List (UInt8 × Frame)} {rf : Frame} {Z : Nat → Prop} {L : Nat}
    (hc : Site sgn addr c0 m0 h d reg (t :: st) fl lk ((c, g) :: fs) rf Z) (haddr : AddrOk addr)
    (hg : Unclashed L ((c, g) :: fs) rf) (hfull : Full sgn h reg Z) (k : Nat) :
    ∃ h' d' reg' Z', Ends (fun fuel => minimizeStepF sgn fuel none k h d) (h', d', false) ∧
      Site sgn addr c0 m0 h' d' reg' st fl lk (setTopS (putEdge sgn c g (topFrame fs rf)) fs)
        (setTopR (putEdge sgn c g (topFrame fs rf)) fs rf) Z' ∧ d'.prev = d.prev ∧ d'.size = d.size ∧ Full sgn h' reg' Z' := by
  have hne : ∀ e ∈ (topFrame fs rf).kids.toList, e.1 ≠ c := fun e he hc => hg.free (.inl ⟨e, he, hc⟩)
  obtain ⟨hsrc, hlabel, nds, hms, hFs, hcase⟩ := hc.step haddr
  have hpop := hc.pop
  have hmm : ∀ b x, Z x → (withEdge sgn h (topNode d.root st) nds c b).mem x = h.mem x := by
    intro b x hx
    simp only [withEdge, Mem.set]
    rw [if_neg]
    rintro rfl
    exact hpop.notZone _ (topNode_mem d.root st) hx
  have hadd := fun b => addEdgeF_fresh (sgn := sgn) (fail := false) (b := b) hms hFs hne
  rcases hcase with ⟨e, _, hmn, hsite⟩ | ⟨hmn, _, e, hreg, hsite, nd, he, hm, hno⟩
  · refine ⟨_, _, _, _, ⟨g.kids.height + 1, fun fuel hf => ?_⟩, hsite, rfl, rfl, hc.full hfull (hmm e.val)⟩
    simp only [minimizeStepF, hc.unchecked, bind, Except.bind, hmn fuel (by omega), hsrc, hlabel]
    simp [hadd, pure, Except.pure]
  · refine ⟨_, _, _, _, ⟨g.kids.height + 1, fun fuel hf => ?_⟩, hsite, rfl, rfl, ?_, ?_⟩
    · simp only [minimizeStepF, hc.unchecked, bind, Except.bind, hmn fuel (by omega), hsrc, hlabel]
      simp [hadd, pure, Except.pure, hreg fuel (by omega)]
    · have htgt : NodeIs sgn h.mem Z t.target g := by
        have := hc.stack; cases this with | cons _ _ h => exact h
      obtain ⟨nd', hm', hfin, hF, hs, hZ⟩ := htgt
      rw [hm] at hm'; obtain rfl := Option.some.inj hm'
      have htrim : g.kids.Trim := hg.trim.2 (c, g) (by simp)
      have hR : RegOk sgn h.mem (reg ++ [e]) := by
        subst he
        refine ⟨fun e he => ?_, ?_⟩
        · rcases List.mem_append.1 he with he | he
          · obtain ⟨h1, h2, h3, h4⟩ := hfull.1.node e he
            exact ⟨h1, h2, fun c b hb => inReg_append.2 (.inl (h3 c b hb)), h4⟩
          · simp only [List.mem_singleton] at he
            subst he
            exact ⟨hm, hs, fun c b hb => inReg_append.2 (.inl (hfull.2 b (hZ c b hb))), g.kids, hF, rfl, htrim, by
              simp only; rw [hfin]; exact hg.top (by simp)⟩
        · rw [List.pairwise_append]
          refine ⟨hfull.1.distinct, by simp, fun e he e' he' G hG hG' => ?_⟩
          simp only [List.mem_singleton] at he'
          subst he'
          have := hG'.unique hF
          subst this
          exact hno e he hG
      refine hR.frame fun x hx => ?_
      rcases inReg_append.1 hx with hx | rfl
      · exact hmm _ x (hc.inZone hx)
      · subst he
        simp only [withEdge, Mem.set]
        rw [if_neg]
        intro h'
        have hst : t.target ∉ stackNodes d.root st := by
          have := hc.nodup
          simp only [stackNodes, List.map_cons, List.nodup_cons, List.mem_cons] at this ⊢
          rintro (h' | h')
          · exact this.1 (.inl h'.symm)
          · exact this.2.1 h'
        rw [h'] at hst
        exact hst (topNode_mem d.root st)
    · intro a ha
      rcases ha with ha | rfl
      · exact inReg_append.2 (.inl (hfull.2 a ha))
      · subst he; exact inReg_append.2 (.inr rfl)

/-- `minimize` that overwrites nothing. -/
theorem Site.openLoop (haddr : AddrOk addr) {L : Nat} (n k : Nat) {h : Heap} {d : SDawg} {reg : List RegEntry}
    {st : List Trans} {fl lk : List Nat} {fs : List (UInt8 × Frame)} {rf : Frame} {Z : Nat → Prop}
    (hc : Site sgn addr c0 m0 h d reg st fl lk fs rf Z) (hg : Unclashed L fs rf) (hfull : Full sgn h reg Z) (hn : n ≤ st.length) :
    ∃ h' d' reg' st' fs' rf' Z', Ends (fun fuel => minimizeLoopF sgn fuel none n k h d) (h', d', false) ∧
      d'.prev = d.prev ∧ d'.size = d.size ∧ Site sgn addr c0 m0 h' d' reg' st' fl lk fs' rf' Z' ∧ Unclashed L fs' rf' ∧
      path fs' = (path fs).take ((path fs).length - n) ∧ (∀ w, Lang fs' rf' w ↔ Lang fs rf w) ∧ Full sgn h' reg' Z' := by
  induction n generalizing k h d reg st fs rf Z with
  | zero => exact ⟨h, d, reg, st, fs, rf, Z, .of_eq fun _ => rfl, rfl, rfl, hc, hg, by simp, fun _ => Iff.rfl, hfull⟩
  | succ n ih =>
    have hlen := hc.stack.length
    cases st with
    | nil => simp at hn
    | cons t st =>
      cases fs with
      | nil => simp at hlen
      | cons x fs =>
        obtain ⟨c, g⟩ := x
        obtain ⟨h1, d1, reg1, Z1, ⟨N1, r1⟩, hc1, p1, s1, f1⟩ := hc.openStep haddr hg hfull k
        obtain ⟨hg1, hl1⟩ := hg.step (sgn := sgn)
        obtain ⟨h2, d2, reg2, st2, fs2, rf2, Z2, ⟨N2, r2⟩, p2, s2, hc2, hg2, hp2, hl2, f2⟩ := ih (k + 1) hc1 hg1 f1 (by simpa using hn)
        refine ⟨h2, d2, reg2, st2, fs2, rf2, Z2, ⟨max N1 N2, fun fuel hf => ?_⟩, p2.trans p1, s2.trans s1, hc2, hg2, ?_,
          fun w => (hl2 w).trans (hl1 w), f2⟩
        · have e1 := r1 fuel (by omega)
          have e2 := r2 fuel (by omega)
          simp only at e1 e2
          simp [minimizeLoopF, e1, e2, bind, Except.bind]
        · have hpl : (path fs).length = st.length := by
            simp only [path, List.length_reverse, List.length_map]; simpa using hlen
          rw [hp2, path_setTop, path_cons]
          simp only [List.length_append, List.length_cons, List.length_nil]
          rw [List.take_append_of_le_length (by omega)]
          congr 1; omega

/-! ### Once an edge is overwritten -/

theorem Site.loopAny (haddr : AddrOk addr) (n k : Nat) {h : Heap} {d : SDawg} {reg : List RegEntry}
    {st : List Trans} {fl lk : List Nat} {fs : List (UInt8 × Frame)} {rf : Frame}
    {Z : Nat → Prop} (hc : Site sgn addr c0 m0 h d reg st fl lk fs rf Z) (hn : n ≤ st.length) :
    ∃ N, ∃ h' d' reg' fs' rf' Z', Site sgn addr c0 m0 h' d' reg' (st.drop n) fl lk fs' rf' Z' ∧
      ∀ X : List Nat, (∀ a ∈ X, a ∈ fl) → X ≠ [] ∨ Clash fs rf → ∀ fuel, N ≤ fuel →
      minimizeLoopF sgn fuel none n k (h.without X) d = .error .ub ∨
        ∃ X', minimizeLoopF sgn fuel none n k (h.without X) d = .ok (h'.without X', d', false) ∧ (∀ a ∈ X', a ∈ fl) ∧
          (X' ≠ [] ∨ Clash fs' rf') := by
  induction n generalizing k h d reg st fs rf Z with
  | zero => exact ⟨0, h, d, reg, fs, rf, Z, hc, fun X hX hcl fuel _ => .inr ⟨X, rfl, hX, hcl⟩⟩
  | succ n ih =>
    have hlen := hc.stack.length
    cases st with
    | nil => simp at hn
    | cons t st =>
      cases fs with
      | nil => simp at hlen
      | cons x fs =>
        obtain ⟨c, g⟩ := x
        obtain ⟨N1, h1, d1, reg1, fs1, rf1, Z1, hc1, hstep⟩ := hc.stepWithout haddr k
        obtain ⟨N2, h2, d2, reg2, fs2, rf2, Z2, hc2, hloop⟩ := ih (k + 1) hc1 (by simpa using hn)
        refine ⟨max N1 N2, h2, d2, reg2, fs2, rf2, Z2, hc2, fun X hX hcl fuel hf => ?_⟩
        rcases hstep X hX hcl fuel (by omega) with e1 | ⟨X1, e1, hX1, hcl1⟩
        · left; simp [minimizeLoopF, e1, bind, Except.bind]
        · rcases hloop X1 hX1 hcl1 fuel (by omega) with e2 | ⟨X2, e2, hX2, hcl2⟩
          · left; simp [minimizeLoopF, e1, e2, bind, Except.bind]
          · right
            exact ⟨X2, by simp [minimizeLoopF, e1, e2, bind, Except.bind], hX2, hcl2⟩

/-- `add`, once an edge is overwritten or will be. -/
theorem Site.addAny (haddr : AddrOk addr) (t : Str) {h : Heap} {d : SDawg} {reg : List RegEntry}
    {st : List Trans} {fl lk : List Nat} {fs : List (UInt8 × Frame)} {rf : Frame}
    {Z : Nat → Prop} (hc : Site sgn addr c0 m0 h d reg st fl lk fs rf Z) (hs : st.length ≤ d.prev.length) :
    ∃ N, ∃ fate h' d' reg' st' fl' fs' rf' Z', Site sgn addr c0 m0 h' d' reg' st' fl' lk fs' rf' Z' ∧ st'.length ≤ d'.prev.length ∧
      ∀ X : List Nat, (∀ a ∈ X, a ∈ fl) → X ≠ [] ∨ Clash fs rf → ∀ fuel, N ≤ fuel →
      addTermF sgn addr fuel none t (h.without X) d = .error .ub ∨
        ∃ X', addTermF sgn addr fuel none t (h.without X) d = .ok (fate, h'.without X', d') ∧ (∀ a ∈ X', a ∈ fl') ∧
          (X' ≠ [] ∨ Clash fs' rf') := by
  by_cases hlt : strLt t d.prev = true
  · exact ⟨0, .refused, h, d, reg, st, fl, fs, rf, Z, hc, hs, fun X hX hcl fuel _ => .inr ⟨X, by simp [addTermF, hlt], hX, hcl⟩⟩
  have hltF : strLt t d.prev = false := by simpa using hlt
  by_cases ht : t = []
  · subst ht
    have hp : d.prev = [] := by
      cases hd : d.prev with
      | nil => rfl
      | cons x l => rw [hd] at hlt; simp [strLt] at hlt
    have hst : st = [] := by
      rw [hp] at hs; exact List.length_eq_zero_iff.1 (by simpa using hs)
    subst hst
    obtain ⟨h', hrun, hc', _⟩ := hc.setFinal haddr
    have hrun' : Lev.setFinal d.root h = .ok h' := hrun
    refine ⟨0, .added, h', { d with prev := [], size := d.size + 1 }, reg, [], fl, _, _, Z, hc'.withPrev _ _, by simp,
      fun X hX hcl fuel _ => ?_⟩
    rcases setFinal_without hrun' X with e | e
    · left; simp [addTermF, hltF, e, bind, Except.bind]
    · right
      refine ⟨X, by simp [addTermF, hltF, e, bind, Except.bind, pure, Except.pure], hX, ?_⟩
      rcases hcl with h | h
      · exact .inl h
      · exact .inr ((clash_setTop _).2 h)
  · obtain ⟨N, h1, d1, reg1, fs1, rf1, Z1, hc1, hloop⟩ := hc.loopAny haddr (st.length - commonPrefix t d.prev) 0 (by omega)
    obtain ⟨h2, d2, st2, fl2, hc2, _, _, hfl, _, hpush⟩ := hc1.pushAll haddr (t.drop (commonPrefix t d.prev)) 0
    obtain ⟨h3, hrun3, hc3, _⟩ := hc2.setFinal haddr
    refine ⟨N, .added, h3, { d2 with prev := t, size := d2.size + 1 }, reg1, st2, fl2, _, _, Z1, hc3.withPrev _ _, ?_,
      fun X hX hcl fuel hf => ?_⟩
    · have e1 := hc1.pathLength
      have e2 := hc2.pathLength
      rw [pushed_path, List.length_append, ← e1, List.length_drop, List.length_drop] at e2
      have e3 : commonPrefix t d.prev ≤ t.length := by rw [commonPrefix_eq]; exact commonLen_le_left _ _
      simp only
      omega
    · have hsrc := suffixSource_eq hc1.unchecked
      rcases hloop X hX hcl fuel hf with e1 | ⟨X1, e1, hX1, hcl1⟩
      · left; simp [addTermF, hltF, ht, minimizeF, hc.unchecked, e1, bind, Except.bind]
      · have e2 := hpush X1 hX1
        rcases setFinal_without hrun3 X1 with e3 | e3
        · left; simp [addTermF, hltF, ht, minimizeF, hc.unchecked, e1, bind, Except.bind, hsrc, e2, e3]
        · right
          refine ⟨X1, by simp [addTermF, hltF, ht, minimizeF, hc.unchecked, e1, bind, Except.bind, hsrc, e2, e3, pure, Except.pure],
            fun a ha => hfl a (hX1 a ha), ?_⟩
          rcases hcl1 with h | h
          · exact .inl h
          · exact .inr ((clash_setTop _).2 (pushed_clash _ h))

/-- `finish` and `clean_up`, once an edge is overwritten or will be. -/
theorem Site.doom (haddr : AddrOk addr) {h : Heap} {d : SDawg} {reg : List RegEntry}
    {st : List Trans} {fl lk : List Nat} {fs : List (UInt8 × Frame)} {rf : Frame}
    {Z : Nat → Prop} (hc : Site sgn addr c0 m0 h d reg st fl lk fs rf Z) :
    ∃ N, ∀ X : List Nat, (∀ a ∈ X, a ∈ fl) → X ≠ [] ∨ Clash fs rf → ∀ fuel, N ≤ fuel → (do
      let (h, d, _) ← finishF sgn fuel none (h.without X) d
      Lev.cleanUp fuel h d) = .error .ub := by
  obtain ⟨N1, h1, d1, reg1, rf1, Z1, hc1, hloop⟩ := hc.loopWithout haddr st.length 0 rfl
  obtain ⟨nd, hm, _, hF, _, _⟩ := hc1.stack.rootNode
  obtain ⟨r, ⟨N2, hr⟩, _, _⟩ := allNodes_spec hm hF
  refine ⟨max N1 N2, fun X0 hX0 hcl fuel hf => ?_⟩
  have hfin : finishF sgn fuel none (h.without X0) d = minimizeLoopF sgn fuel none st.length 0 (h.without X0) d := by
    simp only [finishF, minimizeF, hc.unchecked, Nat.sub_zero]
  have := hloop X0 hX0 hcl fuel (by omega)
  rw [hfin]
  rcases this with e1 | ⟨X, e1, hX, hne⟩
  · simp [e1, bind, Except.bind]
  · rw [e1]
    simp only [bind, Except.bind, Lev.cleanUp, hc1.floating]
    have hless : Less (h1.without X).mem h1.mem := Mem.without_less h1.mem X
    have hr' : allNodesLoop h1.mem fuel [d1.root] [] = .ok r := hr fuel (by omega)
    rcases hless.allNodesLoop fuel [d1.root] [] with e2 | e2
    · simp [allNodes, e2]
    · rw [hr'] at e2
      obtain ⟨a, X', rfl⟩ := List.exists_cons_of_ne_nil hne
      have hdead : (h1.without (a :: X')).mem a = none := by simp [Heap.without, Mem.without]
      have har : a ∉ r := by
        intro h'
        rcases allNodesLoop_alive e2 h' with h'' | h''
        · simp at h''
        · exact h'' hdead
      have hfl := hX a (by simp)
      have ha0 : a ≠ 0 := by
        obtain ⟨⟨j, _, _, rfl⟩, _⟩ := (hc1.float.2 a).1 hfl
        exact haddr.1 j
      have hdel := deleteAll_ub (l := fl.filter (fun a => decide (a ∉ r))) (h := h1.without (a :: X')) (a := a)
        (List.mem_filter.2 ⟨hfl, by simpa using har⟩) ha0 hdead
      simp only [allNodes, e2]
      rw [hdel]

end

end Lev
