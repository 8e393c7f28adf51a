import Verif.Proofs.SiteCalls

/-!
Calls of `add`, `finish` and `clean_up`, and destruction, when allocations fail.
-/

namespace Lev

open Spec

section
variable {sgn : Bool} {addr : Nat → Nat} {c0 : Nat} {m0 : Mem} {L : Nat} {h : Heap} {d : SDawg} {reg : List RegEntry}
  {st : List Trans} {fl lk : List Nat} {fs : List (UInt8 × Frame)} {rf : Frame} {Z : Nat → Prop}

theorem addCallsF_spec (haddr : AddrOk addr) (calls : List (Str × Option BFault)) {s : Progress} {h : Heap} {d : SDawg}
    (hw : InWorkE sgn addr c0 m0 L s h d) (hsafe : SafeCalls s calls) (hL : ∀ c ∈ calls, c.1.length ≤ L) :
    ∃ fates s' h' d', Ends (fun fuel => addCallsF sgn addr fuel calls h d) (fates, h', d') ∧ AddOuts s calls fates s' ∧
      InWorkE sgn addr c0 m0 L s' h' d' := by
  induction calls generalizing s h d with
  | nil => exact ⟨[], s, h, d, .of_eq fun _ => rfl, .nil, hw⟩
  | cons c calls ih =>
    obtain ⟨t, f⟩ := c
    obtain ⟨hs1, hs2⟩ := hsafe
    obtain ⟨reg, st, fl, lk, fs, rf, Z, hw⟩ := hw
    obtain ⟨fate, s1, h1, d1, hrun1, ho1, hw1⟩ := addTermF_spec haddr hw f t hs1 (hL (t, f) (by simp))
    obtain ⟨fates, s2, h2, d2, hrun2, ho2, hw2⟩ := ih hw1 (hs2 fate s1 ho1) fun c hc => hL c (by simp [hc])
    refine ⟨fate :: fates, s2, h2, d2, ?_, .cons ho1 ho2, hw2⟩
    obtain ⟨N1, hN1⟩ := hrun1
    obtain ⟨N2, hN2⟩ := hrun2
    refine ⟨max N1 N2, fun fuel hf => ?_⟩
    have e1 := hN1 fuel (by omega)
    have e2 := hN2 fuel (by omega)
    simp only at e1 e2
    simp only [addCallsF, e1, e2, bind, Except.bind, pure, Except.pure]

/-! ### `finish` -/

/-- After `finish` only the words matter. -/
structure Closing (sgn : Bool) (addr : Nat → Nat) (c0 : Nat) (m0 : Mem) (L : Nat) (s : Progress) (h : Heap) (d : SDawg)
    (reg : List RegEntry) (st : List Trans) (fl lk : List Nat) (fs : List (UInt8 × Frame)) (rf : Frame) (Z : Nat → Prop) :
    Prop where
  site : Site sgn addr c0 m0 h d reg st fl lk fs rf Z
  fits : Fits fs rf
  path : path fs = s.path
  prev : d.prev = s.prev
  size : d.size = s.size
  stray : lk.length = s.stray
  lang : ∀ w, Lang fs rf w ↔ w ∈ s.words
  low : Low L fs rf

def ClosingE (sgn : Bool) (addr : Nat → Nat) (c0 : Nat) (m0 : Mem) (L : Nat) (s : Progress) (h : Heap) (d : SDawg) : Prop :=
  ∃ reg st fl lk fs rf Z, Closing sgn addr c0 m0 L s h d reg st fl lk fs rf Z

theorem InWork.closing {s : Progress} (hw : InWork sgn addr c0 m0 L s h d reg st fl lk fs rf Z) :
    Closing sgn addr c0 m0 L s h d reg st fl lk fs rf Z :=
  ⟨hw.site, hw.fits, hw.path, hw.prev, hw.size, hw.stray, hw.lang, hw.low⟩

theorem InWorkE.closing {s : Progress} (hw : InWorkE sgn addr c0 m0 L s h d) : ClosingE sgn addr c0 m0 L s h d := by
  obtain ⟨_, _, _, _, _, _, _, hw⟩ := hw
  exact ⟨_, _, _, _, _, _, _, hw.closing⟩

/-- One call of `finish`. -/
theorem finishF_spec (haddr : AddrOk addr) {s : Progress} (hw : ClosingE sgn addr c0 m0 L s h d) (f : Option BFault) :
    ∃ h' d' threw s', Ends (fun fuel => finishF sgn fuel f h d) (h', d', threw) ∧ ClosingE sgn addr c0 m0 L s' h' d' ∧
      (threw = true ∧ (∃ b, f = some b ∧ Stuck 0 s b s') ∨
        threw = false ∧ s' = { s with path := [] } ∧ ∀ b, f = some b → Unmet 0 s b) := by
  obtain ⟨reg, st, fl, lk, fs, rf, Z, hw⟩ := hw
  have hlen := hw.site.pathLength
  rw [hw.path] at hlen
  obtain ⟨kind, q, h', d', reg', st', fs', rf', Z', hrun, hM⟩ :=
    minimizeLoopF_spec haddr f (s.path.length - 0) 0 hw.site hw.fits (by omega)
  refine ⟨h', d', kind.threw, ?_⟩
  have hrun' : Ends (fun fuel => finishF sgn fuel f h d) (h', d', kind.threw) := hrun.congr fun n => by
    rw [finishF, minimizeF, hw.site.unchecked, ← hlen]
  by_cases hk : kind = .none
  · subst hk
    refine ⟨{ s with path := [] }, hrun', ⟨_, _, _, _, _, _, _, ⟨hM.site, hM.fits, ?_, hM.prev.trans hw.prev, hM.size.trans hw.size,
      hw.stray, fun w => ?_, hM.low L hw.low⟩⟩, .inr ⟨rfl, rfl, fun b hb => ?_⟩⟩
    · rw [hM.path, hw.path, hM.all rfl]; simp
    · rw [hM.lang, hw.lang]; simp
    · have hun := hM.unmet rfl
      cases b with
      | find k =>
        simp only [Unmet]
        refine Nat.le_of_not_lt fun hk => ?_
        exact (hun k hk).1 (by simpa using hb)
      | edge k =>
        simp only [Unmet]
        refine Nat.le_of_not_lt fun hk => ?_
        exact (hun k hk).2 (by simpa using hb)
      | _ => trivial
  · obtain ⟨h1, h2, h3⟩ := hM.stop hk
    rw [show 0 + q - 1 = q - 1 by omega] at h3
    have hq : q - 1 + 1 = q := by omega
    have hthr : kind.threw = true := by cases kind <;> simp_all [Kind.threw]
    cases kind with
    | none => exact absurd rfl hk
    | lost =>
      rcases h3 with h3 | h3
      all_goals
        refine ⟨{ s with
            path := s.path.take (s.path.length - (q - 1 + 1))
            words := s.words.filter fun w => !(s.path.take (s.path.length - (q - 1))).isPrefixOf w },
          hrun', ⟨_, _, _, _, _, _, _, ⟨hM.site, hM.fits, ?_, hM.prev.trans hw.prev, hM.size.trans hw.size,
          hw.stray, fun w => ?_, hM.low L hw.low⟩⟩, .inl ⟨rfl, _, h3, .lost (i := 0) (s := s) (k := q - 1) (by simp) (by omega)⟩⟩
        · rw [hM.path, hw.path]; simp only [hq]
        · rw [hM.lang, hw.lang, hw.path]
          simp [-List.isPrefixOf_iff_prefix, ← List.isPrefixOf_iff_prefix]
    | unregistered =>
      refine ⟨{ s with path := s.path.take (s.path.length - (q - 1 + 1)) },
        hrun', ⟨_, _, _, _, _, _, _, ⟨hM.site, hM.fits, ?_, hM.prev.trans hw.prev, hM.size.trans hw.size,
        hw.stray, fun w => ?_, hM.low L hw.low⟩⟩, .inl ⟨rfl, _, h3, .unregistered (i := 0) (s := s) (k := q - 1) (by omega)⟩⟩
      · rw [hM.path, hw.path]; simp only [hq]
      · rw [hM.lang, hw.lang]; simp

theorem finishCallsF_spec (haddr : AddrOk addr) (faults : List BFault) {s : Progress} {h : Heap} {d : SDawg}
    (hw : ClosingE sgn addr c0 m0 L s h d) :
    ∃ s' h' d', Ends (fun fuel => finishCallsF sgn fuel faults h d) (h', d') ∧ FinishOut s faults s' ∧
      ClosingE sgn addr c0 m0 L s' h' d' ∧ s'.path = [] := by
  induction faults generalizing s h d with
  | nil =>
    obtain ⟨h', d', threw, s', ⟨N, hN⟩, hw', hcase⟩ := finishF_spec haddr hw none
    rcases hcase with ⟨_, b, hb, _⟩ | ⟨rfl, rfl, _⟩
    · cases hb
    · refine ⟨_, h', d', ⟨N, fun fuel hf => ?_⟩, .last, hw', rfl⟩
      have e1 := hN fuel hf
      simp only at e1
      simp only [finishCallsF, e1, bind, Except.bind, pure, Except.pure]
  | cons f faults ih =>
    obtain ⟨h1, d1, threw, s1, ⟨N, hN⟩, hw1, hcase⟩ := finishF_spec haddr hw (some f)
    rcases hcase with ⟨rfl, b, hb, hst⟩ | ⟨rfl, rfl, hun⟩
    · obtain rfl := Option.some.inj hb
      obtain ⟨s2, h2, d2, ⟨N2, hN2⟩, ho, hw2, hp⟩ := ih hw1
      refine ⟨s2, h2, d2, ⟨max N N2, fun fuel hf => ?_⟩, .threw hst ho, hw2, hp⟩
      have e1 := hN fuel (by omega)
      have e2 := hN2 fuel (by omega)
      simp only at e1 e2
      simp only [finishCallsF, e1, bind, Except.bind, if_true, e2]
    · refine ⟨_, h1, d1, ⟨N, fun fuel hf => ?_⟩, .returned (hun f rfl), hw1, rfl⟩
      have e1 := hN fuel hf
      simp only at e1
      simp only [finishCallsF, e1, bind, Except.bind, Bool.false_eq_true, if_false, pure, Except.pure]

/-! ### `clean_up` and destruction -/

theorem Site.reach (hc : Site sgn addr c0 m0 h d reg st fl lk fs rf Z) {x : Nat} (hx : Reaches h.mem d.root x) :
    InRange addr c0 h x ∧ x ∉ lk := by
  obtain ⟨nd, hm, _, _, _, hZ⟩ := hc.stack.rootNode
  have hcl : Closed h.mem (fun a => a = d.root ∨ Z a) := by
    rintro a (rfl | ha)
    · exact ⟨nd, hm, fun c b hb => .inr (hZ c b hb)⟩
    · obtain ⟨nd', h1, h2⟩ := hc.closed a ha
      exact ⟨nd', h1, fun c b hb => .inr (h2 c b hb)⟩
  rcases hcl.reaches (.inl rfl) hx with rfl | hx
  · exact hc.stackRange _ (by simp [stackNodes])
  · exact hc.zoneRange x hx

/-- Memory after `clean_up`: what is reachable from the root is left, and what nobody knows of. -/
noncomputable def swept (addr : Nat → Nat) (c0 : Nat) (h : Heap) (lk : List Nat) (root : Nat) : Mem := fun a =>
  open Classical in if InRange addr c0 h a ∧ ¬ Reaches h.mem root a ∧ a ∉ lk then none else h.mem a

theorem swept_reach {root a : Nat} (ha : Reaches h.mem root a) : swept addr c0 h lk root a = h.mem a := by
  simp [swept, ha]

theorem Site.cleanUp (hc : Site sgn addr c0 m0 h d reg st fl lk fs rf Z) {d' : SDawg} (hroot : d'.root = d.root)
    (hfl : d'.floating = some fl) :
    Ends (fun fuel => Lev.cleanUp fuel h d')
      (⟨swept addr c0 h lk d.root, h.count⟩, { d' with unchecked := none, minimized := none, floating := none }) := by
  obtain ⟨nd, hm, _, hF, _, _⟩ := hc.stack.rootNode
  obtain ⟨r, hr, hnd, hmem⟩ := allNodes_spec hm hF
  have hdel := deleteAll_spec (l := fl.filter (fun a => decide (a ∉ r))) (h := h) (hc.float.1.filter _) hc.heap.null (by
    intro a ha
    obtain ⟨⟨j, h1, h2, rfl⟩, _⟩ := (hc.float.2 a).1 (List.mem_filter.1 ha).1
    exact hc.heap.live j (by omega) h2)
  have hmemeq : (fun a => if a ∈ fl.filter (fun a => decide (a ∉ r)) then none else h.mem a) =
      swept addr c0 h lk d.root := by
    funext a
    have : a ∈ fl.filter (fun a => decide (a ∉ r)) ↔ InRange addr c0 h a ∧ ¬ Reaches h.mem d.root a ∧ a ∉ lk := by
      simp only [List.mem_filter, hc.float.2, hmem, decide_eq_true_eq, InRange]
      constructor
      · rintro ⟨⟨⟨j, h1, h2, h3⟩, h5⟩, h4⟩; exact ⟨⟨j, by omega, h2, h3⟩, h4, h5⟩
      · rintro ⟨⟨j, h1, h2, h3⟩, h4, h5⟩
        refine ⟨⟨⟨j, ?_, h2, h3⟩, h5⟩, h4⟩
        have : j ≠ c0 := by
          rintro rfl
          rw [h3, ← hc.root] at h4
          exact h4 .refl
        omega
    simp only [swept]
    by_cases hp : a ∈ fl.filter (fun a => decide (a ∉ r))
    · rw [if_pos hp, if_pos (this.1 hp)]
    · rw [if_neg hp, if_neg (fun h' => hp (this.2 h'))]
  rw [hmemeq] at hdel
  obtain ⟨N, hN⟩ := hr
  refine ⟨N, fun fuel hf => ?_⟩
  simp only [Lev.cleanUp, hfl, hroot, hN fuel hf, bind, Except.bind]
  rw [hdel]

theorem Site.cleanCalls (hc : Site sgn addr c0 m0 h d reg st fl lk fs rf Z) (n : Nat) {d' : SDawg} (hroot : d'.root = d.root)
    (hfl : d'.floating = some fl) :
    Ends (fun fuel => cleanCallsF fuel n h d')
      (⟨swept addr c0 h lk d.root, h.count⟩, { d' with unchecked := none, minimized := none, floating := none }) := by
  induction n generalizing d' with
  | zero => exact hc.cleanUp hroot hfl
  | succ n ih =>
    have h1 := ih (d' := { d' with unchecked := none, minimized := none }) hroot hfl
    refine h1.congr fun fuel => ?_
    simp [cleanCallsF, cleanUpF, hfl, bind, Except.bind]

theorem Site.rootClosed (hc : Site sgn addr c0 m0 h d reg st fl lk fs rf Z) : Closed h.mem (Reaches h.mem d.root) :=
  DictNode.closed (hc.dictNode hc.stack.rootNode)

/-- After `clean_up`: a dictionary, and how to get rid of it. -/
structure Cleaned (sgn : Bool) (addr : Nat → Nat) (c0 : Nat) (m0 : Mem) (rf : Frame) (n : Nat) (h : Heap) (root : Nat) : Prop where
  dict : DictNode sgn h.mem (rf.kids.height + 1) root
  accepts : ∀ t, Accepts h.mem root t ↔ AccT rf.fin rf.kids t
  null : h.mem 0 = none
  delete : ∃ h', Ends (fun fuel => do let nodes ← allNodes h.mem fuel root; deleteAll nodes h) h' ∧ StrayNodes m0 h'.mem n

theorem Site.cleaned (hc : Site sgn addr c0 m0 h d reg st fl lk fs rf Z) (haddr : AddrOk addr)
    (hm0 : ∀ j, c0 ≤ j → m0 (addr j) = none) :
    Cleaned sgn addr c0 m0 rf lk.length ⟨swept addr c0 h lk d.root, h.count⟩ d.root := by
  have hrootN := hc.stack.rootNode
  have hdict := hc.dictNode hrootN
  obtain ⟨nd, hm, hfin, hF, _, hZ⟩ := hrootN
  have hcl := hc.rootClosed
  have hmm : ∀ a, Reaches h.mem d.root a → swept addr c0 h lk d.root a = h.mem a := fun a ha => swept_reach ha
  have hri := reaches_frame_iff hcl hmm (a := d.root) .refl
  have hcl' : Closed (swept addr c0 h lk d.root) (Reaches (swept addr c0 h lk d.root) d.root) := by
    have := hcl.frame hmm
    intro a ha
    obtain ⟨nd', h1, h2⟩ := this a ((hri a).1 ha)
    exact ⟨nd', h1, fun c b hb => (hri b).2 (h2 c b hb)⟩
  have hnull : swept addr c0 h lk d.root 0 = none := by
    have : ¬ InRange addr c0 h 0 := by
      rintro ⟨j, _, _, hj⟩; exact haddr.1 j hj.symm
    simp only [swept, this, false_and, if_false]
    exact hc.heap.null
  refine ⟨DictNode.frame hcl hmm hdict .refl, fun t => ?_, hnull, ?_⟩
  · simp only
    rw [accepts_frame_iff hcl hmm .refl, accepts_iff hm hF, hfin]
  obtain ⟨h', hrun, hcnt, hdead, hold⟩ := deleteReach_spec (h := ⟨swept addr c0 h lk d.root, h.count⟩) (root := d.root) (nd := nd) (F := rf.kids)
    (by simp only; rw [hmm _ .refl]; exact hm)
    (hF.frame hcl hmm (fun c b hb => .step hm hb .refl))
    hnull hcl'
  refine ⟨h', hrun, lk, hc.leak.1, rfl, fun a ha => ?_, fun a ha => ?_⟩
  · obtain ⟨j, h1, h2, rfl⟩ := hc.leak.2 a ha
    refine ⟨hm0 j (by omega), ?_⟩
    have hnr : ¬ Reaches h.mem d.root (addr j) := fun h' => (hc.reach h').2 ha
    rw [hold _ (fun h' => hnr ((hri _).1 h'))]
    simp only [swept, ha, not_true, and_false, if_false]
    exact hc.heap.live j (by omega) h2
  · by_cases hra : Reaches h.mem d.root a
    · rw [hdead a ((hri a).2 hra)]
      obtain ⟨⟨j, h1, _, rfl⟩, _⟩ := hc.reach hra
      exact (hm0 j h1).symm
    · rw [hold a (fun h' => hra ((hri a).1 h'))]
      simp only [swept]
      by_cases hr : InRange addr c0 h a
      · rw [if_pos ⟨hr, hra, ha⟩]
        obtain ⟨j, h1, _, rfl⟩ := hr
        exact (hm0 j h1).symm
      · rw [if_neg (fun h' => hr h'.1)]
        exact hc.heap.old a fun j h1 h2 h3 => hr ⟨j, h1, h2, h3⟩

/-- Destroying a dictionary that is being built. -/
theorem Site.destroy (hc : Site sgn addr c0 m0 h d reg st fl lk fs rf Z) (haddr : AddrOk addr)
    (hm0 : ∀ j, c0 ≤ j → m0 (addr j) = none) :
    ∃ h', Ends (fun fuel => destroyDawg fuel h d) h' ∧ StrayNodes m0 h'.mem lk.length := by
  obtain ⟨h', hrun, hs⟩ := (hc.cleaned haddr hm0).delete
  refine ⟨h', ?_, hs⟩
  exact ((hc.cleanUp rfl hc.floating).bind (g := fun fuel r => do let nodes ← allNodes r.1.mem fuel r.2.root; deleteAll nodes r.1) hrun).congr
    fun n => rfl

/-- A new dictionary. -/
theorem newDawg_inWork (haddr : AddrOk addr) (L : Nat) {h : Heap} (h0 : h.mem 0 = none)
    (hfresh : ∀ j, h.count ≤ j → h.mem (addr j) = none) :
    InWorkE sgn addr h.count h.mem L {} (newDawg addr h).1 (initDawg (newDawg addr h).2) := by
  obtain ⟨⟨reg, st, fl, fs, rf, hc, hpath, hnil, hfin, hlang⟩, hprev, hsize⟩ := newDawg_built (sgn := sgn) haddr h0 hfresh
  have hfs : fs = [] := by
    have : path fs = [] := hpath
    simpa [path] using this
  subst hfs
  have hreg : reg = [] := by
    have := hc.minimized
    simpa [initDawg] using this.symm
  subst hreg
  refine ⟨[], st, fl, [], [], rf, fun _ => False, ⟨⟨hc.heap, hc.root, hc.unchecked, hc.minimized, hc.floating, ⟨hc.float.1, fun a => ?_⟩,
    ⟨List.nodup_nil, by simp⟩, by simp, by simp, by simp, ?_, fun a ha => ⟨hc.stackRange a ha, by simp⟩, hc.nodup, by simp⟩, trivial, rfl,
    hprev, hsize, rfl, hlang, ⟨ge_refl _, ge_refl _, by simp [commonLen], by simp⟩, ?_, ?_⟩⟩
  · rw [hc.float.2]; simp
  · have := hc.stack
    have hZ : InReg ([] : List RegEntry) = fun _ => False := by
      funext a; simp [InReg]
    rwa [hZ] at this
  · intro t x _ _ _ e he
    simp only [topFrame] at hnil he
    rw [hnil] at he
    simp [Forest.toList] at he
  · simp only [topFrame] at hnil
    simp [Low, hnil, Forest.height]

end

end Lev
