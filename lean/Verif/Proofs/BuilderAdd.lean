import Verif.Proofs.BuilderRun

/-!
Adding terms: what the dictionary under construction accepts.
-/

namespace Lev

open Spec

/-- The labels on the stack, from the root. -/
def path (fs : List (UInt8 × Frame)) : Str := (fs.map (·.1)).reverse

/-- What the dictionary accepts, the unchecked transitions included. -/
def Lang : List (UInt8 × Frame) → Frame → Str → Prop
  | [], rf, t => AccT rf.fin rf.kids t
  | (c, f) :: fs, rf, t => (∃ u, t = path fs ++ c :: u ∧ AccT f.fin f.kids u) ∨ Lang fs rf t

theorem path_cons (c : UInt8) (f : Frame) (fs : List (UInt8 × Frame)) : path ((c, f) :: fs) = path fs ++ [c] := by
  simp [path]

theorem path_setTop (g : Frame) (fs : List (UInt8 × Frame)) : path (setTopS g fs) = path fs := by
  cases fs <;> simp [path, setTopS]

theorem lang_setTop {fs : List (UInt8 × Frame)} {rf g : Frame} {P : Str → Prop}
    (h : ∀ u, AccT g.fin g.kids u ↔ AccT (topFrame fs rf).fin (topFrame fs rf).kids u ∨ P u) (t : Str) :
    Lang (setTopS g fs) (setTopR g fs rf) t ↔ Lang fs rf t ∨ ∃ u, t = path fs ++ u ∧ P u := by
  cases fs with
  | nil => simp only [setTopS, setTopR, Lang, h, topFrame, path, List.map_nil, List.reverse_nil, List.nil_append]
           simp
  | cons e fs =>
    obtain ⟨c, f⟩ := e
    simp only [setTopS, setTopR, Lang, h, topFrame, path_cons, List.append_assoc, List.singleton_append]
    constructor
    · rintro (⟨u, rfl, h1 | h1⟩ | h1)
      · exact .inl (.inl ⟨u, rfl, h1⟩)
      · exact .inr ⟨u, rfl, h1⟩
      · exact .inl (.inr h1)
    · rintro ((⟨u, rfl, h1⟩ | h1) | ⟨u, rfl, h1⟩)
      · exact .inl ⟨u, rfl, .inl h1⟩
      · exact .inr h1
      · exact .inl ⟨u, rfl, .inr h1⟩

theorem lang_down {sgn : Bool} {c : UInt8} {f : Frame} {fs : List (UInt8 × Frame)} {rf : Frame}
    (hlab : ∀ e ∈ (topFrame fs rf).kids.toList, e.1 ≠ c) (t : Str) :
    Lang (setTopS ⟨(topFrame fs rf).fin, insF sgn c f.fin f.kids (topFrame fs rf).kids⟩ fs)
      (setTopR ⟨(topFrame fs rf).fin, insF sgn c f.fin f.kids (topFrame fs rf).kids⟩ fs rf) t ↔
    Lang ((c, f) :: fs) rf t := by
  rw [lang_setTop (P := fun u => ∃ v, u = c :: v ∧ AccT f.fin f.kids v)]
  · simp only [Lang]
    constructor
    · rintro (h | ⟨_, rfl, v, rfl, hv⟩)
      · exact .inr h
      · exact .inl ⟨v, rfl, hv⟩
    · rintro (⟨v, rfl, hv⟩ | h)
      · exact .inr ⟨_, rfl, v, rfl, hv⟩
      · exact .inl h
  · intro u
    simp only [AccT, Forest.acc_ins hlab]
    constructor
    · rintro (h | h | h)
      · exact .inl (.inl h)
      · exact .inr h
      · exact .inl (.inr h)
    · rintro ((h | h) | h)
      · exact .inl h
      · exact .inr (.inr h)
      · exact .inr (.inl h)

theorem StackOk.length {sgn : Bool} {mem : Mem} {Z : Nat → Prop} {root : Nat} {st : List Trans}
    {fs : List (UInt8 × Frame)} {rf : Frame} (h : StackOk sgn mem Z root st fs rf) : fs.length = st.length := by
  induction h with
  | nil _ => rfl
  | cons _ _ _ ih => simp [ih]

section
variable {sgn : Bool} {addr : Nat → Nat} {c0 : Nat} {m0 : Mem}

/-- `k` steps of `minimize`. -/
theorem minimizeLoop_spec (haddr : AddrOk addr) (k : Nat) {h : Heap} {d : SDawg} {reg : List RegEntry}
    {st : List Trans} {fl : List Nat} {fs : List (UInt8 × Frame)} {rf : Frame}
    (hc : Core sgn addr c0 m0 h d reg st fl fs rf) (hk : k ≤ st.length)
    (hne : 0 < k → (topFrame fs rf).fin = true ∨ (topFrame fs rf).kids ≠ .nil) :
    ∃ h' d' reg' st' fs' rf', Ends (fun fuel => minimizeLoop sgn fuel k h d) (h', d') ∧
      Core sgn addr c0 m0 h' d' reg' st' fl fs' rf' ∧ path fs' = (path fs).take (st.length - k) ∧
      (∀ t, Lang fs' rf' t ↔ Lang fs rf t) ∧ d'.prev = d.prev ∧ d'.size = d.size ∧ h'.count = h.count ∧
      (0 < k → (topFrame fs' rf').kids ≠ .nil) ∧
      (∀ c, 0 < k → (path fs)[st.length - k]? = some c →
        ∀ e ∈ (topFrame fs' rf').kids.toList, e.1.toNat ≤ c.toNat) ∧
      (k = 0 → topFrame fs' rf' = topFrame fs rf) := by
  induction k generalizing h d reg st fs rf with
  | zero =>
    refine ⟨h, d, reg, st, fs, rf, .of_eq fun _ => rfl, hc, ?_, fun _ => Iff.rfl, rfl, rfl, rfl, by simp, by simp, fun _ => rfl⟩
    rw [Nat.sub_zero, List.take_of_length_le]
    have := hc.stack.length
    simp [path, this]
  | succ k ih =>
    have hlen := hc.stack.length
    cases st with
    | nil => simp at hk
    | cons t st =>
      cases fs with
      | nil => simp at hlen
      | cons e fs =>
        obtain ⟨c, f⟩ := e
        have hlab := hc.fits.1
        have hlabne : ∀ e ∈ (topFrame fs rf).kids.toList, e.1 ≠ c := fun e he h' => by
          have := hlab e he; rw [h'] at this; omega
        have hplen : (path fs).length = st.length := by simp [path]; simpa using hlen
        obtain ⟨h1, d1, reg1, hrun, hc1, hp, hs, hcnt⟩ := minimizeStep_spec hc haddr (hne (by omega))
        obtain ⟨h2, d2, reg2, st2, fs2, rf2, hrun2, hc2, hpath, hlang, hp2, hs2, hcnt2, hnn, hle, htop⟩ := ih hc1 (by simpa using hk)
          (fun _ => .inr (by rw [topFrame_set]; exact Forest.ins_ne_nil))
        refine ⟨h2, d2, reg2, st2, fs2, rf2, ?_, hc2, ?_, ?_, hp2.trans hp, hs2.trans hs, hcnt2.trans hcnt, ?_, ?_, by omega⟩
        · exact (hrun.bind (g := fun fuel r => minimizeLoop sgn fuel k r.1 r.2) hrun2).congr fun n => rfl
        · rw [hpath, path_setTop, path_cons, List.length_cons, List.take_append_of_le_length (by omega)]
          congr 1; omega
        · intro x; rw [hlang, lang_down hlabne]
        · intro _
          by_cases hk0 : k = 0
          · rw [htop hk0, topFrame_set]; exact Forest.ins_ne_nil
          · exact hnn (by omega)
        · intro c' _ hc'
          rw [path_cons, List.length_cons] at hc'
          by_cases hk0 : k = 0
          · subst hk0
            rw [htop rfl, topFrame_set]
            rw [List.getElem?_append_right (by omega)] at hc'
            have : c' = c := by simpa [hplen] using hc'.symm
            subst this
            intro e he
            rcases (Forest.mem_ins hlabne e).1 he with rfl | he
            · exact Nat.le_refl _
            · exact Nat.le_of_lt (hlab e he)
          · refine hle c' (by omega) ?_
            rw [path_setTop]
            simp only [List.length_cons] at hk
            rw [List.getElem?_append_left (by omega)] at hc'
            rw [← hc']; congr 1; omega

/-- Pushing one more node. -/
theorem Core.push {h : Heap} {d : SDawg} {reg : List RegEntry}
    {st : List Trans} {fl : List Nat} {fs : List (UInt8 × Frame)} {rf : Frame} (haddr : AddrOk addr)
    (hc : Core sgn addr c0 m0 h d reg st fl fs rf) {c : UInt8}
    (hlab : ∀ e ∈ (topFrame fs rf).kids.toList, e.1.toNat < c.toNat) :
    Core sgn addr c0 m0 (newNode addr h).2
      { d with
        floating := some ((newNode addr h).1 :: fl)
        unchecked := some (⟨c, topNode d.root st, (newNode addr h).1⟩ :: st) }
      reg (⟨c, topNode d.root st, (newNode addr h).1⟩ :: st) ((newNode addr h).1 :: fl)
      ((c, ⟨false, .nil⟩) :: fs) rf := by
  have hfresh := hc.heap.fresh h.count (Nat.le_refl _)
  have hnew : ∀ a, h.mem a ≠ none → a ≠ addr h.count := by rintro a ha rfl; exact ha hfresh
  have hrange : ∀ a, InRange addr c0 h a → a ≠ addr h.count := by
    rintro a ⟨j, h1, h2, rfl⟩ h3
    have := haddr.2 _ _ h3; omega
  have hmono : ∀ a, InRange addr c0 h a → InRange addr c0 (newNode addr h).2 a := by
    rintro a ⟨j, h1, h2, h3⟩; exact ⟨j, h1, by simp only [newNode]; omega, h3⟩
  have hbase := hc.heap.base
  have hmem : ∀ a, InRange addr c0 h a → (newNode addr h).2.mem a = h.mem a := by
    intro a ha
    simp only [newNode, Mem.set]
    rw [if_neg (hrange a ha)]
  have hmm : ∀ x, InReg reg x → (newNode addr h).2.mem x = h.mem x := fun x hx => hmem x (hc.regRange x hx)
  refine ⟨?_, hc.root, rfl, hc.minimized, rfl, ?_, ?_, ?_, ?_, ?_, ?_, ?_, ?_, ?_⟩
  · -- heap
    refine ⟨?_, ?_, ?_, ?_, ?_⟩
    · simp only [newNode, Mem.set]; rw [if_neg (fun h' => haddr.1 _ h'.symm)]; exact hc.heap.null
    · intro j hj
      simp only [newNode, Mem.set] at hj ⊢
      rw [if_neg (fun h' => by have := haddr.2 _ _ h'; omega)]
      exact hc.heap.fresh j (by omega)
    · simp only [newNode]; omega
    · intro a ha
      simp only [newNode, Mem.set] at ha ⊢
      rw [if_neg (ha h.count (by omega) (by omega))]
      exact hc.heap.old a fun j h1 h2 => ha j h1 (by omega)
    · intro j h1 h2
      simp only [newNode, Mem.set] at h2 ⊢
      split
      · simp
      · next hne =>
        refine hc.heap.live j h1 ?_
        have : j ≠ h.count := by rintro rfl; exact hne rfl
        omega
  · -- float
    refine ⟨List.nodup_cons.2 ⟨fun h' => ?_, hc.float.1⟩, fun a => ?_⟩
    · obtain ⟨j, h1, h2, h3⟩ := (hc.float.2 _).1 h'
      have := haddr.2 _ _ h3; omega
    · simp only [newNode, List.mem_cons, hc.float.2]
      constructor
      · rintro (rfl | ⟨j, h1, h2, h3⟩)
        · exact ⟨h.count, hbase, by omega, rfl⟩
        · exact ⟨j, h1, by omega, h3⟩
      · rintro ⟨j, h1, h2, h3⟩
        by_cases hj : j = h.count
        · left; rw [h3, hj]
        · right; exact ⟨j, h1, by omega, h3⟩
  · exact hc.regOk.frame hmm
  · exact fun a ha => hmono a (hc.regRange a ha)
  · refine .cons (t := ⟨c, topNode d.root st, (newNode addr h).1⟩)
      (hc.stack.frame hc.regOk.closed hmm (fun a ha => hmem a (hc.stackRange a ha)) fun _ h => h) rfl ?_
    exact ⟨⟨false, []⟩, by simp [newNode, Mem.set], rfl, .nil, .nil, by simp⟩
  · intro a ha
    simp only [stackNodes, List.map_cons, List.mem_cons] at ha
    rcases ha with rfl | rfl | ha
    · exact hmono _ (hc.stackRange _ (by simp [stackNodes]))
    · exact ⟨h.count, by omega, by simp [newNode], rfl⟩
    · exact hmono a (hc.stackRange a (by simp only [stackNodes, List.mem_cons]; exact .inr ha))
  · have := hc.nodup
    simp only [stackNodes, List.map_cons, List.nodup_cons, List.mem_cons] at this ⊢
    refine ⟨?_, ?_, this.2⟩
    · rintro (h' | h')
      · exact hrange _ (hc.stackRange _ (by simp [stackNodes])) h'
      · exact this.1 h'
    · intro h'
      exact hrange _ (hc.stackRange _ (by simp only [stackNodes, List.mem_cons]; exact .inr h')) rfl
  · intro a ha
    simp only [stackNodes, List.map_cons, List.mem_cons] at ha
    rcases ha with rfl | rfl | ha
    · exact hc.notReg _ (by simp [stackNodes])
    · exact fun h' => hrange _ (hc.regRange _ h') rfl
    · exact hc.notReg a (by simp only [stackNodes, List.mem_cons]; exact .inr ha)
  · exact ⟨hlab, hc.fits⟩
  · refine ⟨hc.trim.1, fun e he => ?_⟩
    rcases List.mem_cons.1 he with rfl | he
    · trivial
    · exact hc.trim.2 e he

theorem pushSuffix_spec (haddr : AddrOk addr) (rest : Str) {h : Heap} {d : SDawg} {reg : List RegEntry}
    {st : List Trans} {fl : List Nat} {fs : List (UInt8 × Frame)} {rf : Frame}
    (hc : Core sgn addr c0 m0 h d reg st fl fs rf)
    (hlab : ∀ c, rest.head? = some c → ∀ e ∈ (topFrame fs rf).kids.toList, e.1.toNat < c.toNat) :
    ∃ h' d' st' fl' fs', pushSuffix addr (topNode d.root st) rest h d = .ok (topNode d'.root st', h', d') ∧
      Core sgn addr c0 m0 h' d' reg st' fl' fs' rf ∧ path fs' = path fs ++ rest ∧
      (∀ t, Lang fs' rf t ↔ Lang fs rf t) ∧ d'.prev = d.prev ∧ d'.size = d.size ∧
      (rest ≠ [] → (topFrame fs' rf).kids = .nil) ∧ (rest = [] → fs' = fs) := by
  induction rest generalizing h d st fl fs with
  | nil => exact ⟨h, d, st, fl, fs, rfl, hc, by simp, fun _ => Iff.rfl, rfl, rfl, by simp, fun _ => rfl⟩
  | cons c rest ih =>
    have hpush := hc.push haddr (c := c) (hlab c rfl)
    obtain ⟨h', d', st', fl', fs', hrun, hc', hpath, hlang, hp, hs, hnil, hsame⟩ := ih hpush (by
      intro c' _ e he; simp [topFrame, Forest.toList] at he)
    refine ⟨h', d', st', fl', fs', ?_, hc', ?_, ?_, hp, hs, ?_, by simp⟩
    · rw [pushSuffix, hc.floating, hc.unchecked]
      exact hrun
    · rw [hpath, path_cons]; simp
    · intro t
      rw [hlang]
      simp only [Lang]
      constructor
      · rintro (⟨u, _, h1 | h1⟩ | h1)
        · simp at h1
        · exact h1.elim
        · exact h1
      · exact .inr
    · intro _
      by_cases hr : rest = []
      · rw [hsame hr]; rfl
      · exact hnil hr

/-- Marking the topmost node final. -/
theorem setFinal_spec (haddr : AddrOk addr) {h : Heap} {d : SDawg} {reg : List RegEntry}
    {st : List Trans} {fl : List Nat} {fs : List (UInt8 × Frame)} {rf : Frame}
    (hc : Core sgn addr c0 m0 h d reg st fl fs rf) :
    ∃ h', setFinal (topNode d.root st) h = .ok h' ∧
      Core sgn addr c0 m0 h' d reg st fl (setTopS ⟨true, (topFrame fs rf).kids⟩ fs)
        (setTopR ⟨true, (topFrame fs rf).kids⟩ fs rf) ∧
      ∀ t, Lang (setTopS ⟨true, (topFrame fs rf).kids⟩ fs) (setTopR ⟨true, (topFrame fs rf).kids⟩ fs rf) t ↔
        Lang fs rf t ∨ t = path fs := by
  obtain ⟨nd, h1, h2, h3, h4, h5⟩ := hc.stack.top
  refine ⟨_, ?_, hc.setTop haddr (nd := { nd with final := true }) (g := ⟨true, (topFrame fs rf).kids⟩) rfl h3 h4 h5
    hc.trim.top, fun t => ?_⟩
  · simp only [setFinal, deref, h1, bind, Except.bind]
  · rw [lang_setTop (P := fun u => u = [])]
    · constructor
      · rintro (h | ⟨_, rfl, rfl⟩)
        · exact .inl h
        · exact .inr (by simp)
      · rintro (h | rfl)
        · exact .inl h
        · exact .inr ⟨[], by simp, rfl⟩
    · intro u
      simp only [AccT]
      constructor
      · rintro (⟨rfl, _⟩ | h)
        · exact .inr rfl
        · exact .inl (.inr h)
      · rintro ((⟨rfl, _⟩ | h) | rfl)
        · exact .inl ⟨rfl, trivial⟩
        · exact .inr h
        · exact .inl ⟨rfl, trivial⟩

/-- Between two calls of `add`: the dictionary has the terms `terms`. -/
structure Built (sgn : Bool) (addr : Nat → Nat) (c0 : Nat) (m0 : Mem) (terms : List Str) (h : Heap) (d : SDawg) :
    Prop where
  ex : ∃ reg st fl fs rf, Core sgn addr c0 m0 h d reg st fl fs rf ∧ path fs = d.prev ∧
    (topFrame fs rf).kids = .nil ∧ (fs ≠ [] → (topFrame fs rf).fin = true) ∧ ∀ t, Lang fs rf t ↔ t ∈ terms
  prev : d.prev = terms.getLast?.getD []
  size : d.size = terms.length

theorem commonPrefix_spec (a b : Str) (hlt : strLt a b = false) :
    ∃ p x y, a = p ++ x ∧ b = p ++ y ∧ p.length = commonPrefix a b ∧
      (y = [] ∨ ∃ u x' v y', x = u :: x' ∧ y = v :: y' ∧ v.toNat < u.toNat) := by
  induction a generalizing b with
  | nil =>
    cases b with
    | nil => exact ⟨[], [], [], rfl, rfl, rfl, .inl rfl⟩
    | cons v b => simp [strLt] at hlt
  | cons u a ih =>
    cases b with
    | nil => exact ⟨[], u :: a, [], rfl, rfl, rfl, .inl rfl⟩
    | cons v b =>
      rw [strLt] at hlt
      by_cases huv : u = v
      · subst huv
        simp only [Nat.lt_irrefl, if_false] at hlt
        obtain ⟨p, x, y, h1, h2, h3, h4⟩ := ih b hlt
        exact ⟨u :: p, x, y, by simp [h1], by simp [h2], by simp [commonPrefix, h3], h4⟩
      · refine ⟨[], u :: a, v :: b, rfl, rfl, by simp [commonPrefix, huv], .inr ⟨u, a, v, b, rfl, rfl, ?_⟩⟩
        have hne : u.toNat ≠ v.toNat := fun h => huv (UInt8.toNat_inj.1 h)
        split at hlt
        · simp at hlt
        · omega

theorem strLt_nil {a b : Str} (h : strLt a b = false) (ha : a = []) : b = [] := by
  subst ha
  cases b with
  | nil => rfl
  | cons => simp [strLt] at h

theorem addTerm_spec (haddr : AddrOk addr) {terms : List Str} {h : Heap} {d : SDawg} (hb : Built sgn addr c0 m0 terms h d)
    (term : Str) (hlt : strLt term d.prev = false) :
    ∃ h' d', Ends (fun fuel => addTerm sgn addr fuel term h d) (true, h', d') ∧
      Built sgn addr c0 m0 (terms ++ [term]) h' d' := by
  obtain ⟨⟨reg, st, fl, fs, rf, hc, hpath, hnil, hfin, hlang⟩, hprev, hsize⟩ := hb
  have hlen := hc.stack.length
  by_cases hterm : term = []
  · have hp0 := strLt_nil hlt hterm
    subst hterm
    have hfs : fs = [] := by
      rw [hp0] at hpath; simpa [path] using hpath
    subst hfs
    have hst : st = [] := by cases st with | nil => rfl | cons => simp at hlen
    subst hst
    obtain ⟨h', hrun, hc', hl'⟩ := setFinal_spec haddr hc
    refine ⟨h', { d with prev := [], size := d.size + 1 }, .of_eq fun n => ?_, ⟨⟨reg, [], fl, [], _, { hc' with }, ?_, ?_, ?_, ?_⟩, ?_, ?_⟩⟩
    · have hrun' : setFinal d.root h = .ok h' := hrun
      simp only [addTerm, hlt, if_true, hrun', bind, Except.bind, Bool.false_eq_true, if_false]
    · simp [path]
    · exact hnil
    · simp
    · intro t
      have := hl' t
      simp only [setTopS] at this
      rw [this, hlang]
      simp [path]
    · simp
    · simp [hsize]
  · obtain ⟨p, x, y, hx, hy, hplen, hcase⟩ := commonPrefix_spec term d.prev hlt
    have hprevlen : st.length = d.prev.length := by rw [← hpath]; simp [path, hlen]
    have hdl : d.prev.length = p.length + y.length := by rw [hy]; simp
    have hylen : st.length - commonPrefix term d.prev = y.length := by omega
    obtain ⟨h1, d1, reg1, st1, fs1, rf1, hrun1, hc1, hpath1, hlang1, hp1, hs1, _, _, hle1, htop1⟩ :=
      minimizeLoop_spec haddr (st.length - commonPrefix term d.prev) hc (by omega) (fun hpos => .inl (hfin (by
        rintro rfl
        simp at hlen
        rw [← hlen] at hpos
        simp at hpos)))
    have hi : st.length - (st.length - commonPrefix term d.prev) = p.length := by
      omega
    rw [hi, hpath, hy, List.take_left] at hpath1
    obtain ⟨h2, d2, st2, fl2, fs2, hrun2, hc2, hpath2, hlang2, hp2, hs2, hnil2, hsame2⟩ :=
      pushSuffix_spec haddr x hc1 (by
        intro c hcx e he
        rcases hcase with rfl | ⟨u, x', v, y', rfl, rfl, hvu⟩
        · rw [htop1 (by rw [hylen]; rfl), hnil] at he
          simp [Forest.toList] at he
        · simp only [List.head?_cons, Option.some.injEq] at hcx
          subst hcx
          have := hle1 v (by rw [hylen]; simp) (by rw [hi, hpath, hy]; simp) e he
          omega)
    obtain ⟨h3, hrun3, hc3, hlang3⟩ := setFinal_spec haddr hc2
    have hpath3 : path fs2 = term := by rw [hpath2, hpath1, hx]
    refine ⟨h3, { d2 with prev := term, size := d2.size + 1 }, ?_,
      ⟨⟨reg1, st2, fl2, _, _, { hc3 with }, ?_, ?_, ?_, ?_⟩, ?_, ?_⟩⟩
    · obtain ⟨N, hN⟩ := hrun1
      refine ⟨N, fun fuel hf => ?_⟩
      have hmin : minimize sgn fuel (commonPrefix term d.prev) h d = .ok (h1, d1) := by
        rw [minimize, hc.unchecked]; exact hN fuel hf
      have hsrc : suffixSource d1 = .ok (topNode d1.root st1) := by
        rw [suffixSource, hc1.unchecked]
        cases st1 <;> rfl
      have hdrop : term.drop (commonPrefix term d.prev) = x := by
        rw [← hplen]; conv => lhs; rw [hx]
        simp
      simp only [addTerm, hlt, hterm, Bool.false_eq_true, if_false, hmin, bind, Except.bind, hdrop, hsrc,
        hrun2, hrun3]
    · rw [path_setTop, hpath3]
    · rw [topFrame_set]
      by_cases hx0 : x = []
      · -- the same term again
        have hy0 : y = [] := by
          rcases hcase with h | ⟨u, x', v, y', h, _⟩
          · exact h
          · rw [hx0] at h; cases h
        show (topFrame fs2 rf1).kids = .nil
        rw [hsame2 hx0, htop1 (by rw [hylen, hy0]; rfl)]
        exact hnil
      · exact hnil2 hx0
    · intro _; rw [topFrame_set]
    · intro t
      rw [hlang3, hlang2, hlang1, hlang, hpath3]
      simp
    · simp
    · simp [hs2, hs1, hsize]

end

end Lev
