import Verif.Proofs.SiteEnd
import Verif.Proofs.AnyGraph

/-!
An edge is overwritten: `finish` and `clean_up` are undefined.
-/

namespace Lev

open Spec

/-! ### Less memory: undefined, or the same -/

/-- Nodes that are alive in the first memory are the same in the second. -/
def Less (m m' : Mem) : Prop := ∀ a nd, m a = some nd → m' a = some nd

theorem Less.deref {m m' : Mem} (h : Less m m') (a : Nat) : UbOr (deref m a) (deref m' a) := by
  cases hm : m a with
  | none => left; simp [Lev.deref, hm]
  | some nd => right; simp [Lev.deref, hm, h a nd hm]

theorem Less.edgesEq {m m' : Mem} (h : Less m m') {eq eq' : DNode → DNode → Except Err Bool}
    (he : ∀ x y, UbOr (eq x y) (eq' x y)) (other : DNode) (es : List (UInt8 × Nat)) :
    UbOr (edgesEq m eq other es) (edgesEq m' eq' other es) := by
  induction es with
  | nil => exact .refl _
  | cons e es ih =>
    obtain ⟨label, expected⟩ := e
    rw [Lev.edgesEq, Lev.edgesEq]
    split
    · exact .refl _
    · refine (h.deref _).bind fun x => (h.deref _).bind fun y => (he x y).bind fun r => ?_
      cases r
      · exact .refl _
      · exact ih

theorem Less.nodeEq {m m' : Mem} (h : Less m m') (fuel : Nat) (x y : DNode) : UbOr (nodeEq m fuel x y) (nodeEq m' fuel x y) := by
  induction fuel generalizing x y with
  | zero => exact .refl _
  | succ fuel ih =>
    rw [Lev.nodeEq, Lev.nodeEq]
    split
    · exact .refl _
    · split
      · exact .refl _
      · exact h.edgesEq ih y x.edges

theorem Less.edgesHash {m m' : Mem} (h : Less m m') {f f' : DNode → Except Err UInt64}
    (he : ∀ x, UbOr (f x) (f' x)) (es : List (UInt8 × Nat)) (k : UInt64) :
    UbOr (edgesHash m f es k) (edgesHash m' f' es k) := by
  induction es generalizing k with
  | nil => exact .refl _
  | cons e es ih =>
    obtain ⟨label, target⟩ := e
    rw [Lev.edgesHash, Lev.edgesHash]
    exact (h.deref _).bind fun x => (he x).bind fun y => ih _

theorem Less.nodeHash {m m' : Mem} (h : Less m m') (fuel : Nat) (x : DNode) : UbOr (nodeHash m fuel x) (nodeHash m' fuel x) := by
  induction fuel generalizing x with
  | zero => exact .refl _
  | succ fuel ih =>
    rw [Lev.nodeHash, Lev.nodeHash]
    exact (h.edgesHash ih x.edges _).bind fun _ => .refl _

theorem Less.regFind {m m' : Mem} (h : Less m m') (fuel : Nat) (k : UInt64) (x : DNode) (reg : List RegEntry) :
    UbOr (regFind m fuel k x reg) (regFind m' fuel k x reg) := by
  induction reg with
  | nil => exact .refl _
  | cons e es ih =>
    rw [Lev.regFind, Lev.regFind]
    split
    · refine (h.nodeEq fuel x e.key).bind fun r => ?_
      cases r
      · exact ih
      · exact .refl _
    · exact ih

theorem Less.regSet {m m' : Mem} (h : Less m m') (fuel : Nat) (k : UInt64) (x : DNode) (v : Nat) (reg : List RegEntry) :
    UbOr (regSet m fuel k x v reg) (regSet m' fuel k x v reg) := by
  induction reg with
  | nil => exact .refl _
  | cons e es ih =>
    rw [Lev.regSet, Lev.regSet]
    split
    · refine (h.nodeEq fuel x e.key).bind fun r => ?_
      cases r
      · exact ih.bind fun _ => .refl _
      · exact .refl _
    · exact ih.bind fun _ => .refl _

theorem Less.minimizedNode {h h' : Heap} (hl : Less h.mem h'.mem) (fuel key : Nat) (d : SDawg) :
    UbOr (minimizedNode fuel key h d) (minimizedNode fuel key h' d) := by
  unfold Lev.minimizedNode
  refine (hl.deref key).bind fun nd => ?_
  split
  · exact .refl _
  · exact (hl.nodeHash fuel nd).bind fun k => hl.regFind fuel k nd _

theorem Less.register {h h' : Heap} (hl : Less h.mem h'.mem) (fuel target : Nat) (d : SDawg) :
    UbOr (register fuel target h d) (register fuel target h' d) := by
  unfold Lev.register
  refine (hl.deref target).bind fun nd => ?_
  split
  · exact .refl _
  · exact (hl.nodeHash fuel nd).bind fun k => (hl.regSet fuel k nd target _).bind fun _ => .refl _

theorem Less.allNodesLoop {m m' : Mem} (h : Less m m') (fuel : Nat) (pend nodes : List Nat) :
    UbOr (allNodesLoop m fuel pend nodes) (allNodesLoop m' fuel pend nodes) := by
  induction fuel generalizing pend nodes with
  | zero => cases pend <;> exact .refl _
  | succ fuel ih =>
    cases pend with
    | nil => exact .refl _
    | cons a pend =>
      rw [Lev.allNodesLoop, Lev.allNodesLoop]
      exact (h.deref a).bind fun nd => ih _ _

/-- All nodes that are found are alive. -/
theorem allNodesLoop_alive {m : Mem} {fuel : Nat} {pend nodes r : List Nat} (h : allNodesLoop m fuel pend nodes = .ok r)
    {a : Nat} (ha : a ∈ r) : a ∈ nodes ∨ m a ≠ none := by
  induction fuel generalizing pend nodes with
  | zero =>
    cases pend with
    | nil => simp only [allNodesLoop, Except.ok.injEq] at h; subst h; exact .inl ha
    | cons => simp [allNodesLoop] at h
  | succ fuel ih =>
    cases pend with
    | nil => simp only [allNodesLoop, Except.ok.injEq] at h; subst h; exact .inl ha
    | cons b pend =>
      rw [allNodesLoop] at h
      cases hb : m b with
      | none => simp [deref, hb, bind, Except.bind] at h
      | some nd =>
        simp only [deref, hb, bind, Except.bind] at h
        rcases ih h with h' | h'
        · split at h'
          · exact .inl h'
          · rcases List.mem_cons.1 h' with rfl | h'
            · right; rw [hb]; simp
            · exact .inl h'
        · exact .inr h'

/-- Deleting a node that is not alive. -/
theorem deleteAll_ub {l : List Nat} {h : Heap} {a : Nat} (ha : a ∈ l) (h0 : a ≠ 0) (hm : h.mem a = none) :
    deleteAll l h = .error .ub := by
  induction l generalizing h with
  | nil => simp at ha
  | cons b l ih =>
    rw [deleteAll]
    by_cases hb : b = a
    · subst hb
      simp [deleteNode, h0, hm, bind, Except.bind]
    · have ha' : a ∈ l := by
        rcases List.mem_cons.1 ha with h | h
        · exact absurd h.symm hb
        · exact h
      unfold deleteNode
      split
      · exact ih ha' hm
      · split
        · simp only [bind, Except.bind]
          exact ih ha' (by simp only [Mem.set]; split <;> simp_all)
        · rfl

/-! ### Steps of `minimize` -/

/-- The memory without some nodes. -/
def Mem.without (m : Mem) (X : List Nat) : Mem := fun a => if a ∈ X then none else m a

theorem Mem.without_less (m : Mem) (X : List Nat) : Less (m.without X) m := by
  intro a nd h
  simp only [Mem.without] at h
  split at h
  · simp at h
  · exact h

/-- The heap without some nodes. -/
def Heap.without (h : Heap) (X : List Nat) : Heap := { h with mem := h.mem.without X }

section
variable {sgn : Bool} {addr : Nat → Nat} {c0 : Nat} {m0 : Mem}

/-- `add_edge` in a heap that lacks some nodes: undefined, or the heap lacks also the node that the edge led to. -/
theorem addEdgeF_without (sgn : Bool) {h : Heap} {X : List Nat} {a : Nat} {nd : DNode} (c : UInt8) (b : Nat)
    (hm : h.mem a = some nd) (ha : ∀ e, (c, e) ∈ nd.edges → e ≠ a ∧ e ≠ 0 ∧ h.mem e ≠ none) :
    addEdgeF sgn false a c b (h.without X) = .error .ub ∨
    ∃ X', addEdgeF sgn false a c b (h.without X) = .ok ((withEdge sgn h a nd c b).without X', false) ∧
      a ∉ X ∧ ((nodeTransition nd c = 0 ∧ X' = X) ∨ (nodeTransition nd c ≠ 0 ∧ X' = nodeTransition nd c :: X)) := by
  by_cases haX : a ∈ X
  · left
    simp [addEdgeF, deref, Heap.without, Mem.without, haX, bind, Except.bind]
  · have hma : (h.without X).mem a = some nd := by simp [Heap.without, Mem.without, haX, hm]
    have htr : nodeTransition nd c = 0 ∨ (c, nodeTransition nd c) ∈ nd.edges := by
      unfold nodeTransition
      cases hf : nd.edges.find? (fun e => e.1 == c) with
      | none => exact .inl rfl
      | some e =>
        right
        have h1 := List.mem_of_find?_eq_some hf
        have h2 := List.find?_some hf
        obtain ⟨l, x⟩ := e
        simp only [beq_iff_eq] at h2
        subst h2
        exact h1
    rcases htr with htr | htr
    · right
      refine ⟨X, ?_, haX, .inl ⟨htr, rfl⟩⟩
      simp only [addEdgeF, deref, hma, htr, deleteNode, bind, Except.bind, if_true, Bool.false_and, Bool.false_eq_true, if_false, pure,
        Except.pure]
      congr 2
      simp only [Heap.without, withEdge]
      congr 1
      funext x
      simp only [Mem.set, Mem.without]
      by_cases hx : x = a
      · subst hx; simp [haX]
      · simp [hx]
    · obtain ⟨t1, t2, t3⟩ := ha _ htr
      cases hmt : (h.without X).mem (nodeTransition nd c) with
      | none =>
        left
        simp [addEdgeF, deref, hma, deleteNode, t2, hmt, bind, Except.bind]
      | some ndt =>
        right
        refine ⟨nodeTransition nd c :: X, ?_, haX, .inr ⟨t2, rfl⟩⟩
        have hma' : ((h.without X).mem.set (nodeTransition nd c) none) a = some nd := by
          simp only [Mem.set, Ne.symm t1, if_false]; exact hma
        simp only [addEdgeF, deref, hma, deleteNode, t2, hmt, bind, Except.bind, if_false, Bool.false_and, Bool.false_eq_true, pure,
          Except.pure, hma']
        congr 2
        simp only [Heap.without, withEdge]
        congr 1
        funext x
        simp only [Mem.set, Mem.without, List.mem_cons]
        by_cases hx : x = a
        · subst hx; simp [haX, Ne.symm t1]
        · by_cases hx' : x = nodeTransition nd c
          · simp [hx', t1]
          · simp [hx, hx']

theorem unf_transition_ne {mem : Mem} {nd : DNode} {F : Forest} (h : Unf mem nd.edges F) (h0 : mem 0 = none) {c : UInt8}
    (hc : ∃ e ∈ F.toList, e.1 = c) : nodeTransition nd c ≠ 0 := by
  have hex : ∃ b, (c, b) ∈ nd.edges := by
    obtain ⟨e, he, rfl⟩ := hc
    generalize nd.edges = es at h
    clear nd
    induction h with
    | nil => simp [Forest.toList] at he
    | @cons l a _ _ _ _ _ _ _ _ ih =>
      rcases List.mem_cons.1 he with rfl | he
      · exact ⟨a, by simp⟩
      · obtain ⟨b, hb⟩ := ih he
        exact ⟨b, by simp [hb]⟩
  have hal : ∀ c b, (c, b) ∈ nd.edges → mem b ≠ none := by
    clear hc hex
    generalize nd.edges = es at h
    clear nd
    induction h with
    | nil => simp
    | cons hm _ _ _ ih =>
      intro c b hb
      rcases List.mem_cons.1 hb with hb | hb
      · cases hb; rw [hm]; simp
      · exact ih c b hb
  obtain ⟨b, hb⟩ := hex
  unfold nodeTransition
  cases hf : nd.edges.find? (fun e => e.1 == c) with
  | none =>
    rw [List.find?_eq_none] at hf
    exact absurd (by simp) (hf _ hb)
  | some e =>
    obtain ⟨l, x⟩ := e
    simp only
    rintro rfl
    exact hal _ _ (List.mem_of_find?_eq_some hf) h0

/-- One step of `minimize` in a heap that lacks some nodes. -/
theorem Site.stepWithout {h : Heap} {d : SDawg} {reg : List RegEntry}
    {t : Trans} {st : List Trans} {fl lk : List Nat} {c : UInt8} {g : Frame} {fs : List (UInt8 × Frame)} {rf : Frame}
    {Z : Nat → Prop} (hc : Site sgn addr c0 m0 h d reg (t :: st) fl lk ((c, g) :: fs) rf Z) (haddr : AddrOk addr) (k : Nat) :
    ∃ N, ∃ h' d' reg' fs' rf' Z', Site sgn addr c0 m0 h' d' reg' st fl lk fs' rf' Z' ∧
      ∀ X : List Nat, (∀ a ∈ X, a ∈ fl) → X ≠ [] ∨ Clash ((c, g) :: fs) rf → ∀ fuel, N ≤ fuel → minimizeStepF sgn fuel none k (h.without X) d = .error .ub ∨
        ∃ X', minimizeStepF sgn fuel none k (h.without X) d = .ok (h'.without X', d', false) ∧ (∀ a ∈ X', a ∈ fl) ∧
          (X' ≠ [] ∨ Clash fs' rf') := by
  obtain ⟨hsrc, hlabel, nds, hms, hFs, hcase⟩ := hc.step haddr
  have hpop := hc.pop
  obtain ⟨nds', hms', _, _, _, hZs⟩ := hpop.stack.top
  have : nds' = nds := by
    have h1 : h.mem (topNode d.root st) = some nds' := hms'
    rw [hms] at h1; exact (Option.some.inj h1).symm
  subst this
  have hless : ∀ X, Less (h.without X).mem h.mem := fun X => Mem.without_less h.mem X
  -- the nodes that edges of the topmost node lead to
  have hedges : ∀ e, (∃ c, (c, e) ∈ nds'.edges) → e ≠ topNode d.root st ∧ e ≠ 0 ∧ h.mem e ≠ none ∧ e ∈ fl := by
    rintro e ⟨c', he⟩
    have hz := hZs c' e he
    obtain ⟨⟨j, j1, j2, j3⟩, hlk⟩ := hc.zoneRange e hz
    have hroot : e ≠ d.root := fun h' => hpop.notZone _ (by rw [h']; simp [stackNodes]) hz
    have halive : h.mem e ≠ none := by rw [j3]; exact hc.heap.live j j1 j2
    refine ⟨fun h' => hpop.notZone _ (by rw [h']; exact topNode_mem d.root st) hz, fun h' => ?_, halive, ?_⟩
    · rw [h'] at halive; exact halive hc.heap.null
    · rw [hc.float.2]
      refine ⟨⟨j, ?_, j2, j3⟩, hlk⟩
      have : j ≠ c0 := by rintro rfl; exact hroot (by rw [j3, hc.root])
      omega
  have hadd := fun X b => addEdgeF_without sgn (X := X) c b hms fun e he => by
    obtain ⟨a1, a2, a3, _⟩ := hedges e ⟨c, he⟩
    exact ⟨a1, a2, a3⟩
  -- what is freed, and that something is freed if there is a clash here
  have hnext : ∀ X : List Nat, (∀ a ∈ X, a ∈ fl) → X ≠ [] ∨ Clash ((c, g) :: fs) rf → ∀ X', ((nodeTransition nds' c = 0 ∧ X' = X) ∨ (nodeTransition nds' c ≠ 0 ∧ X' = nodeTransition nds' c :: X)) →
      (∀ a ∈ X', a ∈ fl) ∧ (X' ≠ [] ∨ Clash (setTopS (putEdge sgn c g (topFrame fs rf)) fs)
        (setTopR (putEdge sgn c g (topFrame fs rf)) fs rf)) := by
    rintro X hX hcl X' (⟨h1, rfl⟩ | ⟨h1, rfl⟩)
    · refine ⟨hX, ?_⟩
      rcases hcl with h' | h' | h'
      · exact .inl h'
      · exact absurd h1 (unf_transition_ne hFs hc.heap.null h')
      · exact .inr (h'.setTop _)
    · refine ⟨fun a ha => ?_, .inl (by simp)⟩
      rcases List.mem_cons.1 ha with rfl | ha
      · refine (hedges _ ⟨c, ?_⟩).2.2.2
        have h2 : nodeTransition nds' c ≠ 0 := h1
        unfold nodeTransition at h2 ⊢
        cases hf : nds'.edges.find? (fun e => e.1 == c) with
        | none => rw [hf] at h2; simp at h2
        | some e =>
          have e1 := List.mem_of_find?_eq_some hf
          have e2 := List.find?_some hf
          obtain ⟨l, x⟩ := e
          simp only [beq_iff_eq] at e2
          subst e2
          exact e1
      · exact hX a ha
  rcases hcase with ⟨e, he, hmn, hsite⟩ | ⟨hmn, _, e, hreg, hsite, _⟩
  · refine ⟨g.kids.height + 1, _, _, _, _, _, _, hsite, fun X hX hcl fuel hf => ?_⟩
    rcases (hless X).minimizedNode fuel t.target { d with unchecked := some st } with h1 | h1
    · left
      simp [minimizeStepF, hc.unchecked, h1, bind, Except.bind]
    · rw [hmn fuel (by omega)] at h1
      rcases hadd X e.val with h2 | ⟨X', h2, _, h4⟩
      · left
        simp [minimizeStepF, hc.unchecked, h1, hsrc, hlabel, h2, bind, Except.bind]
      · right
        refine ⟨X', ?_, hnext X hX hcl X' h4⟩
        simp [minimizeStepF, hc.unchecked, h1, hsrc, hlabel, h2, bind, Except.bind, pure, Except.pure]
  · refine ⟨g.kids.height + 1, _, _, _, _, _, _, hsite, fun X hX hcl fuel hf => ?_⟩
    rcases (hless X).minimizedNode fuel t.target { d with unchecked := some st } with h1 | h1
    · left
      simp [minimizeStepF, hc.unchecked, h1, bind, Except.bind]
    · rw [hmn fuel (by omega)] at h1
      rcases hadd X t.target with h2 | ⟨X', h2, _, h4⟩
      · left
        simp [minimizeStepF, hc.unchecked, h1, hsrc, hlabel, h2, bind, Except.bind]
      · rcases (show Less ((withEdge sgn h (topNode d.root st) nds' c t.target).without X').mem
            (withEdge sgn h (topNode d.root st) nds' c t.target).mem from Mem.without_less _ X').register fuel t.target
            { d with unchecked := some st } with h5 | h5
        · left
          simp [minimizeStepF, hc.unchecked, h1, hsrc, hlabel, h2, h5, bind, Except.bind]
        · rw [hreg fuel (by omega)] at h5
          right
          refine ⟨X', ?_, hnext X hX hcl X' h4⟩
          simp [minimizeStepF, hc.unchecked, h1, hsrc, hlabel, h2, h5, bind, Except.bind, pure, Except.pure]

/-- `finish` in a heap that lacks some nodes. -/
theorem Site.loopWithout (haddr : AddrOk addr) (n k : Nat) {h : Heap} {d : SDawg} {reg : List RegEntry}
    {st : List Trans} {fl lk : List Nat} {fs : List (UInt8 × Frame)} {rf : Frame}
    {Z : Nat → Prop} (hc : Site sgn addr c0 m0 h d reg st fl lk fs rf Z) (hn : n = st.length) :
    ∃ N, ∃ h' d' reg' rf' Z', Site sgn addr c0 m0 h' d' reg' [] fl lk [] rf' Z' ∧
      ∀ X : List Nat, (∀ a ∈ X, a ∈ fl) → X ≠ [] ∨ Clash fs rf → ∀ fuel, N ≤ fuel →
      minimizeLoopF sgn fuel none n k (h.without X) d = .error .ub ∨
        ∃ X', minimizeLoopF sgn fuel none n k (h.without X) d = .ok (h'.without X', d', false) ∧ (∀ a ∈ X', a ∈ fl) ∧ X' ≠ [] := by
  have hlen := hc.stack.length
  induction n generalizing k h d reg st fs rf Z with
  | zero =>
    cases st with
    | cons => simp at hn
    | nil =>
      cases fs with
      | cons => simp at hlen
      | nil =>
        refine ⟨0, h, d, reg, rf, Z, hc, fun X hX hcl fuel _ => .inr ⟨X, rfl, hX, ?_⟩⟩
        rcases hcl with h' | h'
        · exact h'
        · exact h'.elim
  | succ n ih =>
    cases st with
    | nil => simp at hn
    | cons t st =>
      cases fs with
      | nil => simp at hlen
      | cons x fs =>
        obtain ⟨c, g⟩ := x
        obtain ⟨N1, h1, d1, reg1, fs1, rf1, Z1, hc1, hstep⟩ := hc.stepWithout haddr k
        obtain ⟨N2, h2, d2, reg2, rf2, Z2, hc2, hloop⟩ := ih (k + 1) hc1 (by simpa using hn) hc1.stack.length
        refine ⟨max N1 N2, h2, d2, reg2, rf2, Z2, hc2, fun X hX hcl fuel hf => ?_⟩
        rcases hstep X hX hcl fuel (by omega) with e1 | ⟨X1, e1, hX1, hcl1⟩
        · left; simp [minimizeLoopF, e1, bind, Except.bind]
        · rcases hloop X1 hX1 hcl1 fuel (by omega) with e2 | ⟨X2, e2, hX2, hne⟩
          · left; simp [minimizeLoopF, e1, e2, bind, Except.bind]
          · right
            exact ⟨X2, by simp [minimizeLoopF, e1, e2, bind, Except.bind], hX2, hne⟩

/-- If an edge will be overwritten then `finish` or `clean_up` is undefined. -/
theorem Site.clash (haddr : AddrOk addr) {h : Heap} {d : SDawg} {reg : List RegEntry}
    {st : List Trans} {fl lk : List Nat} {fs : List (UInt8 × Frame)} {rf : Frame}
    {Z : Nat → Prop} (hc : Site sgn addr c0 m0 h d reg st fl lk fs rf Z) (hcl : Clash fs rf) :
    ∃ N, ∀ fuel, N ≤ fuel → (do
      let (h, d, _) ← finishF sgn fuel none h d
      Lev.cleanUp fuel h d) = .error .ub := by
  obtain ⟨N1, h1, d1, reg1, rf1, Z1, hc1, hloop⟩ := hc.loopWithout haddr st.length 0 rfl
  obtain ⟨nd, hm, _, hF, _, _⟩ := hc1.stack.rootNode
  obtain ⟨r, ⟨N2, hr⟩, _, _⟩ := allNodes_spec hm hF
  refine ⟨max N1 N2, fun fuel hf => ?_⟩
  have hfin : finishF sgn fuel none h d = minimizeLoopF sgn fuel none st.length 0 h d := by
    simp only [finishF, minimizeF, hc.unchecked, Nat.sub_zero]
  have h0 : h.without [] = h := by
    have : h.mem.without [] = h.mem := by funext a; simp [Mem.without]
    rw [Heap.without, this]
  have := hloop [] (by simp) (.inr hcl) fuel (by omega)
  rw [h0] at this
  rw [hfin]
  rcases this with e1 | ⟨X, e1, hX, hne⟩
  · simp [e1, bind, Except.bind]
  · rw [e1]
    simp only [bind, Except.bind, Lev.cleanUp, hc1.floating]
    have hless : Less (h1.without X).mem h1.mem := Mem.without_less h1.mem X
    have hr' : allNodesLoop h1.mem fuel [d1.root] [] = .ok r := hr fuel (by omega)
    rcases hless.allNodesLoop fuel [d1.root] [] with e2 | e2
    · simp [allNodes, e2]
    · have e3 := e2
      rw [hr'] at e2
      obtain ⟨a, X', rfl⟩ := List.exists_cons_of_ne_nil hne
      have hdead : (h1.without (a :: X')).mem a = none := by simp [Heap.without, Mem.without]
      have har : a ∉ r := by
        intro h'
        rcases allNodesLoop_alive e2 h' with h'' | h''
        · simp at h''
        · exact h'' hdead
      have hfl := hX a (by simp)
      have ha0 : a ≠ 0 := by
        obtain ⟨⟨j, _, _, rfl⟩, _⟩ := (hc1.float.2 a).1 hfl
        exact haddr.1 j
      have hdel := deleteAll_ub (l := fl.filter (fun a => decide (a ∉ r))) (h := h1.without (a :: X')) (a := a)
        (List.mem_filter.2 ⟨hfl, by simpa using har⟩) ha0 hdead
      simp only [allNodes, e2]
      rw [hdel]

/-- A word is added that has more letters in common with the path than with the last word that was added. -/
theorem InWork.retry (haddr : AddrOk addr) {L : Nat} {h : Heap} {d : SDawg} {reg : List RegEntry}
    {st : List Trans} {fl lk : List Nat} {fs : List (UInt8 × Frame)} {rf : Frame} {Z : Nat → Prop}
    {s : Progress} (hw : InWork sgn addr c0 m0 L s h d reg st fl lk fs rf Z)
    (t : Str) (ht : ¬ strLess t s.prev) (hcom : commonLen t s.prev < commonLen t s.path) :
    ∃ h' d' reg' st' fl' lk' fs' rf' Z', Ends (fun fuel => addTermF sgn addr fuel none t h d) (.added, h', d') ∧
      Site sgn addr c0 m0 h' d' reg' st' fl' lk' fs' rf' Z' ∧ Clash fs' rf' ∧ lk' = lk := by
  have hl1 := commonLen_le_left t s.path
  have hl2 := commonLen_le_right t s.path
  have htake : s.path.take (commonLen t s.prev) = t.take (commonLen t s.prev) := by
    have h5 := congrArg (List.take (commonLen t s.prev)) (commonLen_take t s.path)
    rw [List.take_take, List.take_take, Nat.min_eq_left (by omega)] at h5
    exact h5.symm
  have hletter : s.path[commonLen t s.prev]? = t[commonLen t s.prev]? := by
    have h5 := congrArg (fun l => l[commonLen t s.prev]?) (commonLen_take t s.path)
    simp only [List.getElem?_take] at h5
    rw [if_pos hcom, if_pos hcom] at h5
    exact h5.symm
  have hltF : strLt t d.prev = false := by rw [hw.prev]; exact (strLt_false_iff _ _).2 ht
  have hterm : t ≠ [] := by rintro rfl; simp [commonLen] at hcom
  have hi : commonPrefix t d.prev = commonLen t s.prev := by rw [hw.prev, commonPrefix_eq]
  obtain ⟨kind, q, h1, d1, reg1, st1, fs1, rf1, Z1, ⟨N, hN⟩, hM⟩ := minimizeF_spec haddr hw none (commonLen t s.prev)
  simp only at hN
  have hk : kind = .none := by
    cases kind with
    | none => rfl
    | lost => have := (hM.stop (by simp)).2.2; simp [Kind.Of] at this
    | unregistered => have := (hM.stop (by simp)).2.2; simp [Kind.Of] at this
  subst hk
  have hq : q = s.path.length - commonLen t s.prev := hM.all rfl
  have hsrc := suffixSource_eq hM.site.unchecked
  -- the edge
  have hlt : commonLen t s.prev < t.length := by omega
  obtain ⟨c, rest, hdrop⟩ : ∃ c rest, t.drop (commonLen t s.prev) = c :: rest := by
    cases hd : t.drop (commonLen t s.prev) with
    | nil => rw [List.drop_eq_nil_iff] at hd; omega
    | cons c rest => exact ⟨c, rest, rfl⟩
  have hc : t[commonLen t s.prev]? = some c := by
    have : (t.drop (commonLen t s.prev))[0]? = some c := by rw [hdrop]; rfl
    simpa using this
  have hhas := hM.has rfl (by omega) c (by
    rw [hw.path, hq, show s.path.length - (s.path.length - commonLen t s.prev) = commonLen t s.prev by omega, hletter, hc])
  -- the first node
  have hp := hM.site.push haddr c
  have hrun1 : pushSuffixF addr none 0 (topNode d1.root st1) (c :: rest) h1 d1 =
      pushSuffixF addr none 1 (addr h1.count) rest (newNode addr h1).2
        { d1 with
          floating := some (addr h1.count :: fl)
          unchecked := some (⟨c, topNode d1.root st1, addr h1.count⟩ :: st1) } := by
    rw [pushSuffixF, hM.site.floating, hM.site.unchecked]
    simp [newNode]
  have hclash : Clash ((c, (⟨false, .nil⟩ : Frame)) :: fs1) rf1 := .inl hhas
  rcases pushSuffixF_spec haddr none rest 1 hp with
    ⟨h2, d2, st2, fl2, fs2, hrun2, hP, hno⟩ | ⟨h2, d2, st2, fl2, lk2, fs2, j, n, hj, hstop, hrun2, hP, hlk⟩
  · obtain ⟨h3, hrun3, hc3, hl3⟩ := hP.site.setFinal haddr
    refine ⟨h3, { d2 with prev := t, size := d2.size + 1 }, reg1, st2, fl2, lk, _, _, Z1, ⟨N, fun fuel hf => ?_⟩,
      hc3.withPrev _ _, (hP.clash hclash).setTop _, rfl⟩
    have hN' := hN fuel hf
    simp only [Kind.threw] at hN'
    have hrun2' : pushSuffixF addr none 0 (topNode d1.root st1) (c :: rest) h1 d1 = .ok (some (topNode d2.root st2), h2, d2) := by
      rw [hrun1]; exact hrun2
    simp only [addTermF, hltF, hterm, Bool.false_eq_true, if_false, hi, hN', bind, Except.bind, hsrc, hdrop, hrun2', hrun3, pure,
      Except.pure]
    simp
  · rcases hstop with ⟨hf, _⟩ | ⟨hf, _⟩ | ⟨hf, _⟩ <;> cases hf

end

end Lev
