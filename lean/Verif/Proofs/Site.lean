import Verif.Proofs.BuilderEnd
import Verif.Spec.BuildFail

/-!
Building a dictionary of any shape: the invariant of `SortedDawg::minimize` without the assumptions that every node is of
use and that every node is in the register.
-/

namespace Lev

open Spec

/-- Enough fuel is enough. -/
theorem regFind_fuel {sgn : Bool} {mem : Mem} (h0 : mem 0 = none) {fuel fuel' : Nat} {nd : DNode} {F : Forest}
    (hF : Unf mem nd.edges F) (sF : F.Sorted sgn) (hfuel : F.height < fuel) (hfuel' : F.height < fuel') (reg : List RegEntry)
    (hreg : ∀ e ∈ reg, ∃ G, Unf mem e.key.edges G ∧ G.Sorted sgn ∧ e.hash = treeHash e.key.final G) :
    regFind mem fuel (treeHash nd.final F) nd reg = regFind mem fuel' (treeHash nd.final F) nd reg := by
  induction reg with
  | nil => rfl
  | cons e reg ih =>
    obtain ⟨G, hG, sG, hh⟩ := hreg e (by simp)
    rw [regFind, regFind, nodeEq_spec h0 hF hG sF sG hfuel, nodeEq_spec h0 hF hG sF sG hfuel',
      ih fun e he => hreg e (by simp [he])]

/-- A dictionary that is being built.  `Z` are the nodes that are no longer changed, `lk` the nodes nobody knows of. -/
structure Site (sgn : Bool) (addr : Nat → Nat) (c0 : Nat) (m0 : Mem) (h : Heap) (d : SDawg) (reg : List RegEntry)
    (st : List Trans) (fl lk : List Nat) (fs : List (UInt8 × Frame)) (rf : Frame) (Z : Nat → Prop) : Prop where
  heap : HeapOk addr c0 m0 h
  root : d.root = addr c0
  unchecked : d.unchecked = some st
  minimized : d.minimized = some reg
  floating : d.floating = some fl
  float : fl.Nodup ∧ ∀ a, a ∈ fl ↔ (∃ j, c0 < j ∧ j < h.count ∧ a = addr j) ∧ a ∉ lk
  leak : lk.Nodup ∧ ∀ a ∈ lk, ∃ j, c0 < j ∧ j < h.count ∧ a = addr j
  zone : ∀ a, Z a → ∃ f, NodeIs sgn h.mem Z a f
  zoneRange : ∀ a, Z a → InRange addr c0 h a ∧ a ∉ lk
  regOk : ∀ e ∈ reg, Z e.val ∧ h.mem e.val = some e.key ∧ ∃ F, Unf h.mem e.key.edges F ∧ e.hash = treeHash e.key.final F
  stack : StackOk sgn h.mem Z d.root st fs rf
  stackRange : ∀ a ∈ stackNodes d.root st, InRange addr c0 h a ∧ a ∉ lk
  nodup : (stackNodes d.root st).Nodup
  notZone : ∀ a ∈ stackNodes d.root st, ¬ Z a

section
variable {sgn : Bool} {addr : Nat → Nat} {c0 : Nat} {m0 : Mem} {h : Heap} {d : SDawg} {reg : List RegEntry}
  {st : List Trans} {fl lk : List Nat} {fs : List (UInt8 × Frame)} {rf : Frame} {Z : Nat → Prop}

theorem Site.closed (hc : Site sgn addr c0 m0 h d reg st fl lk fs rf Z) : Closed h.mem Z := by
  intro a ha
  obtain ⟨f, nd, h1, _, _, _, h5⟩ := hc.zone a ha
  exact ⟨nd, h1, h5⟩

theorem Site.sortedOn (hc : Site sgn addr c0 m0 h d reg st fl lk fs rf Z) :
    ∀ a nd, Z a → h.mem a = some nd → nd.edges.Pairwise (fun e f => charLt sgn e.1 f.1) := by
  intro a nd ha hm
  obtain ⟨f, nd', h1, _, _, h4, _⟩ := hc.zone a ha
  rw [h1] at hm; obtain rfl := Option.some.inj hm
  exact h4

theorem Site.dictNode (hc : Site sgn addr c0 m0 h d reg st fl lk fs rf Z) {a : Nat} {f : Frame}
    (hn : NodeIs sgn h.mem Z a f) : DictNode sgn h.mem (f.kids.height + 1) a := by
  obtain ⟨nd, h1, _, h3, h4, h5⟩ := hn
  exact .mk h1 h4 (dictNode_of_closed hc.closed hc.sortedOn h3 h5)

theorem Site.sorted (hc : Site sgn addr c0 m0 h d reg st fl lk fs rf Z) {a : Nat} {f : Frame}
    (hn : NodeIs sgn h.mem Z a f) : f.kids.Sorted sgn := by
  have hd := hc.dictNode hn
  obtain ⟨nd, h1, _, h3, _⟩ := hn
  exact DictNode.sorted hd h1 h3

theorem Site.regFacts (hc : Site sgn addr c0 m0 h d reg st fl lk fs rf Z) :
    ∀ e ∈ reg, ∃ G, Unf h.mem e.key.edges G ∧ G.Sorted sgn ∧ e.hash = treeHash e.key.final G := by
  intro e he
  obtain ⟨hz, hm, F, hF, hh⟩ := hc.regOk e he
  obtain ⟨f, hn⟩ := hc.zone _ hz
  have hs := hc.sorted hn
  obtain ⟨nd, h1, h2, h3, _⟩ := hn
  rw [hm] at h1; obtain rfl := Option.some.inj h1
  exact ⟨F, hF, by rw [hF.unique h3]; exact hs, hh⟩

/-- The topmost node is changed. -/
theorem Site.setTop (hc : Site sgn addr c0 m0 h d reg st fl lk fs rf Z) (haddr : AddrOk addr) {nd : DNode} {g : Frame}
    (h1 : nd.final = g.fin) (h2 : Unf h.mem nd.edges g.kids)
    (h3 : nd.edges.Pairwise (fun e g => charLt sgn e.1 g.1)) (h4 : ∀ c b, (c, b) ∈ nd.edges → Z b) :
    Site sgn addr c0 m0 { h with mem := h.mem.set (topNode d.root st) (some nd) } d reg st fl lk (setTopS g fs)
      (setTopR g fs rf) Z := by
  have htop := topNode_mem d.root st
  have hmm : ∀ x, Z x → (h.mem.set (topNode d.root st) (some nd)) x = h.mem x := by
    intro x hx
    simp only [Mem.set]
    rw [if_neg]
    rintro rfl
    exact hc.notZone _ htop hx
  have hclosed := hc.closed
  refine { hc with
    heap := hc.heap.set (hc.stackRange _ htop).1 haddr nd
    zone := fun a ha => by
      obtain ⟨f, hf⟩ := hc.zone a ha
      exact ⟨f, hf.frame hclosed hmm (hmm a ha) fun _ hx => hx⟩
    regOk := fun e he => by
      obtain ⟨r1, r2, F, r3, r4⟩ := hc.regOk e he
      refine ⟨r1, by show Mem.set _ _ _ _ = _; rw [hmm _ r1]; exact r2, F, r3.frame hclosed hmm ?_, r4⟩
      obtain ⟨nd', z1, z2⟩ := hclosed _ r1
      rw [r2] at z1; obtain rfl := Option.some.inj z1
      exact z2
    stack := hc.stack.setTop hclosed hmm (fun a ha => by simp [Mem.set, ha]) hc.nodup
      ⟨nd, by simp [Mem.set], h1, h2.frame hclosed hmm h4, h3, h4⟩ }

/-- The topmost transition is dropped. -/
theorem Site.pop {t : Trans} {f : Frame} {c : UInt8}
    (hc : Site sgn addr c0 m0 h d reg (t :: st) fl lk ((c, f) :: fs) rf Z) :
    Site sgn addr c0 m0 h { d with unchecked := some st } reg st fl lk fs rf Z := by
  have hsub : ∀ a, a ∈ stackNodes d.root st → a ∈ stackNodes d.root (t :: st) := by
    intro a ha
    simp only [stackNodes, List.map_cons, List.mem_cons] at ha ⊢
    rcases ha with h | h
    · exact .inl h
    · exact .inr (.inr h)
  have hnd := hc.nodup
  have hs := hc.stack
  cases hs with
  | cons hs _ _ =>
    exact { hc with
      unchecked := rfl
      stack := hs
      stackRange := fun a ha => hc.stackRange a (hsub a ha)
      nodup := by
        simp only [stackNodes, List.map_cons, List.nodup_cons, List.mem_cons] at hnd ⊢
        exact ⟨fun h => hnd.1 (.inr h), hnd.2.2⟩
      notZone := fun a ha => hc.notZone a (hsub a ha) }

/-- A node off the stack is no longer changed. -/
theorem Site.freeze (hc : Site sgn addr c0 m0 h d reg st fl lk fs rf Z) {a : Nat} {f : Frame}
    (hn : NodeIs sgn h.mem Z a f) (hr : InRange addr c0 h a ∧ a ∉ lk) (hst : a ∉ stackNodes d.root st) :
    Site sgn addr c0 m0 h d reg st fl lk fs rf (fun x => Z x ∨ x = a) := by
  have hclosed := hc.closed
  have hmono : ∀ {x : Nat} {g : Frame}, NodeIs sgn h.mem Z x g → NodeIs sgn h.mem (fun x => Z x ∨ x = a) x g :=
    fun hx => hx.frame hclosed (fun _ _ => rfl) rfl fun _ h => .inl h
  exact { hc with
    zone := fun x hx => by
      rcases hx with hx | rfl
      · obtain ⟨g, hg⟩ := hc.zone x hx
        exact ⟨g, hmono hg⟩
      · exact ⟨f, hmono hn⟩
    zoneRange := fun x hx => by
      rcases hx with hx | rfl
      · exact hc.zoneRange x hx
      · exact hr
    regOk := fun e he => by
      obtain ⟨r1, r2⟩ := hc.regOk e he
      exact ⟨.inl r1, r2⟩
    stack := hc.stack.frame hclosed (fun _ _ => rfl) (fun _ _ => rfl) fun _ hx => .inl hx
    notZone := fun x hx hz => by
      rcases hz with hz | rfl
      · exact hc.notZone x hx hz
      · exact hst hx }

/-- A node gets into the register. -/
theorem Site.enter (hc : Site sgn addr c0 m0 h d reg st fl lk fs rf Z) {a : Nat} {nd : DNode} {F : Forest} (ha : Z a)
    (hm : h.mem a = some nd) (hF : Unf h.mem nd.edges F) :
    Site sgn addr c0 m0 h { d with minimized := some (reg ++ [⟨treeHash nd.final F, nd, a⟩]) }
      (reg ++ [⟨treeHash nd.final F, nd, a⟩]) st fl lk fs rf Z :=
  { hc with
    minimized := rfl
    regOk := fun e he => by
      rcases List.mem_append.1 he with he | he
      · exact hc.regOk e he
      · simp only [List.mem_singleton] at he
        subst he
        exact ⟨ha, hm, F, hF, rfl⟩ }

/-- The frame that gets one more edge. -/
def putEdge (sgn : Bool) (c : UInt8) (f : Frame) (g : Frame) : Frame := ⟨g.fin, insF sgn c f.fin f.kids g.kids⟩

/-- Memory with one more edge from the node at `a`. -/
def withEdge (sgn : Bool) (h : Heap) (a : Nat) (nd : DNode) (c : UInt8) (b : Nat) : Heap :=
  { h with mem := h.mem.set a (some { nd with edges := mapSet sgn c b nd.edges }) }

/-- One step of `minimize` apart from what `add_edge` does before it sets the edge. -/
theorem Site.step {t : Trans} {c : UInt8} {f : Frame}
    (hc : Site sgn addr c0 m0 h d reg (t :: st) fl lk ((c, f) :: fs) rf Z) (haddr : AddrOk addr) :
    t.source = topNode d.root st ∧ t.label = c ∧ ∃ nds, h.mem (topNode d.root st) = some nds ∧
    Unf h.mem nds.edges (topFrame fs rf).kids ∧
    ((∃ e ∈ reg, (∀ fuel, f.kids.height < fuel → minimizedNode fuel t.target h { d with unchecked := some st } =
          .ok (some e.val)) ∧
        Site sgn addr c0 m0 (withEdge sgn h (topNode d.root st) nds c e.val) { d with unchecked := some st } reg st fl lk
          (setTopS (putEdge sgn c f (topFrame fs rf)) fs) (setTopR (putEdge sgn c f (topFrame fs rf)) fs rf) Z) ∨
     ((∀ fuel, f.kids.height < fuel → minimizedNode fuel t.target h { d with unchecked := some st } = .ok none) ∧
        Site sgn addr c0 m0 (withEdge sgn h (topNode d.root st) nds c t.target) { d with unchecked := some st } reg st fl lk
          (setTopS (putEdge sgn c f (topFrame fs rf)) fs) (setTopR (putEdge sgn c f (topFrame fs rf)) fs rf)
          (fun x => Z x ∨ x = t.target) ∧
        ∃ e : RegEntry, (∀ fuel, f.kids.height < fuel →
            register fuel t.target (withEdge sgn h (topNode d.root st) nds c t.target) { d with unchecked := some st } =
              .ok { d with unchecked := some st, minimized := some (reg ++ [e]) }) ∧
          Site sgn addr c0 m0 (withEdge sgn h (topNode d.root st) nds c t.target)
            { d with unchecked := some st, minimized := some (reg ++ [e]) } (reg ++ [e]) st fl lk
            (setTopS (putEdge sgn c f (topFrame fs rf)) fs) (setTopR (putEdge sgn c f (topFrame fs rf)) fs rf)
            (fun x => Z x ∨ x = t.target) ∧
          ∃ nd, e = ⟨treeHash nd.final f.kids, nd, t.target⟩ ∧ h.mem t.target = some nd ∧
            ∀ e ∈ reg, Unf h.mem e.key.edges f.kids → e.key.final ≠ nd.final)) := by
  have hpop := hc.pop
  have hsrc : t.source = topNode d.root st := by
    have := hc.stack; cases this with | cons _ h _ => exact h
  have hlabel : t.label = c := by
    have := hc.stack; cases this with | cons _ _ _ => rfl
  have htgt : NodeIs sgn h.mem Z t.target f := by
    have := hc.stack; cases this with | cons _ _ h => exact h
  have htgt' := htgt
  have hsF := hc.sorted htgt
  obtain ⟨nd, hm, hfin, hF, hs, hZ⟩ := htgt
  obtain ⟨nds, hms, hfins, hFs, hss, hZs⟩ := hpop.stack.top
  refine ⟨hsrc, hlabel, nds, hms, hFs, ?_⟩
  have hfind := fun fuel (hf : f.kids.height < fuel) => regFind_spec hc.heap.null hF hsF hf reg hc.regFacts
  have hmn : ∀ fuel, f.kids.height < fuel → minimizedNode fuel t.target h { d with unchecked := some st } =
      regFind h.mem fuel (treeHash nd.final f.kids) nd reg := by
    intro fuel hf
    simp only [minimizedNode, deref, hm, hc.minimized, bind, Except.bind, nodeHash_spec hF hf]
  by_cases hex : ∃ e ∈ reg, ∀ fuel, f.kids.height < fuel →
      regFind h.mem fuel (treeHash nd.final f.kids) nd reg = .ok (some e.val)
  · left
    obtain ⟨e, he, hrun⟩ := hex
    refine ⟨e, he, fun fuel hf => by rw [hmn fuel hf, hrun fuel hf], ?_⟩
    obtain ⟨hez, hem, _⟩ := hc.regOk e he
    -- the entry is equal to the node
    have heq : Unf h.mem e.key.edges f.kids ∧ e.key.final = nd.final := by
      rcases hfind (f.kids.height + 1) (by omega) with ⟨e', he', h1, h2, h3⟩ | ⟨h1, _⟩
      · rw [hrun _ (by omega)] at h1
        have hv : e.val = e'.val := by simpa using h1
        have hem' := (hc.regOk e' he').2.1
        rw [← hv, hem] at hem'
        rw [Option.some.inj hem']
        exact ⟨h2, h3⟩
      · rw [hrun _ (by omega)] at h1; simp at h1
    refine hpop.setTop haddr (g := putEdge sgn c f (topFrame fs rf)) hfins ?_ ?_ ?_
    · have := Unf.mapSet (sgn := sgn) (c := c) hem heq.1 hFs
      rw [heq.2, hfin] at this
      exact this
    · exact mapSet_sorted hss
    · intro c' b hb
      rcases mem_mapSet hb with h' | h'
      · cases h'; exact hez
      · exact hZs c' b h'
  · right
    have hno : ∀ e ∈ reg, Unf h.mem e.key.edges f.kids → e.key.final ≠ nd.final := by
      rcases hfind (f.kids.height + 1) (by omega) with ⟨e', he', h1, h2, h3⟩ | ⟨_, h2⟩
      · exfalso
        -- with more fuel some entry is found too
        have hv : ∀ fuel, f.kids.height < fuel → regFind h.mem fuel (treeHash nd.final f.kids) nd reg = .ok (some e'.val) := by
          intro fuel hf
          rw [← h1]
          exact regFind_fuel hc.heap.null hF hsF hf (by omega) reg hc.regFacts
        exact hex ⟨e', he', hv⟩
      · exact h2
    have hrun : ∀ fuel, f.kids.height < fuel → regFind h.mem fuel (treeHash nd.final f.kids) nd reg = .ok none := by
      intro fuel hf
      rcases hfind fuel hf with ⟨e', he', h1, h2, h3⟩ | ⟨h1, _⟩
      · exact absurd h3 (hno e' he' h2)
      · exact h1
    have htst : t.target ∉ stackNodes d.root st := by
      have := hc.nodup
      simp only [stackNodes, List.map_cons, List.nodup_cons, List.mem_cons] at this ⊢
      rintro (h' | h')
      · exact this.1 (.inl h'.symm)
      · exact this.2.1 h'
    have hfr := hpop.freeze htgt' (hc.stackRange _ (by simp [stackNodes])) htst
    have hset := hfr.setTop haddr (nd := { nds with edges := mapSet sgn c t.target nds.edges })
      (g := putEdge sgn c f (topFrame fs rf)) hfins
      (by have := Unf.mapSet (sgn := sgn) (c := c) hm hF hFs
          rw [hfin] at this
          exact this)
      (mapSet_sorted hss)
      (fun c' b hb => by
        rcases mem_mapSet hb with h' | h'
        · cases h'; exact .inr rfl
        · exact .inl (hZs c' b h'))
    simp only at hset
    have hmem' : (withEdge sgn h (topNode d.root st) nds c t.target).mem t.target = some nd := by
      simp only [withEdge, Mem.set]
      rw [if_neg (by intro h'; rw [h'] at htst; exact htst (topNode_mem d.root st))]
      exact hm
    have hmm : ∀ x, Z x → (withEdge sgn h (topNode d.root st) nds c t.target).mem x = h.mem x := by
      intro x hx
      simp only [withEdge, Mem.set]
      rw [if_neg]
      rintro rfl
      exact hpop.notZone _ (topNode_mem d.root st) hx
    have hF' := hF.frame hc.closed hmm hZ
    refine ⟨fun fuel hf => by rw [hmn fuel hf, hrun fuel hf], hset, ⟨treeHash nd.final f.kids, nd, t.target⟩, fun fuel hf => ?_,
      hset.enter (.inr rfl) hmem' hF', nd, rfl, hm, hno⟩
    have hregset := regSet_spec hset.heap.null hF' hsF hf t.target reg (fun e he => by
      obtain ⟨G, hG, sG, _⟩ := hset.regFacts e he
      refine ⟨G, hG, sG, ?_⟩
      rintro ⟨h1, rfl⟩
      have hU : Unf h.mem e.key.edges f.kids := by
        obtain ⟨hz, hem, G', hG', _⟩ := hc.regOk e he
        obtain ⟨nd', z1, z2⟩ := hc.closed _ hz
        rw [hem] at z1; obtain rfl := Option.some.inj z1
        have := (hG'.frame hc.closed hmm z2).unique hG
        rw [← this]; exact hG'
      exact hno e he hU h1.symm)
    simp only [register, deref, hmem', hc.minimized, bind, Except.bind, nodeHash_spec hF' hf]
    have : (withEdge sgn h (topNode d.root st) nds c t.target).mem =
      h.mem.set (topNode d.root st) (some { nds with edges := mapSet sgn c t.target nds.edges }) := rfl
    rw [this, hregset]

end

end Lev
