import Verif.Proofs.Builder

/-!
Running the construction: `minimize`, `add`.
-/

namespace Lev

open Spec

def topNode (root : Nat) : List Trans → Nat
  | [] => root
  | t :: _ => t.target

def topFrame : List (UInt8 × Frame) → Frame → Frame
  | [], rf => rf
  | (_, f) :: _, _ => f

/-- Replacing the topmost frame: the frames above the root … -/
def setTopS (g : Frame) : List (UInt8 × Frame) → List (UInt8 × Frame)
  | [] => []
  | (c, _) :: fs => (c, g) :: fs

/-- … and the root's frame. -/
def setTopR (g : Frame) : List (UInt8 × Frame) → Frame → Frame
  | [], _ => g
  | _ :: _, rf => rf

theorem topFrame_set (g : Frame) (fs : List (UInt8 × Frame)) (rf : Frame) :
    topFrame (setTopS g fs) (setTopR g fs rf) = g := by
  cases fs <;> rfl

theorem setTop_self (fs : List (UInt8 × Frame)) (rf : Frame) :
    setTopS (topFrame fs rf) fs = fs ∧ setTopR (topFrame fs rf) fs rf = rf := by
  cases fs <;> exact ⟨rfl, rfl⟩

/-- The stack of unchecked transitions is a path from the root; each of its nodes is the corresponding frame. -/
inductive StackOk (sgn : Bool) (mem : Mem) (Z : Nat → Prop) (root : Nat) :
    List Trans → List (UInt8 × Frame) → Frame → Prop
  | nil {rf : Frame} : NodeIs sgn mem Z root rf → StackOk sgn mem Z root [] [] rf
  | cons {t : Trans} {st : List Trans} {f : Frame} {fs : List (UInt8 × Frame)} {rf : Frame} :
      StackOk sgn mem Z root st fs rf → t.source = topNode root st → NodeIs sgn mem Z t.target f →
      StackOk sgn mem Z root (t :: st) ((t.label, f) :: fs) rf

/-- The nodes on the stack. -/
def stackNodes (root : Nat) (st : List Trans) : List Nat := root :: st.map (·.target)

theorem topNode_mem (root : Nat) (st : List Trans) : topNode root st ∈ stackNodes root st := by
  cases st <;> simp [topNode, stackNodes]

theorem StackOk.top {sgn : Bool} {mem : Mem} {Z : Nat → Prop} {root : Nat} {st : List Trans}
    {fs : List (UInt8 × Frame)} {rf : Frame} (h : StackOk sgn mem Z root st fs rf) :
    NodeIs sgn mem Z (topNode root st) (topFrame fs rf) := by
  cases h with
  | nil h => exact h
  | cons _ _ h => exact h

theorem StackOk.frame {sgn : Bool} {mem mem' : Mem} {Z Z' : Nat → Prop} {root : Nat} {st : List Trans}
    {fs : List (UInt8 × Frame)} {rf : Frame} (h : StackOk sgn mem Z root st fs rf) (hZ : Closed mem Z)
    (hmm : ∀ x, Z x → mem' x = mem x) (hst : ∀ a ∈ stackNodes root st, mem' a = mem a) (hZZ : ∀ x, Z x → Z' x) :
    StackOk sgn mem' Z' root st fs rf := by
  induction h with
  | nil h => exact .nil (h.frame hZ hmm (hst root (by simp [stackNodes])) hZZ)
  | cons _ hs h ih =>
    refine .cons (ih fun a ha => hst a ?_) hs (h.frame hZ hmm (hst _ (by simp [stackNodes])) hZZ)
    simp only [stackNodes, List.map_cons, List.mem_cons] at ha ⊢
    rcases ha with h | h
    · exact .inl h
    · exact .inr (.inr h)

theorem StackOk.setTop {sgn : Bool} {mem mem' : Mem} {Z : Nat → Prop} {root : Nat} {st : List Trans}
    {fs : List (UInt8 × Frame)} {rf g : Frame} (h : StackOk sgn mem Z root st fs rf) (hZ : Closed mem Z)
    (hmm : ∀ x, Z x → mem' x = mem x) (hst : ∀ a, a ≠ topNode root st → mem' a = mem a)
    (hnd : (stackNodes root st).Nodup) (hg : NodeIs sgn mem' Z (topNode root st) g) :
    StackOk sgn mem' Z root st (setTopS g fs) (setTopR g fs rf) := by
  cases h with
  | nil _ => exact .nil hg
  | @cons t st f fs rf h hs _ =>
    refine .cons (h.frame hZ hmm (fun a ha => hst a ?_) fun _ hx => hx) hs hg
    rintro rfl
    simp only [stackNodes, List.map_cons, List.nodup_cons, List.mem_cons, topNode] at hnd ha
    rcases ha with h | h
    · exact hnd.1 (.inl h.symm)
    · exact hnd.2.1 h

/-- Every edge of a node on the stack has a smaller label than the transition to the next node. -/
def Fits : List (UInt8 × Frame) → Frame → Prop
  | [], _ => True
  | (c, _) :: fs, rf => (∀ e ∈ (topFrame fs rf).kids.toList, e.1.toNat < c.toNat) ∧ Fits fs rf

theorem Fits.setTop {fs : List (UInt8 × Frame)} {rf : Frame} (g : Frame) (h : Fits fs rf) :
    Fits (setTopS g fs) (setTopR g fs rf) := by
  cases fs with
  | nil => trivial
  | cons e fs => exact h

def TrimAll (fs : List (UInt8 × Frame)) (rf : Frame) : Prop := rf.kids.Trim ∧ ∀ e ∈ fs, e.2.kids.Trim

theorem TrimAll.top {fs : List (UInt8 × Frame)} {rf : Frame} (h : TrimAll fs rf) : (topFrame fs rf).kids.Trim := by
  cases fs with
  | nil => exact h.1
  | cons e fs => exact h.2 e (by simp)

theorem TrimAll.setTop {fs : List (UInt8 × Frame)} {rf g : Frame} (h : TrimAll fs rf) (hg : g.kids.Trim) :
    TrimAll (setTopS g fs) (setTopR g fs rf) := by
  cases fs with
  | nil => exact ⟨hg, by simp [setTopS]⟩
  | cons e fs =>
    refine ⟨h.1, fun e' he' => ?_⟩
    rcases List.mem_cons.1 he' with rfl | he'
    · exact hg
    · exact h.2 e' (by simp [he'])

/-- The allocator: no null address, no address twice. -/
def AddrOk (addr : Nat → Nat) : Prop := (∀ k, addr k ≠ 0) ∧ ∀ j k, addr j = addr k → j = k

/-- Memory while a dictionary is built.  `c0` and `m0` are the number of allocated nodes and the contents of
memory before the construction started. -/
structure HeapOk (addr : Nat → Nat) (c0 : Nat) (m0 : Mem) (h : Heap) : Prop where
  null : h.mem 0 = none
  fresh : ∀ j, h.count ≤ j → h.mem (addr j) = none
  base : c0 < h.count
  old : ∀ a, (∀ j, c0 ≤ j → j < h.count → a ≠ addr j) → h.mem a = m0 a
  live : ∀ j, c0 ≤ j → j < h.count → h.mem (addr j) ≠ none

/-- The address of a node allocated since the construction started. -/
def InRange (addr : Nat → Nat) (c0 : Nat) (h : Heap) (a : Nat) : Prop := ∃ j, c0 ≤ j ∧ j < h.count ∧ a = addr j

/-- The state of the construction. -/
structure Core (sgn : Bool) (addr : Nat → Nat) (c0 : Nat) (m0 : Mem) (h : Heap) (d : SDawg) (reg : List RegEntry)
    (st : List Trans) (fl : List Nat) (fs : List (UInt8 × Frame)) (rf : Frame) : Prop where
  heap : HeapOk addr c0 m0 h
  root : d.root = addr c0
  unchecked : d.unchecked = some st
  minimized : d.minimized = some reg
  floating : d.floating = some fl
  float : fl.Nodup ∧ ∀ a, a ∈ fl ↔ ∃ j, c0 < j ∧ j < h.count ∧ a = addr j
  regOk : RegOk sgn h.mem reg
  regRange : ∀ a, InReg reg a → InRange addr c0 h a
  stack : StackOk sgn h.mem (InReg reg) d.root st fs rf
  stackRange : ∀ a ∈ stackNodes d.root st, InRange addr c0 h a
  nodup : (stackNodes d.root st).Nodup
  notReg : ∀ a ∈ stackNodes d.root st, ¬ InReg reg a
  fits : Fits fs rf
  trim : TrimAll fs rf

section
variable {sgn : Bool} {addr : Nat → Nat} {c0 : Nat} {m0 : Mem} {h : Heap} {d : SDawg} {reg : List RegEntry}
  {st : List Trans} {fl : List Nat} {fs : List (UInt8 × Frame)} {rf : Frame}

theorem HeapOk.set (hh : HeapOk addr c0 m0 h) {a : Nat} (ha : InRange addr c0 h a) (haddr : AddrOk addr) (nd : DNode) :
    HeapOk addr c0 m0 { h with mem := h.mem.set a (some nd) } := by
  obtain ⟨j, h1, h2, rfl⟩ := ha
  refine ⟨?_, ?_, hh.base, ?_, ?_⟩
  · simp only [Mem.set]; rw [if_neg (fun h => haddr.1 j h.symm)]; exact hh.null
  · intro k hk
    simp only [Mem.set] at *
    rw [if_neg (fun h => by have := haddr.2 _ _ h; omega)]
    exact hh.fresh k hk
  · intro a ha
    simp only [Mem.set]
    rw [if_neg (ha j h1 h2)]
    exact hh.old a ha
  · intro k hk1 hk2
    simp only [Mem.set]
    split
    · simp
    · exact hh.live k hk1 hk2

theorem Core.setTop (hc : Core sgn addr c0 m0 h d reg st fl fs rf) (haddr : AddrOk addr) {nd : DNode} {g : Frame}
    (h1 : nd.final = g.fin) (h2 : Unf h.mem nd.edges g.kids)
    (h3 : nd.edges.Pairwise (fun e g => charLt sgn e.1 g.1)) (h4 : ∀ c b, (c, b) ∈ nd.edges → InReg reg b)
    (h5 : g.kids.Trim) :
    Core sgn addr c0 m0 { h with mem := h.mem.set (topNode d.root st) (some nd) } d reg st fl (setTopS g fs)
      (setTopR g fs rf) := by
  have htop := topNode_mem d.root st
  have hmm : ∀ x, InReg reg x → (h.mem.set (topNode d.root st) (some nd)) x = h.mem x := by
    intro x hx
    simp only [Mem.set]
    rw [if_neg]
    rintro rfl
    exact hc.notReg _ htop hx
  have hclosed := hc.regOk.closed
  refine { hc with
    heap := hc.heap.set (hc.stackRange _ htop) haddr nd
    regOk := hc.regOk.frame hmm
    stack := hc.stack.setTop hclosed hmm (fun a ha => by simp [Mem.set, ha]) hc.nodup
      ⟨nd, by simp [Mem.set], h1, h2.frame hclosed hmm h4, h3, h4⟩
    fits := hc.fits.setTop g
    trim := hc.trim.setTop h5 }

theorem Core.pop {t : Trans} {f : Frame} {c : UInt8} (hc : Core sgn addr c0 m0 h d reg (t :: st) fl ((c, f) :: fs) rf) :
    Core sgn addr c0 m0 h { d with unchecked := some st } reg st fl fs rf := by
  have hsub : ∀ a, a ∈ stackNodes d.root st → a ∈ stackNodes d.root (t :: st) := by
    intro a ha
    simp only [stackNodes, List.map_cons, List.mem_cons] at ha ⊢
    rcases ha with h | h
    · exact .inl h
    · exact .inr (.inr h)
  have hnd := hc.nodup
  have hs := hc.stack
  cases hs with
  | cons hs _ _ =>
    exact { hc with
      unchecked := rfl
      stack := hs
      stackRange := fun a ha => hc.stackRange a (hsub a ha)
      nodup := by
        simp only [stackNodes, List.map_cons, List.nodup_cons, List.mem_cons] at hnd ⊢
        exact ⟨fun h => hnd.1 (.inr h), hnd.2.2⟩
      notReg := fun a ha => hc.notReg a (hsub a ha)
      fits := hc.fits.2
      trim := ⟨hc.trim.1, fun e he => hc.trim.2 e (by simp [he])⟩ }

theorem inReg_append {reg : List RegEntry} {e : RegEntry} {a : Nat} :
    InReg (reg ++ [e]) a ↔ InReg reg a ∨ a = e.val := by
  simp only [InReg, List.mem_append, List.mem_singleton]
  constructor
  · rintro ⟨x, h | rfl, hx⟩
    · exact .inl ⟨x, h, hx⟩
    · exact .inr hx.symm
  · rintro (⟨x, h, hx⟩ | h)
    · exact ⟨x, .inl h, hx⟩
    · exact ⟨e, .inr rfl, h.symm⟩

theorem Core.register (hc : Core sgn addr c0 m0 h d reg st fl fs rf) {a : Nat} {nd : DNode} {F : Forest}
    (hm : h.mem a = some nd) (hF : Unf h.mem nd.edges F) (hs : nd.edges.Pairwise (fun e g => charLt sgn e.1 g.1))
    (hZ : ∀ c b, (c, b) ∈ nd.edges → InReg reg b) (htrim : F.Trim) (hne : nd.final = true ∨ F ≠ .nil)
    (hr : InRange addr c0 h a) (hst : a ∉ stackNodes d.root st)
    (hno : ∀ e ∈ reg, Unf h.mem e.key.edges F → e.key.final ≠ nd.final) :
    Core sgn addr c0 m0 h { d with minimized := some (reg ++ [⟨treeHash nd.final F, nd, a⟩]) }
      (reg ++ [⟨treeHash nd.final F, nd, a⟩]) st fl fs rf := by
  have hclosed := hc.regOk.closed
  exact { hc with
    minimized := rfl
    regOk := by
      refine ⟨fun e he => ?_, ?_⟩
      · rcases List.mem_append.1 he with he | he
        · obtain ⟨h1, h2, h3, h4⟩ := hc.regOk.node e he
          exact ⟨h1, h2, fun c b hb => inReg_append.2 (.inl (h3 c b hb)), h4⟩
        · simp only [List.mem_singleton] at he
          subst he
          exact ⟨hm, hs, fun c b hb => inReg_append.2 (.inl (hZ c b hb)), F, hF, rfl, htrim, hne⟩
      · rw [List.pairwise_append]
        refine ⟨hc.regOk.distinct, by simp, fun e he e' he' G hG hG' => ?_⟩
        simp only [List.mem_singleton] at he'
        subst he'
        have := hG'.unique hF
        subst this
        exact hno e he hG
    regRange := fun x hx => by
      rcases inReg_append.1 hx with hx | rfl
      · exact hc.regRange x hx
      · exact hr
    stack := hc.stack.frame hclosed (fun _ _ => rfl) (fun _ _ => rfl) fun x hx => inReg_append.2 (.inl hx)
    notReg := fun x hx hreg => by
      rcases inReg_append.1 hreg with hreg | rfl
      · exact hc.notReg x hx hreg
      · exact hst hx }

theorem Core.regFacts (hc : Core sgn addr c0 m0 h d reg st fl fs rf) :
    ∀ e ∈ reg, ∃ G, Unf h.mem e.key.edges G ∧ G.Sorted sgn ∧ e.hash = treeHash e.key.final G := by
  intro e he
  obtain ⟨_, _, _, G, h4, h5, _⟩ := hc.regOk.node e he
  have := (hc.regOk.nodeIs he h4).sorted hc.regOk
  exact ⟨G, h4, this, h5⟩

/-- `add_edge` on the topmost node with a new label. -/
theorem addEdge_spec (hc : Core sgn addr c0 m0 h d reg st fl fs rf) {c : UInt8} {a : Nat} {nd : DNode}
    (hnd : h.mem (topNode d.root st) = some nd) (hlab : ∀ e ∈ (topFrame fs rf).kids.toList, e.1.toNat < c.toNat) :
    addEdge sgn (topNode d.root st) c a h =
      .ok { h with mem := h.mem.set (topNode d.root st) (some { nd with edges := mapSet sgn c a nd.edges }) } := by
  obtain ⟨nd', hm', h1, h2, _⟩ := hc.stack.top
  rw [hnd] at hm'; obtain rfl := Option.some.inj hm'
  have htr : nodeTransition nd c = 0 := by
    rcases h2.find nd.final c with ⟨_, ndb, k, _, _, _, hmem⟩ | ⟨h, _⟩
    · exact absurd (hlab _ hmem) (Nat.lt_irrefl _)
    · exact h
  simp only [addEdge, deref, hnd, htr, deleteNode, bind, Except.bind, if_true]

/-- What a dictionary under construction has, it keeps: the entries of the register and the edges of the root. -/
structure Grows (reg : List RegEntry) (h : Heap) (d : SDawg) (reg' : List RegEntry) (h' : Heap) (d' : SDawg) : Prop where
  root : d'.root = d.root
  reg : ∀ e ∈ reg, e ∈ reg'
  edges : ∀ nd, h.mem d.root = some nd → ∃ nd', h'.mem d.root = some nd' ∧ ∀ e ∈ nd.edges, e ∈ nd'.edges

theorem Grows.refl {reg : List RegEntry} {h : Heap} {d : SDawg} : Grows reg h d reg h d :=
  ⟨rfl, fun _ h => h, fun nd h => ⟨nd, h, fun _ h => h⟩⟩

theorem Grows.trans {reg reg1 reg2 : List RegEntry} {h h1 h2 : Heap} {d d1 d2 : SDawg} (a : Grows reg h d reg1 h1 d1)
    (b : Grows reg1 h1 d1 reg2 h2 d2) : Grows reg h d reg2 h2 d2 := by
  refine ⟨b.root.trans a.root, fun e he => b.reg e (a.reg e he), fun nd hnd => ?_⟩
  obtain ⟨nd1, e1, f1⟩ := a.edges nd hnd
  rw [← a.root] at e1
  obtain ⟨nd2, e2, f2⟩ := b.edges nd1 e1
  rw [a.root] at e2
  exact ⟨nd2, e2, fun e he => f2 e (f1 e he)⟩

/-- Writing to a node: the edges stay and others are added. -/
theorem Grows.set {reg reg' : List RegEntry} {h : Heap} {d d' : SDawg} {a : Nat} {nd nd' : DNode} (hm : h.mem a = some nd)
    (hs : ∀ e ∈ nd.edges, e ∈ nd'.edges) (hr : ∀ e ∈ reg, e ∈ reg') (hd : d'.root = d.root) :
    Grows reg h d reg' { h with mem := h.mem.set a (some nd') } d' := by
  refine ⟨hd, hr, fun n hn => ?_⟩
  by_cases ha : d.root = a
  · subst ha
    rw [hm] at hn
    cases hn
    exact ⟨nd', by simp [Mem.set], hs⟩
  · exact ⟨n, by simp [Mem.set, ha, hn], fun _ h => h⟩

theorem Unf.hasLabel {mem : Mem} {es : List (UInt8 × Nat)} {F : Forest} (h : Unf mem es F) :
    ∀ e ∈ es, ∃ x ∈ F.toList, x.1 = e.1 := by
  induction h with
  | nil => simp
  | @cons l a nd es kids rest _ _ _ _ ih =>
    intro e he
    simp only [Forest.toList, List.mem_cons]
    rcases List.mem_cons.1 he with rfl | he
    · exact ⟨_, .inl rfl, rfl⟩
    · obtain ⟨x, h1, h2⟩ := ih e he
      exact ⟨x, .inr h1, h2⟩

theorem mapSet_keeps {sgn : Bool} {c : UInt8} {a : Nat} {es : List (UInt8 × Nat)} (hc : ∀ e ∈ es, e.1 ≠ c) :
    ∀ e ∈ es, e ∈ mapSet sgn c a es := by
  induction es with
  | nil => simp
  | cons x es ih =>
    obtain ⟨l, t⟩ := x
    have hl : c ≠ l := fun h => hc (l, t) (by simp) h.symm
    intro e he
    simp only [mapSet, hl, if_false]
    split
    · exact .tail _ he
    · rcases List.mem_cons.1 he with rfl | he
      · exact .head _
      · exact .tail _ (ih (fun e he => hc e (.tail _ he)) e he)

/-- One step of `minimize` moves the topmost frame into the one below it. -/
theorem minimizeStep_by {t : Trans} {c : UInt8} {f : Frame}
    (hc : Core sgn addr c0 m0 h d reg (t :: st) fl ((c, f) :: fs) rf) (haddr : AddrOk addr)
    (hne : f.fin = true ∨ f.kids ≠ .nil) :
    ∃ h' d' reg', (∀ fuel, f.kids.height + 1 ≤ fuel → minimizeStep sgn fuel h d = .ok (h', d')) ∧
      Core sgn addr c0 m0 h' d' reg' st fl
        (setTopS ⟨(topFrame fs rf).fin, insF sgn c f.fin f.kids (topFrame fs rf).kids⟩ fs)
        (setTopR ⟨(topFrame fs rf).fin, insF sgn c f.fin f.kids (topFrame fs rf).kids⟩ fs rf) ∧
      d'.prev = d.prev ∧ d'.size = d.size ∧ h'.count = h.count ∧ Grows reg h d reg' h' d' := by
  have hpop := hc.pop
  have hsrc : t.source = topNode d.root st := by
    have := hc.stack; cases this with | cons _ h _ => exact h
  have hlabel : t.label = c := by
    have := hc.stack; cases this with | cons _ _ _ => rfl
  have htgt : NodeIs sgn h.mem (InReg reg) t.target f := by
    have := hc.stack; cases this with | cons _ _ h => exact h
  have hsF := htgt.sorted hc.regOk
  obtain ⟨nd, hm, hfin, hF, hs, hZ⟩ := htgt
  obtain ⟨nds, hms, hfins, hFs, hss, hZs⟩ := hpop.stack.top
  have hlab := hc.fits.1
  have hfind := fun fuel (hf : f.kids.height < fuel) => regFind_spec hc.heap.null hF hsF hf reg hc.regFacts
  have hmn : ∀ fuel, f.kids.height < fuel → minimizedNode fuel t.target h { d with unchecked := some st } =
      regFind h.mem fuel (treeHash nd.final f.kids) nd reg := by
    intro fuel hf
    simp only [minimizedNode, deref, hm, hc.minimized, bind, Except.bind, nodeHash_spec hF hf]
  have hlabne : ∀ e ∈ (topFrame fs rf).kids.toList, e.1 ≠ c := fun e he h' => by
    have := hlab e he; rw [h'] at this; omega
  have htrim : ∀ k : Forest, k.Trim → (f.fin = true ∨ k ≠ .nil) → (insF sgn c f.fin k (topFrame fs rf).kids).Trim := by
    intro k hk hk'
    rw [Forest.trim_iff]
    intro e he
    rcases (Forest.mem_ins hlabne e).1 he with rfl | he
    · exact ⟨hk', hk⟩
    · exact Forest.trim_iff.1 hpop.trim.top e he
  have hndlab : ∀ e ∈ nds.edges, e.1 ≠ c := fun e he h' => by
    obtain ⟨x, h1, h2⟩ := hFs.hasLabel e he
    exact hlabne x h1 (h2.trans h')
  have hftrim : f.kids.Trim := hc.trim.2 (c, f) (by simp)
  by_cases hex : ∃ e ∈ reg, Unf h.mem e.key.edges f.kids ∧ e.key.final = nd.final
  · -- the register has an equal node
    have hfound : ∃ e ∈ reg, Unf h.mem e.key.edges f.kids ∧ e.key.final = nd.final ∧
        ∀ fuel, f.kids.height < fuel → regFind h.mem fuel (treeHash nd.final f.kids) nd reg = .ok (some e.val) := by
      obtain ⟨e, he, heU, hef⟩ := hex
      refine ⟨e, he, heU, hef, fun fuel hf => ?_⟩
      rcases hfind fuel hf with ⟨e', he', h1, h2, h3⟩ | ⟨_, h2⟩
      · have : e' = e := by
          have hd := hc.regOk.distinct
          clear hfind hmn
          generalize reg = rg at he he' hd
          induction rg with
          | nil => simp at he
          | cons x rg ih =>
            have hd' := List.pairwise_cons.1 hd
            rcases List.mem_cons.1 he with rfl | hx <;> rcases List.mem_cons.1 he' with rfl | hx'
            · rfl
            · exact absurd (hef.trans h3.symm) (hd'.1 _ hx' _ heU h2)
            · exact absurd (h3.trans hef.symm) (hd'.1 _ hx _ h2 heU)
            · exact ih hx hx' hd'.2
        rw [h1, this]
      · exact absurd hef (h2 e he heU)
    obtain ⟨e, he, heU, hef, hrun⟩ := hfound
    have hereg : InReg reg e.val := ⟨e, he, rfl⟩
    have hem := (hc.regOk.node e he).1
    have hadd := addEdge_spec (a := e.val) (c := c) hpop hms hlab
    refine ⟨{ h with mem := h.mem.set (topNode d.root st) (some { nds with edges := mapSet sgn c e.val nds.edges }) },
      { d with unchecked := some st }, reg, fun fuel hf => ?_, ?_, rfl, rfl, rfl,
      .set hms (mapSet_keeps hndlab) (fun _ h => h) rfl⟩
    · simp only [minimizeStep, hc.unchecked, bind, Except.bind, hmn fuel (by omega), hrun fuel (by omega), hsrc, hlabel]
      dsimp only at hadd
      rw [hadd]
    · refine hpop.setTop haddr (g := ⟨(topFrame fs rf).fin, insF sgn c f.fin f.kids (topFrame fs rf).kids⟩) hfins ?_ ?_ ?_ ?_
      · have := Unf.mapSet (sgn := sgn) (c := c) hem heU hFs
        rw [hef, hfin] at this
        exact this
      · exact mapSet_sorted hss
      · intro c' b hb
        rcases mem_mapSet hb with h' | h'
        · cases h'; exact hereg
        · exact hZs c' b h'
      · exact htrim _ hftrim hne
  · -- a new node for the register
    have hno : ∀ e ∈ reg, Unf h.mem e.key.edges f.kids → e.key.final ≠ nd.final := fun e he hU hf =>
      hex ⟨e, he, hU, hf⟩
    have hrun : ∀ fuel, f.kids.height < fuel → regFind h.mem fuel (treeHash nd.final f.kids) nd reg = .ok none := by
      intro fuel hf
      rcases hfind fuel hf with ⟨e', he', h1, h2, h3⟩ | ⟨h1, _⟩
      · exact absurd h3 (hno e' he' h2)
      · exact h1
    have htst : t.target ∉ stackNodes d.root st := by
      have := hc.nodup
      simp only [stackNodes, List.map_cons, List.nodup_cons, List.mem_cons] at this ⊢
      rintro (h' | h')
      · exact this.1 (.inl h'.symm)
      · exact this.2.1 h'
    have hreg := hpop.register hm hF hs hZ hftrim (by rw [hfin]; exact hne)
      (hc.stackRange _ (by simp [stackNodes])) htst hno
    have hset := hreg.setTop haddr (nd := { nds with edges := mapSet sgn c t.target nds.edges })
      (g := ⟨(topFrame fs rf).fin, insF sgn c f.fin f.kids (topFrame fs rf).kids⟩) hfins
      (by have := Unf.mapSet (sgn := sgn) (c := c) hm hF hFs
          rw [hfin] at this
          exact this)
      (mapSet_sorted hss)
      (fun c' b hb => by
        rcases mem_mapSet hb with h' | h'
        · cases h'; exact inReg_append.2 (.inr rfl)
        · exact inReg_append.2 (.inl (hZs c' b h')))
      (htrim _ hftrim hne)
    have hadd := addEdge_spec (a := t.target) (c := c) hpop hms hlab
    simp only at hset
    refine ⟨_, _, _, fun fuel hf => ?_, hset, rfl, rfl, rfl,
      .set hms (mapSet_keeps hndlab) (fun _ h => by simp [h]) rfl⟩
    -- the register after the edge was added
    have hmem' : (h.mem.set (topNode d.root st) (some { nds with edges := mapSet sgn c t.target nds.edges })) t.target =
        some nd := by
      simp only [Mem.set]
      rw [if_neg (by intro h'; rw [h'] at htst; exact htst (topNode_mem d.root st))]
      exact hm
    have hmm : ∀ x, InReg reg x →
        (h.mem.set (topNode d.root st) (some { nds with edges := mapSet sgn c t.target nds.edges })) x = h.mem x := by
      intro x hx
      simp only [Mem.set]
      rw [if_neg]
      rintro rfl
      exact hpop.notReg _ (topNode_mem d.root st) hx
    have hF' := hF.frame hc.regOk.closed hmm hZ
    have hregset := regSet_spec hset.heap.null hF' hsF (fuel := fuel) (by omega) t.target reg (fun e he => by
      obtain ⟨G, hG, sG, _⟩ := hset.regFacts e (by simp [he])
      refine ⟨G, hG, sG, ?_⟩
      rintro ⟨h1, rfl⟩
      have hU : Unf h.mem e.key.edges f.kids := by
        obtain ⟨_, _, hZe, G', hG', _⟩ := hc.regOk.node e he
        have := (hG'.frame hc.regOk.closed hmm hZe).unique hG
        rw [← this]; exact hG'
      exact hno e he hU h1.symm)
    simp only [minimizeStep, hc.unchecked, bind, Except.bind, hmn fuel (by omega), hrun fuel (by omega), hsrc, hlabel]
    dsimp only at hadd
    rw [hadd]
    simp only [Lev.register, deref, hmem', hc.minimized, bind, Except.bind, nodeHash_spec hF' (by omega : f.kids.height < fuel)]
    rw [hregset]

theorem minimizeStep_spec {t : Trans} {c : UInt8} {f : Frame}
    (hc : Core sgn addr c0 m0 h d reg (t :: st) fl ((c, f) :: fs) rf) (haddr : AddrOk addr)
    (hne : f.fin = true ∨ f.kids ≠ .nil) :
    ∃ h' d' reg', Ends (fun fuel => minimizeStep sgn fuel h d) (h', d') ∧
      Core sgn addr c0 m0 h' d' reg' st fl
        (setTopS ⟨(topFrame fs rf).fin, insF sgn c f.fin f.kids (topFrame fs rf).kids⟩ fs)
        (setTopR ⟨(topFrame fs rf).fin, insF sgn c f.fin f.kids (topFrame fs rf).kids⟩ fs rf) ∧
      d'.prev = d.prev ∧ d'.size = d.size ∧ h'.count = h.count := by
  obtain ⟨h', d', reg', hrun, g1, g2, g3, g4, _⟩ := minimizeStep_by hc haddr hne
  exact ⟨h', d', reg', ⟨_, hrun⟩, g1, g2, g3, g4⟩

end

end Lev
