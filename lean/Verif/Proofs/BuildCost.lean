import Verif.Spec.Cost
import Verif.Proofs.EqCost
import Verif.Proofs.BuilderEnd
import Verif.Proofs.SerialGraph

/-!
What the construction of a dictionary spends on hashing and comparing nodes.
-/

namespace Lev

open Spec

/-! ### Clashes -/

theorem clashes_snoc (l : List UInt64) (x : UInt64) : clashes (l ++ [x]) = clashes l + l.count x := by
  induction l with
  | nil => simp [clashes]
  | cons y l ih =>
    simp only [List.cons_append, clashes, ih, List.count_append, List.count_cons, List.count_nil]
    by_cases h : y = x
    · subst h; simp; omega
    · have h' : ¬ x = y := fun e => h e.symm
      simp [h, h']; omega

/-! ### The register -/

section
variable {sgn : Bool} {mem : Mem} {nd : DNode} {F : Forest}

theorem regFindN_spec (h0 : mem 0 = none) (hF : Unf mem nd.edges F) (sF : F.Sorted sgn) (hash : UInt64) (reg : List RegEntry)
    (hreg : ∀ e ∈ reg, ∃ G, Unf mem e.key.edges G ∧ G.Sorted sgn) :
    ∃ o n, (∀ fuel, F.height < fuel → regFindN mem fuel hash nd reg = .ok (o, n)) ∧ n ≤ reg.length * (1 + F.size) ∧
      (o = none → (reg.map (·.hash)).count hash ≤ n) := by
  induction reg with
  | nil => exact ⟨none, 0, fun _ _ => rfl, by simp, by simp⟩
  | cons e reg ih =>
    obtain ⟨G, hG, sG⟩ := hreg e (by simp)
    obtain ⟨o, n, h1, h2, h3⟩ := ih fun e he => hreg e (by simp [he])
    obtain ⟨m, g1, g2, g3, _⟩ := nodeEqN_spec h0 hF hG sF sG
    have hlen : (e :: reg).length * (1 + F.size) = reg.length * (1 + F.size) + (1 + F.size) := by
      rw [List.length_cons, Nat.succ_mul]
    by_cases hh : e.hash = hash
    · by_cases hk : nd.final = e.key.final ∧ F = G
      · refine ⟨some e.val, m, fun fuel hf => ?_, by omega, by simp⟩
        rw [regFindN, if_pos hh, g1 fuel hf]
        simp [bind, Except.bind, hk]
      · refine ⟨o, m + n, fun fuel hf => ?_, by omega, fun ho => ?_⟩
        · rw [regFindN, if_pos hh, g1 fuel hf]
          simp [bind, Except.bind, hk, h1 fuel hf]
        · have := h3 ho
          simp [List.count_cons, hh]; omega
    · refine ⟨o, n, fun fuel hf => ?_, by omega, fun ho => ?_⟩
      · rw [regFindN, if_neg hh, h1 fuel hf]
      · have := h3 ho
        simp [List.count_cons, hh]; omega

theorem regSetN_spec (h0 : mem 0 = none) (hF : Unf mem nd.edges F) (sF : F.Sorted sgn) (hash : UInt64) (a : Nat)
    (reg : List RegEntry)
    (hreg : ∀ e ∈ reg, ∃ G, Unf mem e.key.edges G ∧ G.Sorted sgn ∧ ¬ (nd.final = e.key.final ∧ F = G)) :
    ∃ n, (∀ fuel, F.height < fuel → regSetN mem fuel hash nd a reg = .ok (reg ++ [⟨hash, nd, a⟩], n)) ∧
      n ≤ reg.length * (1 + F.size) ∧ (reg.map (·.hash)).count hash ≤ n := by
  induction reg with
  | nil => exact ⟨0, fun _ _ => rfl, by simp, by simp⟩
  | cons e reg ih =>
    obtain ⟨G, hG, sG, hk⟩ := hreg e (by simp)
    obtain ⟨n, h1, h2, h3⟩ := ih fun e he => hreg e (by simp [he])
    obtain ⟨m, g1, g2, g3, _⟩ := nodeEqN_spec h0 hF hG sF sG
    have hlen : (e :: reg).length * (1 + F.size) = reg.length * (1 + F.size) + (1 + F.size) := by
      rw [List.length_cons, Nat.succ_mul]
    by_cases hh : e.hash = hash
    · refine ⟨m + n, fun fuel hf => ?_, by omega, ?_⟩
      · rw [regSetN, if_pos hh, g1 fuel hf]
        simp [bind, Except.bind, hk, h1 fuel hf]
      · simp [List.count_cons, hh]; omega
    · refine ⟨n, fun fuel hf => ?_, by omega, ?_⟩
      · rw [regSetN, if_neg hh, h1 fuel hf]
        simp [bind, Except.bind]
      · simp [List.count_cons, hh]; omega

end

/-! ### Edges into the register -/

/-- Nodes with the same tree and with edges into the register have the same edges. -/
theorem RegOk.edges_eq {sgn : Bool} {mem : Mem} {reg : List RegEntry} (h : RegOk sgn mem reg) {es es' : List (UInt8 × Nat)}
    {F : Forest} (h1 : Unf mem es F) (h2 : Unf mem es' F) (z1 : ∀ c b, (c, b) ∈ es → InReg reg b)
    (z2 : ∀ c b, (c, b) ∈ es' → InReg reg b) : es = es' := by
  induction h1 generalizing es' with
  | nil => cases h2; rfl
  | @cons l a nd es kids rest hm g1 g2 _ ih =>
    generalize hR : Forest.cons l nd.final kids rest = R at h2
    cases h2 with
    | nil => cases hR
    | @cons l' a' nd' es' kids' rest' hm' g1' g2' =>
      obtain ⟨rfl, hf, rfl, rfl⟩ : l = l' ∧ nd.final = nd'.final ∧ kids = kids' ∧ rest = rest' := by
        injection hR with a1 a2 a3 a4
        exact ⟨a1, a2, a3, a4⟩
      rw [h.eq_of_tree (z1 l a (by simp)) (z2 l a' (by simp)) hm hm' g1 g1' hf,
        ih g2' (fun c b hb => z1 c b (by simp [hb])) (fun c b hb => z2 c b (by simp [hb]))]

/-! ### The state is determined by memory -/

theorem NodeIs.unique {sgn : Bool} {mem : Mem} {Z Z' : Nat → Prop} {a : Nat} {f g : Frame} (hf : NodeIs sgn mem Z a f)
    (hg : NodeIs sgn mem Z' a g) : f = g := by
  obtain ⟨nd, h1, h2, h3, _⟩ := hf
  obtain ⟨nd', g1, g2, g3, _⟩ := hg
  rw [h1] at g1; obtain rfl := Option.some.inj g1
  cases f; cases g
  simp only at h2 h3 g2 g3
  rw [h3.unique g3, ← h2, ← g2]

theorem StackOk.unique {sgn : Bool} {mem : Mem} {Z Z' : Nat → Prop} {root : Nat} {st : List Trans}
    {fs fs' : List (UInt8 × Frame)} {rf rf' : Frame} (h : StackOk sgn mem Z root st fs rf)
    (h' : StackOk sgn mem Z' root st fs' rf') : fs = fs' ∧ rf = rf' := by
  induction h generalizing fs' with
  | nil hn =>
    cases h' with
    | nil hn' => exact ⟨rfl, hn.unique hn'⟩
  | cons _ _ hn ih =>
    cases h' with
    | cons h2 _ hn' =>
      obtain ⟨rfl, rfl⟩ := ih h2
      rw [hn.unique hn']
      exact ⟨rfl, rfl⟩

theorem Core.unique {sgn : Bool} {addr : Nat → Nat} {c0 : Nat} {m0 : Mem} {h : Heap} {d : SDawg} {reg reg' : List RegEntry}
    {st st' : List Trans} {fl fl' : List Nat} {fs fs' : List (UInt8 × Frame)} {rf rf' : Frame}
    (hc : Core sgn addr c0 m0 h d reg st fl fs rf) (hc' : Core sgn addr c0 m0 h d reg' st' fl' fs' rf') :
    reg = reg' ∧ st = st' ∧ fl = fl' ∧ fs = fs' ∧ rf = rf' := by
  have h1 := hc.unchecked.symm.trans hc'.unchecked
  have h2 := hc.minimized.symm.trans hc'.minimized
  have h3 := hc.floating.symm.trans hc'.floating
  simp only [Option.some.injEq] at h1 h2 h3
  subst h1; subst h2; subst h3
  obtain ⟨h4, h5⟩ := hc.stack.unique hc'.stack
  exact ⟨rfl, rfl, rfl, h4, h5⟩

/-! ### The potential -/

/-- The number of nodes of the trees below the nodes of a tree, together. -/
def Forest.dsum : Forest → Nat
  | .nil => 0
  | .cons _ _ k r => 1 + k.size + k.dsum + r.dsum

theorem Forest.dsum_paths (F : Forest) : (F.paths.map List.length).sum = F.dsum := by
  have h : ∀ (l : UInt8) (ps : List Str), ((ps.map (l :: ·)).map List.length).sum = ps.length + (ps.map List.length).sum := by
    intro l ps
    induction ps with
    | nil => rfl
    | cons p ps ih => simp only [List.map_cons, List.sum_cons, List.length_cons, ih]; omega
  induction F with
  | nil => rfl
  | cons l f k r ih1 ih2 =>
    rw [Forest.paths, List.map_cons, List.sum_cons, List.map_append, List.sum_append, h, ih1, ih2, Forest.paths_length,
      Forest.dsum]
    simp; omega

theorem Forest.ins_size {sgn : Bool} {c : UInt8} {b : Bool} {k F : Forest} (hc : ∀ e ∈ F.toList, e.1 ≠ c) :
    (insF sgn c b k F).size = F.size + 1 + k.size := by
  induction F with
  | nil => simp [insF, Forest.size]
  | cons l f kids rest _ ih =>
    have hcl : c ≠ l := fun h => hc (l, f, kids) (by simp [Forest.toList]) h.symm
    have ih := ih fun e he => hc e (by simp [Forest.toList, he])
    rw [insF, if_neg hcl]
    split
    · simp only [Forest.size]; omega
    · simp only [Forest.size, ih]; omega

theorem Forest.ins_dsum {sgn : Bool} {c : UInt8} {b : Bool} {k F : Forest} (hc : ∀ e ∈ F.toList, e.1 ≠ c) :
    (insF sgn c b k F).dsum = F.dsum + (1 + k.size) + k.dsum := by
  induction F with
  | nil => simp [insF, Forest.dsum]
  | cons l f kids rest _ ih =>
    have hcl : c ≠ l := fun h => hc (l, f, kids) (by simp [Forest.toList]) h.symm
    have ih := ih fun e he => hc e (by simp [Forest.toList, he])
    rw [insF, if_neg hcl]
    split
    · simp only [Forest.dsum]; omega
    · simp only [Forest.dsum, ih]; omega

/-- The sum over the frames. -/
def over (φ : Forest → Nat) (fs : List (UInt8 × Frame)) (rf : Frame) : Nat := (fs.map fun e => φ e.2.kids).sum + φ rf.kids

theorem over_setTop (φ : Forest → Nat) (g : Frame) (fs : List (UInt8 × Frame)) (rf : Frame) :
    over φ (setTopS g fs) (setTopR g fs rf) + φ (topFrame fs rf).kids = over φ fs rf + φ g.kids := by
  cases fs with
  | nil => simp [over, setTopS, setTopR, topFrame]; omega
  | cons e fs => simp [over, setTopS, setTopR, topFrame]; omega

theorem over_cons (φ : Forest → Nat) (e : UInt8 × Frame) (fs : List (UInt8 × Frame)) (rf : Frame) :
    over φ (e :: fs) rf = φ e.2.kids + over φ fs rf := by
  simp [over]; omega

/-- Every registered node can be reached from a node of the stack. -/
def Held (mem : Mem) (root : Nat) (st : List Trans) (reg : List RegEntry) : Prop :=
  ∀ a, InReg reg a → ∃ s nd c b, s ∈ stackNodes root st ∧ mem s = some nd ∧ (c, b) ∈ nd.edges ∧ Reaches mem b a

/-- What has been spent so far.  `sz` says for each address how many strings can be read from there. -/
structure Meter (h : Heap) (d : SDawg) (reg : List RegEntry) (st : List Trans) (fs : List (UInt8 × Frame)) (rf : Frame)
    (w : Work) : Prop where
  hashes : ∀ sz : Nat → Nat, (∀ e ∈ reg, ∀ F, Unf h.mem e.key.edges F → sz e.val = 1 + F.size) →
    w.hashes = over Forest.dsum fs rf + (reg.map fun e => sz e.val).sum
  upper : w.compares ≤ 2 * reg.length * over Forest.dsum fs rf
  lower : 2 * clashes (reg.map (·.hash)) ≤ w.compares
  len : reg.length ≤ over Forest.size fs rf
  held : Held h.mem d.root st reg

theorem Held.frame {mem mem' : Mem} {root : Nat} {st st' : List Trans} {reg : List RegEntry} {sgn : Bool}
    (hr : RegOk sgn mem reg) (h : Held mem root st reg) (hmm : ∀ x, InReg reg x → mem' x = mem x)
    (hst : ∀ s ∈ stackNodes root st, ∀ nd, mem s = some nd → ∀ c b, (c, b) ∈ nd.edges → InReg reg b ∧
      ∃ s' nd' c' b', s' ∈ stackNodes root st' ∧ mem' s' = some nd' ∧ (c', b') ∈ nd'.edges ∧ Reaches mem' b' b) :
    Held mem' root st' reg := by
  intro a ha
  obtain ⟨s, nd, c, b, h1, h2, h3, h4⟩ := h a ha
  obtain ⟨h5, s', nd', c', b', h6, h7, h8, h9⟩ := hst s h1 nd h2 c b h3
  exact ⟨s', nd', c', b', h6, h7, h8, h9.trans (reaches_frame hr.closed hmm h5 h4)⟩

theorem mem_mapSet_old {sgn : Bool} {c : UInt8} {a : Nat} {es : List (UInt8 × Nat)} {e : UInt8 × Nat} (h : e ∈ es)
    (hne : e.1 ≠ c) : e ∈ mapSet sgn c a es := by
  induction es with
  | nil => simp at h
  | cons x es ih =>
    obtain ⟨l, t⟩ := x
    simp only [mapSet]
    split
    · next hcl =>
      rcases List.mem_cons.1 h with rfl | h
      · exact absurd hcl.symm hne
      · simp [h]
    · split
      · simp only [List.mem_cons] at h ⊢; exact .inr h
      · rcases List.mem_cons.1 h with rfl | h
        · simp
        · simp [ih h]

theorem mem_mapSet_new {sgn : Bool} {c : UInt8} {a : Nat} {es : List (UInt8 × Nat)} : ∃ c', (c', a) ∈ mapSet sgn c a es := by
  induction es with
  | nil => exact ⟨c, by simp [mapSet]⟩
  | cons x es ih =>
    obtain ⟨l, t⟩ := x
    simp only [mapSet]
    split
    · exact ⟨l, by simp⟩
    · split
      · exact ⟨c, by simp⟩
      · obtain ⟨c', h⟩ := ih
        exact ⟨c', by simp [h]⟩

theorem Unf.label {mem : Mem} {es : List (UInt8 × Nat)} {F : Forest} (h : Unf mem es F) {c : UInt8} {b : Nat}
    (hb : (c, b) ∈ es) : ∃ f k, (c, f, k) ∈ F.toList := by
  induction h with
  | nil => simp at hb
  | @cons l a nd es kids rest _ _ _ _ ih =>
    rcases List.mem_cons.1 hb with h | h
    · cases h; exact ⟨nd.final, kids, by simp [Forest.toList]⟩
    · obtain ⟨f, k, h⟩ := ih h
      exact ⟨f, k, by simp [Forest.toList, h]⟩

theorem StackOk.edges_in {sgn : Bool} {mem : Mem} {Z : Nat → Prop} {root : Nat} {st : List Trans}
    {fs : List (UInt8 × Frame)} {rf : Frame} (h : StackOk sgn mem Z root st fs rf) {s : Nat} (hs : s ∈ stackNodes root st)
    {nd : DNode} (hm : mem s = some nd) {c : UInt8} {b : Nat} (hb : (c, b) ∈ nd.edges) : Z b := by
  have hn : ∀ {a f}, NodeIs sgn mem Z a f → s = a → Z b := by
    rintro a f ⟨nd', h1, _, _, _, h5⟩ rfl
    rw [hm] at h1; obtain rfl := Option.some.inj h1
    exact h5 c b hb
  induction h with
  | nil h => exact hn h (by simpa [stackNodes] using hs)
  | @cons t st _ _ _ _ _ h ih =>
    simp only [stackNodes, List.map_cons, List.mem_cons] at hs
    rcases hs with hs | hs | hs
    · exact ih (by simp [stackNodes, hs])
    · exact hn h hs
    · exact ih (by simp only [stackNodes, List.mem_cons]; exact .inr hs)

section
variable {sgn : Bool} {addr : Nat → Nat} {c0 : Nat} {m0 : Mem}

/-- Trees of registered nodes stay. -/
theorem Core.tree_stays {h h' : Heap} {d d' : SDawg} {reg reg' : List RegEntry} {st st' : List Trans} {fl fl' : List Nat}
    {fs fs' : List (UInt8 × Frame)} {rf rf' : Frame} (hc : Core sgn addr c0 m0 h d reg st fl fs rf)
    (hc' : Core sgn addr c0 m0 h' d' reg' st' fl' fs' rf') (hsub : ∀ e ∈ reg, e ∈ reg') {e : RegEntry} (he : e ∈ reg)
    {F : Forest} (hF : Unf h.mem e.key.edges F) : Unf h'.mem e.key.edges F := by
  refine hF.frame hc.regOk.closed ?_ (hc.regOk.node e he).2.2.1
  rintro x ⟨e', he', rfl⟩
  rw [(hc.regOk.node e' he').1, (hc'.regOk.node e' (hsub e' he')).1]

/-- One step of `minimize`. -/
theorem minimizeStepN_spec {h : Heap} {d : SDawg} {reg : List RegEntry} {st : List Trans} {fl : List Nat}
    {fs : List (UInt8 × Frame)} {rf : Frame} {t : Trans} {c : UInt8} {f : Frame} {w0 : Work}
    (hc : Core sgn addr c0 m0 h d reg (t :: st) fl ((c, f) :: fs) rf) (haddr : AddrOk addr)
    (hne : f.fin = true ∨ f.kids ≠ .nil) (hm0 : Meter h d reg (t :: st) ((c, f) :: fs) rf w0) :
    ∃ h' d' reg' w, Ends (fun fuel => minimizeStepN sgn fuel h d) ((h', d'), w) ∧
      Core sgn addr c0 m0 h' d' reg' st fl
        (setTopS ⟨(topFrame fs rf).fin, insF sgn c f.fin f.kids (topFrame fs rf).kids⟩ fs)
        (setTopR ⟨(topFrame fs rf).fin, insF sgn c f.fin f.kids (topFrame fs rf).kids⟩ fs rf) ∧
      Meter h' d' reg' st
        (setTopS ⟨(topFrame fs rf).fin, insF sgn c f.fin f.kids (topFrame fs rf).kids⟩ fs)
        (setTopR ⟨(topFrame fs rf).fin, insF sgn c f.fin f.kids (topFrame fs rf).kids⟩ fs rf) (w0.add w) := by
  have hpop := hc.pop
  have hsrc : t.source = topNode d.root st := by
    have := hc.stack; cases this with | cons _ h _ => exact h
  have hlabel : t.label = c := by
    have := hc.stack; cases this with | cons _ _ _ => rfl
  have htgt : NodeIs sgn h.mem (InReg reg) t.target f := by
    have := hc.stack; cases this with | cons _ _ h => exact h
  have hsF := htgt.sorted hc.regOk
  obtain ⟨nd, hm, hfin, hF, hs, hZ⟩ := htgt
  obtain ⟨nds, hms, hfins, hFs, hss, hZs⟩ := hpop.stack.top
  have hlab := hc.fits.1
  have hlabne : ∀ e ∈ (topFrame fs rf).kids.toList, e.1 ≠ c := fun e he h' => by
    have := hlab e he; rw [h'] at this; omega
  have hedge : ∀ c' b, (c', b) ∈ nds.edges → c' ≠ c := by
    rintro c' b hb rfl
    obtain ⟨f', k', hk⟩ := hFs.label hb
    exact hlabne _ hk rfl
  -- the potential
  have hds : over Forest.dsum (setTopS ⟨(topFrame fs rf).fin, insF sgn c f.fin f.kids (topFrame fs rf).kids⟩ fs)
      (setTopR ⟨(topFrame fs rf).fin, insF sgn c f.fin f.kids (topFrame fs rf).kids⟩ fs rf) =
      over Forest.dsum ((c, f) :: fs) rf + (1 + f.kids.size) := by
    have h1 := over_setTop Forest.dsum ⟨(topFrame fs rf).fin, insF sgn c f.fin f.kids (topFrame fs rf).kids⟩ fs rf
    have h2 := over_cons Forest.dsum (c, f) fs rf
    simp only [Forest.ins_dsum hlabne] at h1 h2
    omega
  have hsz : over Forest.size (setTopS ⟨(topFrame fs rf).fin, insF sgn c f.fin f.kids (topFrame fs rf).kids⟩ fs)
      (setTopR ⟨(topFrame fs rf).fin, insF sgn c f.fin f.kids (topFrame fs rf).kids⟩ fs rf) =
      over Forest.size ((c, f) :: fs) rf + 1 := by
    have h1 := over_setTop Forest.size ⟨(topFrame fs rf).fin, insF sgn c f.fin f.kids (topFrame fs rf).kids⟩ fs rf
    have h2 := over_cons Forest.size (c, f) fs rf
    simp only [Forest.ins_size hlabne] at h1 h2
    omega
  -- the lookup
  obtain ⟨o, n, hfN, hup, hlo⟩ := regFindN_spec hc.heap.null hF hsF (treeHash nd.final f.kids) reg
    (fun e he => by obtain ⟨G, g1, g2, _⟩ := hc.regFacts e he; exact ⟨G, g1, g2⟩)
  have hmn : ∀ fuel, f.kids.height < fuel → minimizedNodeN fuel t.target h { d with unchecked := some st } =
      .ok (o, ⟨1 + f.kids.size, n⟩) := by
    intro fuel hf
    simp only [minimizedNodeN, deref, hm, hc.minimized, bind, Except.bind, nodeHashN_spec hF hf, hfN fuel hf]
  -- the state afterwards
  obtain ⟨h1, d1, reg1, hrun, hc1, _, _, _⟩ := minimizeStep_spec hc haddr hne
  have hfind := regFind_spec hc.heap.null hF hsF (Nat.lt_succ_self f.kids.height) reg hc.regFacts
  have hfo : regFind h.mem (f.kids.height + 1) (treeHash nd.final f.kids) nd reg = .ok o := by
    rw [← regFindN_erase, hfN _ (Nat.lt_succ_self _)]; rfl
  have hsetmem : ∀ (x : DNode) (a : Nat), InReg reg a → (h.mem.set (topNode d.root st) (some x)) a = h.mem a := by
    intro x a ha
    simp only [Mem.set]
    rw [if_neg]
    rintro rfl
    exact hpop.notReg _ (topNode_mem d.root st) ha
  have htst : t.target ∉ stackNodes d.root st := by
    have := hc.nodup
    simp only [stackNodes, List.map_cons, List.nodup_cons, List.mem_cons] at this ⊢
    rintro (h' | h')
    · exact this.1 (.inl h'.symm)
    · exact this.2.1 h'
  have mem_stack : ∀ s, s ∈ stackNodes d.root (t :: st) ↔ s = t.target ∨ s ∈ stackNodes d.root st := by
    intro s
    simp only [stackNodes, List.map_cons, List.mem_cons]
    constructor
    · rintro (h | h | h)
      · exact .inr (.inl h)
      · exact .inl h
      · exact .inr (.inr h)
    · rintro (h | h | h)
      · exact .inr (.inl h)
      · exact .inl h
      · exact .inr (.inr h)
  have hkeep : ∀ a s, s ∈ stackNodes d.root st → ∀ x, h.mem s = some x → ∀ c' b, (c', b) ∈ x.edges → InReg reg b ∧
      ∃ s' nd' c2 b', s' ∈ stackNodes d.root st ∧
        (h.mem.set (topNode d.root st) (some { nds with edges := mapSet sgn c a nds.edges })) s' = some nd' ∧
        (c2, b') ∈ nd'.edges ∧
        Reaches (h.mem.set (topNode d.root st) (some { nds with edges := mapSet sgn c a nds.edges })) b' b := by
    intro a s hs' x hx c' b hb
    refine ⟨hpop.stack.edges_in hs' hx hb, ?_⟩
    by_cases htop : s = topNode d.root st
    · subst htop
      rw [hms] at hx; obtain rfl := Option.some.inj hx
      exact ⟨_, _, c', b, hs', by simp [Mem.set]; rfl, mem_mapSet_old hb (hedge c' b hb), .refl⟩
    · exact ⟨s, x, c', b, hs', by simp [Mem.set, htop]; exact hx, hb, .refl⟩
  rw [hfo] at hfind
  rcases hfind with ⟨e, he, ho, heU, hef⟩ | ⟨ho, hno⟩
  · -- found
    obtain rfl := Except.ok.inj ho
    have hadd := addEdge_spec (a := e.val) (c := c) hpop hms hlab
    have hrunN : Ends (fun fuel => minimizeStepN sgn fuel h d)
        (({ h with mem := h.mem.set (topNode d.root st) (some { nds with edges := mapSet sgn c e.val nds.edges }) },
          { d with unchecked := some st }), ⟨1 + f.kids.size, n⟩) := by
      refine ⟨f.kids.height + 1, fun fuel hf => ?_⟩
      simp only [minimizeStepN, hc.unchecked, bind, Except.bind, hmn fuel (by omega), hsrc, hlabel]
      dsimp only at hadd
      rw [hadd]
    have heq := (hrunN.erase (minimizeStepN_erase sgn · h d)).unique hrun
    cases heq
    have hreg : reg1 = reg := by
      have := hc1.minimized.symm.trans hc.minimized
      simpa using this
    subst hreg
    refine ⟨_, _, _, _, hrunN, hc1, ⟨fun sz hsz' => ?_, ?_, ?_, ?_, ?_⟩⟩
    · have := hm0.hashes sz fun e he F hU => hsz' e he F (hc.tree_stays hc1 (fun _ h => h) he hU)
      simp only [Work.add]
      rw [hds]
      omega
    · have := hm0.upper
      simp only [Work.add]
      rw [hds, Nat.mul_add, Nat.mul_assoc 2 _ (1 + _)]
      omega
    · have := hm0.lower
      simp only [Work.add]; omega
    · have := hm0.len
      rw [hsz]; omega
    · have hreg : InReg reg1 e.val := ⟨e, he, rfl⟩
      refine Held.frame (st := t :: st) hc.regOk hm0.held (hsetmem _) fun s hs' x hx c' b hb => ?_
      rcases (mem_stack s).1 hs' with rfl | hs'
      · rw [hm] at hx; obtain rfl := Option.some.inj hx
        refine ⟨hZ c' b hb, ?_⟩
        obtain ⟨c2, hc2⟩ := mem_mapSet_new (sgn := sgn) (c := c) (a := e.val) (es := nds.edges)
        refine ⟨topNode d.root st, _, c2, e.val, topNode_mem _ _, by simp [Mem.set]; rfl, hc2, ?_⟩
        have hkey := (hc.regOk.node e he)
        refine .step (nd := e.key) (c := c') ?_ ?_ .refl
        · simp only; rw [hsetmem _ _ hreg]; exact hkey.1
        · rw [hc.regOk.edges_eq heU hF hkey.2.2.1 hZ]; exact hb
      · exact hkeep e.val s hs' x hx c' b hb
  · -- not found
    obtain rfl := Except.ok.inj ho
    have hadd := addEdge_spec (a := t.target) (c := c) hpop hms hlab
    have hmem' : (h.mem.set (topNode d.root st) (some { nds with edges := mapSet sgn c t.target nds.edges })) t.target =
        some nd := by
      simp only [Mem.set]
      rw [if_neg (by intro h'; rw [h'] at htst; exact htst (topNode_mem d.root st))]
      exact hm
    have hmm := hsetmem { nds with edges := mapSet sgn c t.target nds.edges }
    have hF' := hF.frame hc.regOk.closed hmm hZ
    have hnull' : (h.mem.set (topNode d.root st) (some { nds with edges := mapSet sgn c t.target nds.edges })) 0 = none := by
      simp only [Mem.set]
      rw [if_neg]
      · exact hc.heap.null
      · intro h'
        rw [← h', hc.heap.null] at hms
        cases hms
    obtain ⟨n', hset, hup', hlo'⟩ := regSetN_spec hnull' hF' hsF (treeHash nd.final f.kids) t.target reg (fun e he => by
      obtain ⟨G, hG, sG, _⟩ := hc.regFacts e he
      refine ⟨G, hG.frame hc.regOk.closed hmm (hc.regOk.node e he).2.2.1, sG, ?_⟩
      rintro ⟨h1, rfl⟩
      exact hno e he hG h1.symm)
    have hrunN : Ends (fun fuel => minimizeStepN sgn fuel h d)
        (({ h with mem := h.mem.set (topNode d.root st) (some { nds with edges := mapSet sgn c t.target nds.edges }) },
          { d with unchecked := some st, minimized := some (reg ++ [⟨treeHash nd.final f.kids, nd, t.target⟩]) }),
          Work.add ⟨1 + f.kids.size, n⟩ ⟨1 + f.kids.size, n'⟩) := by
      refine ⟨f.kids.height + 1, fun fuel hf => ?_⟩
      simp only [minimizeStepN, hc.unchecked, bind, Except.bind, hmn fuel (by omega), hsrc, hlabel]
      dsimp only at hadd
      rw [hadd]
      simp only [registerN, deref, hmem', hc.minimized, bind, Except.bind,
        nodeHashN_spec hF' (by omega : f.kids.height < fuel), hset fuel (by omega)]
    have heq := (hrunN.erase (minimizeStepN_erase sgn · h d)).unique hrun
    cases heq
    have hreg : reg1 = reg ++ [⟨treeHash nd.final f.kids, nd, t.target⟩] := by
      have := hc1.minimized
      simpa using this.symm
    subst hreg
    have hsub : ∀ e ∈ reg, e ∈ reg ++ [⟨treeHash nd.final f.kids, nd, t.target⟩] := fun e he => by simp [he]
    refine ⟨_, _, _, _, hrunN, hc1, ⟨fun sz hsz' => ?_, ?_, ?_, ?_, ?_⟩⟩
    · have := hm0.hashes sz fun e he F hU => hsz' e (hsub e he) F (hc.tree_stays hc1 hsub he hU)
      have h2 := hsz' ⟨treeHash nd.final f.kids, nd, t.target⟩ (by simp) f.kids hF'
      simp only at h2
      simp only [Work.add, List.map_append, List.sum_append, List.map_cons, List.map_nil, List.sum_cons, List.sum_nil]
      rw [hds]
      omega
    · have := hm0.upper
      simp only [Work.add, List.length_append, List.length_cons, List.length_nil]
      rw [hds]
      have e1 : 2 * (reg.length + (0 + 1)) * (over Forest.dsum ((c, f) :: fs) rf + (1 + f.kids.size)) =
          2 * reg.length * over Forest.dsum ((c, f) :: fs) rf + 2 * (reg.length * (1 + f.kids.size)) +
          2 * (over Forest.dsum ((c, f) :: fs) rf + (1 + f.kids.size)) := by
        rw [Nat.mul_add 2, Nat.add_mul, Nat.mul_add (2 * reg.length), Nat.mul_assoc 2 reg.length (1 + _)]
      rw [e1]
      omega
    · have := hm0.lower
      have := hlo rfl
      simp only [Work.add, List.map_append, List.map_cons, List.map_nil, clashes_snoc]; omega
    · have := hm0.len
      simp only [List.length_append, List.length_cons, List.length_nil]
      rw [hsz]; omega
    · have hnew : ∃ s' nd' c', s' ∈ stackNodes d.root st ∧
          (h.mem.set (topNode d.root st) (some { nds with edges := mapSet sgn c t.target nds.edges })) s' = some nd' ∧
          (c', t.target) ∈ nd'.edges := by
        obtain ⟨c2, hc2⟩ := mem_mapSet_new (sgn := sgn) (c := c) (a := t.target) (es := nds.edges)
        exact ⟨topNode d.root st, _, c2, topNode_mem _ _, by simp [Mem.set]; rfl, hc2⟩
      have hold : Held (h.mem.set (topNode d.root st) (some { nds with edges := mapSet sgn c t.target nds.edges }))
          d.root st reg := by
        refine Held.frame (st := t :: st) hc.regOk hm0.held (hsetmem _) fun s hs' x hx c' b hb => ?_
        rcases (mem_stack s).1 hs' with rfl | hs'
        · rw [hm] at hx; obtain rfl := Option.some.inj hx
          refine ⟨hZ c' b hb, ?_⟩
          obtain ⟨s', nd', c2, h1, h2, h3⟩ := hnew
          exact ⟨s', nd', c2, t.target, h1, h2, h3, .step hmem' hb .refl⟩
        · exact hkeep t.target s hs' x hx c' b hb
      intro a ha
      rcases inReg_append.1 ha with ha | rfl
      · exact hold a ha
      · obtain ⟨s', nd', c2, h1, h2, h3⟩ := hnew
        exact ⟨s', nd', c2, t.target, h1, h2, h3, .refl⟩

theorem Work.add_assoc (a b c : Work) : (a.add b).add c = a.add (b.add c) := by
  simp only [Work.add, Nat.add_assoc]

theorem Work.add_none (a : Work) : a.add .none = a := rfl

theorem Work.none_add (a : Work) : Work.none.add a = a := by
  cases a; simp [Work.add, Work.none]

/-- `k` steps of `minimize`. -/
theorem minimizeLoopN_spec (haddr : AddrOk addr) (k : Nat) {h : Heap} {d : SDawg} {reg : List RegEntry}
    {st : List Trans} {fl : List Nat} {fs : List (UInt8 × Frame)} {rf : Frame} {w0 : Work}
    (hc : Core sgn addr c0 m0 h d reg st fl fs rf) (hk : k ≤ st.length)
    (hne : 0 < k → (topFrame fs rf).fin = true ∨ (topFrame fs rf).kids ≠ .nil) (hm : Meter h d reg st fs rf w0) :
    ∃ h' d' reg' st' fs' rf' w, Ends (fun fuel => minimizeLoopN sgn fuel k h d) ((h', d'), w) ∧
      Core sgn addr c0 m0 h' d' reg' st' fl fs' rf' ∧ Meter h' d' reg' st' fs' rf' (w0.add w) := by
  induction k generalizing h d reg st fs rf w0 with
  | zero => exact ⟨h, d, reg, st, fs, rf, .none, .of_eq fun _ => rfl, hc, hm⟩
  | succ k ih =>
    have hlen := hc.stack.length
    cases st with
    | nil => simp at hk
    | cons t st =>
      cases fs with
      | nil => simp at hlen
      | cons e fs =>
        obtain ⟨c, f⟩ := e
        obtain ⟨h1, d1, reg1, w1, hrun, hc1, hm1⟩ := minimizeStepN_spec hc haddr (hne (by omega)) hm
        obtain ⟨h2, d2, reg2, st2, fs2, rf2, w2, hrun2, hc2, hm2⟩ := ih hc1 (by simpa using hk)
          (fun _ => .inr (by rw [topFrame_set]; exact Forest.ins_ne_nil)) hm1
        refine ⟨h2, d2, reg2, st2, fs2, rf2, w1.add w2, ?_, hc2, by rw [← Work.add_assoc]; exact hm2⟩
        obtain ⟨N1, hN1⟩ := hrun
        obtain ⟨N2, hN2⟩ := hrun2
        refine ⟨max N1 N2, fun fuel hf => ?_⟩
        simp only [minimizeLoopN, hN1 fuel (by omega), bind, Except.bind, hN2 fuel (by omega)]

/-- Steps that neither hash nor compare. -/
theorem Meter.move {h h' : Heap} {d d' : SDawg} {reg : List RegEntry} {st st' : List Trans} {fl fl' : List Nat}
    {fs fs' : List (UInt8 × Frame)} {rf rf' : Frame} {w : Work} (hc : Core sgn addr c0 m0 h d reg st fl fs rf)
    (hc' : Core sgn addr c0 m0 h' d' reg st' fl' fs' rf') (hm : Meter h d reg st fs rf w)
    (h1 : over Forest.dsum fs' rf' = over Forest.dsum fs rf) (h2 : over Forest.size fs' rf' = over Forest.size fs rf)
    (hst : ∀ s ∈ stackNodes d.root st, ∀ nd, h.mem s = some nd → s ∈ stackNodes d'.root st' ∧
      ∃ nd', h'.mem s = some nd' ∧ nd'.edges = nd.edges) : Meter h' d' reg st' fs' rf' w := by
  have hroot : d'.root = d.root := hc'.root.trans hc.root.symm
  refine ⟨fun sz hsz => ?_, by rw [h1]; exact hm.upper, hm.lower, by rw [h2]; exact hm.len, ?_⟩
  · rw [h1]
    exact hm.hashes sz fun e he F hU => hsz e he F (hc.tree_stays hc' (fun _ h => h) he hU)
  · rw [hroot]
    refine Held.frame hc.regOk hm.held ?_ fun s hs nd hnd c b hb => ⟨hc.stack.edges_in hs hnd hb, ?_⟩
    · rintro x ⟨e, he, rfl⟩
      rw [(hc.regOk.node e he).1, (hc'.regOk.node e he).1]
    · obtain ⟨h3, nd', h4, h5⟩ := hst s hs nd hnd
      rw [hroot] at h3
      exact ⟨s, nd', c, b, h3, h4, by rw [h5]; exact hb, .refl⟩

theorem pushSuffix_meter (haddr : AddrOk addr) (rest : Str) {h : Heap} {d : SDawg} {reg : List RegEntry}
    {st : List Trans} {fl : List Nat} {fs : List (UInt8 × Frame)} {rf : Frame} {w : Work}
    (hc : Core sgn addr c0 m0 h d reg st fl fs rf)
    (hlab : ∀ c, rest.head? = some c → ∀ e ∈ (topFrame fs rf).kids.toList, e.1.toNat < c.toNat)
    (hm : Meter h d reg st fs rf w) :
    ∃ h' d' st' fl' fs', pushSuffix addr (topNode d.root st) rest h d = .ok (topNode d'.root st', h', d') ∧
      Core sgn addr c0 m0 h' d' reg st' fl' fs' rf ∧ Meter h' d' reg st' fs' rf w := by
  induction rest generalizing h d st fl fs with
  | nil => exact ⟨h, d, st, fl, fs, rfl, hc, hm⟩
  | cons c rest ih =>
    have hpush := hc.push haddr (c := c) (hlab c rfl)
    obtain ⟨h', d', st', fl', fs', hrun, hc', hm'⟩ := ih hpush (by
      intro c' _ e he; simp [topFrame, Forest.toList] at he) (Meter.move hc hpush hm
        (by rw [over_cons]; simp [Forest.dsum]) (by rw [over_cons]; simp [Forest.size]) (by
          intro s hs nd hnd
          refine ⟨?_, nd, ?_, rfl⟩
          · simp only [stackNodes, List.map_cons, List.mem_cons] at hs ⊢
            rcases hs with h | h
            · exact .inl h
            · exact .inr (.inr h)
          · obtain ⟨j, h1, h2, rfl⟩ := hc.stackRange s hs
            simp only [newNode, Mem.set]
            rw [if_neg (fun h3 => by have := haddr.2 _ _ h3; omega)]
            exact hnd))
    refine ⟨h', d', st', fl', fs', ?_, hc', hm'⟩
    rw [pushSuffix, hc.floating, hc.unchecked]
    exact hrun

theorem setFinal_meter (haddr : AddrOk addr) {h : Heap} {d : SDawg} {reg : List RegEntry}
    {st : List Trans} {fl : List Nat} {fs : List (UInt8 × Frame)} {rf : Frame} {w : Work}
    (hc : Core sgn addr c0 m0 h d reg st fl fs rf) (hm : Meter h d reg st fs rf w) :
    ∃ h', setFinal (topNode d.root st) h = .ok h' ∧
      Core sgn addr c0 m0 h' d reg st fl (setTopS ⟨true, (topFrame fs rf).kids⟩ fs)
        (setTopR ⟨true, (topFrame fs rf).kids⟩ fs rf) ∧
      Meter h' d reg st (setTopS ⟨true, (topFrame fs rf).kids⟩ fs) (setTopR ⟨true, (topFrame fs rf).kids⟩ fs rf) w := by
  obtain ⟨nd, h1, h2, h3, h4, h5⟩ := hc.stack.top
  have hc' := hc.setTop haddr (nd := { nd with final := true }) (g := ⟨true, (topFrame fs rf).kids⟩) rfl h3 h4 h5
    hc.trim.top
  refine ⟨_, ?_, hc', Meter.move hc hc' hm ?_ ?_ ?_⟩
  · simp only [setFinal, deref, h1, bind, Except.bind]
  · have := over_setTop Forest.dsum ⟨true, (topFrame fs rf).kids⟩ fs rf
    simp only at this; omega
  · have := over_setTop Forest.size ⟨true, (topFrame fs rf).kids⟩ fs rf
    simp only at this; omega
  · intro s hs x hx
    refine ⟨hs, ?_⟩
    simp only [Mem.set]
    by_cases htop : s = topNode d.root st
    · subst htop
      rw [h1] at hx; obtain rfl := Option.some.inj hx
      exact ⟨{ nd with final := true }, by rw [if_pos rfl], rfl⟩
    · exact ⟨x, by rw [if_neg htop]; exact hx, rfl⟩

/-- The meter of a dictionary under construction. -/
def Metered (sgn : Bool) (addr : Nat → Nat) (c0 : Nat) (m0 : Mem) (h : Heap) (d : SDawg) (w : Work) : Prop :=
  ∀ reg st fl fs rf, Core sgn addr c0 m0 h d reg st fl fs rf → Meter h d reg st fs rf w

theorem Metered.intro {h : Heap} {d : SDawg} {w : Work} {reg : List RegEntry} {st : List Trans} {fl : List Nat}
    {fs : List (UInt8 × Frame)} {rf : Frame} (hc : Core sgn addr c0 m0 h d reg st fl fs rf)
    (hm : Meter h d reg st fs rf w) : Metered sgn addr c0 m0 h d w := by
  intro reg' st' fl' fs' rf' hc'
  obtain ⟨rfl, rfl, rfl, rfl, rfl⟩ := hc.unique hc'
  exact hm

theorem addTermN_spec (haddr : AddrOk addr) {terms : List Str} {h : Heap} {d : SDawg} {w0 : Work}
    (hb : Built sgn addr c0 m0 terms h d) (hw : Metered sgn addr c0 m0 h d w0) (term : Str)
    (hlt : strLt term d.prev = false) :
    ∃ h' d' w, Ends (fun fuel => addTermN sgn addr fuel term h d) ((true, h', d'), w) ∧
      Built sgn addr c0 m0 (terms ++ [term]) h' d' ∧ Metered sgn addr c0 m0 h' d' (w0.add w) := by
  obtain ⟨h', d', hrun, hb'⟩ := addTerm_spec haddr hb term hlt
  suffices hs : ∃ h2 d2 w, Ends (fun fuel => addTermN sgn addr fuel term h d) ((true, h2, d2), w) ∧
      Metered sgn addr c0 m0 h2 d2 (w0.add w) by
    obtain ⟨h2, d2, w, hr, hm⟩ := hs
    cases (hr.erase (addTermN_erase sgn addr · term h d)).unique hrun
    exact ⟨_, _, w, hr, hb', hm⟩
  obtain ⟨⟨reg, st, fl, fs, rf, hc, hpath, hnil, hfin, hlang⟩, hprev, hsize⟩ := hb
  have hm := hw _ _ _ _ _ hc
  have hlen := hc.stack.length
  by_cases hterm : term = []
  · have hp0 := strLt_nil hlt hterm
    subst hterm
    have hfs : fs = [] := by
      rw [hp0] at hpath; simpa [path] using hpath
    subst hfs
    have hst : st = [] := by cases st with | nil => rfl | cons => simp at hlen
    subst hst
    obtain ⟨h', hrun, hc', hm'⟩ := setFinal_meter haddr hc hm
    refine ⟨h', { d with prev := [], size := d.size + 1 }, .none, .of_eq fun n => ?_, ?_⟩
    · have hrun' : setFinal d.root h = .ok h' := hrun
      simp only [addTermN, hlt, if_true, hrun', bind, Except.bind, Bool.false_eq_true, if_false]
    · refine Metered.intro (d := { d with prev := [], size := d.size + 1 }) { hc' with } ?_
      exact { hm' with }
  · obtain ⟨p, x, y, hx, hy, hplen, hcase⟩ := commonPrefix_spec term d.prev hlt
    have hprevlen : st.length = d.prev.length := by rw [← hpath]; simp [path, hlen]
    have hdl : d.prev.length = p.length + y.length := by rw [hy]; simp
    have hylen : st.length - commonPrefix term d.prev = y.length := by omega
    have hne : 0 < st.length - commonPrefix term d.prev → (topFrame fs rf).fin = true ∨ (topFrame fs rf).kids ≠ .nil :=
      fun hpos => .inl (hfin (by
        rintro rfl
        simp at hlen
        rw [← hlen] at hpos
        simp at hpos))
    obtain ⟨h1, d1, reg1, st1, fs1, rf1, hrun1, hc1, hpath1, _, _, _, _, _, hle1, htop1⟩ :=
      minimizeLoop_spec haddr (st.length - commonPrefix term d.prev) hc (by omega) hne
    obtain ⟨h1', d1', reg1', st1', fs1', rf1', w1, hrunN, hc1', hm1⟩ :=
      minimizeLoopN_spec haddr (st.length - commonPrefix term d.prev) hc (by omega) hne hm
    cases (hrunN.erase (minimizeLoopN_erase sgn · _ h d)).unique hrun1
    obtain ⟨rfl, rfl, _, rfl, rfl⟩ := hc1.unique hc1'
    have hi : st.length - (st.length - commonPrefix term d.prev) = p.length := by
      omega
    rw [hi, hpath, hy, List.take_left] at hpath1
    obtain ⟨h2, d2, st2, fl2, fs2, hrun2, hc2, hm2⟩ :=
      pushSuffix_meter haddr x hc1 (by
        intro c hcx e he
        rcases hcase with rfl | ⟨u, x', v, y', rfl, rfl, hvu⟩
        · rw [htop1 (by rw [hylen]; rfl), hnil] at he
          simp [Forest.toList] at he
        · simp only [List.head?_cons, Option.some.injEq] at hcx
          subst hcx
          have := hle1 v (by rw [hylen]; simp) (by rw [hi, hpath, hy]; simp) e he
          omega) hm1
    obtain ⟨h3, hrun3, hc3, hm3⟩ := setFinal_meter haddr hc2 hm2
    refine ⟨h3, { d2 with prev := term, size := d2.size + 1 }, w1, ?_, ?_⟩
    · obtain ⟨N, hN⟩ := hrunN
      refine ⟨N, fun fuel hf => ?_⟩
      have hmin : minimizeN sgn fuel (commonPrefix term d.prev) h d = .ok ((h1, d1), w1) := by
        rw [minimizeN, hc.unchecked]; exact hN fuel hf
      have hsrc : suffixSource d1 = .ok (topNode d1.root st1) := by
        rw [suffixSource, hc1.unchecked]
        cases st1 <;> rfl
      have hdrop : term.drop (commonPrefix term d.prev) = x := by
        rw [← hplen]; conv => lhs; rw [hx]
        simp
      simp only [addTermN, hlt, hterm, Bool.false_eq_true, if_false, hmin, bind, Except.bind, hdrop, hsrc,
        hrun2, hrun3]
    · refine Metered.intro (d := { d2 with prev := term, size := d2.size + 1 }) { hc3 with } ?_
      exact { hm3 with }

theorem buildLoopN_spec (haddr : AddrOk addr) (rest : List Str) {terms : List Str} {h : Heap} {d : SDawg} {w0 : Work}
    (hb : Built sgn addr c0 m0 terms h d) (hw : Metered sgn addr c0 m0 h d w0) (hasc : Asc d.prev rest) :
    ∃ h' d' w, Ends (fun fuel => buildLoopN sgn addr fuel rest h d) ((h', some d'), w) ∧
      Built sgn addr c0 m0 (terms ++ rest) h' d' ∧ Metered sgn addr c0 m0 h' d' (w0.add w) := by
  induction rest generalizing terms h d w0 with
  | nil => exact ⟨h, d, .none, .of_eq fun _ => rfl, by simpa using hb, hw⟩
  | cons t rest ih =>
    obtain ⟨h1, d1, w1, ⟨N1, hN1⟩, hb1, hw1⟩ := addTermN_spec haddr hb hw t hasc.1
    have hprev : d1.prev = t := by rw [hb1.prev]; simp
    obtain ⟨h2, d2, w2, ⟨N2, hN2⟩, hb2, hw2⟩ := ih hb1 hw1 (by rw [hprev]; exact hasc.2)
    refine ⟨h2, d2, w1.add w2, ⟨max N1 N2, fun fuel hf => ?_⟩, by simpa using hb2, by rw [← Work.add_assoc]; exact hw2⟩
    simp only [buildLoopN, hN1 fuel (by omega), bind, Except.bind, if_true, hN2 fuel (by omega)]

/-- The registered nodes, when a dictionary has been finished, and what was spent. -/
structure Account (h : Heap) (root : Nat) (F : Forest) (reg : List RegEntry) (w : Work) : Prop where
  tree : ∃ nd, h.mem root = some nd ∧ Unf h.mem nd.edges F
  inReg : ∀ a, InReg reg a ↔ Reaches h.mem root a ∧ a ≠ root
  nodup : (reg.map (·.val)).Nodup
  node : ∀ e ∈ reg, h.mem e.val = some e.key ∧ ∃ G, Unf h.mem e.key.edges G ∧ e.hash = treeHash e.key.final G
  hashes : ∀ sz : Nat → Nat, (∀ e ∈ reg, ∀ F, Unf h.mem e.key.edges F → sz e.val = 1 + F.size) →
    w.hashes = F.dsum + (reg.map fun e => sz e.val).sum
  upper : w.compares ≤ 2 * reg.length * F.dsum
  lower : 2 * clashes (reg.map (·.hash)) ≤ w.compares
  len : reg.length ≤ F.size

theorem RegOk.nodup {mem : Mem} {reg : List RegEntry} (h : RegOk sgn mem reg) : (reg.map (·.val)).Nodup := by
  rw [List.Nodup, List.pairwise_map]
  refine List.Pairwise.imp_of_mem ?_ h.distinct
  intro e e' he he' hd heq
  obtain ⟨h1, _, _, F, h2, _⟩ := h.node e he
  obtain ⟨h1', _, _, _⟩ := h.node e' he'
  have hk : e.key = e'.key := by
    rw [heq, h1'] at h1; exact (Option.some.inj h1).symm
  exact hd F h2 (by rw [← hk]; exact h2) (by rw [hk])

/-- `sorted_dawg` on ascending terms. -/
theorem sortedDawgN_spec (haddr : AddrOk addr) {h : Heap} (h0 : h.mem 0 = none)
    (hfresh : ∀ j, h.count ≤ j → h.mem (addr j) = none) {terms : List Str} (hasc : Asc [] terms) :
    ∃ h' d w F reg, Ends (fun fuel => sortedDawgN sgn addr fuel terms h) ((h', some d), w) ∧
      Account h' d.root F reg w := by
  have hnew := newDawg_built (sgn := sgn) haddr h0 hfresh
  have hnewW : Metered sgn addr h.count h.mem (newDawg addr h).1 (initDawg (newDawg addr h).2) .none := by
    intro reg st fl fs rf hc
    have h1 := hc.unchecked
    have h2 := hc.minimized
    have h3 := hc.stack
    simp only [newDawg, initDawg, Option.some.injEq] at h1 h2
    subst h1; subst h2
    cases h3 with
    | nil hn =>
      obtain ⟨nd, g1, _, g3, _⟩ := hn
      have hnd : nd = ⟨false, []⟩ := by
        simp only [newDawg, newNode, initDawg, Mem.set, if_true, Option.some.injEq] at g1
        exact g1.symm
      subst hnd
      have hk : rf.kids = .nil := g3.unique .nil
      refine ⟨fun sz _ => ?_, ?_, ?_, ?_, ?_⟩
      · simp [over, hk, Forest.dsum, Work.none]
      · simp [Work.none]
      · simp [clashes]
      · simp
      · rintro a ⟨e, he, _⟩; simp at he
  obtain ⟨h1, d1, w1, ⟨N1, hN1⟩, hb1, hw1⟩ := buildLoopN_spec haddr terms hnew hnewW hasc
  obtain ⟨⟨reg, st, fl, fs, rf, hc, hpath, hnil, hfin, hlang⟩, hprev, hsize⟩ := hb1
  have hlen := hc.stack.length
  have hne : 0 < st.length → (topFrame fs rf).fin = true ∨ (topFrame fs rf).kids ≠ .nil :=
    fun hpos => .inl (hfin (by
        rintro rfl
        simp at hlen
        omega))
  obtain ⟨h2, d2, reg2, st2, fs2, rf2, hrun2, hc2, hpath2, _⟩ := minimizeLoop_spec haddr st.length hc (by omega) hne
  obtain ⟨h2', d2', reg2', st2', fs2', rf2', w2, hrunN, hc2', hm2⟩ :=
    minimizeLoopN_spec haddr st.length hc (by omega) hne (hw1 _ _ _ _ _ hc)
  cases (hrunN.erase (minimizeLoopN_erase sgn · _ _ _)).unique hrun2
  obtain ⟨rfl, rfl, _, rfl, rfl⟩ := hc2.unique hc2'
  have hfs2 : fs2 = [] := by
    simp only [Nat.sub_self, List.take_zero] at hpath2
    simpa [path] using hpath2
  subst hfs2
  have hst2 : st2 = [] := by
    have := hc2.stack.length
    cases st2 with
    | nil => rfl
    | cons => simp at this
  subst hst2
  obtain ⟨N2, hN2⟩ := hrunN
  obtain ⟨N3, hN3⟩ := cleanUp_spec hc2
  refine ⟨⟨cleaned addr h.count h2 d2.root, h2.count⟩, { d2 with unchecked := none, minimized := none, floating := none },
    w1.add w2, rf2.kids, reg2, ⟨max N1 (max N2 N3), fun fuel hf => ?_⟩, ?_⟩
  · simp only [sortedDawgN, bind, Except.bind, hN1 fuel (by omega), minimizeN, hc.unchecked, Nat.sub_zero,
      hN2 fuel (by omega), hN3 fuel (by omega)]
  · have hcl := hc2.rootClosed
    have hmm : ∀ a, Reaches h2.mem d2.root a → cleaned addr h.count h2 d2.root a = h2.mem a := fun a ha => cleaned_reach ha
    have hri := reaches_frame_iff hcl hmm (a := d2.root) .refl
    obtain ⟨nd, hm, hfinr, hF, hsr, hZ⟩ := hc2.stack.rootNode
    have hreach : ∀ a, InReg reg2 a → Reaches h2.mem d2.root a := by
      intro a ha
      obtain ⟨s, x, c, b, g1, g2, g3, g4⟩ := hm2.held a ha
      simp only [stackNodes, List.map_nil, List.mem_singleton] at g1
      subst g1
      exact .step g2 g3 g4
    have hnode : ∀ e ∈ reg2, cleaned addr h.count h2 d2.root e.val = some e.key ∧ ∃ G,
        Unf (cleaned addr h.count h2 d2.root) e.key.edges G ∧ Unf h2.mem e.key.edges G ∧
        e.hash = treeHash e.key.final G := by
      intro e he
      obtain ⟨g1, _, g3, G, g4, g5, _⟩ := hc2.regOk.node e he
      refine ⟨by rw [hmm _ (hreach _ ⟨e, he, rfl⟩)]; exact g1, G, ?_, g4, g5⟩
      exact g4.frame hcl hmm fun c b hb => hreach b (g3 c b hb)
    simp only [Work.none_add] at hm2
    refine ⟨⟨nd, by simp only; rw [hmm _ .refl]; exact hm, hF.frame hcl hmm (fun c b hb => .step hm hb .refl)⟩,
      fun a => ?_, hc2.regOk.nodup, fun e he => ?_, fun sz hsz => ?_, ?_, hm2.lower, ?_⟩
    · simp only [hri]
      constructor
      · intro ha
        exact ⟨hreach a ha, by rintro rfl; exact hc2.notReg _ (by simp [stackNodes]) ha⟩
      · rintro ⟨h1, h2⟩
        rcases hc2.reach h1 with h | h
        · exact absurd h h2
        · exact h
    · obtain ⟨g1, G, g2, _, g4⟩ := hnode e he
      exact ⟨g1, G, g2, g4⟩
    · have := hm2.hashes sz fun e he F hU => hsz e he F (by
        obtain ⟨g1, G, g2, g3, g4⟩ := hnode e he
        rw [hU.unique g3]; exact g2)
      simpa [over] using this
    · simpa [over] using hm2.upper
    · simpa [over] using hm2.len

end

end Lev
