import Verif.Proofs.LateAdd

/-!
Construction resumed on a finished dictionary: `init` a second time.  The new terms are added as to an empty dictionary whose
root lies at the same address; the root has the edges of both.
-/

namespace Lev

open Spec

/-! ### Hash, equality and register depend only on the nodes below -/

theorem edgesHash_frame {mem mem' : Mem} {f g : DNode → Except Err UInt64} (es : List (UInt8 × Nat))
    (h : ∀ c b, (c, b) ∈ es → ∃ nd, mem b = some nd ∧ mem' b = some nd ∧ f nd = g nd) (k : UInt64) :
    edgesHash mem' f es k = edgesHash mem g es k := by
  induction es generalizing k with
  | nil => rfl
  | cons e es ih =>
    obtain ⟨c, b⟩ := e
    obtain ⟨nd, h1, h2, h3⟩ := h c b (by simp)
    simp only [edgesHash, deref, h1, h2, h3, bind, Except.bind]
    cases g nd with
    | error => rfl
    | ok x => exact ih (fun c b hb => h c b (by simp [hb])) _

theorem nodeHash_frame {mem mem' : Mem} {Z : Nat → Prop} (hZ : Closed mem Z) (hmm : ∀ a, Z a → mem' a = mem a) (fuel : Nat)
    {nd : DNode} (hes : ∀ c b, (c, b) ∈ nd.edges → Z b) : nodeHash mem' fuel nd = nodeHash mem fuel nd := by
  induction fuel generalizing nd with
  | zero => rfl
  | succ fuel ih =>
    simp only [nodeHash]
    rw [edgesHash_frame (mem := mem) (g := nodeHash mem fuel)]
    intro c b hb
    obtain ⟨nb, h1, h2⟩ := hZ b (hes c b hb)
    exact ⟨nb, h1, by rw [hmm _ (hes c b hb)]; exact h1, ih h2⟩

theorem nodeTransition_mem {nd : DNode} {c : UInt8} : nodeTransition nd c = 0 ∨ (c, nodeTransition nd c) ∈ nd.edges := by
  unfold nodeTransition
  cases hf : nd.edges.find? (fun e => e.1 == c) with
  | none => exact .inl rfl
  | some e =>
    right
    have h1 := List.find?_some hf
    have h2 := List.mem_of_find?_eq_some hf
    simp only [beq_iff_eq] at h1
    rw [← h1]; exact h2

theorem nodeEq_frame {mem mem' : Mem} {Z : Nat → Prop} (hZ : Closed mem Z) (hmm : ∀ a, Z a → mem' a = mem a) (fuel : Nat)
    {x y : DNode} (hx : ∀ c b, (c, b) ∈ x.edges → Z b) (hy : ∀ c b, (c, b) ∈ y.edges → Z b) :
    nodeEq mem' fuel x y = nodeEq mem fuel x y := by
  induction fuel generalizing x y with
  | zero => rfl
  | succ fuel ih =>
    have key : ∀ es : List (UInt8 × Nat), (∀ c b, (c, b) ∈ es → Z b) →
        edgesEq mem' (nodeEq mem' fuel) y es = edgesEq mem (nodeEq mem fuel) y es := by
      intro es hes
      induction es with
      | nil => rfl
      | cons e es ihe =>
        obtain ⟨c, b⟩ := e
        simp only [edgesEq]
        split
        · rfl
        · next hne =>
          obtain ⟨nb, h1, h2⟩ := hZ b (hes c b (by simp))
          have hb2 := hy c _ (nodeTransition_mem.resolve_left hne)
          obtain ⟨nb', h3, h4⟩ := hZ _ hb2
          simp only [deref, hmm _ (hes c b (by simp)), hmm _ hb2, h1, h3, bind, Except.bind, ih h2 h4]
          cases nodeEq mem fuel nb nb' with
          | error => rfl
          | ok r =>
            simp only
            split
            · exact ihe fun c b hb => hes c b (by simp [hb])
            · rfl
    simp only [nodeEq]
    rw [key _ hx]

theorem regFind_frame {mem mem' : Mem} {Z : Nat → Prop} (hZ : Closed mem Z) (hmm : ∀ a, Z a → mem' a = mem a) (fuel : Nat)
    (k : UInt64) {x : DNode} (hx : ∀ c b, (c, b) ∈ x.edges → Z b) (reg : List RegEntry)
    (hreg : ∀ e ∈ reg, ∀ c b, (c, b) ∈ e.key.edges → Z b) : regFind mem' fuel k x reg = regFind mem fuel k x reg := by
  induction reg with
  | nil => rfl
  | cons e reg ih =>
    simp only [regFind, nodeEq_frame hZ hmm fuel hx (hreg e (by simp)), ih fun e he => hreg e (by simp [he])]

theorem regSet_frame {mem mem' : Mem} {Z : Nat → Prop} (hZ : Closed mem Z) (hmm : ∀ a, Z a → mem' a = mem a) (fuel : Nat)
    (k : UInt64) {x : DNode} (hx : ∀ c b, (c, b) ∈ x.edges → Z b) (v : Nat) (reg : List RegEntry)
    (hreg : ∀ e ∈ reg, ∀ c b, (c, b) ∈ e.key.edges → Z b) : regSet mem' fuel k x v reg = regSet mem fuel k x v reg := by
  induction reg with
  | nil => rfl
  | cons e reg ih =>
    simp only [regSet, nodeEq_frame hZ hmm fuel hx (hreg e (by simp)), ih fun e he => hreg e (by simp [he])]

/-! ### Edges of both roots -/

/-- Sorted lists of edges with the same members are the same. -/
theorem edges_ext {sgn : Bool} {l l' : List (UInt8 × Nat)} (h : l.Pairwise (fun e f => charLt sgn e.1 f.1))
    (h' : l'.Pairwise (fun e f => charLt sgn e.1 f.1)) (hm : ∀ e, e ∈ l ↔ e ∈ l') : l = l' := by
  have irr : ∀ e : UInt8 × Nat, ¬ charLt sgn e.1 e.1 := fun e h => by simp [charLt] at h
  have asym : ∀ e f : UInt8 × Nat, charLt sgn e.1 f.1 → ¬ charLt sgn f.1 e.1 := fun e f h h' => irr e (charLt_trans h h')
  induction l generalizing l' with
  | nil =>
    cases l' with
    | nil => rfl
    | cons e l' => exact absurd ((hm e).2 (by simp)) (by simp)
  | cons e l ih =>
    cases l' with
    | nil => exact absurd ((hm e).1 (by simp)) (by simp)
    | cons f l' =>
      have p := List.pairwise_cons.1 h
      have p' := List.pairwise_cons.1 h'
      have hef : e = f := by
        rcases List.mem_cons.1 ((hm e).1 (by simp)) with h1 | h1
        · exact h1
        · rcases List.mem_cons.1 ((hm f).2 (by simp)) with h2 | h2
          · exact h2.symm
          · exact absurd (p.1 f h2) (asym _ _ (p'.1 e h1))
      subst hef
      rw [ih p.2 p'.2 fun x => ?_]
      have := hm x
      simp only [List.mem_cons] at this
      constructor
      · intro hx
        rcases this.1 (.inr hx) with rfl | h1
        · exact absurd (p.1 _ hx) (irr _)
        · exact h1
      · intro hx
        rcases this.2 (.inr hx) with rfl | h1
        · exact absurd (p'.1 _ hx) (irr _)
        · exact h1

theorem mem_mapSet_fresh {sgn : Bool} {c : UInt8} {a : Nat} {es : List (UInt8 × Nat)} (hc : ∀ e ∈ es, e.1 ≠ c)
    (e : UInt8 × Nat) : e ∈ mapSet sgn c a es ↔ e = (c, a) ∨ e ∈ es := by
  induction es with
  | nil => simp [mapSet]
  | cons x es ih =>
    obtain ⟨l, t⟩ := x
    have hcl : c ≠ l := fun h => hc (l, t) (by simp) h.symm
    rw [mapSet, if_neg hcl]
    split
    · simp
    · rw [List.mem_cons, ih fun e he => hc e (by simp [he]), List.mem_cons]
      constructor
      · rintro (h | h | h)
        · exact .inr (.inl h)
        · exact .inl h
        · exact .inr (.inr h)
      · rintro (h | h | h)
        · exact .inr (.inl h)
        · exact .inl h
        · exact .inr (.inr h)

/-- The edges `es` added to the edges `es0`. -/
def mergeE (sgn : Bool) (es0 es : List (UInt8 × Nat)) : List (UInt8 × Nat) :=
  es.foldl (fun acc e => mapSet sgn e.1 e.2 acc) es0

theorem mergeE_sorted {sgn : Bool} {es0 : List (UInt8 × Nat)} (h : es0.Pairwise (fun e f => charLt sgn e.1 f.1))
    (es : List (UInt8 × Nat)) : (mergeE sgn es0 es).Pairwise (fun e f => charLt sgn e.1 f.1) := by
  induction es generalizing es0 with
  | nil => exact h
  | cons e es ih => exact ih (mapSet_sorted h)

theorem mem_mergeE {sgn : Bool} {es0 es : List (UInt8 × Nat)} (h : es.Pairwise (fun e f => charLt sgn e.1 f.1))
    (hd : ∀ e ∈ es, ∀ e0 ∈ es0, e0.1 ≠ e.1) (e : UInt8 × Nat) : e ∈ mergeE sgn es0 es ↔ e ∈ es0 ∨ e ∈ es := by
  induction es generalizing es0 with
  | nil => simp [mergeE]
  | cons x es ih =>
    have p := List.pairwise_cons.1 h
    have hx := mem_mapSet_fresh (sgn := sgn) (a := x.2) (hd x (by simp))
    show e ∈ mergeE sgn (mapSet sgn x.1 x.2 es0) es ↔ _
    rw [ih p.2 (fun f hf e0 he0 => by
      rcases (hx e0).1 he0 with rfl | he0
      · intro h'
        have h1 := p.1 f hf
        rw [show x.1 = f.1 from h'] at h1
        simp [charLt] at h1
      · exact hd f (by simp [hf]) e0 he0), hx, List.mem_cons]
    constructor
    · rintro ((h | h) | h)
      · exact .inr (.inl h)
      · exact .inl h
      · exact .inr (.inr h)
    · rintro (h | h | h)
      · exact .inl (.inr h)
      · exact .inl (.inl h)
      · exact .inr h

theorem mergeE_mapSet {sgn : Bool} {es0 es : List (UInt8 × Nat)} (h0 : es0.Pairwise (fun e f => charLt sgn e.1 f.1))
    (h : es.Pairwise (fun e f => charLt sgn e.1 f.1)) (hd : ∀ e ∈ es, ∀ e0 ∈ es0, e0.1 ≠ e.1) {c : UInt8} (a : Nat)
    (hc : ∀ e ∈ es, e.1 ≠ c) (hc0 : ∀ e ∈ es0, e.1 ≠ c) :
    mergeE sgn es0 (mapSet sgn c a es) = mapSet sgn c a (mergeE sgn es0 es) := by
  refine edges_ext (mergeE_sorted h0 _) (mapSet_sorted (mergeE_sorted h0 _)) fun e => ?_
  rw [mem_mergeE (mapSet_sorted h), mem_mapSet_fresh hc, mem_mapSet_fresh, mem_mergeE h hd]
  · constructor
    · rintro (h | h | h)
      · exact .inr (.inl h)
      · exact .inl h
      · exact .inr (.inr h)
    · rintro (h | h | h)
      · exact .inr (.inl h)
      · exact .inl h
      · exact .inr (.inr h)
  · intro e he
    rcases (mem_mergeE h hd e).1 he with he | he
    · exact hc0 e he
    · exact hc e he
  · intro e he e0 he0
    rcases (mem_mapSet_fresh hc e).1 he with rfl | he
    · exact hc0 e0 he0
    · exact hd e he e0 he0

/-! ### The old root laid over the new one -/

/-- The new root with the finality and the edges of the old one. -/
def liftN (sgn : Bool) (o nd : DNode) : DNode := ⟨nd.final || o.final, mergeE sgn o.edges nd.edges⟩

def liftM (sgn : Bool) (r : Nat) (o : DNode) (m : Mem) : Mem := fun a => if a = r then (m a).map (liftN sgn o) else m a

def liftH (sgn : Bool) (r : Nat) (o : DNode) (h : Heap) : Heap := ⟨liftM sgn r o h.mem, h.count⟩

def liftD (s : Nat) (q : Str) (d : SDawg) : SDawg := { d with size := d.size + s, prev := q }

theorem liftM_ne {sgn : Bool} {r : Nat} {o : DNode} {m : Mem} {a : Nat} (h : a ≠ r) : liftM sgn r o m a = m a := by
  simp [liftM, h]

theorem liftM_root {sgn : Bool} {r : Nat} {o : DNode} {m : Mem} {nd : DNode} (h : m r = some nd) :
    liftM sgn r o m r = some (liftN sgn o nd) := by
  simp [liftM, h]

theorem liftM_set_ne {sgn : Bool} {r : Nat} {o : DNode} {m : Mem} {a : Nat} (h : a ≠ r) (v : Option DNode) :
    liftM sgn r o (m.set a v) = (liftM sgn r o m).set a v := by
  funext b
  simp only [liftM, Mem.set]
  by_cases hb : b = r
  · have : b ≠ a := fun h' => h (h'.symm.trans hb)
    simp [hb, Ne.symm h]
  · simp [hb]

theorem liftM_set_root {sgn : Bool} {r : Nat} {o : DNode} {m : Mem} (nd : DNode) :
    liftM sgn r o (m.set r (some nd)) = (liftM sgn r o m).set r (some (liftN sgn o nd)) := by
  funext b
  simp only [liftM, Mem.set]
  by_cases hb : b = r
  · simp [hb]
  · simp [hb]

/-- No edge of the old root has the label `c`. -/
def NewLetter (o : DNode) (c : UInt8) : Prop := ∀ e ∈ o.edges, e.1 ≠ c

theorem Unf.label_mem {mem : Mem} {es : List (UInt8 × Nat)} {F : Forest} (h : Unf mem es F) {c : UInt8} {b : Nat}
    (hb : (c, b) ∈ es) : ∃ f k, (c, f, k) ∈ F.toList := by
  induction h with
  | nil => simp at hb
  | @cons l a nd es kids rest hm _ _ _ ih2 =>
    simp only [Forest.toList, List.mem_cons]
    rcases List.mem_cons.1 hb with h | h
    · cases h; exact ⟨_, _, .inl rfl⟩
    · obtain ⟨f, k, h'⟩ := ih2 h
      exact ⟨f, k, .inr h'⟩

theorem Lang.of_root {fs : List (UInt8 × Frame)} {rf : Frame} {t : Str} (h : AccT rf.fin rf.kids t) : Lang fs rf t := by
  induction fs with
  | nil => exact h
  | cons e fs ih => exact .inr ih

section
variable {sgn : Bool} {addr : Nat → Nat} {c0 : Nat} {m0 : Mem} {h : Heap} {d : SDawg} {reg : List RegEntry}
  {st : List Trans} {fl : List Nat} {fs : List (UInt8 × Frame)} {rf : Frame} {o : DNode}

/-- The labels of the new root are letters that words begin with. -/
theorem Core.root_labels (hc : Core sgn addr c0 m0 h d reg st fl fs rf) (hL : ∀ c t, Lang fs rf (c :: t) → NewLetter o c)
    {nd : DNode} (hm : h.mem d.root = some nd) : ∀ e ∈ nd.edges, ∀ e0 ∈ o.edges, e0.1 ≠ e.1 := by
  obtain ⟨nd', hm', _, hF, _⟩ := hc.stack.rootNode
  rw [hm] at hm'; obtain rfl := Option.some.inj hm'
  rintro ⟨c, b⟩ he e0 he0
  obtain ⟨f, k, hk⟩ := hF.label_mem he
  have ht := Forest.trim_iff.1 hc.trim.1 _ hk
  have hu : ∃ u, AccT f k u := by
    rcases ht.1 with h | h
    · exact ⟨[], .inl ⟨rfl, h⟩⟩
    · obtain ⟨u, hu⟩ := ht.2.exists_acc h
      exact ⟨u, .inr hu⟩
  obtain ⟨u, hu⟩ := hu
  exact hL c u (.of_root (.inr (Forest.acc_cons.2 ⟨f, k, hk, hu⟩))) e0 he0

/-- Only the lowest transition of the stack starts at the root. -/
theorem Core.source_root {t : Trans} {e : UInt8 × Frame} (hc : Core sgn addr c0 m0 h d reg (t :: st) fl (e :: fs) rf)
    (ht : topNode d.root st = d.root) : st = [] ∧ fs = [] := by
  have hlen := hc.stack.length
  cases st with
  | nil =>
    refine ⟨rfl, ?_⟩
    cases fs with
    | nil => rfl
    | cons => simp at hlen
  | cons u st =>
    have := hc.nodup
    simp only [stackNodes, List.map_cons, List.nodup_cons, List.mem_cons] at this
    exact absurd (.inr (.inl ht.symm)) this.1

theorem addEdge_lift (ho : o.edges.Pairwise (fun e f => charLt sgn e.1 f.1)) (hc : Core sgn addr c0 m0 h d reg st fl fs rf)
    (hL : ∀ c t, Lang fs rf (c :: t) → NewLetter o c) {c : UInt8} {a : Nat} {nd : DNode}
    (hnd : h.mem (topNode d.root st) = some nd) (hlab : ∀ e ∈ (topFrame fs rf).kids.toList, e.1.toNat < c.toNat)
    (hnew : topNode d.root st = d.root → NewLetter o c) :
    addEdge sgn (topNode d.root st) c a (liftH sgn d.root o h) =
      .ok (liftH sgn d.root o { h with mem := h.mem.set (topNode d.root st) (some { nd with edges := mapSet sgn c a nd.edges }) }) := by
  obtain ⟨nd', hm', h1, h2, h3, _⟩ := hc.stack.top
  rw [hnd] at hm'; obtain rfl := Option.some.inj hm'
  have hne : ∀ e ∈ nd.edges, e.1 ≠ c := by
    rintro ⟨c', b⟩ he rfl
    obtain ⟨f, k, hk⟩ := h2.label_mem he
    exact absurd (hlab _ hk) (Nat.lt_irrefl _)
  have htr : ∀ nd : DNode, (∀ e ∈ nd.edges, e.1 ≠ c) → nodeTransition nd c = 0 := by
    intro nd hn
    rcases nodeTransition_mem (nd := nd) (c := c) with h | h
    · exact h
    · exact absurd rfl (hn _ h)
  by_cases hr : topNode d.root st = d.root
  · rw [hr] at hnd ⊢
    have hd := hc.root_labels hL hnd
    have hne' : ∀ e ∈ (liftN sgn o nd).edges, e.1 ≠ c := by
      intro e he
      rcases (mem_mergeE h3 hd e).1 he with he | he
      · exact hnew hr e he
      · exact hne e he
    have hlm : liftM sgn d.root o h.mem d.root = some (liftN sgn o nd) := liftM_root hnd
    simp only [addEdge, liftH, deref, hlm, htr _ hne', deleteNode, bind, Except.bind, if_true, liftM_set_root]
    simp only [liftN, mergeE_mapSet ho h3 hd a hne (hnew hr)]
  · have hlm : liftM sgn d.root o h.mem (topNode d.root st) = some nd := by rw [liftM_ne hr]; exact hnd
    simp only [addEdge, liftH, deref, hlm, htr _ hne, deleteNode, bind, Except.bind, if_true, liftM_set_ne hr]

/-- One step of `minimize`. -/
theorem minimizeStep_lift (ho : o.edges.Pairwise (fun e f => charLt sgn e.1 f.1)) {t : Trans} {c : UInt8} {f : Frame}
    (hc : Core sgn addr c0 m0 h d reg (t :: st) fl ((c, f) :: fs) rf)
    (hL : ∀ c' t, Lang ((c, f) :: fs) rf (c' :: t) → NewLetter o c')
    (hP : ∀ c', (path ((c, f) :: fs)).head? = some c' → NewLetter o c') (s : Nat) (q : Str) {fuel : Nat} {h' : Heap} {d' : SDawg}
    (hrun : minimizeStep sgn fuel h d = .ok (h', d')) :
    minimizeStep sgn fuel (liftH sgn d.root o h) (liftD s q d) = .ok (liftH sgn d.root o h', liftD s q d') := by
  have hpop := hc.pop
  have hsrc : t.source = topNode d.root st := by
    have := hc.stack; cases this with | cons _ h _ => exact h
  have hlabel : t.label = c := by
    have := hc.stack; cases this with | cons _ _ _ => rfl
  have htgt : NodeIs sgn h.mem (InReg reg) t.target f := by
    have := hc.stack; cases this with | cons _ _ h => exact h
  have htst : t.target ∉ stackNodes d.root st := by
    have := hc.nodup
    simp only [stackNodes, List.map_cons, List.nodup_cons, List.mem_cons] at this ⊢
    rintro (h' | h')
    · exact this.1 (.inl h'.symm)
    · exact this.2.1 h'
  have htr : t.target ≠ d.root := fun h' => htst (by rw [h']; simp [stackNodes])
  have hrreg : ∀ x, InReg reg x → x ≠ d.root := fun x hx h' => hc.notReg d.root (by simp [stackNodes]) (h' ▸ hx)
  obtain ⟨nd, hm, hfin, hF, hs, hZ⟩ := htgt
  obtain ⟨nds, hms, hfins, hFs, hss, hZs⟩ := hpop.stack.top
  have hlab := hc.fits.1
  have hnew : topNode d.root st = d.root → NewLetter o c := by
    intro h'
    obtain ⟨rfl, rfl⟩ := hc.source_root h'
    exact hP c (by simp [path])
  have hLp : ∀ c' t, Lang fs rf (c' :: t) → NewLetter o c' := fun c' t h' => hL c' t (.inr h')
  have hmm : ∀ x, InReg reg x → liftM sgn d.root o h.mem x = h.mem x := fun x hx => liftM_ne (hrreg x hx)
  have hkeys : ∀ e ∈ reg, ∀ c b, (c, b) ∈ e.key.edges → InReg reg b := fun e he => (hc.regOk.node e he).2.2.1
  have hfind : minimizedNode fuel t.target (liftH sgn d.root o h) (liftD s q { d with unchecked := some st }) =
      minimizedNode fuel t.target h { d with unchecked := some st } := by
    simp only [minimizedNode, liftH, liftD, deref, liftM_ne htr, hm, hc.minimized, bind, Except.bind,
      nodeHash_frame hc.regOk.closed hmm fuel hZ]
    cases nodeHash h.mem fuel nd with
    | error => rfl
    | ok k => exact regFind_frame hc.regOk.closed hmm fuel k hZ reg hkeys
  have hadd : ∀ a, _ := fun a => addEdge_spec (a := a) (c := c) hpop hms hlab
  have hadd' : ∀ a, _ := fun a => addEdge_lift (a := a) (c := c) ho hpop hLp hms hlab hnew
  dsimp only at hadd hadd'
  simp only [minimizeStep, hc.unchecked, bind, Except.bind, hsrc, hlabel] at hrun
  have hu : (liftD s q d).unchecked = some (t :: st) := hc.unchecked
  have hd1 : ({ liftD s q d with unchecked := some st } : SDawg) = liftD s q { d with unchecked := some st } := rfl
  simp only [minimizeStep, hu, bind, Except.bind, hsrc, hlabel, hd1, hfind]
  cases hres : minimizedNode fuel t.target h { d with unchecked := some st } with
  | error => rw [hres] at hrun; simp at hrun
  | ok r =>
    rw [hres] at hrun
    simp only at hrun ⊢
    cases r with
    | some e =>
      simp only [hadd, Except.ok.injEq, Prod.mk.injEq] at hrun ⊢
      obtain ⟨rfl, rfl⟩ := hrun
      simp only [hadd']
    | none =>
      simp only [hadd] at hrun
      simp only [hadd']
      have hset : ∀ x, InReg reg x → (h.mem.set (topNode d.root st) (some { nds with edges := mapSet sgn c t.target nds.edges })) x =
          h.mem x := by
        intro x hx
        simp only [Mem.set]
        rw [if_neg]
        rintro rfl
        exact hpop.notReg _ (topNode_mem d.root st) hx
      have hm' : (h.mem.set (topNode d.root st) (some { nds with edges := mapSet sgn c t.target nds.edges })) t.target =
          some nd := by
        simp only [Mem.set]
        rw [if_neg (by intro h'; rw [h'] at htst; exact htst (topNode_mem d.root st))]
        exact hm
      have hcl := hc.regOk.closed.frame hset
      have hmm' : ∀ x, InReg reg x → liftM sgn d.root o (h.mem.set (topNode d.root st)
          (some { nds with edges := mapSet sgn c t.target nds.edges })) x = (h.mem.set (topNode d.root st)
          (some { nds with edges := mapSet sgn c t.target nds.edges })) x := fun x hx => liftM_ne (hrreg x hx)
      simp only [register, deref, hm', hc.minimized, bind, Except.bind] at hrun
      simp only [register, liftH, liftD, deref, liftM_ne htr, hm', hc.minimized, bind, Except.bind,
        nodeHash_frame hcl hmm' fuel hZ]
      cases hk : nodeHash (h.mem.set (topNode d.root st) (some { nds with edges := mapSet sgn c t.target nds.edges })) fuel nd with
      | error => rw [hk] at hrun; simp at hrun
      | ok k =>
        rw [hk] at hrun
        simp only at hrun ⊢
        rw [regSet_frame hcl hmm' fuel k hZ t.target reg hkeys]
        cases hr : regSet (h.mem.set (topNode d.root st) (some { nds with edges := mapSet sgn c t.target nds.edges })) fuel k nd
            t.target reg with
        | error => rw [hr] at hrun; simp at hrun
        | ok reg' =>
          rw [hr] at hrun
          simp only [Except.ok.injEq, Prod.mk.injEq] at hrun ⊢
          obtain ⟨rfl, rfl⟩ := hrun
          exact ⟨rfl, rfl⟩

end

section
variable {sgn : Bool} {addr : Nat → Nat} {c0 : Nat} {m0 : Mem} {o : DNode}

theorem minimizeLoop_lift (haddr : AddrOk addr) (ho : o.edges.Pairwise (fun e f => charLt sgn e.1 f.1)) (s : Nat) (q : Str) (k : Nat)
    {h : Heap} {d : SDawg} {reg : List RegEntry} {st : List Trans} {fl : List Nat} {fs : List (UInt8 × Frame)} {rf : Frame}
    (hc : Core sgn addr c0 m0 h d reg st fl fs rf) (hk : k ≤ st.length)
    (hne : 0 < k → (topFrame fs rf).fin = true ∨ (topFrame fs rf).kids ≠ .nil)
    (hL : ∀ c t, Lang fs rf (c :: t) → NewLetter o c) (hP : ∀ c, (path fs).head? = some c → NewLetter o c)
    {h' : Heap} {d' : SDawg} (hrun : Ends (fun fuel => minimizeLoop sgn fuel k h d) (h', d')) :
    Ends (fun fuel => minimizeLoop sgn fuel k (liftH sgn (addr c0) o h) (liftD s q d))
      (liftH sgn (addr c0) o h', liftD s q d') := by
  induction k generalizing h d reg st fs rf with
  | zero =>
    obtain ⟨N, hN⟩ := hrun
    have := hN N (Nat.le_refl _)
    simp only [minimizeLoop, Except.ok.injEq, Prod.mk.injEq] at this
    obtain ⟨rfl, rfl⟩ := this
    exact .of_eq fun _ => rfl
  | succ k ih =>
    have hlen := hc.stack.length
    cases st with
    | nil => simp at hk
    | cons t st =>
      cases fs with
      | nil => simp at hlen
      | cons e fs =>
        obtain ⟨c, f⟩ := e
        have hlab := hc.fits.1
        have hlabne : ∀ e ∈ (topFrame fs rf).kids.toList, e.1 ≠ c := fun e he h' => by
          have := hlab e he; rw [h'] at this; omega
        obtain ⟨h1, d1, reg1, ⟨N1, hN1⟩, hc1, hp, hs, hcnt⟩ := minimizeStep_spec hc haddr (hne (by omega))
        have htail : Ends (fun fuel => minimizeLoop sgn fuel k h1 d1) (h', d') := by
          obtain ⟨N, hN⟩ := hrun
          refine ⟨max N N1, fun n hn => ?_⟩
          have e1 := hN n (by omega)
          have e2 := hN1 n (by omega)
          simp only at e1 e2
          simp only [minimizeLoop, e2, bind, Except.bind] at e1
          exact e1
        have := ih hc1 (by simpa using hk) (fun _ => .inr (by rw [topFrame_set]; exact Forest.ins_ne_nil))
          (fun c' t ht => hL c' t ((lang_down hlabne _).1 ht))
          (fun c' hc' => hP c' (by
            rw [path_setTop] at hc'
            rw [path_cons]
            cases hpf : path fs with
            | nil => rw [hpf] at hc'; simp at hc'
            | cons x y => rw [hpf] at hc'; simpa using hc'))
          htail
        obtain ⟨N2, hN2⟩ := this
        refine ⟨max N1 N2, fun n hn => ?_⟩
        have e1 := minimizeStep_lift ho hc hL hP s q (hN1 n (by omega))
        have e2 := hN2 n (by omega)
        rw [hc.root] at e1
        simp only [minimizeLoop, e1, bind, Except.bind]
        exact e2

theorem newNode_lift {addr' : Nat → Nat} {r : Nat} {h : Heap} (ha : addr h.count = addr' h.count) (hr : addr' h.count ≠ r) :
    newNode addr (liftH sgn r o h) = ((newNode addr' h).1, liftH sgn r o (newNode addr' h).2) := by
  simp only [newNode, liftH, ha, liftM_set_ne hr]

theorem pushSuffix_lift {addr' : Nat → Nat} {r n : Nat} (s : Nat) (q : Str) (ha : ∀ j, n ≤ j → addr j = addr' j)
    (hr : ∀ j, n ≤ j → addr' j ≠ r) (rest : Str) {src a : Nat} {h h' : Heap} {d d' : SDawg} (hn : n ≤ h.count)
    (hrun : pushSuffix addr' src rest h d = .ok (a, h', d')) :
    pushSuffix addr src rest (liftH sgn r o h) (liftD s q d) = .ok (a, liftH sgn r o h', liftD s q d') := by
  induction rest generalizing src h d with
  | nil =>
    simp only [pushSuffix, Except.ok.injEq, Prod.mk.injEq] at hrun ⊢
    obtain ⟨rfl, rfl, rfl⟩ := hrun
    exact ⟨rfl, rfl, rfl⟩
  | cons c rest ih =>
    rw [pushSuffix] at hrun ⊢
    have hf : (liftD s q d).floating = d.floating := rfl
    have hu : (liftD s q d).unchecked = d.unchecked := rfl
    have hnew := newNode_lift (sgn := sgn) (o := o) (ha h.count hn) (hr h.count hn)
    rw [hf, hu]
    split at hrun
    · next fl st hfl hst =>
      simp only at hrun
      rw [hnew]
      exact ih (by simp [newNode]; omega) hrun
    · cases hrun

theorem setFinal_lift {r a : Nat} {h h' : Heap} (hrun : setFinal a h = .ok h') :
    setFinal a (liftH sgn r o h) = .ok (liftH sgn r o h') := by
  simp only [setFinal, deref, bind, Except.bind] at hrun
  cases hm : h.mem a with
  | none => rw [hm] at hrun; cases hrun
  | some nd =>
    rw [hm] at hrun
    simp only [Except.ok.injEq] at hrun
    subst hrun
    by_cases har : a = r
    · subst har
      have hlm : liftM sgn a o h.mem a = some (liftN sgn o nd) := liftM_root hm
      simp only [setFinal, liftH, deref, hlm, bind, Except.bind, liftM_set_root]
      simp [liftN]
    · have hlm : liftM sgn r o h.mem a = some nd := by rw [liftM_ne har]; exact hm
      simp only [setFinal, liftH, deref, hlm, bind, Except.bind, liftM_set_ne har]

/-- Adding a term when both have the same last term. -/
theorem addTerm_lift {addr' : Nat → Nat} {n : Nat} (haddr : AddrOk addr') (ho : o.edges.Pairwise (fun e f => charLt sgn e.1 f.1))
    (s : Nat) (ha : ∀ j, n ≤ j → addr j = addr' j) (hr : ∀ j, n ≤ j → addr' j ≠ addr' c0)
    {terms : List Str} {h : Heap} {d : SDawg} (hb : Built sgn addr' c0 m0 terms h d) (hn : n ≤ h.count)
    (term : Str) (hlt : strLt term d.prev = false) (hL : ∀ c t, c :: t ∈ terms → NewLetter o c) {h' : Heap} {d' : SDawg}
    (hrun : Ends (fun fuel => addTerm sgn addr' fuel term h d) (true, h', d')) :
    Ends (fun fuel => addTerm sgn addr fuel term (liftH sgn (addr' c0) o h) (liftD s d.prev d))
      (true, liftH sgn (addr' c0) o h', liftD s d'.prev d') := by
  obtain ⟨⟨reg, st, fl, fs, rf, hc, hpath, hnil, hfin, hlang⟩, hprev, hsize⟩ := hb
  have hlen := hc.stack.length
  have hroot := hc.root
  by_cases hterm : term = []
  · subst hterm
    obtain ⟨N, hN⟩ := hrun
    have e := hN N (Nat.le_refl _)
    simp only [addTerm, hlt, Bool.false_eq_true, if_false, if_true, bind, Except.bind] at e
    cases hf : setFinal d.root h with
    | error => rw [hf] at e; cases e
    | ok h1 =>
      rw [hf] at e
      simp only [Except.ok.injEq, Prod.mk.injEq, true_and] at e
      obtain ⟨rfl, rfl⟩ := e
      refine .of_eq fun n => ?_
      have hl := setFinal_lift (sgn := sgn) (o := o) (r := addr' c0) hf
      have hlr : (liftD s d.prev d).root = d.root := rfl
      have hlp : (liftD s d.prev d).prev = d.prev := rfl
      simp only [addTerm, hlp, hlr, hlt, Bool.false_eq_true, if_false, if_true, bind, Except.bind, hl]
      simp only [liftD, Except.ok.injEq, Prod.mk.injEq, true_and]
      congr 1
      omega
  · obtain ⟨p, x, y, hx, hy, hplen, hcase⟩ := commonPrefix_spec term d.prev hlt
    have hprevlen : st.length = d.prev.length := by rw [← hpath]; simp [path, hlen]
    have hmne : 0 < st.length - commonPrefix term d.prev → (topFrame fs rf).fin = true := fun hpos => hfin (by
        rintro rfl
        simp at hlen
        rw [← hlen] at hpos
        simp at hpos)
    obtain ⟨h1, d1, reg1, st1, fs1, rf1, hrun1, hc1, hpath1, hlang1, hp1, hs1, hcnt1, _⟩ :=
      minimizeLoop_spec haddr (st.length - commonPrefix term d.prev) hc (by omega) (fun hpos => .inl (hmne hpos))
    have hL' : ∀ c t, Lang fs rf (c :: t) → NewLetter o c := fun c t h' => hL c t ((hlang _).1 h')
    have hP' : ∀ c, (path fs).head? = some c → NewLetter o c := by
      intro c hcc
      rw [hpath, hprev] at hcc
      cases hg : terms.getLast? with
      | none => rw [hg] at hcc; simp at hcc
      | some w =>
        rw [hg] at hcc
        simp only [Option.getD_some] at hcc
        cases w with
        | nil => simp at hcc
        | cons c' w =>
          simp only [List.head?_cons, Option.some.injEq] at hcc
          subst hcc
          exact hL c' w (List.mem_of_getLast? hg)
    have hlift := minimizeLoop_lift haddr ho s d.prev _ hc (by omega) (fun hpos => .inl (hmne hpos)) hL' hP' hrun1
    obtain ⟨N, hN⟩ := hrun
    obtain ⟨N1, hN1⟩ := hrun1
    obtain ⟨N2, hN2⟩ := hlift
    refine ⟨max N (max N1 N2), fun fuel hf => ?_⟩
    have e := hN fuel (by omega)
    have e1 := hN1 fuel (by omega)
    have e2 := hN2 fuel (by omega)
    simp only at e1 e2
    have hmin : minimize sgn fuel (commonPrefix term d.prev) h d = .ok (h1, d1) := by
      rw [minimize, hc.unchecked]; exact e1
    have hmin' : minimize sgn fuel (commonPrefix term d.prev) (liftH sgn (addr' c0) o h) (liftD s d.prev d) =
        .ok (liftH sgn (addr' c0) o h1, liftD s d.prev d1) := by
      have hu : (liftD s d.prev d).unchecked = some st := hc.unchecked
      rw [minimize, hu]; exact e2
    have hsrc : ∀ d1 : SDawg, suffixSource (liftD s d.prev d1) = suffixSource d1 := fun _ => rfl
    have hlp : (liftD s d.prev d).prev = d.prev := rfl
    simp only [addTerm, hlt, hterm, Bool.false_eq_true, if_false, hmin, bind, Except.bind] at e
    simp only [addTerm, hlp, hlt, hterm, Bool.false_eq_true, if_false, hmin', bind, Except.bind, hsrc]
    cases hso : suffixSource d1 with
    | error => rw [hso] at e; cases e
    | ok src =>
      rw [hso] at e
      simp only at e ⊢
      cases hpu : pushSuffix addr' src (term.drop (commonPrefix term d.prev)) h1 d1 with
      | error => rw [hpu] at e; cases e
      | ok w =>
        obtain ⟨a, h2, d2⟩ := w
        rw [hpu] at e
        simp only at e ⊢
        rw [pushSuffix_lift s d.prev ha hr _ (by omega) hpu]
        simp only
        cases hfi : setFinal a h2 with
        | error => rw [hfi] at e; cases e
        | ok h3 =>
          rw [hfi] at e
          rw [setFinal_lift hfi]
          simp only [Except.ok.injEq, Prod.mk.injEq, true_and] at e ⊢
          obtain ⟨rfl, rfl⟩ := e
          refine ⟨rfl, ?_⟩
          simp only [liftD]
          congr 1
          omega

/-- The first term: the part after the prefix it has in common with the last term `q` of the finished dictionary is attached to
the root. -/
theorem addTerm_first {addr' : Nat → Nat} {n : Nat} (s : Nat) (ha : ∀ j, n ≤ j → addr j = addr' j)
    (hr : ∀ j, n ≤ j → addr' j ≠ addr' c0) {h : Heap} {d : SDawg} (hu : d.unchecked = some []) (hp : d.prev = [])
    (hn : n ≤ h.count) (q term : Str) (hlt : strLt term q = false) {h' : Heap} {d' : SDawg}
    (hrun : Ends (fun fuel => addTerm sgn addr' fuel (term.drop (commonPrefix term q)) h d) (true, h', d')) :
    Ends (fun fuel => addTerm sgn addr fuel term (liftH sgn (addr' c0) o h) (liftD s q d))
      (true, liftH sgn (addr' c0) o h', liftD s term d') := by
  obtain ⟨N, hN⟩ := hrun
  refine .of_eq fun fuel => ?_
  have e := hN N (Nat.le_refl _)
  have hlp : (liftD s q d).prev = q := rfl
  have hlr : (liftD s q d).root = d.root := rfl
  have hlu : (liftD s q d).unchecked = some [] := hu
  have hl0 : ∀ t : Str, strLt t [] = false := fun t => by cases t <;> rfl
  have hc0' : ∀ t : Str, commonPrefix t [] = 0 := fun t => by cases t <;> rfl
  have hsrc : suffixSource (liftD s q d) = .ok d.root := by rw [suffixSource, hlu]; rfl
  have hsrc' : suffixSource d = .ok d.root := by rw [suffixSource, hu]
  have hmin : ∀ i, minimize sgn fuel i (liftH sgn (addr' c0) o h) (liftD s q d) = .ok (liftH sgn (addr' c0) o h, liftD s q d) := by
    intro i; rw [minimize, hlu]; simp [minimizeLoop]
  have hmin' : ∀ i fuel, minimize sgn fuel i h d = .ok (h, d) := by
    intro i fuel; rw [minimize, hu]; simp [minimizeLoop]
  by_cases hterm : term = []
  · subst hterm
    simp only [List.drop_nil, addTerm, hp, hl0, Bool.false_eq_true, if_false, if_true, bind, Except.bind] at e
    simp only [addTerm, hlp, hlr, hlt, Bool.false_eq_true, if_false, if_true, bind, Except.bind]
    cases hf : setFinal d.root h with
    | error => rw [hf] at e; cases e
    | ok h1 =>
      rw [hf] at e
      rw [setFinal_lift hf]
      simp only [Except.ok.injEq, Prod.mk.injEq, true_and] at e ⊢
      obtain ⟨rfl, rfl⟩ := e
      refine ⟨rfl, ?_⟩
      simp only [liftD]
      congr 1
      omega
  · simp only [addTerm, hlp, hlt, hterm, Bool.false_eq_true, if_false, hmin, bind, Except.bind, hsrc]
    generalize term.drop (commonPrefix term q) = w at e
    by_cases hw : w = []
    · subst hw
      simp only [addTerm, hp, hl0, Bool.false_eq_true, if_false, if_true, bind, Except.bind] at e
      simp only [pushSuffix]
      cases hf : setFinal d.root h with
      | error => rw [hf] at e; cases e
      | ok h1 =>
        rw [hf] at e
        rw [setFinal_lift hf]
        simp only [Except.ok.injEq, Prod.mk.injEq, true_and] at e ⊢
        obtain ⟨rfl, rfl⟩ := e
        refine ⟨rfl, ?_⟩
        simp only [liftD]
        congr 1
        omega
    · simp only [addTerm, hp, hl0, hw, Bool.false_eq_true, if_false, hmin', bind, Except.bind, hsrc', hc0', List.drop_zero] at e
      cases hpu : pushSuffix addr' d.root w h d with
      | error => rw [hpu] at e; cases e
      | ok z =>
        obtain ⟨a, h2, d2⟩ := z
        rw [hpu] at e
        simp only at e ⊢
        rw [pushSuffix_lift s q ha hr _ hn hpu]
        simp only
        cases hfi : setFinal a h2 with
        | error => rw [hfi] at e; cases e
        | ok h3 =>
          rw [hfi] at e
          rw [setFinal_lift hfi]
          simp only [Except.ok.injEq, Prod.mk.injEq, true_and] at e ⊢
          obtain ⟨rfl, rfl⟩ := e
          refine ⟨rfl, ?_⟩
          simp only [liftD]
          congr 1
          omega

end
/-! ### `clean_up` -/

theorem Unf.target {mem : Mem} {es : List (UInt8 × Nat)} {F : Forest} (h : Unf mem es F) {c : UInt8} {b : Nat}
    (hb : (c, b) ∈ es) : ∃ nb K, mem b = some nb ∧ Unf mem nb.edges K ∧ (c, nb.final, K) ∈ F.toList := by
  induction h with
  | nil => simp at hb
  | @cons l a nd es kids rest hm h1 _ _ ih2 =>
    simp only [Forest.toList, List.mem_cons]
    rcases List.mem_cons.1 hb with h | h
    · cases h; exact ⟨nd, kids, hm, h1, .inl rfl⟩
    · obtain ⟨nb, K, h3, h4, h5⟩ := ih2 h
      exact ⟨nb, K, h3, h4, .inr h5⟩

/-- No node is below itself. -/
theorem unf_acyclic {mem : Mem} {r : Nat} {nd : DNode} {F : Forest} (hm : mem r = some nd) (hF : Unf mem nd.edges F)
    {c : UInt8} {b : Nat} (hb : (c, b) ∈ nd.edges) : ¬ Reaches mem b r := by
  intro hr
  obtain ⟨nb, K, h1, h2, h3⟩ := hF.target hb
  have hlt := Forest.height_mem h3
  rcases reach_height hr h1 h2 hm hF with h | h
  · subst h
    rw [hm] at h1; obtain rfl := Option.some.inj h1
    rw [hF.unique h2] at hlt
    exact Nat.lt_irrefl _ hlt
  · omega

theorem unf_of_targets {mem : Mem} (es : List (UInt8 × Nat))
    (h : ∀ c b, (c, b) ∈ es → ∃ nb K, mem b = some nb ∧ Unf mem nb.edges K ∧ (nb.final = true ∨ K ≠ .nil) ∧ K.Trim) :
    ∃ F, Unf mem es F ∧ F.Trim := by
  induction es with
  | nil => exact ⟨.nil, .nil, trivial⟩
  | cons e es ih =>
    obtain ⟨c, b⟩ := e
    obtain ⟨F, h1, h2⟩ := ih fun c b hb => h c b (by simp [hb])
    obtain ⟨nb, K, h3, h4, h5, h6⟩ := h c b (by simp)
    exact ⟨.cons c nb.final K F, .cons h3 h4 h1, h5, h6, h2⟩

/-- What is below the edges of the old root. -/
def BelowOld (m : Mem) (o : DNode) (a : Nat) : Prop := ∃ c b, (c, b) ∈ o.edges ∧ Reaches m b a

/-- The old part: below the edges of the old root are live nodes, not the root. -/
structure Beside (m : Mem) (r : Nat) (o : DNode) : Prop where
  closed : Closed m (BelowOld m o)
  root : ¬ BelowOld m o r

theorem BelowOld.edge {m : Mem} {o : DNode} {c : UInt8} {b : Nat} (hb : (c, b) ∈ o.edges) : BelowOld m o b := ⟨c, b, hb, .refl⟩

/-- What is reachable from the root with the edges of both. -/
theorem reaches_lift {sgn : Bool} {m : Mem} {r : Nat} {o nd : DNode} {Z : Nat → Prop} (hm : m r = some nd)
    (hE : ∀ e, e ∈ mergeE sgn o.edges nd.edges ↔ e ∈ o.edges ∨ e ∈ nd.edges) (hZ : Closed m Z) (hr : ¬ Z r)
    (hnd : ∀ c b, (c, b) ∈ nd.edges → Z b) (hb : Beside m r o) (a : Nat) :
    Reaches (liftM sgn r o m) r a ↔ Reaches m r a ∨ BelowOld m o a := by
  have hcl : Closed m (fun a => Z a ∨ BelowOld m o a) := by
    rintro a (h | h)
    · obtain ⟨n, h1, h2⟩ := hZ a h
      exact ⟨n, h1, fun c b hb => .inl (h2 c b hb)⟩
    · obtain ⟨n, h1, h2⟩ := hb.closed a h
      exact ⟨n, h1, fun c b hb => .inr (h2 c b hb)⟩
  have hmm : ∀ a, Z a ∨ BelowOld m o a → liftM sgn r o m a = m a := by
    rintro a ha
    refine liftM_ne ?_
    rintro rfl
    rcases ha with h | h
    · exact hr h
    · exact hb.root h
  constructor
  · intro h
    cases h with
    | refl => exact .inl .refl
    | @step _ nd' c b _ h1 h2 h3 =>
      rw [liftM_root hm] at h1
      obtain rfl := Option.some.inj h1
      rcases (hE (c, b)).1 h2 with h2 | h2
      · exact .inr ⟨c, b, h2, (reaches_frame_iff hcl hmm (.inr (.edge h2)) a).1 h3⟩
      · exact .inl (.step hm h2 ((reaches_frame_iff hcl hmm (.inl (hnd c b h2)) a).1 h3))
  · rintro (h | ⟨c, b, h1, h2⟩)
    · cases h with
      | refl => exact .refl
      | @step _ nd' c b _ h1 h2 h3 =>
        rw [hm] at h1
        obtain rfl := Option.some.inj h1
        exact .step (liftM_root hm) ((hE (c, b)).2 (.inr h2)) ((reaches_frame_iff hcl hmm (.inl (hnd c b h2)) a).2 h3)
    · exact .step (liftM_root hm) ((hE (c, b)).2 (.inl h1)) ((reaches_frame_iff hcl hmm (.inr (.edge h1)) a).2 h2)

section
variable {sgn : Bool} {addr : Nat → Nat} {c0 : Nat} {m0 : Mem} {o : DNode} {h : Heap} {d : SDawg} {reg : List RegEntry}
  {st : List Trans} {fl : List Nat} {fs : List (UInt8 × Frame)} {rf : Frame}

theorem cleanUp_lift (hc : Core sgn addr c0 m0 h d reg st fl fs rf) (haddr : AddrOk addr)
    (hL : ∀ c t, Lang fs rf (c :: t) → NewLetter o c) (hbes : Beside h.mem (addr c0) o) {F0 : Forest} (hF0 : Unf h.mem o.edges F0)
    (hout : ∀ a, BelowOld h.mem o a → ¬ InRange addr c0 h a) (s : Nat) (q : Str) {h' : Heap} {d' : SDawg}
    (hrun : Ends (fun fuel => cleanUp fuel h d) (h', d')) :
    Ends (fun fuel => cleanUp fuel (liftH sgn (addr c0) o h) (liftD s q d)) (liftH sgn (addr c0) o h', liftD s q d') := by
  have hroot := hc.root
  obtain ⟨nd, hm, _, hF, hsn, hZ⟩ := hc.stack.rootNode
  have hE := mem_mergeE (sgn := sgn) hsn (hc.root_labels hL hm)
  rw [hroot] at hm
  have hnr : ¬ InReg reg (addr c0) := by rw [← hroot]; exact hc.notReg _ (by simp [stackNodes])
  have hreach := reaches_lift hm hE hc.regOk.closed hnr hZ hbes
  have hcl : Closed h.mem (fun a => InReg reg a ∨ BelowOld h.mem o a) := by
    rintro a (h | h)
    · obtain ⟨n, h1, h2⟩ := hc.regOk.closed a h
      exact ⟨n, h1, fun c b hb => .inl (h2 c b hb)⟩
    · obtain ⟨n, h1, h2⟩ := hbes.closed a h
      exact ⟨n, h1, fun c b hb => .inr (h2 c b hb)⟩
  have hmm : ∀ a, InReg reg a ∨ BelowOld h.mem o a → liftM sgn (addr c0) o h.mem a = h.mem a := by
    rintro a ha
    refine liftM_ne ?_
    rintro rfl
    rcases ha with h | h
    · exact hnr h
    · exact hbes.root h
  have hunf : ∃ F, Unf (liftM sgn (addr c0) o h.mem) (liftN sgn o nd).edges F := by
    have : ∀ es : List (UInt8 × Nat), (∀ e ∈ es, e ∈ o.edges ∨ e ∈ nd.edges) → ∃ F, Unf (liftM sgn (addr c0) o h.mem) es F := by
      intro es hes
      induction es with
      | nil => exact ⟨.nil, .nil⟩
      | cons e es ih =>
        obtain ⟨F, hF'⟩ := ih fun e he => hes e (by simp [he])
        obtain ⟨c, b⟩ := e
        rcases hes (c, b) (by simp) with h1 | h1
        · obtain ⟨nb, K, h2, h3, _⟩ := hF0.target h1
          have hzb : InReg reg b ∨ BelowOld h.mem o b := .inr (.edge h1)
          obtain ⟨nb', h2', h4⟩ := hcl b hzb
          rw [h2] at h2'; obtain rfl := Option.some.inj h2'
          exact ⟨_, .cons (by rw [hmm b hzb]; exact h2) (h3.frame hcl hmm h4) hF'⟩
        · obtain ⟨nb, K, h2, h3, _⟩ := hF.target h1
          have hzb : InReg reg b ∨ BelowOld h.mem o b := .inl (hZ c b h1)
          obtain ⟨nb', h2', h4⟩ := hcl b hzb
          rw [h2] at h2'; obtain rfl := Option.some.inj h2'
          exact ⟨_, .cons (by rw [hmm b hzb]; exact h2) (h3.frame hcl hmm h4) hF'⟩
    exact this _ fun e he => (hE e).1 he
  obtain ⟨F', hF'⟩ := hunf
  obtain ⟨r, ⟨N, hN⟩, hnd, hmem⟩ := allNodes_spec hm hF
  obtain ⟨r', ⟨N', hN'⟩, hnd', hmem'⟩ := allNodes_spec (liftM_root (sgn := sgn) (o := o) hm) hF'
  have hfloat : ∀ a ∈ fl, InRange addr c0 h a ∧ a ≠ addr c0 := by
    intro a ha
    obtain ⟨j, h1, h2, rfl⟩ := (hc.float.2 a).1 ha
    exact ⟨⟨j, by omega, h2, rfl⟩, fun h' => by have := haddr.2 _ _ h'; omega⟩
  have hfilter : fl.filter (fun a => decide (a ∉ r')) = fl.filter (fun a => decide (a ∉ r)) := by
    refine List.filter_congr fun a ha => ?_
    have : a ∈ r' ↔ a ∈ r := by
      rw [hmem', hreach, hmem]
      exact ⟨fun h' => h'.resolve_right fun h'' => hout a h'' (hfloat a ha).1, .inl⟩
    simp [this]
  have hlive : ∀ a ∈ fl.filter (fun a => decide (a ∉ r)), h.mem a ≠ none := by
    intro a ha
    obtain ⟨j, h1, h2, rfl⟩ := (hc.float.2 a).1 (List.mem_filter.1 ha).1
    exact hc.heap.live j (by omega) h2
  have hdel := deleteAll_spec (l := fl.filter (fun a => decide (a ∉ r))) (h := h) (hc.float.1.filter _) hc.heap.null hlive
  have h0 : (liftH sgn (addr c0) o h).mem 0 = none := by
    simp only [liftH]
    rw [liftM_ne (fun h => haddr.1 c0 h.symm)]
    exact hc.heap.null
  have hdel' := deleteAll_spec (l := fl.filter (fun a => decide (a ∉ r))) (h := liftH sgn (addr c0) o h) (hc.float.1.filter _) h0 (by
    intro a ha
    simp only [liftH]
    rw [liftM_ne (hfloat a (List.mem_filter.1 ha).1).2]
    exact hlive a ha)
  obtain ⟨M, hM⟩ := hrun
  have e := hM (max M N) (by omega)
  have e1 := hN (max M N) (by omega)
  simp only at e1
  simp only [cleanUp, hc.floating, hroot, e1, bind, Except.bind, hdel, Except.ok.injEq, Prod.mk.injEq] at e
  obtain ⟨rfl, rfl⟩ := e
  refine ⟨N', fun fuel hf => ?_⟩
  have e2 := hN' fuel hf
  have hfl : (liftD s q d).floating = some fl := hc.floating
  have hlr : (liftD s q d).root = addr c0 := hroot
  simp only at e2
  simp only [cleanUp, hfl, hlr, bind, Except.bind]
  rw [show (liftH sgn (addr c0) o h).mem = liftM sgn (addr c0) o h.mem from rfl, e2]
  simp only [hfilter, hdel', Except.ok.injEq, Prod.mk.injEq]
  refine ⟨?_, rfl⟩
  simp only [liftH]
  congr 1
  funext a
  by_cases har : a = addr c0
  · subst har
    have : addr c0 ∉ fl.filter (fun a => decide (a ∉ r)) := fun h' => (hfloat _ (List.mem_filter.1 h').1).2 rfl
    simp only [liftM, this, if_false]
  · simp only [liftM, har, if_false]

end
/-! ### The dictionary resumed -/

/-- The same addresses, two of them exchanged. -/
def swapAddr (addr : Nat → Nat) (i j : Nat) : Nat → Nat := fun k => if k = i then addr j else if k = j then addr i else addr k

theorem swapAddr_ok {addr : Nat → Nat} (h : AddrOk addr) (i j : Nat) : AddrOk (swapAddr addr i j) := by
  refine ⟨fun k => ?_, fun k l hkl => ?_⟩
  · simp only [swapAddr]
    split
    · exact h.1 _
    · split <;> exact h.1 _
  · simp only [swapAddr] at hkl
    split at hkl <;> split at hkl <;> (try split at hkl) <;> (try split at hkl) <;> (have := h.2 _ _ hkl; omega)

theorem swapAddr_ge {addr : Nat → Nat} {i j k : Nat} (hi : i < k) (hj : j < k) : swapAddr addr i j k = addr k := by
  simp only [swapAddr]
  rw [if_neg (by omega), if_neg (by omega)]

/-- A dictionary that nobody is adding to: `L` is what it accepts, `addr r` the address of its root, and all that has been allocated
since there were `c0` nodes is either part of it or gone. -/
structure Whole (sgn : Bool) (addr : Nat → Nat) (c0 r : Nat) (m0 : Mem) (L : Str → Prop) (h : Heap) (d : SDawg) : Prop where
  root : d.root = addr r
  lo : c0 ≤ r
  count : r < h.count
  ptrs : d.unchecked = none ∧ d.minimized = none ∧ d.floating = none
  null : h.mem 0 = none
  fresh : ∀ j, h.count ≤ j → h.mem (addr j) = none
  old : ∀ a, ¬ InRange addr c0 h a → h.mem a = m0 a
  alive : ∀ a, InRange addr c0 h a → (h.mem a ≠ none ↔ Reaches h.mem d.root a)
  range : ∀ a, Reaches h.mem d.root a → InRange addr c0 h a
  dict : ∃ nd F, h.mem d.root = some nd ∧ Unf h.mem nd.edges F ∧ F.Trim ∧ F.Sorted sgn ∧
    DictNode sgn h.mem (F.height + 1) d.root
  accepts : ∀ t, Accepts h.mem d.root t ↔ L t

theorem Finished.whole {sgn : Bool} {addr : Nat → Nat} {c0 : Nat} {m0 : Mem} {ts : List Str} {h : Heap} {d : SDawg}
    (hf : Finished sgn addr c0 m0 ts h d) : Whole sgn addr c0 c0 m0 (· ∈ ts) h d :=
  ⟨hf.root, Nat.le_refl _, hf.count, hf.ptrs, hf.null, hf.fresh, hf.old, hf.alive, hf.range, hf.dict, hf.accepts⟩

theorem Whole.closed {sgn : Bool} {addr : Nat → Nat} {c0 r : Nat} {m0 : Mem} {L : Str → Prop} {h : Heap} {d : SDawg}
    (hf : Whole sgn addr c0 r m0 L h d) : Closed h.mem (Reaches h.mem d.root) := by
  obtain ⟨nd, F, h1, h2, h3, h4, h5⟩ := hf.dict
  exact DictNode.closed h5

theorem Whole.destroy_count {sgn : Bool} {addr : Nat → Nat} {c0 r : Nat} {m0 : Mem} {L : Str → Prop} {h : Heap} {d : SDawg}
    (hf : Whole sgn addr c0 r m0 L h d) (hfresh : ∀ j, c0 ≤ j → m0 (addr j) = none) :
    ∃ h', Ends (fun fuel => destroyDawg fuel h d) h' ∧ h'.count = h.count ∧ ∀ a, h'.mem a = m0 a := by
  obtain ⟨nd, F, h1, h2, h3, h4, h5⟩ := hf.dict
  obtain ⟨h', hrun, hcount, hdead, hold⟩ := deleteReach_spec h1 h2 hf.null (DictNode.closed h5)
  refine ⟨h', hrun.congr fun n => ?_, hcount, fun a => ?_⟩
  · simp only [destroyDawg, cleanUp, hf.ptrs.2.2, bind, Except.bind]
  · by_cases ha : Reaches h.mem d.root a
    · rw [hdead a ha]
      obtain ⟨j, h6, _, rfl⟩ := hf.range a ha
      exact (hfresh j h6).symm
    · rw [hold a ha]
      by_cases hr : InRange addr c0 h a
      · have : h.mem a = none := by
          by_cases hn : h.mem a = none
          · exact hn
          · exact absurd ((hf.alive a hr).1 hn) ha
        rw [this]
        obtain ⟨j, h6, _, rfl⟩ := hr
        exact (hfresh j h6).symm
      · exact hf.old a hr

theorem Whole.destroy {sgn : Bool} {addr : Nat → Nat} {c0 r : Nat} {m0 : Mem} {L : Str → Prop} {h : Heap} {d : SDawg}
    (hf : Whole sgn addr c0 r m0 L h d) (hfresh : ∀ j, c0 ≤ j → m0 (addr j) = none) :
    ∃ h', Ends (fun fuel => destroyDawg fuel h d) h' ∧ ∀ a, h'.mem a = m0 a := by
  obtain ⟨h', h1, _, h2⟩ := hf.destroy_count hfresh
  exact ⟨h', h1, h2⟩

theorem Whole.dictionary {sgn : Bool} {addr : Nat → Nat} {c0 r : Nat} {m0 : Mem} {L : Str → Prop} {h : Heap} {d : SDawg}
    (hf : Whole sgn addr c0 r m0 L h d) (hb : ∀ t, L t → t.length < 2 ^ 62) : Dictionary sgn h.mem d.root := by
  obtain ⟨nd, F, h1, h2, h3, h4, h5⟩ := hf.dict
  refine ⟨_, ?_, h5⟩
  by_cases hne : F = .nil
  · subst hne; simp [Forest.height]
  · obtain ⟨t, h6, h7⟩ := h3.long hne
    have := hb t ((hf.accepts t).1 ((accepts_iff h1 h2 t).2 (.inr h6)))
    omega

section
variable {sgn : Bool} {addr : Nat → Nat} {c0 r : Nat} {m0 : Mem} {L : Str → Prop} {h : Heap} {d : SDawg}

/-- The empty dictionary with its root at the address of the root of a finished one. -/
def emptied (h : Heap) (r : Nat) : Heap := ⟨h.mem.set r none, h.count - 1⟩

/-- The addresses, with that of the root last before the ones not used yet. -/
def rootLast (addr : Nat → Nat) (r : Nat) (h : Heap) : Nat → Nat := swapAddr addr (h.count - 1) r

theorem Whole.rootLast_root (hf : Whole sgn addr c0 r m0 L h d) : rootLast addr r h (h.count - 1) = d.root := by
  rw [hf.root]; simp [rootLast, swapAddr]

theorem Whole.rootLast_ge (hf : Whole sgn addr c0 r m0 L h d) {j : Nat} (hj : h.count ≤ j) : rootLast addr r h j = addr j := by
  have := hf.count
  exact swapAddr_ge (by omega) (by omega)

theorem Whole.emptied_built (haddr : AddrOk addr) (hf : Whole sgn addr c0 r m0 L h d) :
    Built sgn (rootLast addr r h) (h.count - 1) (emptied h d.root).mem [] (newDawg (rootLast addr r h) (emptied h d.root)).1
      (initDawg (newDawg (rootLast addr r h) (emptied h d.root)).2) := by
  have hc := hf.count
  refine newDawg_built (addr := rootLast addr r h) (h := emptied h d.root) (swapAddr_ok haddr _ _) ?_ ?_
  · simp only [emptied, Mem.set]
    split
    · rfl
    · exact hf.null
  · intro j hj
    simp only [emptied] at hj
    simp only [emptied, Mem.set]
    split
    · rfl
    · next hne =>
      by_cases hj' : j = h.count - 1
      · rw [hj', hf.rootLast_root] at hne; exact absurd rfl hne
      · rw [hf.rootLast_ge (by omega)]
        exact hf.fresh j (by omega)

theorem Whole.emptied_lift (hf : Whole sgn addr c0 r m0 L h d) {o : DNode} (ho : h.mem d.root = some o) :
    liftH sgn d.root o (newDawg (rootLast addr r h) (emptied h d.root)).1 = h ∧
      liftD d.size d.prev (initDawg (newDawg (rootLast addr r h) (emptied h d.root)).2) = initDawg d := by
  have hc := hf.count
  have hr := hf.rootLast_root
  constructor
  · simp only [newDawg, newNode, liftH, emptied, hr]
    rw [liftM_set_root]
    obtain ⟨mem, cnt⟩ := h
    simp only at *
    congr 1
    · funext a
      simp only [Mem.set, liftM]
      by_cases ha : a = d.root
      · rw [if_pos ha, ha, ho]; simp [liftN, mergeE]
      · simp [ha]
    · omega
  · obtain ⟨root, size, u, m, f, prev⟩ := d
    simp only [liftD, newDawg, newNode, initDawg, emptied] at hr ⊢
    rw [hr]
    simp

end

/-- What is below the edges of a node is closed and the node is not there. -/
theorem below_closed {m : Mem} {r : Nat} {o : DNode} {F : Forest} (hm : m r = some o) (_ : Unf m o.edges F)
    (hcl : Closed m (Reaches m r)) : Closed m (BelowOld m o) ∧ ∀ a, Reaches m r a ↔ a = r ∨ BelowOld m o a := by
  have hiff : ∀ a, Reaches m r a ↔ a = r ∨ BelowOld m o a := by
    intro a
    constructor
    · intro h
      cases h with
      | refl => exact .inl rfl
      | step h1 h2 h3 =>
        rw [hm] at h1; obtain rfl := Option.some.inj h1
        exact .inr ⟨_, _, h2, h3⟩
    · rintro (rfl | ⟨c, b, hb, hr⟩)
      · exact .refl
      · exact .step hm hb hr
  refine ⟨?_, hiff⟩
  rintro a ⟨c, b, hb, hr⟩
  obtain ⟨n, h6, h7⟩ := hcl a (.step hm hb hr)
  refine ⟨n, h6, fun c' b' hb' => ⟨c, b, hb, ?_⟩⟩
  have app : ∀ x y, Reaches m x y → ∀ n c z, m y = some n → (c, z) ∈ n.edges → Reaches m x z := by
    intro x y hxy
    induction hxy with
    | refl => exact fun n c z hm hz => .step hm hz .refl
    | step hm hb _ ih => exact fun n c z hm' hz => .step hm hb (ih n c z hm' hz)
  exact app _ _ hr n c' b' h6 hb'

theorem DictNode.reach {sgn : Bool} {mem : Mem} {d a x : Nat} (h : DictNode sgn mem d a) (hx : Reaches mem a x) :
    ∃ d', DictNode sgn mem d' x := by
  induction hx generalizing d with
  | refl => exact ⟨d, h⟩
  | step hm hb _ ih =>
    cases h with
    | mk hm' _ hk =>
      rw [hm] at hm'; obtain rfl := Option.some.inj hm'
      exact ih (hk _ _ hb)

theorem accepts_node {mem : Mem} {a : Nat} {nd : DNode} (hm : mem a = some nd) (t : Str) :
    Accepts mem a t ↔ (t = [] ∧ nd.final = true) ∨ ∃ c b u, t = c :: u ∧ (c, b) ∈ nd.edges ∧ Accepts mem b u := by
  constructor
  · intro h
    cases h with
    | here h1 h2 =>
      rw [hm] at h1; obtain rfl := Option.some.inj h1
      exact .inl ⟨rfl, h2⟩
    | step h1 h2 h3 =>
      rw [hm] at h1; obtain rfl := Option.some.inj h1
      exact .inr ⟨_, _, _, rfl, h2, h3⟩
  · rintro (⟨rfl, h⟩ | ⟨c, b, u, rfl, h1, h2⟩)
    · exact .here hm h
    · exact .step hm h1 h2

section
variable {sgn : Bool} {addr : Nat → Nat} {c0 r : Nat} {m0 : Mem} {L : Str → Prop} {h : Heap} {d : SDawg}

theorem Whole.below (hf : Whole sgn addr c0 r m0 L h d) {o : DNode} (ho : h.mem d.root = some o) :
    Closed h.mem (BelowOld h.mem o) ∧ (∀ a, Reaches h.mem d.root a ↔ a = d.root ∨ BelowOld h.mem o a) ∧
      ¬ BelowOld h.mem o d.root ∧ o.edges.Pairwise (fun e f => charLt sgn e.1 f.1) ∧
      (∀ c b, (c, b) ∈ o.edges → ∃ nb K, h.mem b = some nb ∧ Unf h.mem nb.edges K ∧ (nb.final = true ∨ K ≠ .nil) ∧ K.Trim) ∧
      (∀ a nd, BelowOld h.mem o a → h.mem a = some nd → nd.edges.Pairwise (fun e f => charLt sgn e.1 f.1)) ∧
      (∃ F, Unf h.mem o.edges F) ∧ ∀ c b, (c, b) ∈ o.edges → ∃ u, L (c :: u) := by
  obtain ⟨nd, F, h1, h2, h3, h4, h5⟩ := hf.dict
  rw [ho] at h1; obtain rfl := Option.some.inj h1
  obtain ⟨h6, h7⟩ := below_closed ho h2 hf.closed
  refine ⟨h6, h7, ?_, ?_, ?_, ?_, ⟨F, h2⟩, ?_⟩
  · rintro ⟨c, b, hb, hr⟩; exact unf_acyclic ho h2 hb hr
  · cases h5 with
    | mk hm hs _ =>
      rw [ho] at hm; obtain rfl := Option.some.inj hm
      exact hs
  · intro c b hb
    obtain ⟨nb, K, h8, h9, h10⟩ := h2.target hb
    have := Forest.trim_iff.1 h3 _ h10
    exact ⟨nb, K, h8, h9, this.1, this.2⟩
  · intro a nd ha hm
    obtain ⟨_, hd⟩ := DictNode.reach h5 ((h7 a).2 (.inr ha))
    cases hd with
    | mk hm' hs _ =>
      rw [hm] at hm'; obtain rfl := Option.some.inj hm'
      exact hs
  · intro c b hb
    obtain ⟨nb, K, h8, h9, h10⟩ := h2.target hb
    have ht := Forest.trim_iff.1 h3 _ h10
    have hu : ∃ u, AccT nb.final K u := by
      rcases ht.1 with h | h
      · exact ⟨[], .inl ⟨rfl, h⟩⟩
      · obtain ⟨u, hu⟩ := ht.2.exists_acc h
        exact ⟨u, .inr hu⟩
    obtain ⟨u, hu⟩ := hu
    exact ⟨u, (hf.accepts _).1 ((accepts_iff ho h2 _).2 (.inr (Forest.acc_cons.2 ⟨_, K, h10, hu⟩)))⟩

/-- The old part stays as it is during the new construction. -/
theorem Whole.beside (hf : Whole sgn addr c0 r m0 L h d) {o : DNode} (ho : h.mem d.root = some o)
    {gm : Mem} (hold : ∀ a, h.mem a ≠ none → a ≠ d.root → gm a = h.mem a) :
    Beside gm d.root o ∧ (∀ a, BelowOld gm o a ↔ BelowOld h.mem o a) ∧ (∀ a, BelowOld h.mem o a → gm a = h.mem a) := by
  obtain ⟨hclo, hrc, hnr, _⟩ := hf.below ho
  have hmm : ∀ a, BelowOld h.mem o a → gm a = h.mem a := by
    intro a ha
    obtain ⟨n, h6, _⟩ := hclo a ha
    exact hold a (by rw [h6]; simp) (fun h' => hnr (h' ▸ ha))
  have hiff : ∀ a, BelowOld gm o a ↔ BelowOld h.mem o a := by
    intro a
    constructor
    · rintro ⟨c, b, hb, hr⟩; exact ⟨c, b, hb, (reaches_frame_iff hclo hmm (.edge hb) a).1 hr⟩
    · rintro ⟨c, b, hb, hr⟩; exact ⟨c, b, hb, (reaches_frame_iff hclo hmm (.edge hb) a).2 hr⟩
  refine ⟨⟨?_, fun h' => hnr ((hiff _).1 h')⟩, hiff, hmm⟩
  intro a ha
  obtain ⟨n, h6, h7⟩ := hclo.frame hmm a ((hiff a).1 ha)
  exact ⟨n, h6, fun c b hb => (hiff b).2 (h7 c b hb)⟩

/-- Addresses of the new construction. -/
theorem Whole.rootLast_range (hf : Whole sgn addr c0 r m0 L h d) {gh : Heap} {a : Nat}
    (ha : InRange (rootLast addr r h) (h.count - 1) gh a) : a = d.root ∨ ∃ j, h.count ≤ j ∧ j < gh.count ∧ a = addr j := by
  obtain ⟨j, h1, h2, rfl⟩ := ha
  by_cases hj : j = h.count - 1
  · left; rw [hj]; exact hf.rootLast_root
  · right; exact ⟨j, by omega, h2, hf.rootLast_ge (by omega)⟩

theorem Whole.not_rootLast (hf : Whole sgn addr c0 r m0 L h d) {gh : Heap} {a : Nat} (h1 : h.mem a ≠ none) (h2 : a ≠ d.root) :
    ¬ InRange (rootLast addr r h) (h.count - 1) gh a := by
  intro ha
  rcases hf.rootLast_range ha with h' | ⟨j, h3, _, rfl⟩
  · exact h2 h'
  · exact h1 (hf.fresh j h3)

theorem emptied_ne {h : Heap} {r a : Nat} (ha : a ≠ r) : (emptied h r).mem a = h.mem a := by
  simp [emptied, Mem.set, ha]

/-- The old dictionary and the new one with a common root. -/
theorem Whole.grown (haddr : AddrOk addr) (hf : Whole sgn addr c0 r m0 L h d) {o : DNode} (ho : h.mem d.root = some o)
    {V : Str → Prop} {gh : Heap} {gd : SDawg}
    (hg : Whole sgn (rootLast addr r h) (h.count - 1) (h.count - 1) (emptied h d.root).mem V gh gd)
    (hnew : ∀ c u, V (c :: u) → NewLetter o c) (s : Nat) (q : Str) :
    Whole sgn addr c0 r m0 (fun t => L t ∨ V t) (liftH sgn d.root o gh) (liftD s q gd) := by
  have hcnt := hf.count
  have hlo := hf.lo
  have hcnt' := hg.count
  have hgr : gd.root = d.root := hg.root.trans hf.rootLast_root
  obtain ⟨nd, F, g1, g2, g3, g4, g5⟩ := hg.dict
  have g1' := g1
  obtain ⟨hclg, hrcg, hnrg, hsg, htg, hsng, _, hlg⟩ := hg.below g1
  obtain ⟨hclo, hrco, hnro, hso, hto, hsno, _, _⟩ := hf.below ho
  rw [hgr] at g1 hrcg hnrg
  obtain ⟨hbes, hbiff, hbmm⟩ := hf.beside ho (gm := gh.mem) (fun a h1 h2 => by
    rw [hg.old a (hf.not_rootLast h1 h2)]; exact emptied_ne h2)
  have hE := mem_mergeE (sgn := sgn) (es0 := o.edges) hsg (fun e he e0 he0 => by
    obtain ⟨u, hu⟩ := hlg e.1 e.2 he
    exact hnew _ _ hu e0 he0)
  have hreach := reaches_lift g1 hE hclg hnrg (fun c b hb => .edge hb) hbes
  simp only [hbiff] at hreach
  have hcl : Closed gh.mem (fun a => BelowOld gh.mem nd a ∨ BelowOld h.mem o a) := by
    rintro a (h1 | h1)
    · obtain ⟨n, h1, h2⟩ := hclg a h1
      exact ⟨n, h1, fun c b hb => .inl (h2 c b hb)⟩
    · obtain ⟨n, h2, h3⟩ := hclo.frame hbmm a h1
      exact ⟨n, h2, fun c b hb => .inr (h3 c b hb)⟩
  have hne : ∀ a, BelowOld gh.mem nd a ∨ BelowOld h.mem o a → a ≠ d.root := by
    rintro a (h1 | h1) rfl
    · exact hnrg h1
    · exact hnro h1
  have hmm : ∀ a, BelowOld gh.mem nd a ∨ BelowOld h.mem o a → liftM sgn d.root o gh.mem a = gh.mem a :=
    fun a ha => liftM_ne (hne a ha)
  have hroot : liftM sgn d.root o gh.mem d.root = some (liftN sgn o nd) := liftM_root g1
  refine ⟨hgr.trans hf.root, hf.lo, ?_, hg.ptrs, ?_,  ?_, ?_, ?_, ?_, ?_, ?_⟩
  · show r < gh.count
    omega
  · show liftM sgn d.root o gh.mem 0 = none
    rw [liftM_ne (by rw [hf.root]; exact fun h => haddr.1 _ h.symm)]
    exact hg.null
  · intro j hj
    have hj' : gh.count ≤ j := hj
    show liftM sgn d.root o gh.mem (addr j) = none
    rw [liftM_ne (by rw [hf.root]; exact fun h => by have := haddr.2 _ _ h; omega), ← hf.rootLast_ge (by omega)]
    exact hg.fresh j hj'
  · intro a ha
    have hr : a ≠ d.root := by rintro rfl; exact ha ⟨r, hlo, by simp only [liftH]; omega, hf.root⟩
    show liftM sgn d.root o gh.mem a = m0 a
    rw [liftM_ne hr, hg.old a, emptied_ne hr, hf.old a]
    · rintro ⟨j, h1, h2, h3⟩; exact ha ⟨j, h1, by simp only [liftH]; omega, h3⟩
    · intro h'
      rcases hf.rootLast_range h' with h' | ⟨j, h1, h2, h3⟩
      · exact hr h'
      · exact ha ⟨j, by omega, h2, h3⟩
  · intro a ha
    obtain ⟨j, h1, h2, h3⟩ := ha
    simp only [liftH] at h2
    show liftM sgn d.root o gh.mem a ≠ none ↔ Reaches (liftM sgn d.root o gh.mem) gd.root a
    rw [hgr, hreach]
    by_cases har : a = d.root
    · subst har
      simp only [hroot, ne_eq, reduceCtorEq, not_false_eq_true, true_iff]
      exact .inl .refl
    · rw [liftM_ne har]
      by_cases hj : h.count ≤ j
      · have hin : InRange (rootLast addr r h) (h.count - 1) gh a := ⟨j, by omega, h2, by rw [hf.rootLast_ge hj]; exact h3⟩
        have hal := hg.alive a hin
        rw [hgr] at hal
        rw [hal]
        constructor
        · exact .inl
        · rintro (h' | h')
          · exact h'
          · obtain ⟨n, h4, _⟩ := hclo a h'
            rw [h3, hf.fresh j hj] at h4; cases h4
      · have hnin : ¬ InRange (rootLast addr r h) (h.count - 1) gh a := by
          intro h'
          rcases hf.rootLast_range h' with h' | ⟨k, h4, h5, h6⟩
          · exact har h'
          · rw [h3] at h6
            have := haddr.2 _ _ h6; omega
        rw [hg.old a hnin, emptied_ne har, hf.alive a ⟨j, h1, by omega, h3⟩, hrco]
        constructor
        · rintro (h' | h')
          · exact absurd h' har
          · exact .inr h'
        · rintro (h' | h')
          · exact absurd (hg.range a (by rw [hgr]; exact h')) hnin
          · exact .inr h'
  · intro a ha
    have ha' : Reaches (liftM sgn d.root o gh.mem) gd.root a := ha
    rw [hgr, hreach] at ha'
    rcases ha' with h' | h'
    · rcases hf.rootLast_range (hg.range a (by rw [hgr]; exact h')) with h' | ⟨j, h1, h2, h3⟩
      · exact ⟨r, hlo, by simp only [liftH]; omega, by rw [h', hf.root]⟩
      · exact ⟨j, by omega, h2, h3⟩
    · obtain ⟨j, h1, h2, h3⟩ := hf.range a ((hrco a).2 (.inr h'))
      exact ⟨j, h1, by simp only [liftH]; omega, h3⟩
  · show ∃ nd F, liftM sgn d.root o gh.mem gd.root = some nd ∧ _
    rw [show (liftD s q gd).root = d.root from hgr, hgr]
    have hEz : ∀ c b, (c, b) ∈ (liftN sgn o nd).edges → BelowOld gh.mem nd b ∨ BelowOld h.mem o b := by
      intro c b hb
      rcases (hE _).1 hb with hb | hb
      · exact .inr (.edge hb)
      · exact .inl (.edge hb)
    obtain ⟨F', hF', ht'⟩ := unf_of_targets (mem := liftM sgn d.root o gh.mem) (liftN sgn o nd).edges (by
      intro c b hb
      have hz := hEz c b hb
      obtain ⟨nb, k1, k2⟩ := hcl b hz
      rcases (hE _).1 hb with hb | hb
      · obtain ⟨nb', K, h1, h2, h3, h4⟩ := hto c b hb
        obtain ⟨nb'', e1, e2⟩ := hclo b (.edge hb)
        rw [h1] at e1; obtain rfl := Option.some.inj e1
        rw [← hbmm b (.edge hb), k1] at h1; obtain rfl := Option.some.inj h1
        exact ⟨nb, K, by rw [hmm b hz]; exact k1, (h2.frame hclo hbmm e2).frame hcl hmm k2, h3, h4⟩
      · obtain ⟨nb', K, h1, h2, h3, h4⟩ := htg c b hb
        rw [k1] at h1; obtain rfl := Option.some.inj h1
        exact ⟨nb, K, by rw [hmm b hz]; exact k1, h2.frame hcl hmm k2, h3, h4⟩)
    have hdict : DictNode sgn (liftM sgn d.root o gh.mem) (F'.height + 1) d.root := by
      refine .mk hroot (mergeE_sorted hso _) (dictNode_of_closed (hcl.frame hmm) ?_ hF' hEz)
      intro a na ha hma
      rw [hmm a ha] at hma
      rcases ha with ha | ha
      · exact hsng a na ha hma
      · rw [hbmm a ha] at hma
        exact hsno a na ha hma
    exact ⟨_, F', hroot, hF', ht', DictNode.sorted hdict hroot hF', hdict⟩
  · intro t
    show Accepts (liftM sgn d.root o gh.mem) gd.root t ↔ _
    have hA := hg.accepts t
    rw [hgr, accepts_node g1] at hA
    rw [hgr, accepts_node hroot, ← hA, ← hf.accepts t, accepts_node ho]
    have hfin : (liftN sgn o nd).final = true ↔ nd.final = true ∨ o.final = true := by simp [liftN]
    have hacc : ∀ c b u, (c, b) ∈ (liftN sgn o nd).edges ∧ Accepts (liftM sgn d.root o gh.mem) b u ↔
        ((c, b) ∈ nd.edges ∧ Accepts gh.mem b u) ∨ ((c, b) ∈ o.edges ∧ Accepts h.mem b u) := by
      intro c b u
      constructor
      · rintro ⟨h1, h2⟩
        rcases (hE _).1 h1 with h1 | h1
        · refine .inr ⟨h1, ?_⟩
          rw [accepts_frame_iff hcl hmm (.inr (.edge h1)), accepts_frame_iff hclo hbmm (.edge h1)] at h2
          exact h2
        · refine .inl ⟨h1, ?_⟩
          rw [accepts_frame_iff hcl hmm (.inl (.edge h1))] at h2
          exact h2
      · rintro (⟨h1, h2⟩ | ⟨h1, h2⟩)
        · refine ⟨(hE _).2 (.inr h1), ?_⟩
          rw [accepts_frame_iff hcl hmm (.inl (.edge h1))]
          exact h2
        · refine ⟨(hE _).2 (.inl h1), ?_⟩
          rw [accepts_frame_iff hcl hmm (.inr (.edge h1)), accepts_frame_iff hclo hbmm (.edge h1)]
          exact h2
    constructor
    · rintro (⟨rfl, h1⟩ | ⟨c, b, u, rfl, h1⟩)
      · rcases hfin.1 h1 with h1 | h1
        · exact .inr (.inl ⟨rfl, h1⟩)
        · exact .inl (.inl ⟨rfl, h1⟩)
      · rcases (hacc c b u).1 h1 with h1 | h1
        · exact .inr (.inr ⟨c, b, u, rfl, h1⟩)
        · exact .inl (.inr ⟨c, b, u, rfl, h1⟩)
    · rintro ((⟨rfl, h1⟩ | ⟨c, b, u, rfl, h1⟩) | (⟨rfl, h1⟩ | ⟨c, b, u, rfl, h1⟩))
      · exact .inl ⟨rfl, hfin.2 (.inr h1)⟩
      · exact .inr ⟨c, b, u, rfl, (hacc c b u).2 (.inr h1)⟩
      · exact .inl ⟨rfl, hfin.2 (.inl h1)⟩
      · exact .inr ⟨c, b, u, rfl, (hacc c b u).2 (.inl h1)⟩

end
section
variable {sgn : Bool} {addr : Nat → Nat} {c0 r : Nat} {m0 : Mem} {L : Str → Prop} {h : Heap} {d : SDawg}

/-- `finish` and `clean_up` of the resumed dictionary. -/
theorem Whole.finish_lift (haddr : AddrOk addr) (hf : Whole sgn addr c0 r m0 L h d) {o : DNode} (ho : h.mem d.root = some o)
    {vs : List Str} {gh : Heap} {gd : SDawg} (hb : Built sgn (rootLast addr r h) (h.count - 1) (emptied h d.root).mem vs gh gd)
    (hnew : ∀ c u, c :: u ∈ vs → NewLetter o c) (hprevN : ∀ c, gd.prev.head? = some c → NewLetter o c) (s : Nat) (q : Str) :
    ∃ h1 d1 gh2 gd2, Ends (fun fuel => finishDawg sgn fuel (liftH sgn d.root o gh) (liftD s q gd)) (h1, d1) ∧
      Ends (fun fuel => cleanUp fuel h1 d1) (liftH sgn d.root o gh2, liftD s q gd2) ∧
      Finished sgn (rootLast addr r h) (h.count - 1) (emptied h d.root).mem vs gh2 gd2 := by
  have hok : AddrOk (rootLast addr r h) := swapAddr_ok haddr _ _
  obtain ⟨gh1, gd1, gh2, gd2, e1, e2, hg⟩ := finish_spec hok hb
  obtain ⟨gh1', gd1', reg1, fl1, rf1, e1', hc1, hlang1, _⟩ := finishDawg_spec hok hb
  cases e1.unique e1'
  obtain ⟨_, _, _, hso, _, _, ⟨F0, hF0⟩, _⟩ := hf.below ho
  obtain ⟨⟨reg, st, fl, fs, rf, hc, hpath, hnil, hfin, hlang⟩, hprev, hsize⟩ := hb
  have hlen := hc.stack.length
  have hrr := hf.rootLast_root
  have hm : Ends (fun fuel => minimizeLoop sgn fuel st.length gh gd) (gh1, gd1) := by
    refine e1.congr fun n => ?_
    simp only [finishDawg, minimize, hc.unchecked, Nat.sub_zero]
  have hl := minimizeLoop_lift hok hso s q st.length hc (Nat.le_refl _) (fun hpos => .inl (hfin (by
        rintro rfl
        simp at hlen
        omega))) (fun c t ht => hnew c t ((hlang _).1 ht)) (fun c hcx => hprevN c (by rw [← hpath]; exact hcx)) hm
  obtain ⟨hbes, hbiff, hbmm⟩ := hf.beside ho (gm := gh1.mem) (fun a h1 h2 => by
    rw [hc1.heap.old a (fun j h3 h4 h5 => hf.not_rootLast h1 h2 ⟨j, h3, h4, h5⟩)]; exact emptied_ne h2)
  have hclo := (hf.below ho).1
  have hnro := (hf.below ho).2.2.1
  have hcl := cleanUp_lift (o := o) hc1 hok (fun c t ht => hnew c t ((hlang1 _).1 ht)) (by rw [hrr]; exact hbes)
    (hF0.frame hclo hbmm (fun c b hb => .edge hb)) (fun a ha => by
      have ha' := (hbiff a).1 ha
      obtain ⟨n, h1, _⟩ := hclo a ha'
      exact hf.not_rootLast (by rw [h1]; simp) (fun h' => hnro (h' ▸ ha'))) s q e2
  rw [hrr] at hl hcl
  refine ⟨_, _, gh2, gd2, ?_, hcl, hg⟩
  refine hl.congr fun n => ?_
  have hu : (liftD s q gd).unchecked = some st := hc.unchecked
  simp only [finishDawg, minimize, hu, Nat.sub_zero]

end
section
variable {sgn : Bool} {addr : Nat → Nat} {c0 r : Nat} {m0 : Mem} {L : Str → Prop} {h : Heap} {d : SDawg}

/-- Below the edges of a trim tree is a node that is final and has no edges. -/
theorem Unf.leaf {mem : Mem} {es : List (UInt8 × Nat)} {F : Forest} (hu : Unf mem es F) (ht : F.Trim) (hne : es ≠ []) :
    ∃ c b a, (c, b) ∈ es ∧ Reaches mem b a ∧ mem a = some ⟨true, []⟩ := by
  induction hu with
  | nil => exact absurd rfl hne
  | @cons l a nd es kids rest hm h1 _ ih1 _ =>
    obtain ⟨ht1, ht2, _⟩ := ht
    obtain ⟨f, es'⟩ := nd
    cases es' with
    | nil =>
      cases h1
      refine ⟨l, a, a, by simp, .refl, ?_⟩
      rw [hm]
      rcases ht1 with h | h
      · simp only at h; rw [h]
      · exact absurd rfl h
    | cons e es' =>
      obtain ⟨c, b, x, hb, hr, hx⟩ := ih1 ht2 (by simp)
      exact ⟨l, a, x, by simp, .step hm hb hr, hx⟩

theorem Whole.leaf (hf : Whole sgn addr c0 r m0 L h d) {o : DNode} (ho : h.mem d.root = some o) {c : UInt8} {u : Str}
    (hu : L (c :: u)) : ∃ a, BelowOld h.mem o a ∧ h.mem a = some ⟨true, []⟩ := by
  obtain ⟨nd, F, h1, h2, h3, _⟩ := hf.dict
  rw [ho] at h1; obtain rfl := Option.some.inj h1
  have hne : o.edges ≠ [] := by
    intro he
    rcases (accepts_node ho _).1 ((hf.accepts _).2 hu) with ⟨h, _⟩ | ⟨c', b, u', _, hb, _⟩
    · cases h
    · rw [he] at hb; simp at hb
  obtain ⟨c, b, a, hb, hr, ha⟩ := h2.leaf h3 hne
  exact ⟨a, ⟨c, b, hb, hr⟩, ha⟩

/-- The leaves of the old part and of the new part are not the same. -/
theorem Whole.two_leaves (hf : Whole sgn addr c0 r m0 L h d) {o : DNode} (ho : h.mem d.root = some o)
    {vs : List Str} {gh : Heap} {gd : SDawg} (hg : Finished sgn (rootLast addr r h) (h.count - 1) (emptied h d.root).mem vs gh gd)
    (hnew : ∀ c u, c :: u ∈ vs → NewLetter o c) {c c' : UInt8} {u u' : Str} (hu : L (c :: u)) (hu' : c' :: u' ∈ vs) :
    ∃ a b, Reaches (liftH sgn d.root o gh).mem d.root a ∧ Reaches (liftH sgn d.root o gh).mem d.root b ∧ a ≠ b ∧
      (liftH sgn d.root o gh).mem a = some ⟨true, []⟩ ∧ (liftH sgn d.root o gh).mem b = some ⟨true, []⟩ := by
  have hgr : gd.root = d.root := hg.root.trans hf.rootLast_root
  obtain ⟨nd, F, g1, _⟩ := hg.dict
  obtain ⟨hclg, hrcg, hnrg, hsg, _, _, _, hlg⟩ := hg.whole.below g1
  obtain ⟨hclo, _, hnro, _⟩ := hf.below ho
  obtain ⟨b, hb, hmb⟩ := hg.whole.leaf g1 hu'
  have hrb := (hrcg b).2 (.inr hb)
  rw [hgr] at g1 hrcg hnrg
  obtain ⟨hbes, hbiff, hbmm⟩ := hf.beside ho (gm := gh.mem) (fun a h1 h2 => by
    rw [hg.old a (hf.not_rootLast h1 h2)]; exact emptied_ne h2)
  have hE := mem_mergeE (sgn := sgn) (es0 := o.edges) hsg (fun e he e0 he0 => by
    obtain ⟨u, hu⟩ := hlg e.1 e.2 he
    exact hnew _ _ hu e0 he0)
  have hreach := reaches_lift g1 hE hclg hnrg (fun c b hb => .edge hb) hbes
  simp only [hbiff] at hreach
  obtain ⟨a, ha, hma⟩ := hf.leaf ho hu
  have har : a ≠ d.root := fun h' => hnro (h' ▸ ha)
  have hbr : b ≠ d.root := fun h' => hnrg (h' ▸ hb)
  refine ⟨a, b, (hreach a).2 (.inr ha), (hreach b).2 (.inl ((hrcg b).2 (.inr hb))), ?_, ?_, ?_⟩
  · rintro rfl
    exact hf.not_rootLast (by rw [hma]; simp) har (hg.range a hrb)
  · show liftM sgn d.root o gh.mem a = _
    rw [liftM_ne har, hbmm a ha]; exact hma
  · show liftM sgn d.root o gh.mem b = _
    rw [liftM_ne hbr]; exact hmb

end
end Lev
