import Verif.Proofs.SiteOpen
import Verif.Proofs.Reuse
import Verif.Proofs.SerialAny
import Verif.Proofs.TestNode

/-!
Construction resumed on a finished dictionary whose root has edges with the letters of the new words: the new edges take the
place of the old ones, and the nodes the old ones led to are freed.
-/

namespace Lev

open Spec

/-! ### Edges that take the place of others -/

theorem mem_mergeE_over {sgn : Bool} {es0 es : List (UInt8 × Nat)} (h0 : es0.Pairwise (fun e f => charLt sgn e.1 f.1))
    (h : es.Pairwise (fun e f => charLt sgn e.1 f.1)) (e : UInt8 × Nat) :
    e ∈ mergeE sgn es0 es ↔ e ∈ es ∨ (e ∈ es0 ∧ ∀ f ∈ es, f.1 ≠ e.1) := by
  induction es generalizing es0 with
  | nil => simp [mergeE]
  | cons x es ih =>
    have p := List.pairwise_cons.1 h
    show e ∈ mergeE sgn (mapSet sgn x.1 x.2 es0) es ↔ _
    rw [ih (mapSet_sorted h0) p.2]
    obtain ⟨c, b⟩ := e
    obtain ⟨l, a⟩ := x
    rw [mem_mapSet_iff' h0]
    simp only [List.mem_cons, Prod.mk.injEq, forall_eq_or_imp]
    constructor
    · rintro (h1 | ⟨⟨h1, h2⟩ | ⟨h1, h2⟩, h3⟩)
      · exact .inl (.inr h1)
      · exact .inl (.inl ⟨h1, h2⟩)
      · exact .inr ⟨h2, fun h' => h1 h'.symm, h3⟩
    · rintro ((⟨h1, h2⟩ | h1) | ⟨h1, h2, h3⟩)
      · refine .inr ⟨.inl ⟨h1, h2⟩, fun f hf h' => ?_⟩
        have := p.1 f hf
        simp only at this h'
        rw [h', h1] at this
        simp [charLt] at this
      · exact .inl h1
      · exact .inr ⟨.inr ⟨fun h' => h2 h'.symm, h1⟩, h3⟩

theorem mergeE_mapSet_over {sgn : Bool} {es0 es : List (UInt8 × Nat)} (h0 : es0.Pairwise (fun e f => charLt sgn e.1 f.1))
    (h : es.Pairwise (fun e f => charLt sgn e.1 f.1)) (c : UInt8) (a : Nat) :
    mergeE sgn es0 (mapSet sgn c a es) = mapSet sgn c a (mergeE sgn es0 es) := by
  refine edges_ext (mergeE_sorted h0 _) (mapSet_sorted (mergeE_sorted h0 _)) fun e => ?_
  obtain ⟨l, b⟩ := e
  rw [mem_mergeE_over h0 (mapSet_sorted h), mem_mapSet_iff' h, mem_mapSet_iff' (mergeE_sorted h0 _), mem_mergeE_over h0 h]
  have key : (∀ f ∈ mapSet sgn c a es, f.1 ≠ l) ↔ c ≠ l ∧ ∀ f ∈ es, f.1 ≠ l := by
    constructor
    · intro hf
      have hcl : c ≠ l := hf (c, a) ((mem_mapSet_iff' h).2 (.inl ⟨rfl, rfl⟩))
      refine ⟨hcl, fun f hfe hfl => ?_⟩
      exact hf f ((mem_mapSet_iff' (c' := f.1) (b := f.2) h).2 (.inr ⟨by rw [hfl]; exact Ne.symm hcl, hfe⟩)) hfl
    · rintro ⟨h1, h2⟩ f hf
      rcases (mem_mapSet_iff' (c' := f.1) (b := f.2) h).1 hf with ⟨h3, _⟩ | ⟨_, h3⟩
      · rw [h3]; exact h1
      · exact h2 f h3
  simp only [key]
  constructor
  · rintro ((h1 | ⟨h1, h2⟩) | ⟨h1, h2, h3⟩)
    · exact .inl h1
    · exact .inr ⟨h1, .inl h2⟩
    · exact .inr ⟨Ne.symm h2, .inr ⟨h1, h3⟩⟩
  · rintro (h1 | ⟨h1, h2 | ⟨h2, h3⟩⟩)
    · exact .inl (.inl h1)
    · exact .inl (.inr ⟨h1, h2⟩)
    · exact .inr ⟨h2, Ne.symm h1, h3⟩

/-- The node as it is with the old root laid over the new one. -/
def overNode (sgn : Bool) (r : Nat) (o : DNode) (a : Nat) (nd : DNode) : DNode := if a = r then liftN sgn o nd else nd

section
variable {sgn : Bool} {o nd : DNode}

theorem liftN_trans_new (ho : o.edges.Pairwise (fun e f => charLt sgn e.1 f.1))
    (hs : nd.edges.Pairwise (fun e f => charLt sgn e.1 f.1)) {c : UInt8} {b : Nat} (hb : (c, b) ∈ nd.edges) :
    nodeTransition (liftN sgn o nd) c = b :=
  nodeTransition_some (sgn := sgn) (mergeE_sorted ho _) ((mem_mergeE_over ho hs _).2 (.inl hb))

theorem liftN_trans_old (ho : o.edges.Pairwise (fun e f => charLt sgn e.1 f.1))
    (hs : nd.edges.Pairwise (fun e f => charLt sgn e.1 f.1)) {c : UInt8} (hc : ∀ e ∈ nd.edges, e.1 ≠ c) :
    nodeTransition (liftN sgn o nd) c = nodeTransition o c := by
  rcases nodeTransition_mem (nd := o) (c := c) with h | h
  · by_cases hex : ∃ b, (c, b) ∈ o.edges
    · obtain ⟨b, hb⟩ := hex
      rw [nodeTransition_some (sgn := sgn) ho hb]
      exact nodeTransition_some (sgn := sgn) (mergeE_sorted ho _) ((mem_mergeE_over ho hs _).2 (.inr ⟨hb, hc⟩))
    · rw [h]
      refine nodeTransition_none fun e he => ?_
      rcases (mem_mergeE_over ho hs e).1 he with he | ⟨he, _⟩
      · exact hc e he
      · rintro rfl; exact hex ⟨e.2, he⟩
  · exact nodeTransition_some (sgn := sgn) (mergeE_sorted ho _) ((mem_mergeE_over ho hs _).2 (.inr ⟨h, hc⟩))

theorem overNode_edges (ho : o.edges.Pairwise (fun e f => charLt sgn e.1 f.1))
    (hs : nd.edges.Pairwise (fun e f => charLt sgn e.1 f.1)) {r a : Nat} {e : UInt8 × Nat}
    (he : e ∈ (overNode sgn r o a nd).edges) : e ∈ nd.edges ∨ (a = r ∧ e ∈ o.edges) := by
  unfold overNode at he
  split at he
  · next hr =>
    rcases (mem_mergeE_over ho hs e).1 he with he | ⟨he, _⟩
    · exact .inl he
    · exact .inr ⟨hr, he⟩
  · exact .inl he

theorem overNode_mem {r a : Nat} {h : Heap} (hm : h.mem a = some nd) :
    (liftH sgn r o h).mem a = some (overNode sgn r o a nd) := by
  unfold overNode
  split
  · next hr => subst hr; exact liftM_root hm
  · next hr => show liftM sgn r o h.mem a = _; rw [liftM_ne hr]; exact hm

theorem withEdge_lift (ho : o.edges.Pairwise (fun e f => charLt sgn e.1 f.1))
    (hs : nd.edges.Pairwise (fun e f => charLt sgn e.1 f.1)) (r a : Nat) (h : Heap) (c : UInt8) (b : Nat) :
    withEdge sgn (liftH sgn r o h) a (overNode sgn r o a nd) c b = liftH sgn r o (withEdge sgn h a nd c b) := by
  unfold overNode
  simp only [withEdge, liftH]
  congr 1
  split
  · next hr =>
    subst hr
    rw [liftM_set_root]
    simp only [liftN, mergeE_mapSet_over ho hs]
  · next hr => rw [liftM_set_ne hr]

end

/-- `add_edge` in a heap that lacks some nodes, exactly. -/
theorem addEdgeF_over (sgn : Bool) {h : Heap} {X : List Nat} {a : Nat} {nd : DNode} (c : UInt8) (b : Nat)
    (hm : h.mem a = some nd) (haX : a ∉ X)
    (ha : ∀ e, (c, e) ∈ nd.edges → e ≠ a ∧ e ≠ 0 ∧ h.mem e ≠ none) :
    (nodeTransition nd c ≠ 0 → nodeTransition nd c ∈ X → addEdgeF sgn false a c b (h.without X) = .error .ub) ∧
    (nodeTransition nd c = 0 ∨ nodeTransition nd c ∉ X → addEdgeF sgn false a c b (h.without X) =
      .ok ((withEdge sgn h a nd c b).without (if nodeTransition nd c = 0 then X else nodeTransition nd c :: X), false)) := by
  have hma : (h.without X).mem a = some nd := by simp [Heap.without, Mem.without, haX, hm]
  refine ⟨fun h1 h2 => ?_, fun h1 => ?_⟩
  · have hd : (h.without X).mem (nodeTransition nd c) = none := by simp [Heap.without, Mem.without, h2]
    simp [addEdgeF, deref, hma, deleteNode, h1, hd, bind, Except.bind]
  · rcases addEdgeF_without sgn (X := X) c b hm ha with h2 | ⟨X', h2, _, h4⟩
    · exfalso
      by_cases h0 : nodeTransition nd c = 0
      · simp [addEdgeF, deref, hma, h0, deleteNode, bind, Except.bind, pure, Except.pure] at h2
      · obtain ⟨t1, _, t2⟩ := ha _ (nodeTransition_mem.resolve_left h0)
        have hX := h1.resolve_left h0
        cases hmt : h.mem (nodeTransition nd c) with
        | none => exact t2 hmt
        | some ndt =>
          have hd : (h.without X).mem (nodeTransition nd c) = some ndt := by simp [Heap.without, Mem.without, hX, hmt]
          have hma' : ((h.without X).mem.set (nodeTransition nd c) none) a = some nd := by
            simp only [Mem.set, Ne.symm t1, if_false]; exact hma
          simp [addEdgeF, deref, hma, h0, deleteNode, hd, hma', bind, Except.bind, pure, Except.pure] at h2
    · rw [h2]
      rcases h4 with ⟨h4, rfl⟩ | ⟨h4, rfl⟩ <;> simp [h4]


/-! ### Steps of `minimize` -/

theorem minimizedNode_frame {h H : Heap} {Z : Nat → Prop} {d : SDawg} {reg : List RegEntry} {t : Nat} (hZ : Closed h.mem Z)
    (hmm : ∀ a, Z a → H.mem a = h.mem a) (ht : H.mem t = h.mem t)
    (hnd : ∀ nd, h.mem t = some nd → ∀ c b, (c, b) ∈ nd.edges → Z b) (hd : d.minimized = some reg)
    (hreg : ∀ e ∈ reg, ∀ c b, (c, b) ∈ e.key.edges → Z b) (fuel : Nat) :
    minimizedNode fuel t H d = minimizedNode fuel t h d := by
  simp only [minimizedNode, deref, ht, hd, bind, Except.bind]
  cases hm : h.mem t with
  | none => rfl
  | some nd =>
    simp only [nodeHash_frame hZ hmm fuel (hnd nd hm)]
    cases nodeHash h.mem fuel nd with
    | error => rfl
    | ok k => exact regFind_frame hZ hmm fuel k (hnd nd hm) reg hreg

theorem register_frame {h H : Heap} {Z : Nat → Prop} {d : SDawg} {reg : List RegEntry} {t : Nat} (hZ : Closed h.mem Z)
    (hmm : ∀ a, Z a → H.mem a = h.mem a) (ht : H.mem t = h.mem t)
    (hnd : ∀ nd, h.mem t = some nd → ∀ c b, (c, b) ∈ nd.edges → Z b) (hd : d.minimized = some reg)
    (hreg : ∀ e ∈ reg, ∀ c b, (c, b) ∈ e.key.edges → Z b) (fuel : Nat) :
    register fuel t H d = register fuel t h d := by
  simp only [register, deref, ht, hd, bind, Except.bind]
  cases hm : h.mem t with
  | none => rfl
  | some nd =>
    simp only [nodeHash_frame hZ hmm fuel (hnd nd hm)]
    cases nodeHash h.mem fuel nd with
    | error => rfl
    | ok k => simp only [regSet_frame hZ hmm fuel k (hnd nd hm) t reg hreg]

/-- Below the edges of the old root is a dictionary that was there before, at addresses that are not handed out. -/
structure OldOk (sgn : Bool) (addr : Nat → Nat) (c0 : Nat) (m0 : Mem) (o : DNode) : Prop where
  sorted : o.edges.Pairwise (fun e f => charLt sgn e.1 f.1)
  null : m0 0 = none
  closed : Closed m0 (BelowOld m0 o)
  apart : ∀ a, BelowOld m0 o a → ∀ j, c0 ≤ j → addr j ≠ a
  unf : ∃ F, Unf m0 o.edges F

section
variable {sgn : Bool} {addr : Nat → Nat} {c0 : Nat} {m0 : Mem} {o : DNode}

theorem OldOk.edges (ho : OldOk sgn addr c0 m0 o) (c : UInt8) (b : Nat) (hb : (c, b) ∈ o.edges) :
    b ≠ 0 ∧ m0 b ≠ none ∧ ∀ j, c0 ≤ j → addr j ≠ b := by
  have hbe : BelowOld m0 o b := .edge hb
  obtain ⟨nb, h1, _⟩ := ho.closed b hbe
  refine ⟨?_, by rw [h1]; simp, ho.apart b hbe⟩
  rintro rfl
  rw [ho.null] at h1; cases h1

/-- The old part stays as it is. -/
theorem OldOk.keeps (ho : OldOk sgn addr c0 m0 o) {h : Heap} (hh : HeapOk addr c0 m0 h) :
    (∀ a, BelowOld m0 o a → h.mem a = m0 a) ∧ (∀ a, BelowOld h.mem o a ↔ BelowOld m0 o a) ∧ Beside h.mem (addr c0) o ∧
      ∃ F, Unf h.mem o.edges F := by
  have hmm : ∀ a, BelowOld m0 o a → h.mem a = m0 a := fun a ha => hh.old a fun j h1 _ h3 => ho.apart a ha j h1 h3.symm
  have hiff : ∀ a, BelowOld h.mem o a ↔ BelowOld m0 o a := by
    intro a
    constructor
    · rintro ⟨c, b, hb, hr⟩; exact ⟨c, b, hb, (reaches_frame_iff ho.closed hmm (.edge hb) a).1 hr⟩
    · rintro ⟨c, b, hb, hr⟩; exact ⟨c, b, hb, (reaches_frame_iff ho.closed hmm (.edge hb) a).2 hr⟩
  refine ⟨hmm, hiff, ⟨?_, fun h' => ho.apart _ ((hiff _).1 h') c0 (Nat.le_refl _) rfl⟩, ?_⟩
  · intro a ha
    obtain ⟨n, h6, h7⟩ := ho.closed.frame hmm a ((hiff a).1 ha)
    exact ⟨n, h6, fun c b hb => (hiff b).2 (h7 c b hb)⟩
  · obtain ⟨F, hF⟩ := ho.unf
    exact ⟨F, hF.frame ho.closed hmm fun c b hb => .edge hb⟩

theorem OldOk.out (ho : OldOk sgn addr c0 m0 o) {c : UInt8} {b : Nat} (hb : (c, b) ∈ o.edges) (h : Heap) :
    ¬ InRange addr c0 h b := fun ⟨j, h1, _, h3⟩ => (ho.edges c b hb).2.2 j h1 h3.symm

theorem OldOk.live (ho : OldOk sgn addr c0 m0 o) {c : UInt8} {b : Nat} (hb : (c, b) ∈ o.edges) {h : Heap}
    (hh : HeapOk addr c0 m0 h) : h.mem b ≠ none := by
  rw [hh.old b fun j h1 h2 h3 => (ho.edges c b hb).2.2 j h1 h3.symm]
  exact (ho.edges c b hb).2.1

/-- One step of `minimize` with the old root laid over the new one, in a heap that lacks some nodes. -/
theorem Site.stepOver {h : Heap} {d : SDawg} {reg : List RegEntry} {t : Trans} {st : List Trans} {fl lk : List Nat} {c : UInt8}
    {g : Frame} {fs : List (UInt8 × Frame)} {rf : Frame} {Z : Nat → Prop}
    (hc : Site sgn addr c0 m0 h d reg (t :: st) fl lk ((c, g) :: fs) rf Z) (haddr : AddrOk addr)
    (ho : OldOk sgn addr c0 m0 o) (k : Nat) :
    ∃ N nds b d' reg' Z', h.mem (topNode d.root st) = some nds ∧ nds.edges.Pairwise (fun e f => charLt sgn e.1 f.1) ∧
      Unf h.mem nds.edges (topFrame fs rf).kids ∧ (∀ e, (∃ c, (c, e) ∈ nds.edges) → e ∈ fl) ∧ d'.root = d.root ∧
      Site sgn addr c0 m0 (withEdge sgn h (topNode d.root st) nds c b) d' reg' st fl lk
        (setTopS (putEdge sgn c g (topFrame fs rf)) fs) (setTopR (putEdge sgn c g (topFrame fs rf)) fs rf) Z' ∧
      (nodeTransition nds c = 0 → ∀ fuel, N ≤ fuel →
        minimizeStepF sgn fuel none k h d = .ok (withEdge sgn h (topNode d.root st) nds c b, d', false)) ∧
      ∀ (X : List Nat) (T : Nat), T = nodeTransition (overNode sgn d.root o (topNode d.root st) nds) c → ∀ fuel, N ≤ fuel →
        (minimizeStepF sgn fuel none k ((liftH sgn d.root o h).without X) d = .error .ub ∨
          minimizeStepF sgn fuel none k ((liftH sgn d.root o h).without X) d =
            .ok ((liftH sgn d.root o (withEdge sgn h (topNode d.root st) nds c b)).without (if T = 0 then X else T :: X),
              d', false)) ∧
        ((∀ a ∈ X, ¬ InRange addr c0 h a) → T = 0 ∨ ¬ InRange addr c0 h T →
          (T ≠ 0 → T ∈ X → minimizeStepF sgn fuel none k ((liftH sgn d.root o h).without X) d = .error .ub) ∧
          (T = 0 ∨ T ∉ X → minimizeStepF sgn fuel none k ((liftH sgn d.root o h).without X) d =
            .ok ((liftH sgn d.root o (withEdge sgn h (topNode d.root st) nds c b)).without (if T = 0 then X else T :: X),
              d', false))) := by
  obtain ⟨hsrc, hlabel, nds, hms, hFs, hcase⟩ := hc.step haddr
  have hpop := hc.pop
  obtain ⟨nds', hms', _, _, hss, hZs⟩ := hpop.stack.top
  have : nds' = nds := by
    have h1 : h.mem (topNode d.root st) = some nds' := hms'
    rw [hms] at h1; exact (Option.some.inj h1).symm
  subst this
  -- the nodes that edges of the topmost node lead to
  have hedges : ∀ e, (∃ c, (c, e) ∈ nds'.edges) → e ≠ topNode d.root st ∧ e ≠ 0 ∧ h.mem e ≠ none ∧ e ∈ fl := by
    rintro e ⟨c', he⟩
    have hz := hZs c' e he
    obtain ⟨⟨j, j1, j2, j3⟩, hlk⟩ := hc.zoneRange e hz
    have hroot : e ≠ d.root := fun h' => hpop.notZone _ (by rw [h']; simp [stackNodes]) hz
    have halive : h.mem e ≠ none := by rw [j3]; exact hc.heap.live j j1 j2
    refine ⟨fun h' => hpop.notZone _ (by rw [h']; exact topNode_mem d.root st) hz, fun h' => ?_, halive, ?_⟩
    · rw [h'] at halive; exact halive hc.heap.null
    · rw [hc.float.2]
      refine ⟨⟨j, ?_, j2, j3⟩, hlk⟩
      have : j ≠ c0 := by rintro rfl; exact hroot (by rw [j3, hc.root])
      omega
  have htop := hpop.stackRange _ (topNode_mem d.root st)
  have hrootR : InRange addr c0 h d.root := (hc.stackRange _ (by simp [stackNodes])).1
  have hover : ∀ e, (c, e) ∈ (overNode sgn d.root o (topNode d.root st) nds').edges → e ≠ topNode d.root st ∧ e ≠ 0 ∧
      (liftH sgn d.root o h).mem e ≠ none := by
    intro e he
    have key : e ≠ topNode d.root st ∧ e ≠ 0 ∧ h.mem e ≠ none := by
      rcases overNode_edges ho.sorted hss he with he | ⟨_, he⟩
      · obtain ⟨a1, a2, a3, _⟩ := hedges e ⟨c, he⟩
        exact ⟨a1, a2, a3⟩
      · exact ⟨fun h' => ho.out he h (h' ▸ htop.1), (ho.edges c e he).1, ho.live he hc.heap⟩
    refine ⟨key.1, key.2.1, ?_⟩
    cases hm : h.mem e with
    | none => exact absurd hm key.2.2
    | some ne => rw [overNode_mem hm]; simp
  have hmsP : (liftH sgn d.root o h).mem (topNode d.root st) = some (overNode sgn d.root o (topNode d.root st) nds') :=
    overNode_mem hms
  have hadd := fun X b => addEdgeF_without sgn (X := X) c b hmsP hover
  have haddE := fun X b (hX : topNode d.root st ∉ X) => addEdgeF_over sgn (X := X) c b hmsP hX hover
  simp only [withEdge_lift ho.sorted hss] at hadd haddE
  have haddG : ∀ b, nodeTransition nds' c = 0 → addEdgeF sgn false (topNode d.root st) c b h =
      .ok (withEdge sgn h (topNode d.root st) nds' c b, false) := by
    intro b h0
    simp [addEdgeF, deref, hms, h0, deleteNode, bind, Except.bind, pure, Except.pure, withEdge]
  -- what is read
  have htgt : NodeIs sgn h.mem Z t.target g := by
    have := hc.stack; cases this with | cons _ _ h => exact h
  obtain ⟨ndt, hmt, _, _, _, hZt⟩ := htgt
  have htst : t.target ∉ stackNodes d.root st := by
    have := hc.nodup
    simp only [stackNodes, List.map_cons, List.nodup_cons, List.mem_cons] at this ⊢
    rintro (h' | h')
    · exact this.1 (.inl h'.symm)
    · exact this.2.1 h'
  have htr : t.target ≠ d.root := fun h' => htst (by rw [h']; simp [stackNodes])
  have httop : t.target ≠ topNode d.root st := fun h' => htst (h' ▸ topNode_mem d.root st)
  have htR : InRange addr c0 h t.target := (hc.stackRange _ (by simp [stackNodes])).1
  have hzr : ∀ a, Z a → a ≠ d.root := fun a ha h' => hc.notZone d.root (by simp [stackNodes]) (h' ▸ ha)
  have hztop : ∀ a, Z a → a ≠ topNode d.root st := fun a ha h' => hpop.notZone _ (topNode_mem d.root st) (h' ▸ ha)
  have hkeys : ∀ e ∈ reg, ∀ c b, (c, b) ∈ e.key.edges → Z b := by
    intro e he c b hb
    obtain ⟨h1, h2, _⟩ := hc.regOk e he
    obtain ⟨nd, z1, z2⟩ := hc.closed _ h1
    rw [h2] at z1; obtain rfl := Option.some.inj z1
    exact z2 c b hb
  have hmn : ∀ (X : List Nat), (∀ a ∈ X, ¬ InRange addr c0 h a) → ∀ fuel,
      minimizedNode fuel t.target ((liftH sgn d.root o h).without X) { d with unchecked := some st } =
        minimizedNode fuel t.target h { d with unchecked := some st } := by
    intro X hX fuel
    have hag : ∀ a, InRange addr c0 h a → a ≠ d.root → ((liftH sgn d.root o h).without X).mem a = h.mem a := by
      intro a ha hr
      simp only [Heap.without, Mem.without, liftH]
      rw [if_neg fun h' => hX a h' ha, liftM_ne hr]
    exact minimizedNode_frame hc.closed (fun a ha => hag a (hc.zoneRange a ha).1 (hzr a ha)) (hag _ htR htr)
      (fun nd hnd => by rw [hmt] at hnd; obtain rfl := Option.some.inj hnd; exact hZt) hc.minimized hkeys fuel
  have hset : ∀ b a, a ≠ topNode d.root st → (withEdge sgn h (topNode d.root st) nds' c b).mem a = h.mem a := by
    intro b a ha
    simp [withEdge, Mem.set, ha]
  have hrg : ∀ b (X : List Nat), (∀ a ∈ X, ¬ InRange addr c0 h a) → ∀ fuel,
      register fuel t.target ((liftH sgn d.root o (withEdge sgn h (topNode d.root st) nds' c b)).without X)
          { d with unchecked := some st } =
        register fuel t.target (withEdge sgn h (topNode d.root st) nds' c b) { d with unchecked := some st } := by
    intro b X hX fuel
    have hag : ∀ a, InRange addr c0 h a → a ≠ d.root →
        ((liftH sgn d.root o (withEdge sgn h (topNode d.root st) nds' c b)).without X).mem a =
          (withEdge sgn h (topNode d.root st) nds' c b).mem a := by
      intro a ha hr
      simp only [Heap.without, Mem.without, liftH]
      rw [if_neg fun h' => hX a h' ha, liftM_ne hr]
    exact register_frame (d := { d with unchecked := some st }) (hc.closed.frame fun a ha => hset b a (hztop a ha))
      (fun a ha => hag a (hc.zoneRange a ha).1 (hzr a ha)) (hag _ htR htr)
      (fun nd hnd => by rw [hset b _ httop, hmt] at hnd; obtain rfl := Option.some.inj hnd; exact hZt) hc.minimized hkeys fuel
  have hmnL : ∀ (X : List Nat) fuel, UbOr (minimizedNode fuel t.target ((liftH sgn d.root o h).without X)
      { d with unchecked := some st }) (minimizedNode fuel t.target h { d with unchecked := some st }) := by
    intro X fuel
    have := hmn [] (by simp) fuel
    rw [Heap.without_nil] at this
    rw [← this]
    exact (show Less ((liftH sgn d.root o h).without X).mem (liftH sgn d.root o h).mem from Mem.without_less _ X).minimizedNode
      fuel t.target _
  have hrgL : ∀ b (X : List Nat) fuel, UbOr
      (register fuel t.target ((liftH sgn d.root o (withEdge sgn h (topNode d.root st) nds' c b)).without X)
        { d with unchecked := some st })
      (register fuel t.target (withEdge sgn h (topNode d.root st) nds' c b) { d with unchecked := some st }) := by
    intro b X fuel
    have := hrg b [] (by simp) fuel
    rw [Heap.without_nil] at this
    rw [← this]
    exact (show Less ((liftH sgn d.root o (withEdge sgn h (topNode d.root st) nds' c b)).without X).mem
      (liftH sgn d.root o (withEdge sgn h (topNode d.root st) nds' c b)).mem from Mem.without_less _ X).register
      fuel t.target _
  have hX' : ∀ (X : List Nat) (T : Nat), (∀ a ∈ X, ¬ InRange addr c0 h a) → T = 0 ∨ ¬ InRange addr c0 h T →
      ∀ a ∈ (if T = 0 then X else T :: X), ¬ InRange addr c0 h a := by
    intro X T hX hT a ha
    split at ha
    · exact hX a ha
    · next h0 =>
      rcases List.mem_cons.1 ha with rfl | ha
      · exact hT.resolve_left h0
      · exact hX a ha
  have hXeq : ∀ (X X' : List Nat) (T : Nat), (T = 0 ∧ X' = X) ∨ (T ≠ 0 ∧ X' = T :: X) → X' = if T = 0 then X else T :: X := by
    rintro X X' T (⟨h1, rfl⟩ | ⟨h1, rfl⟩) <;> simp [h1]
  rcases hcase with ⟨e, he, hmn0, hsite⟩ | ⟨hmn0, _, e, hreg, hsite, _⟩
  · refine ⟨g.kids.height + 1, nds', e.val, _, _, _, hms, hss, hFs, fun x hx => (hedges x hx).2.2.2, ?_, hsite,
      fun h0 fuel hf => ?_, fun X T hT fuel hf => ⟨?_, fun hX hTo => ?_⟩⟩
    · rfl
    · simp [minimizeStepF, hc.unchecked, hmn0 fuel (by omega), hsrc, hlabel, haddG _ h0, bind, Except.bind, pure, Except.pure]
    · subst hT
      rcases hmnL X fuel with h1 | h1
      · left; simp [minimizeStepF, hc.unchecked, h1, bind, Except.bind]
      · rw [hmn0 fuel (by omega)] at h1
        rcases hadd X e.val with h2 | ⟨X', h2, _, h4⟩
        · left; simp [minimizeStepF, hc.unchecked, h1, hsrc, hlabel, h2, bind, Except.bind]
        · right
          rw [← hXeq _ _ _ h4]
          simp [minimizeStepF, hc.unchecked, h1, hsrc, hlabel, h2, bind, Except.bind, pure, Except.pure]
    · subst hT
      have h1 := (hmn X hX fuel).trans (hmn0 fuel (by omega))
      obtain ⟨h2, h3⟩ := haddE X e.val (fun h' => hX _ h' htop.1)
      refine ⟨fun g1 g2 => ?_, fun g1 => ?_⟩
      · simp [minimizeStepF, hc.unchecked, h1, hsrc, hlabel, h2 g1 g2, bind, Except.bind]
      · simp [minimizeStepF, hc.unchecked, h1, hsrc, hlabel, h3 g1, bind, Except.bind, pure, Except.pure]
  · refine ⟨g.kids.height + 1, nds', t.target, _, _, _, hms, hss, hFs, fun x hx => (hedges x hx).2.2.2, ?_, hsite,
      fun h0 fuel hf => ?_, fun X T hT fuel hf => ⟨?_, fun hX hTo => ?_⟩⟩
    · rfl
    · simp [minimizeStepF, hc.unchecked, hmn0 fuel (by omega), hsrc, hlabel, haddG _ h0, bind, Except.bind, pure, Except.pure,
        hreg fuel (by omega)]
    · subst hT
      rcases hmnL X fuel with h1 | h1
      · left; simp [minimizeStepF, hc.unchecked, h1, bind, Except.bind]
      · rw [hmn0 fuel (by omega)] at h1
        rcases hadd X t.target with h2 | ⟨X', h2, _, h4⟩
        · left; simp [minimizeStepF, hc.unchecked, h1, hsrc, hlabel, h2, bind, Except.bind]
        · rcases hrgL t.target X' fuel with h5 | h5
          · left; simp [minimizeStepF, hc.unchecked, h1, hsrc, hlabel, h2, h5, bind, Except.bind]
          · rw [hreg fuel (by omega)] at h5
            right
            rw [← hXeq _ _ _ h4]
            simp [minimizeStepF, hc.unchecked, h1, hsrc, hlabel, h2, h5, bind, Except.bind, pure, Except.pure]
    · subst hT
      have h1 := (hmn X hX fuel).trans (hmn0 fuel (by omega))
      obtain ⟨h2, h3⟩ := haddE X t.target (fun h' => hX _ h' htop.1)
      refine ⟨fun g1 g2 => ?_, fun g1 => ?_⟩
      · simp [minimizeStepF, hc.unchecked, h1, hsrc, hlabel, h2 g1 g2, bind, Except.bind]
      · have h5 := (hrg t.target _ (hX' X _ hX hTo) fuel).trans (hreg fuel (by omega))
        simp [minimizeStepF, hc.unchecked, h1, hsrc, hlabel, h3 g1, h5, bind, Except.bind, pure, Except.pure]


/-! ### No edge of the new construction is overwritten -/

/-- The edge of the old root with the letter `c` led to `a` and has been overwritten. -/
def Overwritten (m : Mem) (r : Nat) (o : DNode) (c : UInt8) (a : Nat) : Prop :=
  (c, a) ∈ o.edges ∧ ∃ nd b, m r = some nd ∧ (c, b) ∈ nd.edges

/-- `X` are the nodes freed so far, no two letters led to the same. -/
structure Freed (m : Mem) (r : Nat) (o : DNode) (X : List Nat) : Prop where
  mem : ∀ a, a ∈ X ↔ ∃ c, Overwritten m r o c a
  once : ∀ c c' a, Overwritten m r o c a → Overwritten m r o c' a → c = c'

theorem Freed.congr {m m' : Mem} {r : Nat} {X : List Nat} (hX : Freed m r o X)
    (hiff : ∀ c a, Overwritten m' r o c a ↔ Overwritten m r o c a) : Freed m' r o X :=
  ⟨fun a => by rw [hX.mem]; exact ⟨fun ⟨c, h⟩ => ⟨c, (hiff c a).2 h⟩, fun ⟨c, h⟩ => ⟨c, (hiff c a).1 h⟩⟩,
    fun c c' a h h' => hX.once c c' a ((hiff c a).1 h) ((hiff c' a).1 h')⟩

theorem Freed.same {m m' : Mem} {r : Nat} {X : List Nat} (hX : Freed m r o X) (h : m' r = m r) : Freed m' r o X :=
  hX.congr fun c a => by simp only [Overwritten, h]

theorem Freed.out {m : Mem} {r : Nat} {X : List Nat} (hX : Freed m r o X) (ho : OldOk sgn addr c0 m0 o) (h : Heap) :
    ∀ a ∈ X, ¬ InRange addr c0 h a := by
  intro a ha
  obtain ⟨c, hc, _⟩ := (hX.mem a).1 ha
  exact ho.out hc h

/-- Two of the letters that words begin with led to the same node. -/
def Twice (o : DNode) (W : Str → Prop) : Prop :=
  ∃ c c' a, c ≠ c' ∧ (c, a) ∈ o.edges ∧ (c', a) ∈ o.edges ∧ (∃ u, W (c :: u)) ∧ ∃ u, W (c' :: u)

theorem Twice.mono {W W' : Str → Prop} (h : Twice o W) (hw : ∀ t, W t → W' t) : Twice o W' := by
  obtain ⟨c, c', a, h1, h2, h3, ⟨u, h4⟩, ⟨u', h5⟩⟩ := h
  exact ⟨c, c', a, h1, h2, h3, ⟨u, hw _ h4⟩, ⟨u', hw _ h5⟩⟩

/-- Words go along the edges of the root. -/
theorem Site.rootWord {L : Nat} {h : Heap} {d : SDawg} {reg : List RegEntry} {st : List Trans} {fl lk : List Nat}
    {fs : List (UInt8 × Frame)} {rf : Frame} {Z : Nat → Prop} (hc : Site sgn addr c0 m0 h d reg st fl lk fs rf Z)
    (hg : Unclashed L fs rf) {nd : DNode} (hm : h.mem (addr c0) = some nd) {c : UInt8} {b : Nat} (hb : (c, b) ∈ nd.edges) :
    ∃ u, Lang fs rf (c :: u) := by
  obtain ⟨nd', hm', _, hF, _⟩ := hc.stack.rootNode
  rw [hc.root, hm] at hm'; obtain rfl := Option.some.inj hm'
  obtain ⟨f, k, hk⟩ := hF.label_mem hb
  have ht := Forest.trim_iff.1 hg.trim.1 _ hk
  obtain ⟨u, hu⟩ := accT_exists ht.2 ht.1
  exact ⟨u, .of_root (.inr (Forest.acc_cons.2 ⟨f, k, hk, hu⟩))⟩

/-- One step of `minimize`, exactly. -/
theorem Site.stepExact {h : Heap} {d : SDawg} {reg : List RegEntry} {t : Trans} {st : List Trans} {fl lk : List Nat} {c : UInt8}
    {g : Frame} {fs : List (UInt8 × Frame)} {rf : Frame} {Z : Nat → Prop} {L : Nat}
    (hc : Site sgn addr c0 m0 h d reg (t :: st) fl lk ((c, g) :: fs) rf Z) (haddr : AddrOk addr)
    (ho : OldOk sgn addr c0 m0 o) (hg : Unclashed L ((c, g) :: fs) rf) (hfull : Full sgn h reg Z) {X : List Nat}
    (hX : Freed h.mem (addr c0) o X) (k : Nat) :
    ∃ h' d' reg' Z', Ends (fun fuel => minimizeStepF sgn fuel none k h d) (h', d', false) ∧
      Site sgn addr c0 m0 h' d' reg' st fl lk (setTopS (putEdge sgn c g (topFrame fs rf)) fs)
        (setTopR (putEdge sgn c g (topFrame fs rf)) fs rf) Z' ∧ Full sgn h' reg' Z' ∧
      ((∃ X', Freed h'.mem (addr c0) o X' ∧
          Ends (fun fuel => minimizeStepF sgn fuel none k ((liftH sgn (addr c0) o h).without X) d)
            ((liftH sgn (addr c0) o h').without X', d', false)) ∨
        (Twice o (Lang ((c, g) :: fs) rf) ∧ ∃ N, ∀ fuel, N ≤ fuel →
          minimizeStepF sgn fuel none k ((liftH sgn (addr c0) o h).without X) d = .error .ub)) := by
  have hne : ∀ e ∈ (topFrame fs rf).kids.toList, e.1 ≠ c := fun e he hc => hg.free (.inl ⟨e, he, hc⟩)
  obtain ⟨N, nds, b, d1, _, _, hms, hss, hFs, _, hroot1, _, hghost, hreal⟩ := hc.stepOver haddr ho k
  obtain ⟨h', d', reg', Z', hrun, hsite, _, _, hfull'⟩ := hc.openStep haddr hg hfull k
  obtain ⟨hg1, hl1⟩ := hg.step (sgn := sgn)
  have hlab : ∀ e ∈ nds.edges, e.1 ≠ c := by
    rintro ⟨c', b'⟩ he rfl
    obtain ⟨f, k, hk⟩ := hFs.label_mem he
    exact hne _ hk rfl
  have h0 : nodeTransition nds c = 0 := nodeTransition_none hlab
  have heq := hrun.unique ⟨N, hghost h0⟩
  simp only [Prod.mk.injEq, and_true] at heq
  obtain ⟨rfl, rfl⟩ := heq
  refine ⟨_, _, reg', Z', hrun, hsite, hfull', ?_⟩
  have hr := hc.root
  rw [hr] at hreal hms hsite ⊢
  have hXo := hX.out ho h
  have hlen := hc.stack.length
  cases st with
  | cons t' st' =>
    -- not the root
    have htop : topNode (addr c0) (t' :: st') ≠ addr c0 := by
      have := hc.nodup
      rw [hr] at this
      simp only [stackNodes, List.map_cons, List.nodup_cons, List.mem_cons] at this
      intro h'
      exact this.1 (.inr (.inl h'.symm))
    have hT : nodeTransition (overNode sgn (addr c0) o (topNode (addr c0) (t' :: st')) nds) c = 0 := by
      rw [overNode, if_neg htop]; exact h0
    left
    refine ⟨X, hX.same ?_, N, fun fuel hf => ?_⟩
    · simp [withEdge, Mem.set, Ne.symm htop]
    · have := (((hreal X 0 hT.symm fuel hf).2 hXo (.inl rfl)).2 (.inl rfl))
      simpa using this
  | nil =>
    have hfs : fs = [] := by
      cases fs with
      | nil => rfl
      | cons => simp at hlen
    subst hfs
    simp only [topNode] at hms hreal hsite ⊢
    have hT : nodeTransition (overNode sgn (addr c0) o (addr c0) nds) c = nodeTransition o c := by
      rw [overNode, if_pos rfl]; exact liftN_trans_old ho.sorted hss hlab
    have hmem' : (withEdge sgn h (addr c0) nds c b).mem (addr c0) = some { nds with edges := mapSet sgn c b nds.edges } := by
      simp [withEdge, Mem.set]
    have hover : ∀ c' a, Overwritten (withEdge sgn h (addr c0) nds c b).mem (addr c0) o c' a ↔
        (c' = c ∧ (c, a) ∈ o.edges) ∨ Overwritten h.mem (addr c0) o c' a := by
      intro c' a
      simp only [Overwritten, hmem', hms]
      constructor
      · rintro ⟨h1, nd, b', h2, h3⟩
        obtain rfl := Option.some.inj h2
        rcases (mem_mapSet_fresh hlab _).1 h3 with h3 | h3
        · cases h3; exact .inl ⟨rfl, h1⟩
        · exact .inr ⟨h1, nds, b', rfl, h3⟩
      · rintro (⟨rfl, h1⟩ | ⟨h1, nd, b', h2, h3⟩)
        · exact ⟨h1, _, b, rfl, (mem_mapSet_fresh hlab _).2 (.inl rfl)⟩
        · obtain rfl := Option.some.inj h2
          exact ⟨h1, _, b', rfl, (mem_mapSet_fresh hlab _).2 (.inr h3)⟩
    have hno : ∀ a, ¬ Overwritten h.mem (addr c0) o c a := by
      rintro a ⟨_, nd, b', h2, h3⟩
      rw [hms] at h2; obtain rfl := Option.some.inj h2
      exact hlab _ h3 rfl
    by_cases hT0 : nodeTransition o c = 0
    · have hnone : ∀ a, (c, a) ∉ o.edges := fun a ha => (ho.edges c a ha).1 ((nodeTransition_some (sgn := sgn) ho.sorted ha).symm.trans hT0)
      left
      refine ⟨X, hX.congr fun c' a => ?_, N, fun fuel hf => ?_⟩
      · rw [hover]
        exact ⟨fun h => h.resolve_left fun h' => hnone a h'.2, .inr⟩
      · have := (((hreal X 0 (by rw [hT, hT0]) fuel hf).2 hXo (.inl rfl)).2 (.inl rfl))
        simpa using this
    · have hmemT := nodeTransition_mem.resolve_left hT0
      have huniq : ∀ a, (c, a) ∈ o.edges → a = nodeTransition o c := fun a ha => (nodeTransition_some (sgn := sgn) ho.sorted ha).symm
      have hre := fun fuel (hf : N ≤ fuel) => (hreal X _ hT.symm fuel hf).2 hXo (.inr (ho.out hmemT h))
      by_cases hTX : nodeTransition o c ∈ X
      · right
        refine ⟨?_, N, fun fuel hf => (hre fuel hf).1 hT0 hTX⟩
        obtain ⟨c1, hc1⟩ := (hX.mem _).1 hTX
        have hne1 : c ≠ c1 := by
          intro h'
          rw [← h'] at hc1
          exact hno _ hc1
        obtain ⟨u, hu⟩ := hsite.rootWord hg1 hmem' ((mem_mapSet_fresh hlab _).2 (.inl rfl))
        obtain ⟨hc1', nd1, b1, hm1, hb1⟩ := hc1
        rw [hms] at hm1; obtain rfl := Option.some.inj hm1
        obtain ⟨u1, hu1⟩ := hsite.rootWord hg1 hmem' ((mem_mapSet_fresh hlab _).2 (.inr hb1))
        exact ⟨c, c1, _, hne1, hmemT, hc1', ⟨u, (hl1 _).1 hu⟩, ⟨u1, (hl1 _).1 hu1⟩⟩
      · left
        refine ⟨nodeTransition o c :: X, ⟨fun a => ?_, fun c1 c2 a h1 h2 => ?_⟩, N, fun fuel hf => ?_⟩
        · rw [List.mem_cons, hX.mem]
          constructor
          · rintro (rfl | ⟨c', h'⟩)
            · exact ⟨c, (hover _ _).2 (.inl ⟨rfl, hmemT⟩)⟩
            · exact ⟨c', (hover _ _).2 (.inr h')⟩
          · rintro ⟨c', h'⟩
            rcases (hover _ _).1 h' with ⟨_, h'⟩ | h'
            · exact .inl (huniq a h')
            · exact .inr ⟨c', h'⟩
        · rcases (hover _ _).1 h1 with ⟨e1, h1⟩ | h1 <;> rcases (hover _ _).1 h2 with ⟨e2, h2⟩ | h2
          · rw [e1, e2]
          · exact absurd ((hX.mem _).2 ⟨_, huniq a h1 ▸ h2⟩) hTX
          · exact absurd ((hX.mem _).2 ⟨_, huniq a h2 ▸ h1⟩) hTX
          · exact hX.once _ _ _ h1 h2
        · have := (hre fuel hf).2 (.inr hTX)
          simpa [hT0] using this

/-- `minimize`, exactly. -/
theorem Site.loopExact (haddr : AddrOk addr) (ho : OldOk sgn addr c0 m0 o) {L : Nat} (n k : Nat) {h : Heap} {d : SDawg}
    {reg : List RegEntry} {st : List Trans} {fl lk : List Nat} {fs : List (UInt8 × Frame)} {rf : Frame} {Z : Nat → Prop}
    (hc : Site sgn addr c0 m0 h d reg st fl lk fs rf Z) (hg : Unclashed L fs rf) (hfull : Full sgn h reg Z) (hn : n ≤ st.length)
    {X : List Nat} (hX : Freed h.mem (addr c0) o X) :
    ∃ h' d' reg' st' fs' rf' Z', Ends (fun fuel => minimizeLoopF sgn fuel none n k h d) (h', d', false) ∧
      Site sgn addr c0 m0 h' d' reg' st' fl lk fs' rf' Z' ∧
      ((∃ X', Freed h'.mem (addr c0) o X' ∧
          Ends (fun fuel => minimizeLoopF sgn fuel none n k ((liftH sgn (addr c0) o h).without X) d)
            ((liftH sgn (addr c0) o h').without X', d', false)) ∨
        (Twice o (Lang fs rf) ∧ ∃ N, ∀ fuel, N ≤ fuel →
          minimizeLoopF sgn fuel none n k ((liftH sgn (addr c0) o h).without X) d = .error .ub)) := by
  induction n generalizing k h d reg st fs rf Z X with
  | zero => exact ⟨h, d, reg, st, fs, rf, Z, .of_eq fun _ => rfl, hc, .inl ⟨X, hX, .of_eq fun _ => rfl⟩⟩
  | succ n ih =>
    have hlen := hc.stack.length
    cases st with
    | nil => simp at hn
    | cons t st =>
      cases fs with
      | nil => simp at hlen
      | cons x fs =>
        obtain ⟨c, g⟩ := x
        obtain ⟨h1, d1, reg1, Z1, ⟨N1, r1⟩, hc1, f1, hcase⟩ := hc.stepExact haddr ho hg hfull hX k
        obtain ⟨hg1, hl1⟩ := hg.step (sgn := sgn)
        have hglue : ∀ {a : Heap × SDawg × Bool}, Ends (fun fuel => minimizeLoopF sgn fuel none n (k + 1) h1 d1) a →
            Ends (fun fuel => minimizeLoopF sgn fuel none (n + 1) k h d) a := by
          rintro a ⟨N2, r2⟩
          refine ⟨max N1 N2, fun fuel hf => ?_⟩
          have e1 := r1 fuel (by omega)
          have e2 := r2 fuel (by omega)
          simp only at e1 e2
          simp [minimizeLoopF, e1, e2, bind, Except.bind]
        rcases hcase with ⟨X1, hX1, N3, r3⟩ | ⟨htw, N3, r3⟩
        · obtain ⟨h2, d2, reg2, st2, fs2, rf2, Z2, run2, hc2, hcase2⟩ := ih (k + 1) hc1 hg1 f1 (by simpa using hn) hX1
          refine ⟨h2, d2, reg2, st2, fs2, rf2, Z2, hglue run2, hc2, ?_⟩
          rcases hcase2 with ⟨X2, hX2, N4, r4⟩ | ⟨htw, N4, r4⟩
          · refine .inl ⟨X2, hX2, max N3 N4, fun fuel hf => ?_⟩
            have e1 := r3 fuel (by omega)
            have e2 := r4 fuel (by omega)
            simp only at e1 e2
            simp [minimizeLoopF, e1, e2, bind, Except.bind]
          · refine .inr ⟨htw.mono fun t => (hl1 t).1, max N3 N4, fun fuel hf => ?_⟩
            have e1 := r3 fuel (by omega)
            have e2 := r4 fuel (by omega)
            simp only at e1 e2
            simp [minimizeLoopF, e1, e2, bind, Except.bind]
        · obtain ⟨h2, d2, reg2, st2, fs2, rf2, Z2, run2, _, _, hc2, _⟩ := hc1.openLoop haddr n (k + 1) hg1 f1 (by simpa using hn)
          refine ⟨h2, d2, reg2, st2, fs2, rf2, Z2, hglue run2, hc2, .inr ⟨htw, N3, fun fuel hf => ?_⟩⟩
          have e1 := r3 fuel hf
          simp [minimizeLoopF, e1, bind, Except.bind]

theorem newNode_over {h : Heap} (hr : addr h.count ≠ addr c0) {X : List Nat} (hX : addr h.count ∉ X) :
    newNode addr ((liftH sgn (addr c0) o h).without X) =
      ((newNode addr h).1, (liftH sgn (addr c0) o (newNode addr h).2).without X) := by
  rw [newNode_without (h := liftH sgn (addr c0) o h) hX]
  simp only [newNode, liftH]
  rw [liftM_set_ne hr]

/-- The loop of `add`. -/
theorem Site.pushOver (haddr : AddrOk addr) (o : DNode) (rest : Str) (j : Nat) {h : Heap} {d : SDawg} {reg : List RegEntry}
    {st : List Trans} {fl lk : List Nat} {fs : List (UInt8 × Frame)} {rf : Frame} {Z : Nat → Prop}
    (hc : Site sgn addr c0 m0 h d reg st fl lk fs rf Z) :
    ∃ h' d' st' fl', Site sgn addr c0 m0 h' d' reg st' fl' lk (pushed rest fs) rf Z ∧
      (∀ a ∈ fl, a ∈ fl') ∧ h'.mem (addr c0) = h.mem (addr c0) ∧
      pushSuffixF addr none j (topNode d.root st) rest h d = .ok (some (topNode d'.root st'), h', d') ∧
      ∀ X : List Nat, (∀ a ∈ X, ∀ j, h.count ≤ j → addr j ≠ a) →
        pushSuffixF addr none j (topNode d.root st) rest ((liftH sgn (addr c0) o h).without X) d =
          .ok (some (topNode d'.root st'), (liftH sgn (addr c0) o h').without X, d') := by
  induction rest generalizing j h d st fl fs with
  | nil => exact ⟨h, d, st, fl, hc, fun _ h => h, rfl, rfl, fun _ _ => rfl⟩
  | cons c rest ih =>
    obtain ⟨h', d', st', fl', h1, h2, h3, h4, h5⟩ := ih (j + 1) (hc.push haddr c)
    have hbase := hc.heap.base
    have hr : addr h.count ≠ addr c0 := fun h' => by have := haddr.2 _ _ h'; omega
    refine ⟨h', d', st', fl', h1, fun a ha => h2 a (by simp [ha]), ?_, ?_, fun X hX => ?_⟩
    · rw [h3]; simp [newNode, Mem.set, Ne.symm hr]
    · rw [pushSuffixF, hc.floating, hc.unchecked]
      exact h4
    · have hfresh : addr h.count ∉ X := fun h' => hX _ h' _ (Nat.le_refl _) rfl
      rw [pushSuffixF, hc.floating, hc.unchecked]
      simp only [reduceCtorEq, if_false, newNode_over (sgn := sgn) (o := o) hr hfresh]
      exact h5 X fun a ha j hj => hX a ha j (by simp only [newNode] at hj; omega)

theorem setFinal_over {a r : Nat} {h h' : Heap} (hs : setFinal a h = .ok h') (X : List Nat) :
    (setFinal a ((liftH sgn r o h).without X) = .error .ub ∨
      setFinal a ((liftH sgn r o h).without X) = .ok ((liftH sgn r o h').without X)) ∧
    (a ∉ X → setFinal a ((liftH sgn r o h).without X) = .ok ((liftH sgn r o h').without X)) := by
  have hl := setFinal_lift (sgn := sgn) (o := o) (r := r) hs
  refine ⟨setFinal_without hl X, fun ha => ?_⟩
  rcases setFinal_without hl X with h1 | h1
  · exfalso
    cases hm : h.mem a with
    | none => simp [setFinal, deref, hm, bind, Except.bind] at hs
    | some nd =>
      have := overNode_mem (sgn := sgn) (o := o) (r := r) hm
      have hm' : ((liftH sgn r o h).without X).mem a = some (overNode sgn r o a nd) := by
        simp [Heap.without, Mem.without, ha, this]
      simp [setFinal, deref, hm', bind, Except.bind] at h1
  · exact h1

theorem Freed.setFinal {a r : Nat} {h h' : Heap} {X : List Nat} (hX : Freed h.mem r o X) (hs : setFinal a h = .ok h') :
    Freed h'.mem r o X := by
  cases hm : h.mem a with
  | none => simp [Lev.setFinal, deref, hm, bind, Except.bind] at hs
  | some nd =>
    simp only [Lev.setFinal, deref, hm, bind, Except.bind, Except.ok.injEq] at hs
    subst hs
    by_cases ha : r = a
    · subst ha
      refine hX.congr fun c b => ?_
      simp only [Overwritten, Mem.set, if_true, hm]
      constructor
      · rintro ⟨h1, nd', b', h2, h3⟩
        obtain rfl := Option.some.inj h2
        exact ⟨h1, nd, b', rfl, h3⟩
      · rintro ⟨h1, nd', b', h2, h3⟩
        obtain rfl := Option.some.inj h2
        exact ⟨h1, _, b', rfl, h3⟩
    · exact hX.same (by simp [Mem.set, ha])

/-! ### Once an edge of the new construction is overwritten -/

/-- What has been freed: floating nodes and nodes that edges of the old root led to. -/
def GoneOk (o : DNode) (fl X : List Nat) : Prop := ∀ a ∈ X, a ∈ fl ∨ ∃ c, (c, a) ∈ o.edges

/-- A floating node has been freed, or an edge will be overwritten. -/
def Spoilt (fl X : List Nat) (fs : List (UInt8 × Frame)) (rf : Frame) : Prop := (∃ a ∈ X, a ∈ fl) ∨ Clash fs rf

theorem Site.stepLost {h : Heap} {d : SDawg} {reg : List RegEntry}
    {t : Trans} {st : List Trans} {fl lk : List Nat} {c : UInt8} {g : Frame} {fs : List (UInt8 × Frame)} {rf : Frame}
    {Z : Nat → Prop} (hc : Site sgn addr c0 m0 h d reg (t :: st) fl lk ((c, g) :: fs) rf Z) (haddr : AddrOk addr)
    (ho : OldOk sgn addr c0 m0 o) (k : Nat) :
    ∃ N, ∃ h' d' reg' fs' rf' Z', Site sgn addr c0 m0 h' d' reg' st fl lk fs' rf' Z' ∧
      ∀ X : List Nat, GoneOk o fl X → Spoilt fl X ((c, g) :: fs) rf → ∀ fuel, N ≤ fuel →
        minimizeStepF sgn fuel none k ((liftH sgn (addr c0) o h).without X) d = .error .ub ∨
        ∃ X', minimizeStepF sgn fuel none k ((liftH sgn (addr c0) o h).without X) d =
          .ok ((liftH sgn (addr c0) o h').without X', d', false) ∧ GoneOk o fl X' ∧ Spoilt fl X' fs' rf' := by
  obtain ⟨N, nds, b, d1, reg1, Z1, hms, hss, hFs, hfl, _, hsite, _, hreal⟩ := hc.stepOver haddr ho k
  refine ⟨N, _, d1, reg1, _, _, Z1, hsite, fun X hX hl fuel hf => ?_⟩
  have hr := hc.root
  rw [hr] at hreal hms ⊢
  rcases (hreal X _ rfl fuel hf).1 with e | e
  · exact .inl e
  · right
    refine ⟨_, e, fun a ha => ?_, ?_⟩
    · split at ha
      · exact hX a ha
      · next h0 =>
        rcases List.mem_cons.1 ha with rfl | ha
        · rcases overNode_edges ho.sorted hss (nodeTransition_mem.resolve_left h0) with h1 | ⟨_, h1⟩
          · exact .inl (hfl _ ⟨c, h1⟩)
          · exact .inr ⟨c, h1⟩
        · exact hX a ha
    · rcases hl with ⟨a, h1, h2⟩ | h1 | h1
      · refine .inl ⟨a, ?_, h2⟩
        split
        · exact h1
        · simp [h1]
      · have hne := unf_transition_ne hFs hc.heap.null h1
        have hmem := nodeTransition_mem.resolve_left hne
        have hT : nodeTransition (overNode sgn (addr c0) o (topNode (addr c0) st) nds) c = nodeTransition nds c := by
          unfold overNode
          split
          · exact liftN_trans_new ho.sorted hss hmem
          · rfl
        rw [hT, if_neg hne]
        exact .inl ⟨_, by simp, hfl _ ⟨c, hmem⟩⟩
      · exact .inr (h1.setTop _)

theorem Site.loopLost (haddr : AddrOk addr) (ho : OldOk sgn addr c0 m0 o) (n k : Nat) {h : Heap} {d : SDawg} {reg : List RegEntry}
    {st : List Trans} {fl lk : List Nat} {fs : List (UInt8 × Frame)} {rf : Frame}
    {Z : Nat → Prop} (hc : Site sgn addr c0 m0 h d reg st fl lk fs rf Z) (hn : n ≤ st.length) :
    ∃ N, ∃ h' d' reg' fs' rf' Z', Site sgn addr c0 m0 h' d' reg' (st.drop n) fl lk fs' rf' Z' ∧
      ∀ X : List Nat, GoneOk o fl X → Spoilt fl X fs rf → ∀ fuel, N ≤ fuel →
      minimizeLoopF sgn fuel none n k ((liftH sgn (addr c0) o h).without X) d = .error .ub ∨
        ∃ X', minimizeLoopF sgn fuel none n k ((liftH sgn (addr c0) o h).without X) d =
          .ok ((liftH sgn (addr c0) o h').without X', d', false) ∧ GoneOk o fl X' ∧ Spoilt fl X' fs' rf' := by
  induction n generalizing k h d reg st fs rf Z with
  | zero => exact ⟨0, h, d, reg, fs, rf, Z, hc, fun X hX hcl fuel _ => .inr ⟨X, rfl, hX, hcl⟩⟩
  | succ n ih =>
    have hlen := hc.stack.length
    cases st with
    | nil => simp at hn
    | cons t st =>
      cases fs with
      | nil => simp at hlen
      | cons x fs =>
        obtain ⟨c, g⟩ := x
        obtain ⟨N1, h1, d1, reg1, fs1, rf1, Z1, hc1, hstep⟩ := hc.stepLost haddr ho k
        obtain ⟨N2, h2, d2, reg2, fs2, rf2, Z2, hc2, hloop⟩ := ih (k + 1) hc1 (by simpa using hn)
        refine ⟨max N1 N2, h2, d2, reg2, fs2, rf2, Z2, hc2, fun X hX hcl fuel hf => ?_⟩
        rcases hstep X hX hcl fuel (by omega) with e1 | ⟨X1, e1, hX1, hcl1⟩
        · left; simp [minimizeLoopF, e1, bind, Except.bind]
        · rcases hloop X1 hX1 hcl1 fuel (by omega) with e2 | ⟨X2, e2, hX2, hcl2⟩
          · left; simp [minimizeLoopF, e1, e2, bind, Except.bind]
          · right
            exact ⟨X2, by simp [minimizeLoopF, e1, e2, bind, Except.bind], hX2, hcl2⟩

theorem GoneOk.fresh {h : Heap} {d : SDawg} {reg : List RegEntry}
    {st : List Trans} {fl lk X : List Nat} {fs : List (UInt8 × Frame)} {rf : Frame} {Z : Nat → Prop} (hX : GoneOk o fl X)
    (haddr : AddrOk addr) (ho : OldOk sgn addr c0 m0 o)
    (hc : Site sgn addr c0 m0 h d reg st fl lk fs rf Z) : ∀ a ∈ X, ∀ j, h.count ≤ j → addr j ≠ a := by
  intro a ha j hj h'
  rcases hX a ha with h1 | ⟨c, h1⟩
  · obtain ⟨⟨i, _, h2, h3⟩, _⟩ := (hc.float.2 _).1 h1
    have := haddr.2 _ _ (h'.trans h3); omega
  · have := hc.heap.base
    exact (ho.edges c a h1).2.2 j (by omega) h'

theorem Site.addLost (haddr : AddrOk addr) (ho : OldOk sgn addr c0 m0 o) (t : Str) {h : Heap} {d : SDawg} {reg : List RegEntry}
    {st : List Trans} {fl lk : List Nat} {fs : List (UInt8 × Frame)} {rf : Frame}
    {Z : Nat → Prop} (hc : Site sgn addr c0 m0 h d reg st fl lk fs rf Z) (hs : st.length ≤ d.prev.length) :
    ∃ N, ∃ fate h' d' reg' st' fl' fs' rf' Z', Site sgn addr c0 m0 h' d' reg' st' fl' lk fs' rf' Z' ∧ st'.length ≤ d'.prev.length ∧
      ∀ X : List Nat, GoneOk o fl X → Spoilt fl X fs rf → ∀ fuel, N ≤ fuel →
      addTermF sgn addr fuel none t ((liftH sgn (addr c0) o h).without X) d = .error .ub ∨
        ∃ X', addTermF sgn addr fuel none t ((liftH sgn (addr c0) o h).without X) d =
          .ok (fate, (liftH sgn (addr c0) o h').without X', d') ∧ GoneOk o fl' X' ∧ Spoilt fl' X' fs' rf' := by
  by_cases hlt : strLt t d.prev = true
  · exact ⟨0, .refused, h, d, reg, st, fl, fs, rf, Z, hc, hs, fun X hX hcl fuel _ => .inr ⟨X, by simp [addTermF, hlt], hX, hcl⟩⟩
  have hltF : strLt t d.prev = false := by simpa using hlt
  by_cases ht : t = []
  · subst ht
    have hp : d.prev = [] := by
      cases hd : d.prev with
      | nil => rfl
      | cons x l => rw [hd] at hlt; simp [strLt] at hlt
    have hst : st = [] := by
      rw [hp] at hs; exact List.length_eq_zero_iff.1 (by simpa using hs)
    subst hst
    obtain ⟨h', hrun, hc', _⟩ := hc.setFinal haddr
    have hrun' : Lev.setFinal d.root h = .ok h' := hrun
    refine ⟨0, .added, h', { d with prev := [], size := d.size + 1 }, reg, [], fl, _, _, Z, hc'.withPrev _ _, by simp,
      fun X hX hcl fuel _ => ?_⟩
    rcases (setFinal_over (sgn := sgn) (o := o) (r := addr c0) hrun' X).1 with e | e
    · left; simp [addTermF, hltF, e, bind, Except.bind]
    · right
      refine ⟨X, by simp [addTermF, hltF, e, bind, Except.bind, pure, Except.pure], hX, ?_⟩
      rcases hcl with h | h
      · exact .inl h
      · exact .inr ((clash_setTop _).2 h)
  · obtain ⟨N, h1, d1, reg1, fs1, rf1, Z1, hc1, hloop⟩ := hc.loopLost haddr ho (st.length - commonPrefix t d.prev) 0 (by omega)
    obtain ⟨h2, d2, st2, fl2, hc2, hfl, _, _, hpush⟩ := hc1.pushOver haddr o (t.drop (commonPrefix t d.prev)) 0
    obtain ⟨h3, hrun3, hc3, _⟩ := hc2.setFinal haddr
    refine ⟨N, .added, h3, { d2 with prev := t, size := d2.size + 1 }, reg1, st2, fl2, _, _, Z1, hc3.withPrev _ _, ?_,
      fun X hX hcl fuel hf => ?_⟩
    · have e1 := hc1.pathLength
      have e2 := hc2.pathLength
      rw [pushed_path, List.length_append, ← e1, List.length_drop, List.length_drop] at e2
      have e3 : commonPrefix t d.prev ≤ t.length := by rw [commonPrefix_eq]; exact commonLen_le_left _ _
      simp only
      omega
    · have hsrc := suffixSource_eq hc1.unchecked
      rcases hloop X hX hcl fuel hf with e1 | ⟨X1, e1, hX1, hcl1⟩
      · left; simp [addTermF, hltF, ht, minimizeF, hc.unchecked, e1, bind, Except.bind]
      · have e2 := hpush X1 (hX1.fresh haddr ho hc1)
        rcases (setFinal_over (sgn := sgn) (o := o) (r := addr c0) hrun3 X1).1 with e3 | e3
        · left; simp [addTermF, hltF, ht, minimizeF, hc.unchecked, e1, bind, Except.bind, hsrc, e2, e3]
        · right
          refine ⟨X1, by simp [addTermF, hltF, ht, minimizeF, hc.unchecked, e1, bind, Except.bind, hsrc, e2, e3, pure, Except.pure],
            fun a ha => (hX1 a ha).imp_left (hfl a), ?_⟩
          rcases hcl1 with ⟨a, h1, h2⟩ | h
          · exact .inl ⟨a, h1, hfl a h2⟩
          · exact .inr ((clash_setTop _).2 (pushed_clash _ h))

/-- The old root laid over the new one, once `minimize` is through: what is below it. -/
theorem Site.overUnf (ho : OldOk sgn addr c0 m0 o) {h : Heap} {d : SDawg} {reg : List RegEntry}
    {fl lk : List Nat} {rf : Frame} {Z : Nat → Prop} (hc : Site sgn addr c0 m0 h d reg [] fl lk [] rf Z) :
    ∃ nd F, h.mem (addr c0) = some nd ∧ nd.edges.Pairwise (fun e f => charLt sgn e.1 f.1) ∧
      (∀ c b, (c, b) ∈ nd.edges → Z b) ∧ Unf (liftH sgn (addr c0) o h).mem (liftN sgn o nd).edges F := by
  obtain ⟨nd, hm, _, hF, hss, hZ⟩ := hc.stack.rootNode
  rw [hc.root] at hm
  obtain ⟨_, _, hbes, F0, hF0⟩ := ho.keeps hc.heap
  have hnr : ¬ Z (addr c0) := by rw [← hc.root]; exact hc.notZone _ (by simp [stackNodes])
  have hcl : Closed h.mem (fun a => Z a ∨ BelowOld h.mem o a) := by
    rintro a (h | h)
    · obtain ⟨n, h1, h2⟩ := hc.closed a h
      exact ⟨n, h1, fun c b hb => .inl (h2 c b hb)⟩
    · obtain ⟨n, h1, h2⟩ := hbes.closed a h
      exact ⟨n, h1, fun c b hb => .inr (h2 c b hb)⟩
  have hmm : ∀ a, Z a ∨ BelowOld h.mem o a → liftM sgn (addr c0) o h.mem a = h.mem a := by
    rintro a ha
    refine liftM_ne ?_
    rintro rfl
    rcases ha with h | h
    · exact hnr h
    · exact hbes.root h
  have : ∀ es : List (UInt8 × Nat), (∀ e ∈ es, e ∈ o.edges ∨ e ∈ nd.edges) → ∃ F, Unf (liftM sgn (addr c0) o h.mem) es F := by
    intro es hes
    induction es with
    | nil => exact ⟨.nil, .nil⟩
    | cons e es ih =>
      obtain ⟨F, hF'⟩ := ih fun e he => hes e (by simp [he])
      obtain ⟨c, b⟩ := e
      rcases hes (c, b) (by simp) with h1 | h1
      · obtain ⟨nb, K, h2, h3, _⟩ := hF0.target h1
        have hzb : Z b ∨ BelowOld h.mem o b := .inr (.edge h1)
        obtain ⟨nb', h2', h4⟩ := hcl b hzb
        rw [h2] at h2'; obtain rfl := Option.some.inj h2'
        exact ⟨_, .cons (by rw [hmm b hzb]; exact h2) (h3.frame hcl hmm h4) hF'⟩
      · obtain ⟨nb, K, h2, h3, _⟩ := hF.target h1
        have hzb : Z b ∨ BelowOld h.mem o b := .inl (hZ c b h1)
        obtain ⟨nb', h2', h4⟩ := hcl b hzb
        rw [h2] at h2'; obtain rfl := Option.some.inj h2'
        exact ⟨_, .cons (by rw [hmm b hzb]; exact h2) (h3.frame hcl hmm h4) hF'⟩
  obtain ⟨F, hF'⟩ := this (liftN sgn o nd).edges fun e he => by
    rcases (mem_mergeE_over ho.sorted hss e).1 he with he | ⟨he, _⟩
    · exact .inr he
    · exact .inl he
  exact ⟨nd, F, hm, hss, hZ, hF'⟩

/-- `finish` and `clean_up`, once an edge of the new construction is overwritten or will be. -/
theorem Site.doomLost (haddr : AddrOk addr) (ho : OldOk sgn addr c0 m0 o) {h : Heap} {d : SDawg} {reg : List RegEntry}
    {st : List Trans} {fl lk : List Nat} {fs : List (UInt8 × Frame)} {rf : Frame}
    {Z : Nat → Prop} (hc : Site sgn addr c0 m0 h d reg st fl lk fs rf Z) :
    ∃ N, ∀ X : List Nat, GoneOk o fl X → Spoilt fl X fs rf → ∀ fuel, N ≤ fuel → (do
      let (h, d, _) ← finishF sgn fuel none ((liftH sgn (addr c0) o h).without X) d
      Lev.cleanUp fuel h d) = .error .ub := by
  obtain ⟨N1, h1, d1, reg1, fs1, rf1, Z1, hc1, hloop⟩ := hc.loopLost haddr ho st.length 0 (Nat.le_refl _)
  rw [List.drop_length] at hc1
  have hfs : fs1 = [] := by
    have := hc1.stack.length
    exact List.length_eq_zero_iff.1 (by simpa using this)
  subst hfs
  obtain ⟨nd, F, hm, _, _, hF⟩ := hc1.overUnf ho
  obtain ⟨r, ⟨N2, hr⟩, _, _⟩ := allNodes_spec (liftM_root (sgn := sgn) (o := o) hm) hF
  refine ⟨max N1 N2, fun X0 hX0 hcl fuel hf => ?_⟩
  have hfin : finishF sgn fuel none ((liftH sgn (addr c0) o h).without X0) d =
      minimizeLoopF sgn fuel none st.length 0 ((liftH sgn (addr c0) o h).without X0) d := by
    simp only [finishF, minimizeF, hc.unchecked, Nat.sub_zero]
  rw [hfin]
  rcases hloop X0 hX0 hcl fuel (by omega) with e1 | ⟨X, e1, hX, hl⟩
  · simp [e1, bind, Except.bind]
  · rw [e1]
    simp only [bind, Except.bind, Lev.cleanUp, hc1.floating]
    have hless : Less ((liftH sgn (addr c0) o h1).without X).mem (liftH sgn (addr c0) o h1).mem := Mem.without_less _ X
    have hr' : allNodesLoop (liftH sgn (addr c0) o h1).mem fuel [d1.root] [] = .ok r := by
      rw [hc1.root]; exact hr fuel (by omega)
    rcases hless.allNodesLoop fuel [d1.root] [] with e2 | e2
    · simp [allNodes, e2]
    · rw [hr'] at e2
      obtain ⟨a, haX, hfl⟩ := hl.resolve_right fun h => h
      have hdead : ((liftH sgn (addr c0) o h1).without X).mem a = none := by simp [Heap.without, Mem.without, haX]
      have har : a ∉ r := by
        intro h'
        rcases allNodesLoop_alive e2 h' with h'' | h''
        · simp at h''
        · exact h'' hdead
      have ha0 : a ≠ 0 := by
        obtain ⟨⟨j, _, _, rfl⟩, _⟩ := (hc1.float.2 a).1 hfl
        exact haddr.1 j
      have hdel := deleteAll_ub (l := fl.filter (fun a => decide (a ∉ r))) (h := (liftH sgn (addr c0) o h1).without X) (a := a)
        (List.mem_filter.2 ⟨hfl, by simpa using har⟩) ha0 hdead
      simp only [allNodes, e2]
      rw [hdel]

end

end Lev
