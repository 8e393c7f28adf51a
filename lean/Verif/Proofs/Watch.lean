import Verif.Proofs.Abandon
import Verif.Proofs.Iter
import Verif.Proofs.QueryAll

/-!
Queries and iterators that are under way while terms are added to their dictionary: what is below the root does not change.
-/

namespace Lev

open Spec

/-! ### Construction keeps what can be reached -/

section
variable {sgn : Bool} {addr : Nat → Nat} {c0 : Nat} {m0 : Mem}

theorem minimizeLoop_grows (haddr : AddrOk addr) (k : Nat) {h : Heap} {d : SDawg} {reg : List RegEntry}
    {st : List Trans} {fl : List Nat} {fs : List (UInt8 × Frame)} {rf : Frame}
    (hc : Core sgn addr c0 m0 h d reg st fl fs rf) (hk : k ≤ st.length)
    (hne : 0 < k → (topFrame fs rf).fin = true ∨ (topFrame fs rf).kids ≠ .nil) :
    ∃ h' d' reg', Ends (fun fuel => minimizeLoop sgn fuel k h d) (h', d') ∧ d'.minimized = some reg' ∧ Grows reg h d reg' h' d' := by
  induction k generalizing h d reg st fs rf with
  | zero => exact ⟨h, d, reg, .of_eq fun _ => rfl, hc.minimized, .refl⟩
  | succ k ih =>
    have hlen := hc.stack.length
    cases st with
    | nil => simp at hk
    | cons t st =>
      cases fs with
      | nil => simp at hlen
      | cons e fs =>
        obtain ⟨c, f⟩ := e
        obtain ⟨h1, d1, reg1, hrun, hc1, _, _, _, hg1⟩ := minimizeStep_by hc haddr (hne (by omega))
        obtain ⟨h2, d2, reg2, hrun2, hm2, hg2⟩ := ih hc1 (by simpa using hk)
          (fun _ => .inr (by rw [topFrame_set]; exact Forest.ins_ne_nil))
        refine ⟨h2, d2, reg2, ?_, hm2, hg1.trans hg2⟩
        exact (Ends.bind (g := fun fuel r => minimizeLoop sgn fuel k r.1 r.2) ⟨_, hrun⟩ hrun2).congr fun n => rfl

theorem pushSuffix_keeps (rest : Str) {a x r : Nat} {h h' : Heap} {d d' : SDawg}
    (e : pushSuffix addr a rest h d = .ok (x, h', d')) (hr : ∀ j, h.count ≤ j → r ≠ addr j) :
    h'.mem r = h.mem r ∧ d'.root = d.root ∧ d'.minimized = d.minimized := by
  induction rest generalizing a h d with
  | nil => cases e; exact ⟨rfl, rfl, rfl⟩
  | cons c rest ih =>
    rw [pushSuffix] at e
    split at e
    · obtain ⟨h1, h2, h3⟩ := ih e fun j hj => hr j (by simp only [newNode] at hj; omega)
      refine ⟨h1.trans ?_, h2, h3⟩
      simp only [newNode, Mem.set, hr _ (Nat.le_refl _), if_false]
    · cases e

theorem setFinal_grows {a : Nat} {h h' : Heap} {d d' : SDawg} {reg : List RegEntry} (e : setFinal a h = .ok h')
    (hd : d'.root = d.root) : Grows reg h d reg h' d' := by
  simp only [setFinal, deref] at e
  cases hm : h.mem a with
  | none => simp [hm, bind, Except.bind] at e
  | some nd =>
    simp only [hm, bind, Except.bind] at e
    cases e
    exact .set hm (fun _ h => h) (fun _ h => h) hd

theorem addTerm_grow (haddr : AddrOk addr) {h : Heap} {d : SDawg} {reg : List RegEntry} {st : List Trans} {fl : List Nat}
    {fs : List (UInt8 × Frame)} {rf : Frame} (hc : Core sgn addr c0 m0 h d reg st fl fs rf)
    (hpath : path fs = d.prev) (hfin : fs ≠ [] → (topFrame fs rf).fin = true) {term : Str} {h' : Heap} {d' : SDawg}
    (hrun : Ends (fun fuel => addTerm sgn addr fuel term h d) (true, h', d')) :
    ∃ reg', d'.minimized = some reg' ∧ Grows reg h d reg' h' d' := by
  obtain ⟨N, hN⟩ := hrun
  have hlen := hc.stack.length
  have hprevlen : st.length = d.prev.length := by rw [← hpath]; simp [path, hlen]
  obtain ⟨h1, d1, reg1, ⟨N1, hN1⟩, hm1, hg1⟩ := minimizeLoop_grows haddr (st.length - commonPrefix term d.prev) hc (by omega)
    (fun hpos => .inl (hfin (by
      rintro rfl
      simp at hlen
      rw [← hlen] at hpos
      simp at hpos)))
  obtain ⟨h1', d1', _, _, _, _, hrun1', hc1, _, _, _, _, hcnt, _⟩ :=
    minimizeLoop_spec haddr (st.length - commonPrefix term d.prev) hc (by omega) (fun hpos => .inl (hfin (by
      rintro rfl
      simp at hlen
      rw [← hlen] at hpos
      simp at hpos)))
  cases (show Ends _ (h1, d1) from ⟨N1, hN1⟩).unique hrun1'
  have e := hN (N + N1) (by omega)
  have e1 := hN1 (N + N1) (by omega)
  simp only at e e1
  simp only [addTerm] at e
  split at e
  · cases e
  · split at e
    · cases hs : setFinal d.root h with
      | error x => simp [hs, bind, Except.bind] at e
      | ok h2 =>
        simp only [hs, bind, Except.bind] at e
        cases e
        exact ⟨reg, hc.minimized, setFinal_grows hs rfl⟩
    · have hmin : minimize sgn (N + N1) (commonPrefix term d.prev) h d = .ok (h1, d1) := by
        rw [minimize, hc.unchecked]; exact e1
      simp only [hmin, bind, Except.bind] at e
      cases hsrc : suffixSource d1 with
      | error x => simp [hsrc] at e
      | ok src =>
        simp only [hsrc] at e
        cases hp : pushSuffix addr src (term.drop (commonPrefix term d.prev)) h1 d1 with
        | error x => simp [hp] at e
        | ok r =>
          obtain ⟨src2, h2, d2⟩ := r
          simp only [hp] at e
          cases hs : setFinal src2 h2 with
          | error x => simp [hs] at e
          | ok h3 =>
            simp only [hs] at e
            cases e
            have hroot : ∀ j, h1.count ≤ j → d1.root ≠ addr j := by
              rw [hc1.root]
              intro j hj he
              have := haddr.2 _ _ he
              have := hc1.heap.base
              omega
            obtain ⟨p1, p2, p3⟩ := pushSuffix_keeps _ hp hroot
            have hg2 : Grows reg1 h1 d1 reg1 h2 d2 := ⟨p2, fun _ h => h, fun nd hnd => ⟨nd, p1.trans hnd, fun _ h => h⟩⟩
            exact ⟨reg1, p3.trans hm1, hg1.trans (hg2.trans (setFinal_grows hs rfl))⟩

/-! ### What was below the root at a time -/

/-- Reached from an edge of `nd`. -/
def Beneath (mem : Mem) (nd : DNode) (a : Nat) : Prop := ∃ c b, (c, b) ∈ nd.edges ∧ Reaches mem b a

/-- What was below the root is still there, for good. -/
structure Stays (mem0 : Mem) (nd0 : DNode) (reg : List RegEntry) (h : Heap) (d : SDawg) : Prop where
  entry : ∀ a, Beneath mem0 nd0 a → ∃ e ∈ reg, e.val = a ∧ mem0 a = some e.key
  edges : ∃ nd, h.mem d.root = some nd ∧ ∀ e ∈ nd0.edges, e ∈ nd.edges

theorem Stays.grow {mem0 : Mem} {nd0 : DNode} {reg reg' : List RegEntry} {h h' : Heap} {d d' : SDawg}
    (hk : Stays mem0 nd0 reg h d) (hg : Grows reg h d reg' h' d') : Stays mem0 nd0 reg' h' d' := by
  refine ⟨fun a ha => ?_, ?_⟩
  · obtain ⟨e, h1, h2⟩ := hk.entry a ha
    exact ⟨e, hg.reg e h1, h2⟩
  · obtain ⟨nd, h1, h2⟩ := hk.edges
    obtain ⟨nd', h3, h4⟩ := hg.edges nd h1
    exact ⟨nd', by rw [hg.root]; exact h3, fun e he => h4 e (h2 e he)⟩

variable {h : Heap} {d : SDawg} {reg : List RegEntry} {st : List Trans} {fl : List Nat} {fs : List (UInt8 × Frame)} {rf : Frame}
  {mem0 : Mem} {nd0 : DNode}

theorem Core.keeps (hc : Core sgn addr c0 m0 h d reg st fl fs rf) {nd : DNode} (hm : h.mem d.root = some nd) :
    Stays h.mem nd reg h d := by
  obtain ⟨nd', hm', _, _, _, hZ⟩ := hc.stack.rootNode
  rw [hm] at hm'
  cases hm'
  refine ⟨?_, nd, hm, fun _ h => h⟩
  rintro a ⟨c, b, hb, hr⟩
  obtain ⟨e, he, rfl⟩ := hc.regOk.closed.reaches (hZ c b hb) hr
  exact ⟨e, he, rfl, (hc.regOk.node e he).1⟩

theorem Core.kept (hc : Core sgn addr c0 m0 h d reg st fl fs rf) (hk : Stays mem0 nd0 reg h d) :
    ∀ a, Beneath mem0 nd0 a → h.mem a = mem0 a := by
  intro a ha
  obtain ⟨e, he, rfl, h1⟩ := hk.entry a ha
  rw [h1, (hc.regOk.node e he).1]

/-- `clean_up` deletes nothing of it. -/
theorem Core.kept_cleaned (hc : Core sgn addr c0 m0 h d reg st fl fs rf) (hk : Stays mem0 nd0 reg h d) :
    ∀ a, Beneath mem0 nd0 a → cleaned addr c0 h d.root a = mem0 a := by
  intro a ha
  rw [← hc.kept hk a ha]
  refine cleaned_reach ?_
  obtain ⟨nd, h1, h2⟩ := hk.edges
  obtain ⟨c, b, hb, hr⟩ := ha
  have hall : ∀ x, Reaches mem0 b x → h.mem x = mem0 x := fun x hx => hc.kept hk x ⟨c, b, hb, hx⟩
  have : Reaches h.mem b a := by
    clear hc hk h1 h2 hb
    induction hr with
    | refl => exact .refl
    | step hm hb' _ ih =>
      exact .step ((hall _ .refl).trans hm) hb' (ih fun x hx => hall x (.step hm hb' hx))
  exact .step h1 (h2 _ hb) this

end

/-! ### Queries -/

theorem Spec.Reaches.snoc {mem : Mem} {a b x : Nat} {nd : DNode} {c : UInt8} (h : Reaches mem a b) (hm : mem b = some nd)
    (hx : (c, x) ∈ nd.edges) : Reaches mem a x := by
  induction h with
  | refl => exact .step hm hx .refl
  | step h1 h2 _ ih => exact .step h1 h2 (ih hm)

section
variable {σ S R : Type} {B : Backend σ S} {upd : Str → Nat → R} {mem mem0 : Mem} {nd0 : DNode}

theorem Beneath.edge {a b : Nat} {nd : DNode} {c : UInt8} (h : Beneath mem0 nd0 a) (hm : mem0 a = some nd)
    (hb : (c, b) ∈ nd.edges) : Beneath mem0 nd0 b := by
  obtain ⟨c', b', h1, h2⟩ := h
  exact ⟨c', b', h1, h2.snoc hm hb⟩

/-- The root was read: all nodes a query is going to read are below it. -/
structure Deep (mem0 : Mem) (nd0 : DNode) (Q : Query S R) : Prop where
  pending : ∀ I ∈ Q.pending, Beneath mem0 nd0 I.node
  edges : ∀ c b, (c, b) ∈ Q.edges → Beneath mem0 nd0 b

theorem queryIter_frozen (hmm : ∀ a, Beneath mem0 nd0 a → mem a = mem0 a) {m : σ} {Q : Query S R} (hd : Deep mem0 nd0 Q) :
    queryIter B mem upd m Q = queryIter B mem0 upd m Q := by
  unfold queryIter
  split
  · split
    · rfl
    · next I rest hp =>
      have : deref mem I.node = deref mem0 I.node := by simp only [deref, hmm _ (hd.pending I (by rw [hp]; exact .head _))]
      rw [this]
  · next label target es he =>
    have : deref mem target = deref mem0 target := by simp only [deref, hmm _ (hd.edges label target (by rw [he]; exact .head _))]
    rw [this]

/-- One turn of the loop: it suffices that the edges of the node that is read next lead below. -/
theorem queryIter_deep {m m' : σ} {Q Q' : Query S R} {b : Bool}
    (hp : ∀ I rest, Q.edges = [] → Q.pending = I :: rest → ∀ nd c b, mem0 I.node = some nd → (c, b) ∈ nd.edges → Beneath mem0 nd0 b)
    (hr : ∀ I rest, Q.edges = [] → Q.pending = I :: rest → ∀ J ∈ rest, Beneath mem0 nd0 J.node)
    (hd : Q.edges ≠ [] → Deep mem0 nd0 Q)
    (e : queryIter B mem0 upd m Q = .ok (m', Q', b)) : Deep mem0 nd0 Q' := by
  unfold queryIter at e
  split at e
  · next he =>
    split at e
    · cases e
    · next I rest hq =>
      cases hi : B.headIdx m I.state with
      | error x => simp [hi, bind, Except.bind] at e
      | ok i =>
        cases hm : mem0 I.node with
        | none => simp [hi, hm, deref, bind, Except.bind] at e
        | some nd =>
          simp only [hi, hm, deref, bind, Except.bind, pure, Except.pure] at e
          cases e
          exact ⟨hr I rest he hq, fun c b hb => hp I rest he hq nd c b hm hb⟩
  · next label target es he =>
    have hd := hd (by rw [he]; simp)
    have hes : ∀ c b, (c, b) ∈ es → Beneath mem0 nd0 b := fun c b hb => hd.edges c b (by rw [he]; exact .tail _ hb)
    have ht : Beneath mem0 nd0 target := hd.edges label target (by rw [he]; exact .head _)
    split at e
    · cases e
    · next I hc =>
      cases hv : charVec label Q.term Q.k Q.i with
      | error x => simp [hv, bind, Except.bind] at e
      | ok cv =>
        cases htr : B.trans m I.state cv with
        | error x => simp [hv, htr, bind, Except.bind] at e
        | ok r =>
          obtain ⟨m1, next⟩ := r
          simp only [hv, htr, bind, Except.bind, pure, Except.pure] at e
          cases next with
          | none =>
            cases e
            exact ⟨hd.pending, hes⟩
          | some s =>
            simp only at e
            have hQ : ∀ J ∈ Q.pending ++ [Inter.child label target s I], Beneath mem0 nd0 J.node := by
              intro J hJ
              rcases List.mem_append.1 hJ with hJ | hJ
              · exact hd.pending J hJ
              · rw [List.mem_singleton.1 hJ]; exact ht
            split at e
            · cases e
            · split at e
              · split at e
                · cases e
                · split at e
                  · cases e; exact ⟨hQ, hes⟩
                  · cases e; exact ⟨hQ, hes⟩
              · cases e; exact ⟨hQ, hes⟩

theorem Deep.iter {m m' : σ} {Q Q' : Query S R} {b : Bool} (hd : Deep mem0 nd0 Q)
    (e : queryIter B mem0 upd m Q = .ok (m', Q', b)) : Deep mem0 nd0 Q' :=
  queryIter_deep (fun I rest _ hq _ _ _ hm hb => (hd.pending I (by rw [hq]; exact .head _)).edge hm hb)
    (fun I rest _ hq J hJ => hd.pending J (by rw [hq]; exact .tail _ hJ)) (fun _ => hd) e

theorem queryLoop_frozen (hmm : ∀ a, Beneath mem0 nd0 a → mem a = mem0 a) (fuel : Nat) {m : σ} {Q : Query S R}
    (hd : Deep mem0 nd0 Q) :
    queryLoop B mem upd fuel m Q = queryLoop B mem0 upd fuel m Q ∧
      ∀ m' Q', queryLoop B mem0 upd fuel m Q = .ok (m', Q') → Deep mem0 nd0 Q' := by
  induction fuel generalizing m Q with
  | zero => exact ⟨rfl, fun m' Q' e => by simp [queryLoop] at e⟩
  | succ fuel ih =>
    simp only [queryLoop, queryIter_frozen hmm hd]
    cases e1 : queryIter B mem0 upd m Q with
    | error x => simp [bind, Except.bind]
    | ok r =>
      obtain ⟨m1, Q1, b⟩ := r
      have hd1 := hd.iter e1
      simp only [bind, Except.bind, pure, Except.pure]
      cases b with
      | true =>
        refine ⟨rfl, fun m' Q' e => ?_⟩
        cases e
        exact hd1
      | false =>
        simp only [Bool.false_eq_true, if_false]
        split
        · refine ⟨rfl, fun m' Q' e => ?_⟩
          cases e
          exact hd1
        · exact ih hd1

theorem queryAdvance_frozen (hmm : ∀ a, Beneath mem0 nd0 a → mem a = mem0 a) (fuel : Nat) {m : σ} {Q : Query S R}
    (hd : Deep mem0 nd0 Q) :
    queryAdvance B mem upd fuel m Q = queryAdvance B mem0 upd fuel m Q ∧
      ∀ m' Q', queryAdvance B mem0 upd fuel m Q = .ok (m', Q') → Deep mem0 nd0 Q' := by
  simp only [queryAdvance]
  have hd' : Deep mem0 nd0 { Q with complete := true } := ⟨hd.pending, hd.edges⟩
  split
  · refine ⟨rfl, fun m' Q' e => ?_⟩
    cases e
    exact hd'
  · exact queryLoop_frozen hmm fuel hd'

/-- A query that has not yet read the root reads it when it is advanced. -/
theorem queryAdvance_root {fuel : Nat} {m m' : σ} {Q Q' : Query S R} {root : Nat} {s0 : S} (h0 : mem0 root = some nd0)
    (hp : Q.pending = [Inter.root root s0]) (he : Q.edges = []) (e : queryAdvance B mem0 upd fuel m Q = .ok (m', Q')) :
    Deep mem0 nd0 Q' := by
  have hne : (Q.edges.isEmpty && Q.pending.isEmpty) = false := by simp [hp]
  simp only [queryAdvance, hne, Bool.false_eq_true, if_false] at e
  cases fuel with
  | zero => simp [queryLoop] at e
  | succ fuel =>
    simp only [queryLoop] at e
    cases e1 : queryIter B mem0 upd m { Q with complete := true } with
    | error x => simp [e1, bind, Except.bind] at e
    | ok r =>
      obtain ⟨m1, Q1, b⟩ := r
      have hd1 : Deep mem0 nd0 Q1 := by
        refine queryIter_deep (Q := { Q with complete := true }) (fun I rest _ hq nd c b hm hb => ?_)
          (fun I rest _ hq J hJ => ?_) (fun h => absurd he h) e1
        · simp only [hp, List.cons.injEq] at hq
          rw [← hq.1] at hm
          have hm : mem0 root = some nd := hm
          rw [h0] at hm
          cases hm
          exact ⟨c, b, hb, .refl⟩
        · simp only [hp, List.cons.injEq] at hq
          rw [← hq.2] at hJ
          cases hJ
      simp only [e1, bind, Except.bind, pure, Except.pure] at e
      split at e
      · cases e; exact hd1
      · split at e
        · cases e; exact hd1
        · exact (queryLoop_frozen (fun _ _ => rfl) fuel hd1).2 _ _ e

end

/-! ### Iterators -/

section
variable {mem mem0 : Mem} {nd0 : DNode} {paddr : Nat → Nat}

/-- All nodes an iterator is going to read are below the root. -/
def DeepI (mem0 : Mem) (nd0 : DNode) (h : PHeap) (it : DIter) : Prop :=
  ∀ a ∈ it.pending, ∀ p, h.mem a = some p → Beneath mem0 nd0 p.node

theorem pushEdges_deep (parent : Nat) (es : List (UInt8 × Nat)) {h : PHeap} {it : DIter} (hd : DeepI mem0 nd0 h it)
    (hes : ∀ c b, (c, b) ∈ es → Beneath mem0 nd0 b) :
    DeepI mem0 nd0 (pushEdges paddr parent es h it).1 (pushEdges paddr parent es h it).2 := by
  induction es generalizing h it with
  | nil => exact hd
  | cons e es ih =>
    obtain ⟨c, b⟩ := e
    simp only [pushEdges]
    refine ih (fun a ha p hp => ?_) fun c b hb => hes c b (.tail _ hb)
    simp only [newPrefix] at ha hp
    split at hp
    · cases hp; exact hes c b (.head _)
    · next hne =>
      rcases List.mem_append.1 ha with ha | ha
      · exact hd a ha p hp
      · exact absurd (List.mem_singleton.1 ha) hne

theorem iterLoop_deep (fuel : Nat) {h h' : PHeap} {it it' : DIter} {a : Nat} {b : Bool}
    (hp : ∀ x rest, it.pending = x :: rest → (∀ p nd c t, h.mem x = some p → mem0 p.node = some nd → (c, t) ∈ nd.edges →
      Beneath mem0 nd0 t) ∧ DeepI mem0 nd0 h { it with pending := rest })
    (e : iterLoop mem0 paddr fuel h it = .ok (h', it', a, b)) : DeepI mem0 nd0 h' it' := by
  induction fuel generalizing h it with
  | zero => simp [iterLoop] at e
  | succ fuel ih =>
    simp only [iterLoop] at e
    split at e
    · cases e
    · next x rest hq =>
      split at e
      · cases e
      · next p hx =>
        cases hm : mem0 p.node with
        | none => simp [hm, deref, bind, Except.bind] at e
        | some nd =>
          simp only [hm, deref, bind, Except.bind] at e
          obtain ⟨h1, h2⟩ := hp x rest hq
          have hd := pushEdges_deep (paddr := paddr) x nd.edges h2 fun c t ht => h1 p nd c t hx hm ht
          split at e
          · refine ih (fun y r hy => ⟨fun p nd c t g1 g2 g3 => ?_, fun y' hy' p hp => ?_⟩) e
            · exact (hd y (by rw [hy]; exact .head _) p g1).edge g2 g3
            · exact hd y' (by rw [hy]; exact .tail _ hy') p hp
          · cases e; exact hd

theorem DeepI.turn {h : PHeap} {it : DIter} (hd : DeepI mem0 nd0 h it) :
    ∀ x rest, it.pending = x :: rest → (∀ p nd c t, h.mem x = some p → mem0 p.node = some nd → (c, t) ∈ nd.edges →
      Beneath mem0 nd0 t) ∧ DeepI mem0 nd0 h { it with pending := rest } := fun x _ hq =>
  ⟨fun p _ _ _ g1 g2 g3 => (hd x (by rw [hq]; exact .head _) p g1).edge g2 g3,
    fun y hy p hp => hd y (by rw [hq]; exact .tail _ hy) p hp⟩

theorem iterLoop_frozen (hmm : ∀ a, Beneath mem0 nd0 a → mem a = mem0 a) (fuel : Nat) {h : PHeap} {it : DIter}
    (hd : DeepI mem0 nd0 h it) : iterLoop mem paddr fuel h it = iterLoop mem0 paddr fuel h it := by
  induction fuel generalizing h it with
  | zero => rfl
  | succ fuel ih =>
    simp only [iterLoop]
    split
    · rfl
    · next x rest hq =>
      split
      · rfl
      · next p hx =>
        have hb := hd x (by rw [hq]; exact .head _) p hx
        have : deref mem p.node = deref mem0 p.node := by simp only [deref, hmm _ hb]
        rw [this]
        cases hm : mem0 p.node with
        | none => simp [hm, deref, bind, Except.bind]
        | some nd =>
          simp only [hm, deref, bind, Except.bind]
          have hd' := pushEdges_deep (paddr := paddr) x nd.edges (hd.turn x rest hq).2 fun c t ht => hb.edge hm ht
          split
          · exact ih hd'
          · rfl

theorem iterAdvance_deep {fuel : Nat} {h h' : PHeap} {it it' : DIter}
    (hp : ∀ x rest, it.pending = x :: rest → (∀ p nd c t, h.mem x = some p → mem0 p.node = some nd → (c, t) ∈ nd.edges →
      Beneath mem0 nd0 t) ∧ DeepI mem0 nd0 h { it with pending := rest })
    (e : iterAdvance mem0 paddr fuel h it = .ok (h', it')) : DeepI mem0 nd0 h' it' := by
  unfold iterAdvance at e
  split at e
  · next hn =>
    cases e
    intro a ha
    rw [hn] at ha
    cases ha
  · cases el : iterLoop mem0 paddr fuel h it with
    | error x => simp [el, bind, Except.bind] at e
    | ok r =>
      obtain ⟨h1, it1, a, b⟩ := r
      have hd := iterLoop_deep fuel hp el
      simp only [el, bind, Except.bind] at e
      split at e
      · split at e
        · cases e
        · cases e; exact hd
      · cases e; exact hd

theorem iterNext_frozen (hmm : ∀ a, Beneath mem0 nd0 a → mem a = mem0 a) (fuel : Nat) {h : PHeap} {it : DIter}
    (hd : DeepI mem0 nd0 h it) :
    iterNext mem paddr fuel h it = iterNext mem0 paddr fuel h it ∧
      ∀ h' it', iterNext mem0 paddr fuel h it = .ok (h', it') → DeepI mem0 nd0 h' it' := by
  constructor
  · simp only [iterNext, iterAdvance, iterLoop_frozen hmm fuel hd]
  · intro h' it' e
    simp only [iterNext] at e
    cases ea : iterAdvance mem0 paddr fuel h it with
    | error x => simp [ea, bind, Except.bind] at e
    | ok r =>
      simp only [ea, bind, Except.bind] at e
      cases e
      obtain ⟨h1, it1⟩ := r
      exact (iterAdvance_deep hd.turn ea : DeepI mem0 nd0 h1 it1)

theorem iterBegin_deep {fuel root : Nat} {h h' : PHeap} {it : DIter} (h0 : mem0 root = some nd0)
    (e : iterBegin mem0 paddr fuel root h = .ok (h', it)) : DeepI mem0 nd0 h' it := by
  simp only [iterBegin] at e
  refine iterAdvance_deep (fun x rest hq => ?_) e
  simp only [List.cons.injEq] at hq
  obtain ⟨rfl, rfl⟩ := hq
  refine ⟨fun p nd c t g1 g2 g3 => ?_, fun a ha => by cases ha⟩
  simp only [newPrefix, if_true] at g1
  cases g1
  simp only at g2
  rw [h0] at g2
  cases g2
  exact ⟨c, t, g3, .refl⟩

end

end Lev
