import Verif.Proofs.SerialRound
import Verif.Spec.AnyMessage

/-!
What `from_protobuf` does with an arbitrary message.
-/

namespace Lev

open Spec

/-! ### Edges that take the place of others -/

theorem Spec.SameSlot.symm {e f : MsgEdge} (h : SameSlot e f) : SameSlot f e := ⟨h.1.symm, h.2.symm⟩

theorem Spec.SameSlot.trans {e f g : MsgEdge} (h : SameSlot e f) (h' : SameSlot f g) : SameSlot e g :=
  ⟨h.1.trans h'.1, h.2.trans h'.2⟩

theorem sameSlot_iff {e f : MsgEdge} :
    SameSlot e f ↔ e.source = f.source ∧ charOfLabel e.label = charOfLabel f.label := by
  rw [SameSlot, charOfLabel_eq_iff, charOfLabel_toNat]
  exact and_congr_right fun _ => eq_comm

instance (e f : MsgEdge) : Decidable (SameSlot e f) := by unfold SameSlot; infer_instance

theorem snoc_eq_split {α : Type} {l l1 l2 : List α} {a e : α} (h : l ++ [a] = l1 ++ e :: l2) :
    (l2 = [] ∧ l = l1 ∧ a = e) ∨ ∃ l3, l2 = l3 ++ [a] ∧ l = l1 ++ e :: l3 := by
  rcases List.eq_nil_or_concat l2 with rfl | ⟨l3, b, hb⟩
  · left
    have := List.append_inj' h (by simp)
    simp at this
    exact ⟨rfl, this⟩
  · right
    rw [List.concat_eq_append] at hb
    subst hb
    rw [← List.cons_append, ← List.append_assoc] at h
    have := List.append_inj' h (by simp)
    simp at this
    obtain ⟨h1, rfl⟩ := this
    exact ⟨l3, rfl, h1⟩

theorem lastEdge_nil {e : MsgEdge} : ¬ LastEdge [] e := by
  rintro ⟨l1, l2, h, _⟩
  cases l1 <;> cases h

theorem lastEdge_snoc {es : List MsgEdge} {e x : MsgEdge} :
    LastEdge (es ++ [e]) x ↔ x = e ∨ (LastEdge es x ∧ ¬ SameSlot e x) := by
  constructor
  · rintro ⟨l1, l2, h1, h2⟩
    rcases snoc_eq_split h1 with ⟨_, _, rfl⟩ | ⟨l3, rfl, rfl⟩
    · exact .inl rfl
    · exact .inr ⟨⟨l1, l3, rfl, fun g hg => h2 g (by simp [hg])⟩, h2 e (by simp)⟩
  · rintro (rfl | ⟨⟨l1, l2, rfl, h⟩, h'⟩)
    · exact ⟨es, [], rfl, by simp⟩
    · refine ⟨l1, l2 ++ [e], by simp, fun g hg => ?_⟩
      rcases List.mem_append.1 hg with hg | hg
      · exact h g hg
      · rw [List.mem_singleton.1 hg]; exact h'

theorem Spec.LastEdge.mem {es : List MsgEdge} {e : MsgEdge} (h : LastEdge es e) : e ∈ es := by
  obtain ⟨l1, l2, rfl, _⟩ := h; simp

theorem Spec.LastEdge.unique {es : List MsgEdge} {e f : MsgEdge} (h : LastEdge es e) (h' : LastEdge es f) (hs : SameSlot e f) :
    e = f := by
  obtain ⟨l1, l2, rfl, h2⟩ := h
  obtain ⟨k1, k2, hk, k3⟩ := h'
  rcases List.append_eq_append_iff.1 hk with ⟨as, rfl, h⟩ | ⟨as, rfl, h⟩
  · cases as with
    | nil => simp at h; exact h.1
    | cons a as =>
      simp at h
      exact absurd hs.symm (h2 f (by rw [h.2]; simp))
  · cases as with
    | nil => simp at h; exact h.1.symm
    | cons a as =>
      simp at h
      exact absurd hs (k3 e (by rw [h.2]; simp))

theorem exists_lastEdge {es : List MsgEdge} {e : MsgEdge} (h : e ∈ es) : ∃ f, LastEdge es f ∧ SameSlot f e := by
  obtain ⟨n, hn⟩ : ∃ n, es.length = n := ⟨_, rfl⟩
  induction n generalizing es with
  | zero => rw [List.length_eq_zero_iff.1 hn] at h; cases h
  | succ n ih =>
    rcases List.eq_nil_or_concat es with rfl | ⟨l, b, hl⟩
    · cases h
    · rw [List.concat_eq_append] at hl
      subst hl
      by_cases hb : SameSlot b e
      · exact ⟨b, lastEdge_snoc.2 (.inl rfl), hb⟩
      · rcases List.mem_append.1 h with h | h
        · obtain ⟨f, h1, h2⟩ := ih h (by simpa using hn)
          exact ⟨f, lastEdge_snoc.2 (.inr ⟨h1, fun hbf => hb (hbf.trans h2)⟩), h2⟩
        · rw [List.mem_singleton.1 h] at hb
          exact absurd ⟨rfl, rfl⟩ hb

theorem not_deletes_nil {msg : Msg} {x : Nat} : ¬ Deletes msg [] x := by
  rintro ⟨l1, e, l2, h, _⟩
  cases l1 <;> cases h

theorem deletes_snoc {msg : Msg} {es : List MsgEdge} {e : MsgEdge} {x : Nat} :
    Deletes msg (es ++ [e]) x ↔ Deletes msg es x ∨ Replaces msg es e x := by
  constructor
  · rintro ⟨l1, f, l2, h1, h2⟩
    rcases snoc_eq_split h1 with ⟨_, rfl, rfl⟩ | ⟨l3, rfl, rfl⟩
    · exact .inr h2
    · exact .inl ⟨l1, f, l3, rfl, h2⟩
  · rintro (⟨l1, f, l2, rfl, h⟩ | h)
    · exact ⟨l1, f, l2 ++ [e], by simp, h⟩
    · exact ⟨es, e, [], rfl, h⟩

theorem Spec.Replaces.unique {msg : Msg} {es : List MsgEdge} {e : MsgEdge} {x y : Nat} (h : Replaces msg es e x)
    (h' : Replaces msg es e y) : x = y := by
  obtain ⟨f, f1, f2, f3, _⟩ := h
  obtain ⟨g, g1, g2, g3, _⟩ := h'
  rw [← f3, ← g3, f1.unique g1 (f2.trans g2.symm)]

theorem Spec.Deletes.listed {msg : Msg} {es : List MsgEdge} {x : Nat} (h : Deletes msg es x) : x ∈ msg.nodeIds := by
  obtain ⟨_, _, _, _, _, _, _, _, h⟩ := h
  exact h

/-- The edge `e`, added after `es`, makes the reading undefined. -/
def BadEdge (msg : Msg) (es : List MsgEdge) (e : MsgEdge) : Prop :=
  e.source ∉ msg.nodeIds ∨ Deletes msg (es ++ [e]) e.source ∨ ∃ x, Replaces msg es e x ∧ Deletes msg es x

/-! ### The loop -/

theorem mem_mapSet_iff' {sgn : Bool} {c : UInt8} {a : Nat} {es : List (UInt8 × Nat)}
    (hs : es.Pairwise (fun e f => charLt sgn e.1 f.1)) {c' : UInt8} {b : Nat} :
    (c', b) ∈ mapSet sgn c a es ↔ (c' = c ∧ b = a) ∨ (c' ≠ c ∧ (c', b) ∈ es) := by
  induction es with
  | nil => simp [mapSet]
  | cons x es ih =>
    obtain ⟨l, t⟩ := x
    have hs' := List.pairwise_cons.1 hs
    have ih := ih hs'.2
    have hne : ∀ {c' b}, (c', b) ∈ es → c' ≠ l := fun {c' b} h he => by
      have := hs'.1 _ h
      rw [he] at this
      exact charLt_irrefl this
    simp only [mapSet]
    split
    · next h =>
      subst h
      simp only [List.mem_cons, Prod.mk.injEq]
      constructor
      · rintro (h | h)
        · exact .inl h
        · exact .inr ⟨hne h, .inr h⟩
      · rintro (h | ⟨h1, h2 | h2⟩)
        · exact .inl h
        · exact absurd h2.1 h1
        · exact .inr h2
    · next h =>
      split
      · next hlt =>
        simp only [List.mem_cons, Prod.mk.injEq]
        constructor
        · rintro (h' | h' | h')
          · exact .inl h'
          · exact .inr ⟨by rw [h'.1]; exact Ne.symm h, .inl h'⟩
          · refine .inr ⟨fun hc => ?_, .inr h'⟩
            have h1 := hs'.1 _ h'
            rw [hc] at h1
            exact charLt_irrefl (charLt_trans h1 hlt)
        · rintro (h' | ⟨_, h'⟩)
          · exact .inl h'
          · exact .inr h'
      · simp only [List.mem_cons, Prod.mk.injEq, ih]
        constructor
        · rintro (h' | h' | h')
          · exact .inr ⟨by rw [h'.1]; exact Ne.symm h, .inl h'⟩
          · exact .inl h'
          · exact .inr ⟨h'.1, .inr h'.2⟩
        · rintro (h' | ⟨h', h'' | h''⟩)
          · exact .inr (.inl h')
          · exact .inl h''
          · exact .inr (.inr ⟨h', h''⟩)

/-- The nodes with the edges `done` added. -/
structure LinkedAny (sgn : Bool) (nodes : List (Nat × Nat)) (msg : Msg) (m1 : Mem) (done : List MsgEdge) (h : Heap) :
    Prop where
  alive : ∀ e ∈ nodes, ¬ Deletes msg done e.1 → ∃ es, h.mem e.2 = some ⟨decide (e.1 ∈ msg.finalIds), es⟩ ∧
    es.Pairwise (fun e f => charLt sgn e.1 f.1) ∧
    ∀ c b, (c, b) ∈ es ↔ ∃ x, LastEdge done x ∧ x.source = e.1 ∧ charOfLabel x.label = c ∧ nodeOf nodes x.target = b
  dead : ∀ e ∈ nodes, Deletes msg done e.1 → h.mem e.2 = none
  old : ∀ a, a ∉ nodes.map (·.2) → h.mem a = m1 a

/-- The table of nodes. -/
structure NodeTable (nodes : List (Nat × Nat)) (msg : Msg) (m1 : Mem) : Prop where
  keys : (nodes.map (·.1)).Nodup
  addrs : (nodes.map (·.2)).Nodup
  listed : ∀ x, x ∈ nodes.map (·.1) ↔ x ∈ msg.nodeIds
  nonnull : 0 ∉ nodes.map (·.2)
  null : m1 0 = none

theorem NodeTable.mem {nodes : List (Nat × Nat)} {msg : Msg} {m1 : Mem} (ht : NodeTable nodes msg m1) {x : Nat}
    (hx : x ∈ msg.nodeIds) : (x, nodeOf nodes x) ∈ nodes := nodeOf_mem ((ht.listed x).2 hx)

theorem NodeTable.inj {nodes : List (Nat × Nat)} {msg : Msg} {m1 : Mem} (ht : NodeTable nodes msg m1) {x y : Nat}
    (hx : x ∈ msg.nodeIds) (hy : y ∈ msg.nodeIds) (h : nodeOf nodes x = nodeOf nodes y) : x = y :=
  (Prod.mk.inj (nodup_map_inj ht.addrs (ht.mem hx) (ht.mem hy) h)).1

theorem NodeTable.nodeOf_ne {nodes : List (Nat × Nat)} {msg : Msg} {m1 : Mem} (ht : NodeTable nodes msg m1) {x : Nat}
    (hx : x ∈ msg.nodeIds) : nodeOf nodes x ≠ 0 := fun h =>
  ht.nonnull (List.mem_map.2 ⟨_, ht.mem hx, h⟩)

theorem NodeTable.entry {nodes : List (Nat × Nat)} {msg : Msg} {m1 : Mem} (ht : NodeTable nodes msg m1) {e : Nat × Nat}
    (he : e ∈ nodes) : e.1 ∈ msg.nodeIds ∧ e.2 = nodeOf nodes e.1 := by
  have h1 : e.1 ∈ nodes.map (·.1) := List.mem_map.2 ⟨e, he, rfl⟩
  have h2 := nodup_map_inj ht.keys he (nodeOf_mem h1) rfl
  exact ⟨(ht.listed _).1 h1, (congrArg Prod.snd h2)⟩

section
variable {sgn : Bool} {nodes : List (Nat × Nat)} {msg : Msg} {m1 : Mem} {done : List MsgEdge} {h : Heap}

theorem addEdge_any (ht : NodeTable nodes msg m1) (hl : LinkedAny sgn nodes msg m1 done h) (e : MsgEdge) :
    (BadEdge msg done e →
      addEdge sgn (nodeOf nodes e.source) (charOfLabel e.label) (nodeOf nodes e.target) h = .error .ub) ∧
    (¬ BadEdge msg done e →
      ∃ h', addEdge sgn (nodeOf nodes e.source) (charOfLabel e.label) (nodeOf nodes e.target) h = .ok h' ∧
        LinkedAny sgn nodes msg m1 (done ++ [e]) h' ∧ h'.count = h.count) := by
  have h0 : h.mem 0 = none := by rw [hl.old 0 ht.nonnull, ht.null]
  by_cases hsrc : e.source ∈ msg.nodeIds
  case neg =>
    have hb : BadEdge msg done e := .inl hsrc
    refine ⟨fun _ => ?_, fun hnb => absurd hb hnb⟩
    rw [nodeOf_none fun hx => hsrc ((ht.listed _).1 hx)]
    simp only [addEdge, deref, h0, bind, Except.bind]
  by_cases hdel : Deletes msg done e.source
  case pos =>
    have hb : BadEdge msg done e := .inr (.inl (deletes_snoc.2 (.inl hdel)))
    refine ⟨fun _ => ?_, fun hnb => absurd hb hnb⟩
    simp only [addEdge, deref, hl.dead _ (ht.mem hsrc) hdel, bind, Except.bind]
  obtain ⟨es, h1, h2, h3⟩ := hl.alive _ (ht.mem hsrc) hdel
  -- what the new node is like, once the old target is out of the way
  have hnew : ∀ hm : Heap, hm.count = h.count →
      (∀ a, a ≠ nodeOf nodes e.source → (∀ x, Replaces msg done e x → a ≠ nodeOf nodes x) → hm.mem a = h.mem a) →
      (∀ x, Replaces msg done e x → hm.mem (nodeOf nodes x) = none) →
      ¬ Replaces msg done e e.source →
      LinkedAny sgn nodes msg m1 (done ++ [e]) ⟨hm.mem.set (nodeOf nodes e.source)
        (some ⟨decide (e.source ∈ msg.finalIds), mapSet sgn (charOfLabel e.label) (nodeOf nodes e.target) es⟩), hm.count⟩ := by
    intro hm hc hsame hgone hself
    refine ⟨fun x hx hnd => ?_, fun x hx hd => ?_, fun a ha => ?_⟩
    · rw [deletes_snoc, not_or] at hnd
      obtain ⟨hxl, hxa⟩ := ht.entry hx
      simp only [Mem.set]
      by_cases hxe : x.1 = e.source
      · rw [hxa, hxe, if_pos rfl]
        refine ⟨_, rfl, mapSet_sorted h2, fun c b => ?_⟩
        rw [mem_mapSet_iff' h2, h3]
        constructor
        · rintro (⟨rfl, rfl⟩ | ⟨hc, f, f1, f2, f3, f4⟩)
          · exact ⟨e, lastEdge_snoc.2 (.inl rfl), rfl, rfl, rfl⟩
          · refine ⟨f, lastEdge_snoc.2 (.inr ⟨f1, fun hs => hc ?_⟩), f2, f3, f4⟩
            rw [← f3, (sameSlot_iff.1 hs).2]
        · rintro ⟨f, f1, f2, f3, f4⟩
          rcases lastEdge_snoc.1 f1 with rfl | ⟨f1, f5⟩
          · exact .inl ⟨f3.symm, f4.symm⟩
          · refine .inr ⟨fun hc => f5 (sameSlot_iff.2 ⟨f2.symm, ?_⟩), f, f1, f2, f3, f4⟩
            rw [f3, hc]
      · obtain ⟨ex, g1, g2, g3⟩ := hl.alive x hx hnd.1
        have hne : x.2 ≠ nodeOf nodes e.source := fun he => hxe (ht.inj hxl hsrc (hxa ▸ he))
        refine ⟨ex, ?_, g2, fun c b => ?_⟩
        · rw [if_neg hne, hsame _ hne, g1]
          intro y hy hxy
          have hyl : y ∈ msg.nodeIds := by obtain ⟨_, _, _, _, h⟩ := hy; exact h
          rw [hxa] at hxy
          rw [← ht.inj hxl hyl hxy] at hy
          exact hnd.2 hy
        · rw [g3]
          constructor
          · rintro ⟨f, f1, f2, f3, f4⟩
            refine ⟨f, lastEdge_snoc.2 (.inr ⟨f1, fun hs => hxe ?_⟩), f2, f3, f4⟩
            rw [← f2, ← hs.1]
          · rintro ⟨f, f1, f2, f3, f4⟩
            rcases lastEdge_snoc.1 f1 with rfl | ⟨f1, f5⟩
            · exact absurd f2.symm hxe
            · exact ⟨f, f1, f2, f3, f4⟩
    · obtain ⟨hxl, hxa⟩ := ht.entry hx
      have hxe : x.1 ≠ e.source := by
        intro hxe
        rcases deletes_snoc.1 hd with hd | hd
        · exact hdel (hxe ▸ hd)
        · exact hself (hxe ▸ hd)
      have hne : x.2 ≠ nodeOf nodes e.source := fun he => hxe (ht.inj hxl hsrc (hxa ▸ he))
      simp only [Mem.set, if_neg hne]
      by_cases hr : Replaces msg done e x.1
      · rw [hxa]; exact hgone _ hr
      · rw [hsame _ hne]
        · rcases deletes_snoc.1 hd with hd | hd
          · exact hl.dead x hx hd
          · exact absurd hd hr
        · intro y hy hxy
          have hyl : y ∈ msg.nodeIds := by obtain ⟨_, _, _, _, h⟩ := hy; exact h
          rw [hxa] at hxy
          rw [← ht.inj hxl hyl hxy] at hy
          exact hr hy
    · have hne : a ≠ nodeOf nodes e.source := fun he => ha (List.mem_map.2 ⟨_, ht.mem hsrc, he.symm⟩)
      simp only [Mem.set, if_neg hne]
      rw [hsame a hne, hl.old a ha]
      intro y hy hay
      have hyl : y ∈ msg.nodeIds := by obtain ⟨_, _, _, _, h⟩ := hy; exact h
      exact ha (List.mem_map.2 ⟨_, ht.mem hyl, hay.symm⟩)
  have htr : ∀ f, LastEdge done f → SameSlot f e →
      nodeTransition ⟨decide (e.source ∈ msg.finalIds), es⟩ (charOfLabel e.label) = nodeOf nodes f.target := by
    intro f f1 f2
    have hmem : (charOfLabel e.label, nodeOf nodes f.target) ∈ es :=
      (h3 _ _).2 ⟨f, f1, f2.1, (sameSlot_iff.1 f2).2, rfl⟩
    unfold nodeTransition
    cases hfd : es.find? (fun x => x.1 == charOfLabel e.label) with
    | none =>
      have := List.find?_eq_none.1 hfd _ hmem
      simp at this
    | some p =>
      obtain ⟨c, b⟩ := p
      have p1 := List.mem_of_find?_eq_some hfd
      have p2 : c = charOfLabel e.label := by simpa using List.find?_some hfd
      obtain ⟨g, g1, g2, g3, g4⟩ := (h3 _ _).1 p1
      simp only
      rw [← g4, g1.unique f1 (sameSlot_iff.2 ⟨g2.trans f2.1.symm, g3.trans (p2.trans (sameSlot_iff.1 f2).2.symm)⟩)]
  by_cases hrep : ∃ x, Replaces msg done e x
  · obtain ⟨x, hx⟩ := hrep
    have hux : ∀ y, Replaces msg done e y → y = x := fun y hy => hy.unique hx
    obtain ⟨f, f1, f2, f3, hxl⟩ := id hx
    have htr := htr f f1 f2
    rw [f3] at htr
    have hx0 := ht.nodeOf_ne hxl
    by_cases hxd : Deletes msg done x
    · have hb : BadEdge msg done e := .inr (.inr ⟨x, hx, hxd⟩)
      refine ⟨fun _ => ?_, fun hnb => absurd hb hnb⟩
      simp only [addEdge, deref, h1, bind, Except.bind, htr, deleteNode, hx0, if_false, hl.dead _ (ht.mem hxl) hxd]
    · obtain ⟨ex, g1, _, _⟩ := hl.alive _ (ht.mem hxl) hxd
      simp only at g1
      by_cases hxs : x = e.source
      · have hb : BadEdge msg done e := .inr (.inl (deletes_snoc.2 (.inr (hxs ▸ hx))))
        refine ⟨fun _ => ?_, fun hnb => absurd hb hnb⟩
        subst hxs
        simp only [addEdge, deref, h1, bind, Except.bind, htr, deleteNode, hx0, if_false, Mem.set, if_true]
      · have hne : nodeOf nodes e.source ≠ nodeOf nodes x := fun he => hxs (ht.inj hsrc hxl he).symm
        have hgood : ¬ BadEdge msg done e := by
          rintro (hb | hb | ⟨y, hy, hyd⟩)
          · exact hb hsrc
          · rcases deletes_snoc.1 hb with hb | hb
            · exact hdel hb
            · exact hxs (hux _ hb).symm
          · exact hxd (hux y hy ▸ hyd)
        refine ⟨fun hb => absurd hb hgood, fun _ => ⟨_, ?_, hnew ⟨h.mem.set (nodeOf nodes x) none, h.count⟩ rfl ?_ ?_ ?_, rfl⟩⟩
        · simp only [addEdge, deref, h1, bind, Except.bind, htr, deleteNode, hx0, if_false, g1, Mem.set, hne]
        · intro a _ ha
          simp only [Mem.set, if_neg (ha x hx)]
        · intro y hy
          rw [hux y hy]; simp [Mem.set]
        · intro hs
          exact hxs (hux _ hs).symm
  · have hgood : ¬ BadEdge msg done e := by
      rintro (hb | hb | ⟨y, hy, hyd⟩)
      · exact hb hsrc
      · rcases deletes_snoc.1 hb with hb | hb
        · exact hdel hb
        · exact hrep ⟨_, hb⟩
      · exact hrep ⟨y, hy⟩
    have htr0 : nodeTransition ⟨decide (e.source ∈ msg.finalIds), es⟩ (charOfLabel e.label) = 0 := by
      by_cases hf : ∃ f, LastEdge done f ∧ SameSlot f e
      · obtain ⟨f, f1, f2⟩ := hf
        rw [htr f f1 f2]
        exact nodeOf_none fun hx => hrep ⟨f.target, f, f1, f2, rfl, (ht.listed _).1 hx⟩
      · unfold nodeTransition
        have : es.find? (fun x => x.1 == charOfLabel e.label) = none := by
          refine List.find?_eq_none.2 ?_
          rintro ⟨c, b⟩ hx hc
          obtain ⟨f, f1, f2, f3, _⟩ := (h3 _ _).1 hx
          exact hf ⟨f, f1, sameSlot_iff.2 ⟨f2, f3.trans (by simpa using hc)⟩⟩
        simp only [this]
    refine ⟨fun hb => absurd hb hgood, fun _ => ⟨_, ?_, hnew h rfl (fun _ _ _ => rfl) (fun y hy => absurd ⟨y, hy⟩ hrep)
      fun hs => hrep ⟨_, hs⟩, rfl⟩⟩
    simp only [addEdge, deref, h1, bind, Except.bind, htr0, deleteNode, if_true]

/-- Some edge of `es`, added after `done`, is bad. -/
def BadEdges (msg : Msg) (done es : List MsgEdge) : Prop := ∃ l1 e l2, es = l1 ++ e :: l2 ∧ BadEdge msg (done ++ l1) e

theorem badEdges_cons {e : MsgEdge} {es : List MsgEdge} :
    BadEdges msg done (e :: es) ↔ BadEdge msg done e ∨ BadEdges msg (done ++ [e]) es := by
  constructor
  · rintro ⟨l1, f, l2, h1, h2⟩
    cases l1 with
    | nil => simp at h1 h2; rw [h1.1]; exact .inl h2
    | cons g l1 =>
      simp at h1
      obtain ⟨rfl, rfl⟩ := h1
      exact .inr ⟨l1, f, l2, rfl, by simpa using h2⟩
  · rintro (h | ⟨l1, f, l2, rfl, h⟩)
    · exact ⟨[], e, es, rfl, by simpa using h⟩
    · exact ⟨e :: l1, f, l2, rfl, by simpa using h⟩

theorem makeEdges_any (ht : NodeTable nodes msg m1) (es : List MsgEdge) {done : List MsgEdge} {h : Heap}
    (hl : LinkedAny sgn nodes msg m1 done h) :
    (BadEdges msg done es → makeEdges sgn nodes es h = .error .ub) ∧
    (¬ BadEdges msg done es →
      ∃ h', makeEdges sgn nodes es h = .ok h' ∧ LinkedAny sgn nodes msg m1 (done ++ es) h' ∧ h'.count = h.count) := by
  induction es generalizing done h with
  | nil =>
    refine ⟨?_, fun _ => ⟨h, rfl, by simpa using hl, rfl⟩⟩
    rintro ⟨l1, e, l2, h, _⟩
    cases l1 <;> cases h
  | cons e es ih =>
    obtain ⟨a1, a2⟩ := addEdge_any ht hl e
    rw [badEdges_cons]
    by_cases hb : BadEdge msg done e
    · refine ⟨fun _ => ?_, fun hn => absurd (.inl hb) hn⟩
      simp only [makeEdges, a1 hb, bind, Except.bind]
    · obtain ⟨h1, r1, r2, r3⟩ := a2 hb
      obtain ⟨b1, b2⟩ := ih r2
      constructor
      · rintro (hb' | hb')
        · exact absurd hb' hb
        · simp only [makeEdges, r1, bind, Except.bind]; exact b1 hb'
      · intro hn
        obtain ⟨h2, s1, s2, s3⟩ := b2 fun hb' => hn (.inr hb')
        refine ⟨h2, ?_, by simpa using s2, s3.trans r3⟩
        simp only [makeEdges, r1, bind, Except.bind]; exact s1

end

/-! ### `from_protobuf` -/

/-- The dictionary `d` in the heap `h'` is what is left of the graph of the message; the node with id `x` is at `φ x`. -/
structure ReadAny (sgn : Bool) (addr : Nat → Nat) (h : Heap) (msg : Msg) (h' : Heap) (d : SDawg) (φ : Nat → Nat) : Prop where
  root : d.root = φ msg.rootId
  size : d.size = msg.size
  ptrs : d.unchecked = none ∧ d.minimized = none ∧ d.floating = none
  prev : d.prev = []
  inj : ∀ x y, x ∈ msg.nodeIds → y ∈ msg.nodeIds → φ x = φ y → x = y
  unlisted : ∀ x, x ∉ msg.nodeIds → φ x = 0
  listed : ∀ x, x ∈ msg.nodeIds → φ x ≠ 0 ∧ h.mem (φ x) = none
  null : h'.mem 0 = none
  source : ∀ e ∈ msg.edges, e.source ∈ msg.nodeIds
  node : ∀ x, x ∈ msg.nodeIds → ¬ Deletes msg msg.edges x → ∃ es, h'.mem (φ x) = some ⟨decide (x ∈ msg.finalIds), es⟩ ∧
    es.Pairwise (fun e f => charLt sgn e.1 f.1) ∧
    ∀ c b, (c, b) ∈ es ↔ ∃ e, LastEdge msg.edges e ∧ e.source = x ∧ charOfLabel e.label = c ∧ φ e.target = b
  gone : ∀ x, Deletes msg msg.edges x → h'.mem (φ x) = none
  old : ∀ a, (∀ x ∈ msg.nodeIds, a ≠ φ x) → h'.mem a = h.mem a
  range : ∀ x, x ∈ msg.nodeIds → ∃ k, h.count ≤ k ∧ k < h'.count ∧ φ x = addr k
  count : h.count ≤ h'.count

theorem fromProto_any {sgn : Bool} {addr : Nat → Nat} {h : Heap} (ha : Allocator addr h) (msg : Msg) :
    (Unreadable msg → fromProto sgn addr msg h = .error .ub) ∧
    (¬ Unreadable msg → ∃ h' d φ, fromProto sgn addr msg h = .ok (h', d) ∧ ReadAny sgn addr h msg h' d φ) := by
  have hm0 : Made addr h.count h.mem msg.finalIds [] h :=
    ⟨by simp, Nat.le_refl _, by simp, by simp, fun _ _ => rfl⟩
  obtain ⟨nodes, h1, r1, r2, r3⟩ := makeNodes_spec ha.inj msg.nodeIds hm0
  simp only [List.map_nil, List.not_mem_nil, false_or] at r3
  have haddr : (nodes.map (·.2)).Nodup := by
    rw [r2.addrs]
    exact List.pairwise_map.2 ((List.nodup_range' (s := h.count) (n := h1.count - h.count)).imp
      fun hne he => hne (ha.inj _ _ he))
  have hmem : ∀ a, a ∈ nodes.map (·.2) ↔ ∃ k, h.count ≤ k ∧ k < h1.count ∧ a = addr k := by
    intro a
    have := r2.base
    rw [r2.addrs, List.mem_map]
    constructor
    · rintro ⟨k, hk, rfl⟩
      rw [List.mem_range'_1] at hk
      exact ⟨k, hk.1, by omega, rfl⟩
    · rintro ⟨k, h1, h2, rfl⟩
      exact ⟨k, by rw [List.mem_range'_1]; omega, rfl⟩
  have ht : NodeTable nodes msg h1.mem := by
    refine ⟨r2.keys, haddr, r3, fun h => ?_, ?_⟩
    · obtain ⟨k, _, _, hk⟩ := (hmem 0).1 h
      exact ha.nonnull k hk.symm
    · rw [r2.old 0 fun k _ _ he => ha.nonnull k he.symm]; exact ha.null
  have hl0 : LinkedAny sgn nodes msg h1.mem [] h1 := by
    refine ⟨fun e he _ => ⟨[], r2.content e he, .nil, ?_⟩, fun e he hd => absurd hd not_deletes_nil, fun _ _ => rfl⟩
    intro c b
    constructor
    · intro h; cases h
    · rintro ⟨x, hx, _⟩; exact absurd hx lastEdge_nil
  obtain ⟨b1, b2⟩ := makeEdges_any ht msg.edges hl0
  have hbad : BadEdges msg [] msg.edges ↔ Unreadable msg := by
    simp only [BadEdges, Unreadable, BadEdge, List.nil_append]
  rw [hbad] at b1 b2
  constructor
  · intro hu
    simp only [fromProto, r1, b1 hu, bind, Except.bind]
  · intro hu
    obtain ⟨h2, s1, s2, s3⟩ := b2 hu
    simp only [List.nil_append] at s2
    have hrange : ∀ x, x ∈ msg.nodeIds → ∃ k, h.count ≤ k ∧ k < h1.count ∧ nodeOf nodes x = addr k := fun x hx =>
      (hmem _).1 (List.mem_map.2 ⟨_, ht.mem hx, rfl⟩)
    refine ⟨h2, ⟨nodeOf nodes msg.rootId, msg.size, none, none, none, []⟩, nodeOf nodes, ?_,
      ⟨rfl, rfl, ⟨rfl, rfl, rfl⟩, rfl, fun x y hx hy => ht.inj hx hy, ?_, ?_, ?_, ?_, ?_, ?_, ?_, ?_, ?_⟩⟩
    · simp only [fromProto, r1, s1, bind, Except.bind]
    · exact fun x hx => nodeOf_none fun h => hx ((r3 x).1 h)
    · intro x hx
      obtain ⟨k, k1, _, k2⟩ := hrange x hx
      exact ⟨ht.nodeOf_ne hx, by rw [k2]; exact ha.fresh k k1⟩
    · rw [s2.old 0 ht.nonnull]; exact ht.null
    · intro e he
      apply Classical.byContradiction
      intro hs
      obtain ⟨l1, l2, hl⟩ := List.append_of_mem he
      exact hu ⟨l1, e, l2, hl, .inl hs⟩
    · exact fun x hx hd => s2.alive _ (ht.mem hx) hd
    · exact fun x hd => s2.dead _ (ht.mem hd.listed) hd
    · intro a haa
      have hna : a ∉ nodes.map (·.2) := fun h => by
        obtain ⟨e, he, rfl⟩ := List.mem_map.1 h
        obtain ⟨e1, e2⟩ := ht.entry he
        exact haa _ e1 e2
      rw [s2.old a hna, r2.old a fun k h1 h2 h3 => hna ((hmem a).2 ⟨k, h1, h2, h3⟩)]
    · rw [s3]; exact hrange
    · rw [s3]; exact r2.base

end Lev
