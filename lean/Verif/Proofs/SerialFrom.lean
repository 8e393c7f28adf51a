import Verif.Proofs.SerialTo

/-!
What `from_protobuf` builds from a well-formed message.
-/

namespace Lev

open Spec

/-! ### Allocation -/

/-- The nodes made so far. -/
structure Made (addr : Nat → Nat) (c0 : Nat) (m0 : Mem) (finals : List Nat) (nodes : List (Nat × Nat)) (h : Heap) :
    Prop where
  keys : (nodes.map (·.1)).Nodup
  base : c0 ≤ h.count
  addrs : nodes.map (·.2) = (List.range' c0 (h.count - c0)).map addr
  content : ∀ e ∈ nodes, h.mem e.2 = some ⟨decide (e.1 ∈ finals), []⟩
  old : ∀ a, (∀ k, c0 ≤ k → k < h.count → a ≠ addr k) → h.mem a = m0 a

theorem makeNodes_spec {addr : Nat → Nat} {c0 : Nat} {m0 : Mem} {finals : List Nat} (hinj : ∀ j k, addr j = addr k → j = k)
    (ids : List Nat) {nodes : List (Nat × Nat)} {h : Heap} (hm : Made addr c0 m0 finals nodes h) :
    ∃ nodes' h', makeNodes addr finals ids nodes h = (nodes', h') ∧ Made addr c0 m0 finals nodes' h' ∧
      ∀ x, x ∈ nodes'.map (·.1) ↔ x ∈ nodes.map (·.1) ∨ x ∈ ids := by
  induction ids generalizing nodes h with
  | nil => exact ⟨nodes, h, rfl, hm, by simp⟩
  | cons id ids ih =>
    by_cases hany : nodes.any (fun e => e.1 == id) = true
    · obtain ⟨nodes', h', h1, h2, h3⟩ := ih hm
      refine ⟨nodes', h', by simp only [makeNodes, hany, if_true]; exact h1, h2, fun x => ?_⟩
      rw [h3]
      have : id ∈ nodes.map (·.1) := by
        obtain ⟨e, he, hk⟩ := List.any_eq_true.1 hany
        exact List.mem_map.2 ⟨e, he, by simpa using hk⟩
      constructor
      · rintro (h | h) <;> simp [h]
      · rintro (h | h)
        · exact .inl h
        · rcases List.mem_cons.1 h with rfl | h
          · exact .inl this
          · exact .inr h
    · have hnot : id ∉ nodes.map (·.1) := by
        intro h
        obtain ⟨e, he, hk⟩ := List.mem_map.1 h
        exact hany (List.any_eq_true.2 ⟨e, he, by simpa using hk⟩)
      have hb := hm.base
      have hfresh : ∀ e ∈ nodes, e.2 ≠ addr h.count := by
        intro e he hea
        have : e.2 ∈ nodes.map (·.2) := List.mem_map.2 ⟨e, he, rfl⟩
        rw [hm.addrs] at this
        obtain ⟨k, hk, hka⟩ := List.mem_map.1 this
        have := hinj _ _ (hka.trans hea)
        rw [List.mem_range'_1] at hk
        omega
      have hm' : Made addr c0 m0 finals (nodes ++ [(id, addr h.count)])
          { mem := h.mem.set (addr h.count) (some { final := decide (id ∈ finals), edges := [] }),
            count := h.count + 1 } := by
        refine ⟨?_, by simp only; omega, ?_, ?_, ?_⟩
        · rw [List.map_append, List.nodup_append]
          refine ⟨hm.keys, by simp, ?_⟩
          rintro a ha b hb rfl
          simp only [List.map_cons, List.map_nil, List.mem_singleton] at hb
          exact hnot (hb ▸ ha)
        · rw [List.map_append, hm.addrs, show h.count + 1 - c0 = h.count - c0 + 1 by omega, List.range'_concat,
            List.map_append]
          simp only [List.map_cons, List.map_nil, Nat.one_mul]
          rw [show c0 + (h.count - c0) = h.count by omega]
        · intro e he
          simp only [Mem.set]
          rcases List.mem_append.1 he with he | he
          · rw [if_neg (hfresh e he)]; exact hm.content e he
          · simp only [List.mem_singleton] at he
            subst he; simp
        · intro a ha
          simp only [Mem.set]
          rw [if_neg (ha h.count hb (by simp only; omega))]
          exact hm.old a fun k h1 h2 => ha k h1 (by simp only; omega)
      obtain ⟨nodes', h', h1, h2, h3⟩ := ih hm'
      refine ⟨nodes', h', ?_, h2, fun x => ?_⟩
      · simp only [makeNodes, hany, Bool.false_eq_true, if_false]; exact h1
      · rw [h3]
        simp only [List.map_append, List.map_cons, List.map_nil, List.mem_append, List.not_mem_nil, or_false, List.mem_cons]
        constructor
        · rintro ((h | h) | h)
          · exact .inl h
          · exact .inr (.inl h)
          · exact .inr (.inr h)
        · rintro (h | h | h)
          · exact .inl (.inl h)
          · exact .inl (.inr h)
          · exact .inr h

theorem nodeOf_mem {nodes : List (Nat × Nat)} {x : Nat} (h : x ∈ nodes.map (·.1)) : (x, nodeOf nodes x) ∈ nodes := by
  unfold nodeOf
  cases hf : nodes.find? (fun e => e.1 == x) with
  | none =>
    obtain ⟨e, he, hk⟩ := List.mem_map.1 h
    have := List.find?_eq_none.1 hf e he
    simp [hk] at this
  | some e =>
    have h1 := List.mem_of_find?_eq_some hf
    have h2 : e.1 = x := by simpa using List.find?_some hf
    simp only
    rwa [← h2]

theorem nodup_map_inj {α β : Type} {f : α → β} {l : List α} (h : (l.map f).Nodup) {a b : α} (ha : a ∈ l) (hb : b ∈ l)
    (hab : f a = f b) : a = b := by
  induction l with
  | nil => simp at ha
  | cons x l ih =>
    simp only [List.map_cons, List.nodup_cons, List.mem_map, not_exists, not_and] at h
    rcases List.mem_cons.1 ha with h1 | h1 <;> rcases List.mem_cons.1 hb with h2 | h2
    · rw [h1, h2]
    · subst h1; exact absurd hab.symm (h.1 b h2)
    · subst h2; exact absurd hab (h.1 a h1)
    · exact ih h.2 h1 h2

/-! ### Edges -/

/-- The nodes with the edges `done` added. -/
structure Linked (sgn : Bool) (nodes : List (Nat × Nat)) (finals : List Nat) (m1 : Mem) (done : List MsgEdge) (h : Heap) :
    Prop where
  content : ∀ e ∈ nodes, ∃ es, h.mem e.2 = some ⟨decide (e.1 ∈ finals), es⟩ ∧
    es.Pairwise (fun e f => charLt sgn e.1 f.1) ∧
    ∀ c b, (c, b) ∈ es ↔ ∃ x ∈ done, x.source = e.1 ∧ charOfLabel x.label = c ∧ nodeOf nodes x.target = b
  old : ∀ a, a ∉ nodes.map (·.2) → h.mem a = m1 a

theorem mem_mapSet_iff {sgn : Bool} {c : UInt8} {a : Nat} {es : List (UInt8 × Nat)} (hc : ∀ e ∈ es, e.1 ≠ c)
    {e : UInt8 × Nat} : e ∈ mapSet sgn c a es ↔ e = (c, a) ∨ e ∈ es := by
  refine ⟨mem_mapSet, fun h => ?_⟩
  induction es with
  | nil => simpa [mapSet] using h
  | cons x es ih =>
    obtain ⟨l, t⟩ := x
    have hcl : c ≠ l := fun h => hc (l, t) (by simp) h.symm
    have ih := ih fun e he => hc e (by simp [he])
    simp only [mapSet, hcl, if_false]
    split
    · rcases h with h | h
      · simp [h]
      · simp only [List.mem_cons] at h ⊢
        exact .inr h
    · rcases h with h | h
      · exact List.mem_cons.2 (.inr (ih (.inl h)))
      · rcases List.mem_cons.1 h with h | h
        · simp [h]
        · exact List.mem_cons.2 (.inr (ih (.inr h)))

theorem makeEdges_spec {sgn : Bool} {nodes : List (Nat × Nat)} {finals : List Nat} {m1 : Mem}
    (hkeys : (nodes.map (·.1)).Nodup) (haddr : (nodes.map (·.2)).Nodup) (es done : List MsgEdge) {h : Heap}
    (hl : Linked sgn nodes finals m1 done h) (hsrc : ∀ e ∈ es, e.source ∈ nodes.map (·.1))
    (hk : (done ++ es).Pairwise (fun e f => e.source ≠ f.source ∨ charOfLabel e.label ≠ charOfLabel f.label)) :
    ∃ h', makeEdges sgn nodes es h = .ok h' ∧ Linked sgn nodes finals m1 (done ++ es) h' ∧ h'.count = h.count := by
  induction es generalizing done h with
  | nil => exact ⟨h, rfl, by simpa using hl, rfl⟩
  | cons e es ih =>
    have hn := nodeOf_mem (hsrc e (by simp))
    obtain ⟨ed, h1, h2, h3⟩ := hl.content _ hn
    have hnew : ∀ x ∈ ed, x.1 ≠ charOfLabel e.label := by
      rintro ⟨c, b⟩ hx rfl
      obtain ⟨y, hy, hy1, hy2, _⟩ := (h3 _ b).1 hx
      have := (List.pairwise_append.1 hk).2.2 y hy e (by simp)
      rcases this with h | h
      · exact h hy1
      · exact h hy2
    have htr : nodeTransition ⟨decide (e.source ∈ finals), ed⟩ (charOfLabel e.label) = 0 := by
      unfold nodeTransition
      have : ed.find? (fun x => x.1 == charOfLabel e.label) = none :=
        List.find?_eq_none.2 fun x hx => by simpa using hnew x hx
      simp only [this]
    have hadd : addEdge sgn (nodeOf nodes e.source) (charOfLabel e.label) (nodeOf nodes e.target) h =
        .ok ⟨h.mem.set (nodeOf nodes e.source)
          (some ⟨decide (e.source ∈ finals), mapSet sgn (charOfLabel e.label) (nodeOf nodes e.target) ed⟩), h.count⟩ := by
      simp only [addEdge, deref, h1, bind, Except.bind, htr, deleteNode, if_true]
    have hl' : Linked sgn nodes finals m1 (done ++ [e]) ⟨h.mem.set (nodeOf nodes e.source)
          (some ⟨decide (e.source ∈ finals), mapSet sgn (charOfLabel e.label) (nodeOf nodes e.target) ed⟩), h.count⟩ := by
      refine ⟨fun x hx => ?_, fun a ha => ?_⟩
      · simp only [Mem.set]
        by_cases hxe : x.2 = nodeOf nodes e.source
        · have hxx := nodup_map_inj haddr hx hn hxe
          subst hxx
          refine ⟨_, by rw [if_pos rfl], mapSet_sorted h2, fun c b => ?_⟩
          rw [mem_mapSet_iff hnew, h3]
          constructor
          · rintro (h | ⟨y, hy, hr⟩)
            · simp only [Prod.mk.injEq] at h
              exact ⟨e, by simp, rfl, h.1.symm, h.2.symm⟩
            · exact ⟨y, by simp [hy], hr⟩
          · rintro ⟨y, hy, hr1, hr2, hr3⟩
            rcases List.mem_append.1 hy with hy | hy
            · exact .inr ⟨y, hy, hr1, hr2, hr3⟩
            · simp only [List.mem_singleton] at hy
              subst hy
              exact .inl (by rw [hr2, hr3])
        · obtain ⟨ex, g1, g2, g3⟩ := hl.content x hx
          refine ⟨ex, by rw [if_neg hxe]; exact g1, g2, fun c b => ?_⟩
          rw [g3]
          constructor
          · rintro ⟨y, hy, hr⟩; exact ⟨y, by simp [hy], hr⟩
          · rintro ⟨y, hy, hr1, hr2⟩
            rcases List.mem_append.1 hy with hy | hy
            · exact ⟨y, hy, hr1, hr2⟩
            · simp only [List.mem_singleton] at hy
              subst hy
              have : x = (y.source, nodeOf nodes y.source) := nodup_map_inj hkeys hx hn hr1.symm
              exact absurd (by rw [this]) hxe
      · simp only [Mem.set]
        rw [if_neg]
        · exact hl.old a ha
        · rintro rfl
          exact ha (List.mem_map.2 ⟨_, hn, rfl⟩)
    obtain ⟨h', r1, r2, r3⟩ := ih (done ++ [e]) hl' (fun x hx => hsrc x (by simp [hx])) (by simpa using hk)
    refine ⟨h', ?_, by simpa using r2, r3⟩
    simp only [makeEdges, hadd, bind, Except.bind]
    exact r1

/-! ### `from_protobuf` -/

/-- The dictionary `d` in the heap `h'` is the graph of the message; the node with id `x` is at `φ x`. -/
structure Restored (sgn : Bool) (addr : Nat → Nat) (h : Heap) (msg : Msg) (h' : Heap) (d : SDawg) (φ : Nat → Nat) :
    Prop where
  root : d.root = φ msg.rootId
  size : d.size = msg.size
  ptrs : d.unchecked = none ∧ d.minimized = none ∧ d.floating = none
  prev : d.prev = []
  count : h.count ≤ h'.count
  inj : ∀ x y, x ∈ msg.nodeIds → y ∈ msg.nodeIds → φ x = φ y → x = y
  node : ∀ x, x ∈ msg.nodeIds → ∃ es, h'.mem (φ x) = some ⟨decide (x ∈ msg.finalIds), es⟩ ∧
    es.Pairwise (fun e f => charLt sgn e.1 f.1) ∧
    ∀ c b, (c, b) ∈ es ↔ ∃ e ∈ msg.edges, e.source = x ∧ charOfLabel e.label = c ∧ φ e.target = b
  range : ∀ a, (∃ k, h.count ≤ k ∧ k < h'.count ∧ a = addr k) ↔ ∃ x ∈ msg.nodeIds, a = φ x
  old : ∀ a, (∀ x ∈ msg.nodeIds, a ≠ φ x) → h'.mem a = h.mem a

theorem fromProto_spec {sgn : Bool} {addr : Nat → Nat} {h : Heap} (ha : Allocator addr h) {msg : Msg}
    (hsrc : ∀ e ∈ msg.edges, e.source ∈ msg.nodeIds)
    (hkeys : msg.edges.Pairwise (fun e f => e.source ≠ f.source ∨ charOfLabel e.label ≠ charOfLabel f.label)) :
    ∃ h' d φ, fromProto sgn addr msg h = .ok (h', d) ∧ Restored sgn addr h msg h' d φ := by
  have hm0 : Made addr h.count h.mem msg.finalIds [] h :=
    ⟨by simp, Nat.le_refl _, by simp, by simp, fun _ _ => rfl⟩
  obtain ⟨nodes, h1, r1, r2, r3⟩ := makeNodes_spec ha.inj msg.nodeIds hm0
  simp only [List.map_nil, List.not_mem_nil, false_or] at r3
  have haddr : (nodes.map (·.2)).Nodup := by
    rw [r2.addrs]
    exact List.pairwise_map.2 ((List.nodup_range' (s := h.count) (n := h1.count - h.count)).imp
      fun hne he => hne (ha.inj _ _ he))
  have hl0 : Linked sgn nodes msg.finalIds h1.mem [] h1 :=
    ⟨fun e he => ⟨[], r2.content e he, .nil, by simp⟩, fun _ _ => rfl⟩
  obtain ⟨h2, s1, s2, s3⟩ := makeEdges_spec r2.keys haddr msg.edges [] hl0
    (fun e he => (r3 _).2 (hsrc e he)) (by simpa using hkeys)
  simp only [List.nil_append] at s2
  have hmem : ∀ a, a ∈ nodes.map (·.2) ↔ ∃ k, h.count ≤ k ∧ k < h1.count ∧ a = addr k := by
    intro a
    have := r2.base
    rw [r2.addrs, List.mem_map]
    constructor
    · rintro ⟨k, hk, rfl⟩
      rw [List.mem_range'_1] at hk
      exact ⟨k, hk.1, by omega, rfl⟩
    · rintro ⟨k, h1, h2, rfl⟩
      exact ⟨k, by rw [List.mem_range'_1]; omega, rfl⟩
  have hmem' : ∀ a, a ∈ nodes.map (·.2) ↔ ∃ x ∈ msg.nodeIds, a = nodeOf nodes x := by
    intro a
    constructor
    · intro h
      obtain ⟨⟨x, b⟩, he, rfl⟩ := List.mem_map.1 h
      have hx : x ∈ nodes.map (·.1) := List.mem_map.2 ⟨_, he, rfl⟩
      have := nodup_map_inj r2.keys he (nodeOf_mem hx) rfl
      exact ⟨x, (r3 x).1 hx, (Prod.mk.inj this).2⟩
    · rintro ⟨x, hx, rfl⟩
      exact List.mem_map.2 ⟨_, nodeOf_mem ((r3 x).2 hx), rfl⟩
  refine ⟨h2, ⟨nodeOf nodes msg.rootId, msg.size, none, none, none, []⟩, nodeOf nodes, ?_, ⟨rfl, rfl, ⟨rfl, rfl, rfl⟩, rfl, by rw [s3]; exact r2.base, ?_, ?_, ?_, ?_⟩⟩
  · simp only [fromProto, r1, s1, bind, Except.bind]
  · intro x y hx hy hxy
    have := nodup_map_inj haddr (nodeOf_mem ((r3 x).2 hx)) (nodeOf_mem ((r3 y).2 hy)) hxy
    exact (Prod.mk.inj this).1
  · intro x hx
    exact s2.content _ (nodeOf_mem ((r3 x).2 hx))
  · intro a
    rw [s3, ← hmem, hmem']
  · intro a ha'
    have hna : a ∉ nodes.map (·.2) := fun h => by
      obtain ⟨x, hx, rfl⟩ := (hmem' a).1 h
      exact ha' x hx rfl
    rw [s2.old a hna, r2.old a fun k h1 h2 h3 => hna ((hmem a).2 ⟨k, h1, h2, h3⟩)]

end Lev
