import Verif.Proofs.Builder
import Verif.Proofs.SerialFrom
import Verif.Proofs.TestState

/-!
The tests of nodes of a dictionary.
-/

namespace Lev

open Spec

/-- The edges `es` lead to nodes without edges, final or not by `b`. -/
structure Leafy (sgn : Bool) (mem : Mem) (b : Bool) (es : List (UInt8 × Nat)) : Prop where
  leaf : ∀ e ∈ es, mem e.2 = some ⟨b, []⟩
  sorted : es.Pairwise fun e f => charLt sgn e.1 f.1

/-- The forest below such edges. -/
def leafF (b : Bool) : List UInt8 → Forest
  | [] => .nil
  | c :: cs => .cons c b .nil (leafF b cs)

theorem leafF_toList (b : Bool) (cs : List UInt8) : (leafF b cs).toList = cs.map fun c => (c, b, .nil) := by
  induction cs with
  | nil => rfl
  | cons c cs ih => simp [leafF, Forest.toList, ih]

theorem leafF_inj {b b' : Bool} {cs cs' : List UInt8} : leafF b cs = leafF b' cs' ↔ cs = cs' ∧ (b = b' ∨ cs = []) := by
  constructor
  · intro h
    have h' : (leafF b cs).toList = (leafF b' cs').toList := by rw [h]
    rw [leafF_toList, leafF_toList] at h'
    have h1 := congrArg (List.map Prod.fst) h'
    simp only [List.map_map, Function.comp_def, List.map_id'] at h1
    refine ⟨h1, ?_⟩
    cases cs with
    | nil => exact .inr rfl
    | cons c cs =>
      cases cs' with
      | nil => simp at h1
      | cons c' cs' =>
        simp only [List.map_cons, List.cons.injEq, Prod.mk.injEq] at h'
        exact .inl h'.1.2.1
  · rintro ⟨rfl, rfl | rfl⟩
    · rfl
    · rfl

section
variable {sgn b : Bool} {mem : Mem} {es : List (UInt8 × Nat)}

theorem Leafy.unf (h : Leafy sgn mem b es) : Unf mem es (leafF b (es.map Prod.fst)) := by
  have hl := h.leaf
  clear h
  induction es with
  | nil => exact .nil
  | cons e es ih =>
    obtain ⟨c, a⟩ := e
    have ha : mem a = some ⟨b, []⟩ := hl (c, a) (by simp)
    exact .cons (nd := ⟨b, []⟩) ha .nil (ih fun e he => hl e (by simp [he]))

theorem leafF_sorted {cs : List UInt8} (h : cs.Pairwise (charLt sgn)) : (leafF b cs).Sorted sgn := by
  induction cs with
  | nil => exact .nil
  | cons c cs ih =>
    have h' := List.pairwise_cons.1 h
    refine .cons .nil (ih h'.2) fun it hit c' hc' => ?_
    have : ∀ (cs : List UInt8), it ∈ (leafF b cs).items [] → c' ∈ cs := by
      intro cs
      induction cs with
      | nil => intro h; simp [leafF, Forest.items] at h
      | cons d cs ih =>
        intro h
        simp only [leafF, Forest.items, List.mem_cons] at h
        rcases h with h | h
        · rw [h] at hc'; simp at hc'; simp [hc']
        · simp [ih h]
    exact h'.1 c' (this cs hit)

theorem Leafy.sortedF (h : Leafy sgn mem b es) : (leafF b (es.map Prod.fst)).Sorted sgn :=
  leafF_sorted (List.pairwise_map.2 h.sorted)

theorem leafF_height (cs : List UInt8) : (leafF b cs).height ≤ 1 := by
  induction cs with
  | nil => simp [leafF, Forest.height]
  | cons c cs ih => simp only [leafF, Forest.height]; omega

/-- `operator==` of two nodes with leaves below. -/
theorem leafy_nodeEq {b' : Bool} {x y : DNode} (h0 : mem 0 = none) (hx : Leafy sgn mem b x.edges) (hy : Leafy sgn mem b' y.edges)
    {fuel : Nat} (hf : 2 ≤ fuel) :
    nodeEq mem fuel x y = .ok (decide (x.final = y.final ∧ x.edges.map Prod.fst = y.edges.map Prod.fst ∧
      (b = b' ∨ x.edges.map Prod.fst = []))) := by
  rw [nodeEq_spec h0 hx.unf hy.unf hx.sortedF hy.sortedF (by have := leafF_height (b := b) (x.edges.map Prod.fst); omega)]
  congr 1
  exact decide_eq_decide.2 (and_congr_right' leafF_inj)

theorem Leafy.frame {mem' : Mem} (h : Leafy sgn mem b es) (hm : ∀ e ∈ es, mem' e.2 = mem e.2) : Leafy sgn mem' b es :=
  ⟨fun e he => by rw [hm e he]; exact h.leaf e he, h.sorted⟩

theorem Leafy.set {c : UInt8} {a : Nat} (h : Leafy sgn mem b es) (ha : mem a = some ⟨b, []⟩) :
    Leafy sgn mem b (mapSet sgn c a es) :=
  ⟨fun e he => by
    rcases mem_mapSet he with rfl | he
    · exact ha
    · exact h.leaf e he, mapSet_sorted h.sorted⟩

theorem mapSet_length {c : UInt8} {a : Nat} (h : ∀ e ∈ es, e.1 ≠ c) : (mapSet sgn c a es).length = es.length + 1 := by
  induction es with
  | nil => rfl
  | cons e es ih =>
    obtain ⟨l, t⟩ := e
    have hl : ¬ c = l := fun hc => h (l, t) (by simp) hc.symm
    simp only [mapSet, hl, if_false]
    split
    · simp
    · simp [ih fun e he => h e (by simp [he])]

theorem nodeTransition_none {nd : DNode} {c : UInt8} (h : ∀ e ∈ nd.edges, e.1 ≠ c) : nodeTransition nd c = 0 := by
  unfold nodeTransition
  have : nd.edges.find? (fun e => e.1 == c) = none := by
    simp only [List.find?_eq_none, beq_iff_eq]
    exact h
  rw [this]

theorem nodeTransition_some {nd : DNode} {c : UInt8} {a : Nat} (hs : nd.edges.Pairwise fun e f => charLt sgn e.1 f.1)
    (h : (c, a) ∈ nd.edges) : nodeTransition nd c = a := by
  unfold nodeTransition
  have : nd.edges.find? (fun e => e.1 == c) = some (c, a) := by
    generalize nd.edges = es at *
    induction es with
    | nil => simp at h
    | cons e es ih =>
      have h' := List.pairwise_cons.1 hs
      rcases List.mem_cons.1 h with rfl | he
      · simp
      · have : e.1 ≠ c := fun hc => charLt_irrefl (hc ▸ h'.1 _ he)
        simp [this, ih h'.2 he]
  rw [this]

end

/-! ### New nodes -/

section
variable {addr : Nat → Nat} {h : Heap}

theorem Allocator.newB (ha : Allocator addr h) (b : Bool) : Allocator addr (newNodeB addr b h).2 := by
  refine ⟨ha.nonnull, ha.inj, ?_, fun k hk => ?_⟩
  · simp only [newNodeB, Mem.set]
    rw [if_neg (fun hc => ha.nonnull _ hc.symm)]
    exact ha.null
  · simp only [newNodeB] at hk
    simp only [newNodeB, Mem.set]
    rw [if_neg (fun hc => by have := ha.inj _ _ hc; omega)]
    exact ha.fresh k (by omega)

theorem Allocator.newE (ha : Allocator addr h) (es : List (UInt8 × Nat)) (b : Bool) :
    Allocator addr (newNodeE addr es b h).2 := by
  refine ⟨ha.nonnull, ha.inj, ?_, fun k hk => ?_⟩
  · simp only [newNodeE, Mem.set]
    rw [if_neg (fun hc => ha.nonnull _ hc.symm)]
    exact ha.null
  · simp only [newNodeE] at hk
    simp only [newNodeE, Mem.set]
    rw [if_neg (fun hc => by have := ha.inj _ _ hc; omega)]
    exact ha.fresh k (by omega)

/-- A live address is none the allocator will hand out. -/
theorem Allocator.ne_new (ha : Allocator addr h) {a k : Nat} {nd : DNode} (hm : h.mem a = some nd) (hk : h.count ≤ k) :
    a ≠ addr k := by
  rintro rfl
  rw [ha.fresh k hk] at hm
  cases hm

theorem Allocator.live_ne_zero (ha : Allocator addr h) {a : Nat} {nd : DNode} (hm : h.mem a = some nd) : a ≠ 0 := by
  rintro rfl
  rw [ha.null] at hm
  cases hm

/-- `h'` has, over `h`, the nodes the allocator handed out since, which are leaves; `node` apart. -/
structure Grown (addr : Nat → Nat) (h : Heap) (node : Nat) (b : Bool) (n : Nat) (h' : Heap) : Prop where
  count : h'.count = h.count + n
  leaf : ∀ k, h.count ≤ k → k < h.count + n → h'.mem (addr k) = some ⟨b, []⟩
  old : ∀ a, a ≠ node → (∀ k, h.count ≤ k → k < h.count + n → a ≠ addr k) → h'.mem a = h.mem a

theorem addLeaf_ok {sgn b : Bool} {node : Nat} {nd : DNode} {c : UInt8} (ha : Allocator addr h) (hm : h.mem node = some nd)
    (hl : Leafy sgn h.mem b nd.edges) (hc : ∀ e ∈ nd.edges, e.1 ≠ c) :
    ∃ h', addEdge sgn node c (addr h.count) (newNodeB addr b h).2 = .ok h' ∧ Allocator addr h' ∧
      h'.mem node = some ⟨nd.final, mapSet sgn c (addr h.count) nd.edges⟩ ∧
      Leafy sgn h'.mem b (mapSet sgn c (addr h.count) nd.edges) ∧ Grown addr h node b 1 h' := by
  have hne : node ≠ addr h.count := ha.ne_new hm (Nat.le_refl _)
  have h1 : (newNodeB addr b h).2.mem node = some nd := by simp [newNodeB, Mem.set, hne, hm]
  refine ⟨⟨(newNodeB addr b h).2.mem.set node (some ⟨nd.final, mapSet sgn c (addr h.count) nd.edges⟩), h.count + 1⟩,
    ?_, ?_, ?_, ?_, rfl, ?_, ?_⟩
  · simp only [addEdge, deref, h1, nodeTransition_none hc, deleteNode, if_true, bind, Except.bind]
    rfl
  · have ha' := ha.newB b
    refine ⟨ha.nonnull, ha.inj, ?_, fun k hk => ?_⟩
    · simp only [Mem.set]
      rw [if_neg (fun hc => ha.live_ne_zero hm hc.symm)]
      exact ha'.null
    · simp only [Mem.set]
      rw [if_neg (fun hc => ha.ne_new hm (k := k) (by simp only at hk; omega) hc.symm)]
      exact ha'.fresh k hk
  · simp [Mem.set]
  · refine Leafy.set ⟨fun e he => ?_, hl.sorted⟩ ?_
    · have hel := hl.leaf e he
      have hen : e.2 ≠ node := by
        intro hc
        rw [hc, hm] at hel
        cases hel
        simp at he
      simp only [Mem.set, hen, if_false, newNodeB]
      rw [if_neg (ha.ne_new hel (Nat.le_refl _))]
      exact hel
    · simp [Mem.set, Ne.symm hne, newNodeB]
  · intro k hk hk'
    obtain rfl : k = h.count := by omega
    simp [Mem.set, Ne.symm hne, newNodeB]
  · intro a han hk
    simp [Mem.set, han, newNodeB, hk h.count (Nat.le_refl _) (by omega)]

theorem Grown.trans {node n n' : Nat} {b : Bool} {h' h'' : Heap} (ha : Allocator addr h') (h1 : Grown addr h node b n h')
    (h2 : Grown addr h' node b n' h'') (hnode : ∀ k, h.count ≤ k → k < h.count + n → addr k ≠ node) :
    Grown addr h node b (n + n') h'' := by
  have hc := h1.count
  refine ⟨by rw [h2.count, hc]; omega, fun k hk hk' => ?_, fun a hna hka => ?_⟩
  · by_cases hlt : k < h.count + n
    · rw [h2.old _ (hnode k hk hlt) fun j hj hj' he => by have := ha.inj _ _ he; omega]
      exact h1.leaf k hk hlt
    · exact h2.leaf k (by omega) (by omega)
  · rw [h2.old a hna fun k hk hk' => hka k (by omega) (by omega), h1.old a hna fun k hk hk' => hka k hk (by omega)]

/-- The labels of the edges after labels are added. -/
theorem addLeaves_ok {sgn b : Bool} {node : Nat} {nd : DNode} {cs : List UInt8} (ha : Allocator addr h)
    (hm : h.mem node = some nd) (hl : Leafy sgn h.mem b nd.edges) (hc : ∀ e ∈ nd.edges, e.1 ∉ cs) (hn : cs.Nodup) :
    ∃ h' es', addLeaves sgn addr node b cs h = .ok h' ∧ Allocator addr h' ∧ h'.mem node = some ⟨nd.final, es'⟩ ∧
      Leafy sgn h'.mem b es' ∧ es'.length = nd.edges.length + cs.length ∧
      (∀ c, c ∈ es'.map Prod.fst ↔ c ∈ nd.edges.map Prod.fst ∨ c ∈ cs) ∧ Grown addr h node b cs.length h' := by
  induction cs generalizing h nd with
  | nil => exact ⟨h, nd.edges, rfl, ha, hm, hl, by simp, by simp, rfl, fun k hk hk' => by simp at hk'; omega, fun a _ _ => rfl⟩
  | cons c cs ih =>
    have hc1 : ∀ e ∈ nd.edges, e.1 ≠ c := fun e he hx => hc e he (by simp [hx])
    obtain ⟨h1, e1, ha1, hm1, hl1, hg1⟩ := addLeaf_ok (c := c) ha hm hl hc1
    have hn' := List.nodup_cons.1 hn
    obtain ⟨h2, es', e2, ha2, hm2, hl2, hlen, hlab, hg2⟩ := ih (nd := ⟨nd.final, _⟩) ha1 hm1 hl1 (fun e he => by
      rcases mem_mapSet he with rfl | he
      · exact hn'.1
      · exact fun hx => hc e he (by simp [hx])) hn'.2
    refine ⟨h2, es', ?_, ha2, hm2, hl2, ?_, fun c' => ?_, ?_⟩
    · simp only [addLeaves, bind, Except.bind]
      have : (newNodeB addr b h).1 = addr h.count := rfl
      rw [this, e1]
      exact e2
    · rw [hlen]; simp only; rw [mapSet_length hc1]; simp only [List.length_cons]; omega
    · rw [hlab c']
      simp only [List.mem_map, List.mem_cons]
      constructor
      · rintro (⟨e, he, rfl⟩ | h')
        · rcases mem_mapSet he with rfl | he
          · exact .inr (.inl rfl)
          · exact .inl ⟨e, he, rfl⟩
        · exact .inr (.inr h')
      · rintro (⟨e, he, rfl⟩ | rfl | h')
        · exact .inl ⟨e, (mem_mapSet_iff hc1).2 (.inr he), rfl⟩
        · exact .inl ⟨_, (mem_mapSet_iff hc1).2 (.inl rfl), rfl⟩
        · exact .inr h'
    · have := hg1.trans ha1 hg2 fun k hk hk' he => ha.ne_new hm hk he.symm
      rw [List.length_cons, Nat.add_comm]
      exact this

theorem mapLeaves_ok {sgn : Bool} {cs : List UInt8} {es : List (UInt8 × Nat)} (ha : Allocator addr h)
    (hl : Leafy sgn h.mem false es) (hc : ∀ e ∈ es, e.1 ∉ cs) (hn : cs.Nodup) :
    ∃ h' es', mapLeaves sgn addr cs es h = (es', h') ∧ Allocator addr h' ∧ Leafy sgn h'.mem false es' ∧
      es'.length = es.length + cs.length ∧ (∀ c, c ∈ es'.map Prod.fst ↔ c ∈ es.map Prod.fst ∨ c ∈ cs) ∧
      Grown addr h 0 false cs.length h' := by
  induction cs generalizing h es with
  | nil => exact ⟨h, es, rfl, ha, hl, by simp, by simp, rfl, fun k hk hk' => by simp at hk'; omega, fun a _ _ => rfl⟩
  | cons c cs ih =>
    have hc1 : ∀ e ∈ es, e.1 ≠ c := fun e he hx => hc e he (by simp [hx])
    have hn' := List.nodup_cons.1 hn
    have hnew : (newNodeB addr false h).2.mem (addr h.count) = some ⟨false, []⟩ := by simp [newNodeB, Mem.set]
    have hl1 : Leafy sgn (newNodeB addr false h).2.mem false (mapSet sgn c (addr h.count) es) := by
      refine Leafy.set (hl.frame fun e he => ?_) hnew
      simp only [newNodeB, Mem.set]
      rw [if_neg (ha.ne_new (hl.leaf e he) (Nat.le_refl _))]
    have hg1 : Grown addr h 0 false 1 (newNodeB addr false h).2 := by
      refine ⟨rfl, fun k hk hk' => ?_, fun a _ hk => ?_⟩
      · obtain rfl : k = h.count := by omega
        exact hnew
      · simp [newNodeB, Mem.set, hk h.count (Nat.le_refl _) (by omega)]
    obtain ⟨h2, es', e2, ha2, hl2, hlen, hlab, hg2⟩ := ih (ha.newB false) hl1 (fun e he => by
      rcases mem_mapSet he with rfl | he
      · exact hn'.1
      · exact fun hx => hc e he (by simp [hx])) hn'.2
    refine ⟨h2, es', ?_, ha2, hl2, ?_, fun c' => ?_, ?_⟩
    · simp only [mapLeaves]
      exact e2
    · rw [hlen, mapSet_length hc1]; simp only [List.length_cons]; omega
    · rw [hlab c']
      simp only [List.mem_map, List.mem_cons]
      constructor
      · rintro (⟨e, he, rfl⟩ | h')
        · rcases mem_mapSet he with rfl | he
          · exact .inr (.inl rfl)
          · exact .inl ⟨e, he, rfl⟩
        · exact .inr (.inr h')
      · rintro (⟨e, he, rfl⟩ | rfl | h')
        · exact .inl ⟨e, (mem_mapSet_iff hc1).2 (.inr he), rfl⟩
        · exact .inl ⟨_, (mem_mapSet_iff hc1).2 (.inl rfl), rfl⟩
        · exact .inr h'
    · have := hg1.trans (ha.newB false) hg2 fun k hk hk' => ha.nonnull k
      rw [List.length_cons, Nat.add_comm]
      exact this

theorem deleteNode_ok {a : Nat} {nd : DNode} (ha : a ≠ 0) (hm : h.mem a = some nd) :
    deleteNode a h = .ok ⟨h.mem.set a none, h.count⟩ := by
  simp [deleteNode, ha, hm]

end

theorem labels_iff {sgn : Bool} {xs ys lx ly : List UInt8} (hx : ∀ c, c ∈ lx ↔ c ∈ xs) (hy : ∀ c, c ∈ ly ↔ c ∈ ys)
    (nx : lx.length = xs.length) (ny : ly.length = ys.length) (sx : lx.Pairwise (charLt sgn)) (sy : ly.Pairwise (charLt sgn)) :
    sameSet xs ys = true ↔ lx = ly := by
  simp only [sameSet, Bool.and_eq_true, beq_iff_eq, List.all_eq_true, List.contains_iff_mem]
  constructor
  · rintro ⟨h1, h2⟩
    refine List.Sublist.eq_of_length ?_ (by omega)
    exact sorted_sublist (fun _ h => charLt_irrefl h) (fun _ _ h h' => charLt_irrefl (charLt_trans h h')) sx sy
      fun a ha => (hy a).2 (h2 a ((hx a).1 ha))
  · rintro rfl
    exact ⟨by omega, fun a ha => (hy a).1 ((hx a).2 ha)⟩


/-- `h'` is `h` with `n` more nodes alive: they are lost. -/
def Lost (h h' : Heap) (n : Nat) : Prop :=
  ∃ l : List Nat, l.Nodup ∧ l.length = n ∧ (∀ a ∈ l, h.mem a = none ∧ h'.mem a ≠ none) ∧ ∀ a, a ∉ l → h'.mem a = h.mem a

/-- The addresses `addr k`, …, `addr (k + n - 1)`. -/
def addrRange (addr : Nat → Nat) (k n : Nat) : List Nat := (List.range' k n).map addr

theorem mem_addrRange {addr : Nat → Nat} {k n a : Nat} : a ∈ addrRange addr k n ↔ ∃ j, k ≤ j ∧ j < k + n ∧ a = addr j := by
  simp only [addrRange, List.mem_map, List.mem_range'_1]
  constructor
  · rintro ⟨j, ⟨h1, h2⟩, rfl⟩; exact ⟨j, h1, h2, rfl⟩
  · rintro ⟨j, h1, h2, rfl⟩; exact ⟨j, ⟨h1, h2⟩, rfl⟩

theorem addrRange_nodup {addr : Nat → Nat} (hi : ∀ j k, addr j = addr k → j = k) (k n : Nat) : (addrRange addr k n).Nodup :=
  List.pairwise_map.2 (List.Pairwise.imp (fun hne he => hne (hi _ _ he)) (List.nodup_range' (s := k) (n := n)))

@[simp] theorem addrRange_length {addr : Nat → Nat} (k n : Nat) : (addrRange addr k n).length = n := by simp [addrRange]

theorem testNodeComparable_ok {sgn : Bool} {addr : Nat → Nat} {h : Heap} (ha : Allocator addr h) {xs ys : List UInt8}
    (hx : xs.Nodup) (hy : ys.Nodup) (xf xl yf yl : Bool) {fuel : Nat} (hf : 2 ≤ fuel) :
    ∃ h', testNodeComparable sgn addr fuel xs xf xl ys yf yl h = .ok h' ∧ Lost h h' (xs.length + ys.length) := by
  have ha1 := ha.newB xf
  have m1 : (newNodeB addr xf h).2.mem (addr h.count) = some ⟨xf, []⟩ := by simp [newNodeB, Mem.set]
  obtain ⟨h2, es, e2, ha2, m2, l2, n2, lab2, g2⟩ := addLeaves_ok (sgn := sgn) (b := xl) (cs := xs) ha1 m1
    ⟨by simp, by simp⟩ (by simp) hx
  have c2 : h2.count = h.count + 1 + xs.length := by rw [g2.count]; rfl
  have ha3 := ha2.newB yf
  have m3 : (newNodeB addr yf h2).2.mem (addr h2.count) = some ⟨yf, []⟩ := by simp [newNodeB, Mem.set]
  obtain ⟨h4, fs, e4, ha4, m4, l4, n4, lab4, g4⟩ := addLeaves_ok (sgn := sgn) (b := yl) (cs := ys) ha3 m3
    ⟨by simp, by simp⟩ (by simp) hy
  have k3 : (newNodeB addr yf h2).2.count = h2.count + 1 := rfl
  have c4 : h4.count = h2.count + 1 + ys.length := by rw [g4.count]; rfl
  have keep : ∀ a nd, h2.mem a = some nd → h4.mem a = some nd := by
    intro a nd hm
    rw [g4.old a (ha2.ne_new hm (Nat.le_refl _)) fun k hk _ => ha2.ne_new hm (by rw [k3] at hk; omega)]
    simp only [newNodeB, Mem.set]
    rw [if_neg (ha2.ne_new hm (Nat.le_refl _))]
    exact hm
  have mx : h4.mem (addr h.count) = some ⟨xf, es⟩ := keep _ _ m2
  have lx : Leafy sgn h4.mem xl es := ⟨fun e he => keep _ _ (l2.leaf e he), l2.sorted⟩
  have heq := leafy_nodeEq (x := ⟨xf, es⟩) (y := ⟨yf, fs⟩) ha4.null lx l4 hf
  have hlab := labels_iff (sgn := sgn) (xs := xs) (ys := ys) (fun c => by simpa using lab2 c) (fun c => by simpa using lab4 c)
    (by simpa using n2) (by simpa using n4) (List.pairwise_map.2 l2.sorted) (List.pairwise_map.2 l4.sorted)
  have hempty : es.map Prod.fst = [] ↔ xs.isEmpty = true := by
    simp only [List.map_eq_nil_iff, List.isEmpty_iff]
    simp only [List.length_nil, Nat.zero_add] at n2
    rw [← List.length_eq_zero_iff, n2, List.length_eq_zero_iff]
  have hiff : (sameSet xs ys && xf == yf && (xl == yl || xs.isEmpty)) = true ↔
      (xf = yf ∧ es.map Prod.fst = fs.map Prod.fst ∧ (xl = yl ∨ es.map Prod.fst = [])) := by
    rw [hempty, Bool.and_eq_true, Bool.and_eq_true, hlab, Bool.or_eq_true, beq_iff_eq, beq_iff_eq]
    constructor
    · rintro ⟨⟨p, q⟩, r⟩; exact ⟨q, p, r⟩
    · rintro ⟨q, p, r⟩; exact ⟨⟨p, q⟩, r⟩
  have x0 : addr h.count ≠ 0 := ha.nonnull _
  have y0 : addr h2.count ≠ 0 := ha.nonnull _
  have xy : addr h2.count ≠ addr h.count := fun hc => by have := ha.inj _ _ hc; omega
  have hd1 := deleteNode_ok x0 mx
  have my : (⟨h4.mem.set (addr h.count) none, h4.count⟩ : Heap).mem (addr h2.count) = some ⟨yf, fs⟩ := by
    simp only [Mem.set]; rw [if_neg xy]; exact m4
  have hd2 := deleteNode_ok y0 my
  refine ⟨⟨(h4.mem.set (addr h.count) none).set (addr h2.count) none, h4.count⟩, ?_, addrRange addr (h.count + 1) xs.length ++ addrRange addr (h2.count + 1) ys.length, ?_, by simp, ?_, ?_⟩
  · have q1 : newNodeB addr xf h = (addr h.count, (newNodeB addr xf h).2) := rfl
    have q2 : newNodeB addr yf h2 = (addr h2.count, (newNodeB addr yf h2).2) := rfl
    simp only [testNodeComparable, bind, Except.bind]
    rw [q1]
    simp only [e2, use_ok]
    rw [q2]
    simp only [e4, use_ok, deref, mx, m4, heq]
    by_cases hcond : (sameSet xs ys && xf == yf && (xl == yl || xs.isEmpty)) = true
    · rw [if_pos hcond, decide_eq_true (hiff.1 hcond)]
      simp only [rcAssert_true, hd1, use_ok, hd2]
    · rw [if_neg hcond, decide_eq_false (fun hc => hcond (hiff.2 hc))]
      simp only [Bool.not_false, rcAssert_true, hd1, use_ok, hd2]
  · refine List.nodup_append.2 ⟨addrRange_nodup ha.inj _ _, addrRange_nodup ha.inj _ _, fun a h1 b h2' he => ?_⟩
    obtain ⟨j, p1, p2, rfl⟩ := mem_addrRange.1 h1
    obtain ⟨k, q1, q2, rfl⟩ := mem_addrRange.1 h2'
    have := ha.inj _ _ he
    omega
  · intro a hal
    rcases List.mem_append.1 hal with hal | hal
    · obtain ⟨j, p1, p2, rfl⟩ := mem_addrRange.1 hal
      refine ⟨ha.fresh j (by omega), ?_⟩
      have n1 : addr j ≠ addr h.count := fun hc => by have := ha.inj _ _ hc; omega
      have n2 : addr j ≠ addr h2.count := fun hc => by have := ha.inj _ _ hc; omega
      simp only [Mem.set, n1, n2, if_false]
      rw [keep _ _ (g2.leaf j p1 p2)]
      simp
    · obtain ⟨j, p1, p2, rfl⟩ := mem_addrRange.1 hal
      refine ⟨ha.fresh j (by omega), ?_⟩
      have n1 : addr j ≠ addr h.count := fun hc => by have := ha.inj _ _ hc; omega
      have n2 : addr j ≠ addr h2.count := fun hc => by have := ha.inj _ _ hc; omega
      simp only [Mem.set, n1, n2, if_false]
      rw [g4.leaf j p1 p2]
      simp
  · intro a hal
    simp only [List.mem_append, not_or, mem_addrRange] at hal
    simp only [Mem.set]
    split
    · next hc => subst hc; exact (ha.fresh _ (by omega)).symm
    · next hc2 =>
      split
      · next hc => subst hc; exact (ha.fresh _ (Nat.le_refl _)).symm
      · next hc1 =>
        rw [g4.old a hc2 fun k hk hk' he => hal.2 ⟨k, hk, hk', he⟩]
        simp only [newNodeB, Mem.set, hc2, if_false]
        rw [g2.old a hc1 fun k hk hk' he => hal.1 ⟨k, hk, hk', he⟩]
        simp only [newNodeB, Mem.set, hc1, if_false]

theorem sameSet_refl (xs : List UInt8) : sameSet xs xs = true := by
  simp [sameSet]

theorem testNodeConstructors_ok {sgn : Bool} {addr : Nat → Nat} {h : Heap} (ha : Allocator addr h) {xs : List UInt8}
    (hx : xs.Nodup) (isFinal : Bool) {fuel : Nat} (hf : 2 ≤ fuel) :
    ∃ h', testNodeConstructors sgn addr fuel xs isFinal h = .ok h' ∧ Lost h h' (xs.length + xs.length) := by
  obtain ⟨h1, es, e1, ha1, l1, n1, lab1, g1⟩ := mapLeaves_ok (sgn := sgn) (cs := xs) (es := []) ha ⟨by simp, by simp⟩
    (by simp) hx
  have c1 : h1.count = h.count + xs.length := g1.count
  have ha2 := ha1.newB isFinal
  have ha3 := ha2.newE es isFinal
  have c2 : (newNodeB addr isFinal h1).2.count = h1.count + 1 := rfl
  have c3 : (newNodeE addr es isFinal (newNodeB addr isFinal h1).2).2.count = h1.count + 2 := rfl
  have rl : addr (h1.count + 1) ≠ addr h1.count := fun hc => by have := ha.inj _ _ hc; omega
  have m3 : (newNodeE addr es isFinal (newNodeB addr isFinal h1).2).2.mem (addr h1.count) = some ⟨isFinal, []⟩ := by
    simp [newNodeB, newNodeE, Mem.set, Ne.symm rl]
  have m3r : (newNodeE addr es isFinal (newNodeB addr isFinal h1).2).2.mem (addr (h1.count + 1)) = some ⟨isFinal, es⟩ := by
    simp [newNodeB, newNodeE, Mem.set]
  obtain ⟨h4, fs, e4, ha4, m4, l4, n4, lab4, g4⟩ := addLeaves_ok (sgn := sgn) (b := false) (cs := xs) ha3 m3
    ⟨by simp, by simp⟩ (by simp) hx
  have c4 : h4.count = h1.count + 2 + xs.length := by rw [g4.count]; rfl
  have keep3 : ∀ a nd, h1.mem a = some nd → (newNodeE addr es isFinal (newNodeB addr isFinal h1).2).2.mem a = some nd := by
    intro a nd hm
    have q1 : a ≠ addr h1.count := ha1.ne_new hm (Nat.le_refl _)
    have q2 : a ≠ addr (h1.count + 1) := ha1.ne_new hm (by omega)
    simp only [newNodeB, newNodeE, Mem.set, q1, q2, if_false]
    exact hm
  have keep : ∀ a nd, h1.mem a = some nd → h4.mem a = some nd := by
    intro a nd hm
    rw [g4.old a (ha1.ne_new hm (Nat.le_refl _)) fun k hk _ => ha1.ne_new hm (by rw [c3] at hk; omega)]
    exact keep3 a nd hm
  have mr : h4.mem (addr (h1.count + 1)) = some ⟨isFinal, es⟩ := by
    rw [g4.old _ rl fun k hk _ he => by rw [c3] at hk; have := ha.inj _ _ he; omega]
    exact m3r
  have lr : Leafy sgn h4.mem false es := ⟨fun e he => keep _ _ (l1.leaf e he), l1.sorted⟩
  have heq := leafy_nodeEq (x := ⟨isFinal, fs⟩) (y := ⟨isFinal, es⟩) ha4.null l4 lr hf
  have hlab := (labels_iff (sgn := sgn) (xs := xs) (ys := xs) (fun c => by simpa using lab4 c) (fun c => by simpa using lab1 c)
    (by simpa using n4) (by simpa using n1) (List.pairwise_map.2 l4.sorted) (List.pairwise_map.2 l1.sorted)).1 (sameSet_refl xs)
  have heq' : nodeEq h4.mem fuel ⟨isFinal, fs⟩ ⟨isFinal, es⟩ = .ok true := by
    rw [heq]; simp [hlab]
  have hd1 := deleteNode_ok (ha.nonnull _) m4
  have mr' : (⟨h4.mem.set (addr h1.count) none, h4.count⟩ : Heap).mem (addr (h1.count + 1)) = some ⟨isFinal, es⟩ := by
    simp only [Mem.set]; rw [if_neg rl]; exact mr
  have hd2 := deleteNode_ok (ha.nonnull _) mr'
  refine ⟨⟨(h4.mem.set (addr h1.count) none).set (addr (h1.count + 1)) none, h4.count⟩, ?_,
    addrRange addr h.count xs.length ++ addrRange addr (h1.count + 2) xs.length, ?_, by simp, ?_, ?_⟩
  · have q1 : newNodeB addr isFinal h1 = (addr h1.count, (newNodeB addr isFinal h1).2) := rfl
    have q2 : newNodeE addr es isFinal (newNodeB addr isFinal h1).2 =
      (addr (h1.count + 1), (newNodeE addr es isFinal (newNodeB addr isFinal h1).2).2) := rfl
    simp only [testNodeConstructors, bind, Except.bind, e1]
    rw [q1]
    simp only
    rw [q2]
    simp only [e4, use_ok, deref, mr, m4, heq', rcAssert_true]
    cases isFinal <;> simp only [if_true, if_false, Bool.not_false, rcAssert_true, hd1, hd2, use_ok, Bool.false_eq_true]
  · refine List.nodup_append.2 ⟨addrRange_nodup ha.inj _ _, addrRange_nodup ha.inj _ _, fun a h1 b h2' he => ?_⟩
    obtain ⟨j, p1, p2, rfl⟩ := mem_addrRange.1 h1
    obtain ⟨k, q1, q2, rfl⟩ := mem_addrRange.1 h2'
    have := ha.inj _ _ he
    omega
  · intro a hal
    rcases List.mem_append.1 hal with hal | hal
    · obtain ⟨j, p1, p2, rfl⟩ := mem_addrRange.1 hal
      refine ⟨ha.fresh j (by omega), ?_⟩
      have n1 : addr j ≠ addr h1.count := fun hc => by have := ha.inj _ _ hc; omega
      have n2 : addr j ≠ addr (h1.count + 1) := fun hc => by have := ha.inj _ _ hc; omega
      simp only [Mem.set, n1, n2, if_false]
      rw [keep _ _ (g1.leaf j p1 p2)]
      simp
    · obtain ⟨j, p1, p2, rfl⟩ := mem_addrRange.1 hal
      refine ⟨ha.fresh j (by omega), ?_⟩
      have n1 : addr j ≠ addr h1.count := fun hc => by have := ha.inj _ _ hc; omega
      have n2 : addr j ≠ addr (h1.count + 1) := fun hc => by have := ha.inj _ _ hc; omega
      simp only [Mem.set, n1, n2, if_false]
      rw [g4.leaf j p1 p2]
      simp
  · intro a hal
    simp only [List.mem_append, not_or, mem_addrRange] at hal
    simp only [Mem.set]
    split
    · next hc => subst hc; exact (ha.fresh _ (by omega)).symm
    · next hc2 =>
      split
      · next hc => subst hc; exact (ha.fresh _ (by omega)).symm
      · next hc1 =>
        rw [g4.old a hc1 fun k hk hk' he => hal.2 ⟨k, hk, hk', he⟩]
        simp only [newNodeB, newNodeE, Mem.set, hc2, hc1, if_false]
        by_cases h0 : a = 0
        · subst h0; rw [ha1.null, ha.null]
        · exact g1.old a h0 fun k hk hk' he => hal.1 ⟨k, hk, hk', he⟩

theorem addAndNote_ok {sgn : Bool} {addr : Nat → Nat} {h : Heap} {node : Nat} {nd : DNode} {cs : List UInt8} (ha : Allocator addr h)
    (hm : h.mem node = some nd) (hl : Leafy sgn h.mem false nd.edges) (hc : ∀ e ∈ nd.edges, e.1 ∉ cs) (hn : cs.Nodup) :
    ∃ h' es', addAndNote sgn addr node cs nd.edges h = .ok (es', h') ∧ addLeaves sgn addr node false cs h = .ok h' ∧
      h'.mem node = some ⟨nd.final, es'⟩ := by
  induction cs generalizing h nd with
  | nil => exact ⟨h, nd.edges, rfl, rfl, hm⟩
  | cons c cs ih =>
    have hc1 : ∀ e ∈ nd.edges, e.1 ≠ c := fun e he hx => hc e he (by simp [hx])
    obtain ⟨h1, e1, ha1, hm1, hl1, hg1⟩ := addLeaf_ok (c := c) ha hm hl hc1
    have hn' := List.nodup_cons.1 hn
    obtain ⟨h2, es', e2, e3, hm2⟩ := ih (nd := ⟨nd.final, _⟩) ha1 hm1 hl1 (fun e he => by
      rcases mem_mapSet he with rfl | he
      · exact hn'.1
      · exact fun hx => hc e he (by simp [hx])) hn'.2
    refine ⟨h2, es', ?_, ?_, hm2⟩
    · simp only [addAndNote, bind, Except.bind]
      have : (newNodeB addr false h).1 = addr h.count := rfl
      rw [this, e1]
      exact e2
    · simp only [addLeaves, bind, Except.bind]
      have : (newNodeB addr false h).1 = addr h.count := rfl
      rw [this, e1]
      exact e3

theorem dedup_id {l acc : List UInt8} (h : (acc ++ l).Nodup) :
    l.foldl (fun l c => if l.contains c then l else l ++ [c]) acc = acc ++ l := by
  induction l generalizing acc with
  | nil => simp
  | cons c l ih =>
    have hc : acc.contains c = false := by
      have := (List.nodup_append.1 h).2.2
      simp only [List.contains_eq_mem, decide_eq_false_iff_not]
      exact fun hc => this c hc c (by simp) rfl
    rw [List.foldl_cons, hc]
    simp only [Bool.false_eq_true, if_false]
    rw [ih (by simpa using h)]
    simp

theorem testNodeEdges_ok {sgn : Bool} {addr : Nat → Nat} {h : Heap} (ha : Allocator addr h) {xs : List UInt8}
    (hx : xs.Nodup) (isFinal : Bool) :
    ∃ h', testNodeEdges sgn addr xs isFinal h = .ok h' ∧ Lost h h' xs.length := by
  have ha1 := ha.newB isFinal
  have m1 : (newNodeB addr isFinal h).2.mem (addr h.count) = some ⟨isFinal, []⟩ := by simp [newNodeB, Mem.set]
  have k1 : (newNodeB addr isFinal h).2.count = h.count + 1 := rfl
  obtain ⟨h2, es, e2, e2', m2⟩ := addAndNote_ok (sgn := sgn) (cs := xs) ha1 m1 ⟨by simp, by simp⟩ (by simp) hx
  obtain ⟨h2', es', e3, ha2, m2', l2, n2, lab2, g2⟩ := addLeaves_ok (sgn := sgn) (b := false) (cs := xs) ha1 m1
    ⟨by simp, by simp⟩ (by simp) hx
  rw [e2'] at e3
  cases e3
  rw [m2] at m2'
  cases m2'
  simp only [List.map_nil, List.not_mem_nil, false_or] at lab2
  have hsorted : (es.map Prod.fst).Pairwise (charLt sgn) := List.pairwise_map.2 l2.sorted
  have hnd : (es.map Prod.fst).Nodup := List.Pairwise.imp (S := fun a b => a ≠ b) (fun {a b} h (he : a = b) => by subst he; exact charLt_irrefl h) hsorted
  have hd := dedup_id (acc := []) (l := es.map Prod.fst) (by simpa using hnd)
  simp only [List.nil_append] at hd
  have hsame : sameSet xs (es.map Prod.fst) = true := by
    simp only [sameSet, Bool.and_eq_true, beq_iff_eq, List.all_eq_true, List.contains_iff_mem]
    refine ⟨by simpa using n2.symm, fun c hc => (lab2 c).2 hc⟩
  have hcheck : ∀ cs : List UInt8, (∀ c ∈ cs, c ∈ xs) → checkTargets ⟨isFinal, es⟩ es cs = .ok () := by
    intro cs
    induction cs with
    | nil => intro _; rfl
    | cons c cs ih =>
      intro hcs
      obtain ⟨⟨c', a⟩, he, rfl⟩ := List.mem_map.1 ((lab2 c).2 (hcs c (by simp)))
      have t1 : nodeTransition ⟨isFinal, es⟩ c' = a := nodeTransition_some l2.sorted he
      have t2 : nodeTransition ⟨false, es⟩ c' = a := nodeTransition_some l2.sorted he
      have a0 : a ≠ 0 := ha2.live_ne_zero (l2.leaf _ he)
      simp only [checkTargets, t1, t2, bne_iff_ne, ne_eq, a0, not_false_eq_true, beq_self_eq_true, rcAssert, if_true, bind,
        Except.bind]
      exact ih fun c hc => hcs c (by simp [hc])
  have hd1 := deleteNode_ok (ha.nonnull _) m2
  refine ⟨⟨h2.mem.set (addr h.count) none, h2.count⟩, ?_, addrRange addr (h.count + 1) xs.length,
    addrRange_nodup ha.inj _ _, by simp, ?_, ?_⟩
  · have q1 : newNodeB addr isFinal h = (addr h.count, (newNodeB addr isFinal h).2) := rfl
    simp only [testNodeEdges, bind, Except.bind]
    rw [q1]
    simp only at e2 ⊢
    simp only [e2, use_ok, deref, m2, hd, hsame, rcAssert_true, hcheck xs (fun _ h => h), hd1]
  · intro a hal
    obtain ⟨j, p1, p2, rfl⟩ := mem_addrRange.1 hal
    refine ⟨ha.fresh j (by omega), ?_⟩
    have n1 : addr j ≠ addr h.count := fun hc => by have := ha.inj _ _ hc; omega
    simp only [Mem.set, n1, if_false]
    rw [g2.leaf j p1 p2]
    simp
  · intro a hal
    simp only [mem_addrRange] at hal
    simp only [Mem.set]
    split
    · next hc => subst hc; exact (ha.fresh _ (by omega)).symm
    · next hc1 =>
      rw [g2.old a hc1 fun k hk hk' he => hal ⟨k, hk, hk', he⟩]
      simp only [newNodeB, Mem.set, hc1, if_false]

end Lev
