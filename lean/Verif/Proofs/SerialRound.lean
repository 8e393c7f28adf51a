import Verif.Proofs.SerialFrom
import Verif.Spec.Message

/-!
The graph that `from_protobuf` builds: of any well-formed message, and of one written by `to_protobuf`.
-/

namespace Lev

open Spec

/-! ### Labels -/

theorem charOfLabel_toNat (l : UInt32) : (charOfLabel l).toNat = l.toNat % 256 := by
  simp [charOfLabel, UInt32.toNat_toUInt8]

theorem charOfLabel_eq_iff {l : UInt32} {c : UInt8} : charOfLabel l = c ↔ c.toNat = l.toNat % 256 := by
  rw [← charOfLabel_toNat]
  exact ⟨fun h => by rw [h], fun h => UInt8.toNat_inj.1 h.symm⟩

theorem labelOfChar_table (sgn : Bool) : ∀ n, n < 256 →
    (labelOfChar sgn (UInt8.ofNat n)).toNat = (if sgn ∧ 128 ≤ n then 4294967040 + n else n) := by
  cases sgn <;> decide +kernel

theorem labelOfChar_toNat (sgn : Bool) (c : UInt8) :
    (labelOfChar sgn c).toNat = if sgn ∧ 128 ≤ c.toNat then 4294967040 + c.toNat else c.toNat := by
  have := labelOfChar_table sgn c.toNat c.toNat_lt
  simpa using this

theorem charOfLabel_labelOfChar (sgn : Bool) (c : UInt8) : charOfLabel (labelOfChar sgn c) = c := by
  rw [charOfLabel_eq_iff, labelOfChar_toNat]
  have := c.toNat_lt
  split <;> omega

/-! ### Any well-formed message -/

theorem wellFormed_from {sgn : Bool} {addr : Nat → Nat} {h : Heap} (ha : Allocator addr h) {msg : Msg}
    (hw : WellFormed msg) :
    ∃ h' d φ, fromProto sgn addr msg h = .ok (h', d) ∧ Restored sgn addr h msg h' d φ := by
  refine fromProto_spec ha hw.source (hw.keys.imp ?_)
  intro e f hef
  rcases hef with h | h
  · exact .inl h
  · refine .inr fun heq => h ?_
    rw [← charOfLabel_toNat, ← charOfLabel_toNat, heq]

section
variable {sgn : Bool} {addr : Nat → Nat} {h h' : Heap} {msg : Msg} {d : SDawg} {φ : Nat → Nat}

theorem Restored.nonnull (hr : Restored sgn addr h msg h' d φ) (ha : Allocator addr h) {x : Nat} (hx : x ∈ msg.nodeIds) :
    φ x ≠ 0 := by
  obtain ⟨k, _, _, hk⟩ := (hr.range (φ x)).2 ⟨x, hx, rfl⟩
  rw [hk]; exact ha.nonnull k

theorem Restored.wasFree (hr : Restored sgn addr h msg h' d φ) (ha : Allocator addr h) {x : Nat} (hx : x ∈ msg.nodeIds) :
    h.mem (φ x) = none := by
  obtain ⟨k, h1, _, hk⟩ := (hr.range (φ x)).2 ⟨x, hx, rfl⟩
  rw [hk]; exact ha.fresh k h1

theorem Restored.oldAlive (hr : Restored sgn addr h msg h' d φ) (ha : Allocator addr h) {a : Nat} (hne : h.mem a ≠ none) :
    h'.mem a = h.mem a :=
  hr.old a fun x hx he => hne (by rw [he]; exact hr.wasFree ha hx)

theorem Restored.allocator (hr : Restored sgn addr h msg h' d φ) (ha : Allocator addr h) : Allocator addr h' := by
  refine ⟨ha.nonnull, ha.inj, ?_, fun k hk => ?_⟩
  · rw [hr.old 0 fun x hx he => hr.nonnull ha hx he.symm]; exact ha.null
  · rw [hr.old]
    · exact ha.fresh k (by have := hr.count; omega)
    · intro x hx he
      obtain ⟨j, _, h2, hj⟩ := (hr.range (φ x)).2 ⟨x, hx, rfl⟩
      have := ha.inj _ _ (he.trans hj)
      omega

/-- All nodes of the message are closed under edges. -/
theorem Restored.closedAll (hr : Restored sgn addr h msg h' d φ) (ht : ∀ e ∈ msg.edges, e.target ∈ msg.nodeIds) :
    Closed h'.mem (fun a => ∃ x ∈ msg.nodeIds, a = φ x) := by
  rintro a ⟨x, hx, rfl⟩
  obtain ⟨es, h1, _, h3⟩ := hr.node x hx
  refine ⟨_, h1, fun c b hb => ?_⟩
  obtain ⟨e, he, _, _, rfl⟩ := (h3 c b).1 hb
  exact ⟨_, ht e he, rfl⟩

theorem Restored.reaches (hr : Restored sgn addr h msg h' d φ) (ht : ∀ e ∈ msg.edges, e.target ∈ msg.nodeIds) {x : Nat}
    (hx : x ∈ msg.nodeIds) (a : Nat) :
    Reaches h'.mem (φ x) a ↔ ∃ y, MsgReaches msg x y ∧ a = φ y := by
  constructor
  · generalize hb : φ x = b
    intro hab
    induction hab generalizing x with
    | refl => exact ⟨x, .refl, hb.symm⟩
    | step hm hbe _ ih =>
      subst hb
      obtain ⟨es, h1, _, h3⟩ := hr.node x hx
      rw [h1] at hm; cases hm
      obtain ⟨e, he, rfl, _, he3⟩ := (h3 _ _).1 hbe
      obtain ⟨y, hy1, hy2⟩ := ih (ht e he) he3
      exact ⟨y, .step he hy1, hy2⟩
  · rintro ⟨y, hy, rfl⟩
    induction hy with
    | refl => exact .refl
    | @step e y he _ ih =>
      obtain ⟨es, h1, _, h3⟩ := hr.node _ hx
      exact .step h1 ((h3 (charOfLabel e.label) (φ e.target)).2 ⟨e, he, rfl, rfl, rfl⟩) (ih (ht e he))

theorem Restored.accepts (hr : Restored sgn addr h msg h' d φ) (ht : ∀ e ∈ msg.edges, e.target ∈ msg.nodeIds) {x : Nat}
    (hx : x ∈ msg.nodeIds) (t : Str) : Accepts h'.mem (φ x) t ↔ MsgAccepts msg x t := by
  constructor
  · generalize hb : φ x = b
    intro hacc
    induction hacc generalizing x with
    | here hm hf =>
      subst hb
      obtain ⟨es, h1, _, h3⟩ := hr.node x hx
      rw [h1] at hm; cases hm
      exact .here (by simpa using hf)
    | step hm hbe _ ih =>
      subst hb
      obtain ⟨es, h1, _, h3⟩ := hr.node x hx
      rw [h1] at hm; cases hm
      obtain ⟨e, he, rfl, he2, he3⟩ := (h3 _ _).1 hbe
      exact .step he (charOfLabel_eq_iff.1 he2) (ih (ht e he) he3)
  · intro hacc
    induction hacc with
    | here hf =>
      obtain ⟨es, h1, _, _⟩ := hr.node _ hx
      exact .here h1 (by simpa using hf)
    | @step e c t he hc _ ih =>
      obtain ⟨es, h1, _, h3⟩ := hr.node _ hx
      exact .step h1 ((h3 c (φ e.target)).2 ⟨e, he, rfl, charOfLabel_eq_iff.2 hc, rfl⟩) (ih (ht e he))

theorem Restored.dictNode (hr : Restored sgn addr h msg h' d φ) (ht : ∀ e ∈ msg.edges, e.target ∈ msg.nodeIds)
    {rank : Nat → Nat} (hrank : ∀ e ∈ msg.edges, rank e.target < rank e.source) {x : Nat} (hx : x ∈ msg.nodeIds) :
    DictNode sgn h'.mem (rank x + 1) (φ x) := by
  induction hn : rank x using Nat.strongRecOn generalizing x with
  | ind n ih =>
    subst hn
    obtain ⟨es, h1, h2, h3⟩ := hr.node x hx
    refine .mk h1 h2 fun c b hb => ?_
    obtain ⟨e, he, he1, _, rfl⟩ := (h3 c b).1 hb
    have hlt := hrank e he
    rw [he1] at hlt
    exact DictNode.mono (ih _ hlt (ht e he) rfl) (by omega)

/-- Deleting the dictionary: what is reachable goes, what is not stays. -/
theorem Restored.destroy (hr : Restored sgn addr h msg h' d φ) (ha : Allocator addr h) (hroot : msg.rootId ∈ msg.nodeIds)
    (ht : ∀ e ∈ msg.edges, e.target ∈ msg.nodeIds) {k : Nat} (hd : DictNode sgn h'.mem k d.root) :
    ∃ h'', Ends (fun fuel => destroyDawg fuel h' d) h'' ∧
      (∀ a, (∀ x ∈ msg.nodeIds, a = φ x → MsgReaches msg msg.rootId x) → h''.mem a = h.mem a) ∧
      ∀ x ∈ msg.nodeIds, ¬ MsgReaches msg msg.rootId x → h''.mem (φ x) = h'.mem (φ x) := by
  obtain ⟨nd, F, h1, h2, _⟩ := DictNode.unf hd
  obtain ⟨h'', hrun, _, hdead, hold⟩ := deleteReach_spec h1 h2 (hr.allocator ha).null (DictNode.closed hd)
  have hreach := hr.reaches ht hroot
  rw [← hr.root] at hreach
  refine ⟨h'', hrun.congr fun n => ?_, fun a haa => ?_, fun x hx hnr => hold _ fun h => ?_⟩
  · simp only [destroyDawg, cleanUp, hr.ptrs.2.2, bind, Except.bind]
  · by_cases hex : ∃ x ∈ msg.nodeIds, a = φ x
    · obtain ⟨x, hx, rfl⟩ := hex
      rw [hdead _ ((hreach _).2 ⟨x, haa x hx rfl, rfl⟩), hr.wasFree ha hx]
    · have hno : ∀ x ∈ msg.nodeIds, a ≠ φ x := fun x hx he => hex ⟨x, hx, he⟩
      rw [hold a, hr.old a hno]
      intro h
      have hcl := hr.closedAll ht
      have := hcl.reaches (a := d.root) ⟨_, hroot, hr.root⟩ h
      exact hex this
  · obtain ⟨y, hy, he⟩ := (hreach _).1 h
    have hyn : y ∈ msg.nodeIds := by
      clear he h
      generalize msg.rootId = r at hy hroot
      induction hy with
      | refl => exact hroot
      | step he _ ih => exact ih (ht _ he)
    rw [hr.inj x y hx hyn he] at hnr
    exact hnr hy

end

/-! ### The message of a dictionary -/

section
variable {sgn : Bool} {mem : Mem} {root size : Nat} {msg : Msg}

theorem MsgOf.mem_edges (hm : MsgOf sgn mem root size msg) (e : MsgEdge) :
    e ∈ msg.edges ↔ Reaches mem root e.source ∧ ∃ nd c, mem e.source = some nd ∧ (c, e.target) ∈ nd.edges ∧
      e.label = labelOfChar sgn c := by
  obtain ⟨E, _, hE, he⟩ := hm.edges
  rw [he, List.mem_map]
  constructor
  · rintro ⟨⟨⟨s, l⟩, t⟩, h1, rfl⟩
    obtain ⟨h2, nd, h3, h4⟩ := (hE s l t).1 h1
    exact ⟨h2, nd, l, h3, h4, rfl⟩
  · rintro ⟨h1, nd, c, h2, h3, h4⟩
    refine ⟨((e.source, c), e.target), (hE _ _ _).2 ⟨h1, nd, h2, h3⟩, ?_⟩
    obtain ⟨s, l, t⟩ := e
    simp only at h4 ⊢
    rw [h4]

theorem MsgOf.wellFormed (hm : MsgOf sgn mem root size msg) (hcl : Closed mem (Reaches mem root)) : WellFormed msg := by
  refine ⟨?_, fun e he => ?_, fun e he => ?_, ?_⟩
  · rw [hm.root_id, hm.mem_ids]; exact .refl
  · rw [hm.mem_ids]; exact ((hm.mem_edges e).1 he).1
  · rw [hm.mem_ids]
    obtain ⟨h1, nd, c, h2, h3, _⟩ := (hm.mem_edges e).1 he
    obtain ⟨nd', h4, h5⟩ := hcl _ h1
    rw [h2] at h4; obtain rfl := Option.some.inj h4
    exact h5 _ _ h3
  · obtain ⟨E, h1, _, h2⟩ := hm.edges
    rw [h2, List.pairwise_map]
    refine h1.imp fun {e f} hef => ?_
    simp only
    by_cases hs : e.1.1 = f.1.1
    · right
      rw [← charOfLabel_toNat, ← charOfLabel_toNat, charOfLabel_labelOfChar, charOfLabel_labelOfChar]
      intro h
      have := UInt8.toNat_inj.1 h
      rcases hef with h | ⟨_, h⟩
      · omega
      · rw [this] at h; exact charLt_irrefl h
    · exact .inl hs

end

theorem sorted_ext {sgn : Bool} {l1 l2 : List (UInt8 × Nat)} (h1 : l1.Pairwise (fun e f => charLt sgn e.1 f.1))
    (h2 : l2.Pairwise (fun e f => charLt sgn e.1 f.1)) (h : ∀ e, e ∈ l1 ↔ e ∈ l2) : l1 = l2 := by
  have s1 := sorted_sublist (lt := fun a b : UInt8 × Nat => charLt sgn a.1 b.1) (fun _ h => charLt_irrefl h)
    (fun _ _ h h' => charLt_irrefl (charLt_trans h h')) h1 h2 fun a ha => (h a).1 ha
  have s2 := sorted_sublist (lt := fun a b : UInt8 × Nat => charLt sgn a.1 b.1) (fun _ h => charLt_irrefl h)
    (fun _ _ h h' => charLt_irrefl (charLt_trans h h')) h2 h1 fun a ha => (h a).2 ha
  exact s1.eq_of_length_le s2.length_le


/-! The dictionary is in the memory `mem` of a platform with `char`s of signedness `sgn`; the message is read into the
heap `h` of a platform with `char`s of signedness `sgn'`. -/

section
variable {sgn sgn' : Bool} {addr : Nat → Nat} {mem : Mem} {h h' : Heap} {root size k : Nat} {msg : Msg} {d : SDawg}
  {φ : Nat → Nat}

theorem MsgOf.node_edges (hm : MsgOf sgn mem root size msg) (hr : Restored sgn' addr h msg h' d φ) {x : Nat}
    (hx : Reaches mem root x) {nd : DNode} (hmx : mem x = some nd) :
    ∃ es, h'.mem (φ x) = some ⟨nd.final, es⟩ ∧ es.Pairwise (fun e f => charLt sgn' e.1 f.1) ∧
      ∀ c b, (c, b) ∈ es ↔ ∃ b0, (c, b0) ∈ nd.edges ∧ b = φ b0 := by
  obtain ⟨es, h1, h2, h3⟩ := hr.node x ((hm.mem_ids x).2 hx)
  have hfin : decide (x ∈ msg.finalIds) = nd.final := by
    cases hf : nd.final with
    | true => rw [decide_eq_true_eq, hm.mem_fins]; exact ⟨hx, nd, hmx, hf⟩
    | false =>
      rw [decide_eq_false_iff_not, hm.mem_fins]
      rintro ⟨_, n, hn, hn'⟩
      rw [hmx] at hn; obtain rfl := Option.some.inj hn
      rw [hf] at hn'; cases hn'
  rw [hfin] at h1
  refine ⟨es, h1, h2, fun c b => ?_⟩
  rw [h3]
  constructor
  · rintro ⟨e, he, rfl, hc, rfl⟩
    obtain ⟨_, n, c', hn, hc', hl⟩ := (hm.mem_edges e).1 he
    rw [hmx] at hn; obtain rfl := Option.some.inj hn
    rw [hl, charOfLabel_labelOfChar] at hc
    exact ⟨_, by rw [← hc]; exact hc', rfl⟩
  · rintro ⟨b0, he, rfl⟩
    exact ⟨⟨x, labelOfChar sgn c, b0⟩, (hm.mem_edges _).2 ⟨hx, nd, c, hmx, he, rfl⟩, rfl,
      charOfLabel_labelOfChar _ _, rfl⟩

theorem MsgOf.dictNode (hm : MsgOf sgn mem root size msg) (hr : Restored sgn' addr h msg h' d φ)
    (hcl : Closed mem (Reaches mem root)) {x : Nat} (hd : DictNode sgn mem k x) (hx : Reaches mem root x) :
    DictNode sgn' h'.mem k (φ x) := by
  induction hd with
  | @mk k x nd hmx _ _ ih =>
    obtain ⟨es, h1, h2, h3⟩ := hm.node_edges hr hx hmx
    obtain ⟨nd', h4, h5⟩ := hcl _ hx
    rw [hmx] at h4; obtain rfl := Option.some.inj h4
    refine .mk h1 h2 fun c b hb => ?_
    obtain ⟨b0, hb0, rfl⟩ := (h3 c b).1 hb
    exact ih c b0 hb0 (h5 c b0 hb0)

theorem MsgOf.accepts (hm : MsgOf sgn mem root size msg) (hr : Restored sgn' addr h msg h' d φ)
    (hcl : Closed mem (Reaches mem root)) {x : Nat} (hx : Reaches mem root x) (t : Str) :
    Accepts h'.mem (φ x) t ↔ Accepts mem x t := by
  induction t generalizing x with
  | nil =>
    obtain ⟨nd, h4, _⟩ := hcl _ hx
    obtain ⟨es, h1, _, _⟩ := hm.node_edges hr hx h4
    constructor
    · intro h
      cases h with
      | here hm' hf => rw [h1] at hm'; obtain rfl := Option.some.inj hm'; exact .here h4 hf
    · intro h
      cases h with
      | here hm' hf => rw [h4] at hm'; obtain rfl := Option.some.inj hm'; exact .here h1 hf
  | cons c t ih =>
    obtain ⟨nd, h4, h5⟩ := hcl _ hx
    obtain ⟨es, h1, _, h3⟩ := hm.node_edges hr hx h4
    constructor
    · intro h
      cases h with
      | step hm' hb ha =>
        rw [h1] at hm'; obtain rfl := Option.some.inj hm'
        obtain ⟨b0, hb0, rfl⟩ := (h3 _ _).1 hb
        exact .step h4 hb0 ((ih (h5 _ _ hb0)).1 ha)
    · intro h
      cases h with
      | step hm' hb ha =>
        rw [h4] at hm'; obtain rfl := Option.some.inj hm'
        exact .step h1 ((h3 _ _).2 ⟨_, hb, rfl⟩) ((ih (h5 _ _ hb)).2 ha)

theorem MsgOf.node (hm : MsgOf sgn mem root size msg) (hd : DictNode sgn mem k root)
    (hr : Restored sgn addr h msg h' d φ) {x : Nat} (hx : Reaches mem root x) {nd : DNode} (hmx : mem x = some nd) :
    h'.mem (φ x) = some ⟨nd.final, nd.edges.map (fun e => (e.1, φ e.2))⟩ := by
  obtain ⟨es, h1, h2, h3⟩ := hm.node_edges hr hx hmx
  rw [h1]
  congr 2
  refine sorted_ext h2 (List.pairwise_map.2 (DictNode.edges_sorted hd hx hmx)) ?_
  rintro ⟨c, b⟩
  rw [h3, List.mem_map]
  constructor
  · rintro ⟨b0, hb0, rfl⟩; exact ⟨_, hb0, rfl⟩
  · rintro ⟨⟨c', b'⟩, he, heq⟩
    obtain ⟨rfl, rfl⟩ := Prod.mk.inj heq
    exact ⟨_, he, rfl⟩

theorem MsgOf.unf (hm : MsgOf sgn mem root size msg) (hd : DictNode sgn mem k root)
    (hr : Restored sgn addr h msg h' d φ) {es : List (UInt8 × Nat)} {F : Forest} (hu : Unf mem es F)
    (hes : ∀ c b, (c, b) ∈ es → Reaches mem root b) : Unf h'.mem (es.map (fun e => (e.1, φ e.2))) F := by
  have hcl := DictNode.closed hd
  induction hu with
  | nil => exact .nil
  | @cons l a nd es kids rest hma _ _ ih1 ih2 =>
    have ha := hes l a (by simp)
    obtain ⟨nd', h1, h2⟩ := hcl a ha
    rw [hma] at h1; obtain rfl := Option.some.inj h1
    rw [List.map_cons]
    exact .cons (nd := ⟨nd.final, nd.edges.map (fun e => (e.1, φ e.2))⟩) (hm.node hd hr ha hma) (ih1 h2)
      (ih2 fun c b hb => hes c b (by simp [hb]))

theorem MsgOf.msgReaches (hm : MsgOf sgn mem root size msg) {x y : Nat} (hx : Reaches mem root x)
    (hcl : Closed mem (Reaches mem root)) (hy : Reaches mem x y) : MsgReaches msg x y := by
  induction hy with
  | refl => exact .refl
  | @step a nd c b y hma hb _ ih =>
    obtain ⟨nd', h1, h2⟩ := hcl _ hx
    rw [hma] at h1; obtain rfl := Option.some.inj h1
    exact .step (e := ⟨a, labelOfChar sgn c, b⟩) ((hm.mem_edges _).2 ⟨hx, nd, c, hma, hb, rfl⟩) (ih (h2 c b hb))

end

/-- A dictionary written and read back: same tree, new nodes only. -/
theorem roundTrip_spec {sgn : Bool} {addr : Nat → Nat} {mem : Mem} {h : Heap} {root size k : Nat} (ha : Allocator addr h)
    (hd : DictNode sgn mem k root) :
    ∃ msg h' d' φ nd F, Ends (fun fuel => toProto sgn mem fuel root size) msg ∧
      MsgOf sgn mem root size msg ∧ WellFormed msg ∧
      fromProto sgn addr msg h = .ok (h', d') ∧ Restored sgn addr h msg h' d' φ ∧
      mem root = some nd ∧ Unf mem nd.edges F ∧ F.Sorted sgn ∧ F.height < k ∧
      h'.mem d'.root = some ⟨nd.final, nd.edges.map (fun e => (e.1, φ e.2))⟩ ∧
      Unf h'.mem (nd.edges.map (fun e => (e.1, φ e.2))) F ∧ DictNode sgn h'.mem k d'.root ∧
      ∀ x ∈ msg.nodeIds, MsgReaches msg msg.rootId x := by
  obtain ⟨msg, h1, hm⟩ := toProto_spec hd size
  have hcl := DictNode.closed hd
  have hw := hm.wellFormed hcl
  obtain ⟨h', d', φ, h2, hr⟩ := wellFormed_from (sgn := sgn) ha hw
  obtain ⟨nd, F, h3, h4, h5⟩ := DictNode.unf hd
  have hroot : d'.root = φ root := by rw [hr.root, hm.root_id]
  refine ⟨msg, h', d', φ, nd, F, h1, hm, hw, h2, hr, h3, h4, DictNode.sorted hd h3 h4, h5,
    by rw [hroot]; exact hm.node hd hr .refl h3, hm.unf hd hr h4 fun c b hb => .step h3 hb .refl,
    by rw [hroot]; exact hm.dictNode hr hcl hd .refl, fun x hx => ?_⟩
  rw [hm.root_id]
  exact hm.msgReaches .refl hcl ((hm.mem_ids x).1 hx)

/-! ### Messages that are not well-formed -/

theorem nodeOf_none {nodes : List (Nat × Nat)} {x : Nat} (h : x ∉ nodes.map (·.1)) : nodeOf nodes x = 0 := by
  unfold nodeOf
  rw [List.find?_eq_none.2]
  intro e he hk
  exact h (List.mem_map.2 ⟨e, he, by simpa using hk⟩)

theorem deref_error {mem : Mem} {a : Nat} {e : Err} (h : deref mem a = .error e) : e = .ub := by
  unfold deref at h
  split at h
  · cases h
  · exact (Except.error.inj h).symm

theorem deleteNode_error {a : Nat} {h : Heap} {e : Err} (he : deleteNode a h = .error e) : e = .ub := by
  unfold deleteNode at he
  split at he
  · cases he
  · split at he
    · cases he
    · exact (Except.error.inj he).symm

theorem deleteNode_null {a : Nat} {h h' : Heap} (h0 : h.mem 0 = none) (he : deleteNode a h = .ok h') : h'.mem 0 = none := by
  unfold deleteNode at he
  split at he
  · cases he; exact h0
  · split at he
    · cases he; simp only [Mem.set]; split; rfl; exact h0
    · cases he

theorem addEdge_error {sgn : Bool} {s t : Nat} {c : UInt8} {h : Heap} {e : Err} (he : addEdge sgn s c t h = .error e) :
    e = .ub := by
  simp only [addEdge, bind, Except.bind] at he
  split at he
  · rename_i hx; cases he; exact deref_error hx
  · split at he
    · rename_i hx; cases he; exact deleteNode_error hx
    · split at he
      · rename_i hx; cases he; exact deref_error hx
      · cases he

theorem addEdge_null {sgn : Bool} {s t : Nat} {c : UInt8} {h h' : Heap} (h0 : h.mem 0 = none)
    (he : addEdge sgn s c t h = .ok h') : s ≠ 0 ∧ h'.mem 0 = none := by
  have hs : s ≠ 0 := by
    rintro rfl
    simp [addEdge, deref, h0, bind, Except.bind] at he
  refine ⟨hs, ?_⟩
  simp only [addEdge, bind, Except.bind] at he
  split at he
  · cases he
  · split at he
    · cases he
    · rename_i hx
      split at he
      · cases he
      · cases he
        simp only [Mem.set, if_neg (Ne.symm hs)]
        exact deleteNode_null h0 hx

theorem makeEdges_error {sgn : Bool} {nodes : List (Nat × Nat)} {es : List MsgEdge} {h : Heap} {e : Err}
    (he : makeEdges sgn nodes es h = .error e) : e = .ub := by
  induction es generalizing h with
  | nil => cases he
  | cons x es ih =>
    simp only [makeEdges, bind, Except.bind] at he
    split at he
    · rename_i hx; obtain rfl := Except.error.inj he; exact addEdge_error hx
    · exact ih he

theorem makeEdges_sources {sgn : Bool} {nodes : List (Nat × Nat)} {es : List MsgEdge} {h h' : Heap} (h0 : h.mem 0 = none)
    (he : makeEdges sgn nodes es h = .ok h') : (∀ e ∈ es, nodeOf nodes e.source ≠ 0) ∧ h'.mem 0 = none := by
  induction es generalizing h with
  | nil => cases he; exact ⟨by simp, h0⟩
  | cons x es ih =>
    simp only [makeEdges, bind, Except.bind] at he
    split at he
    · cases he
    · rename_i hx
      obtain ⟨h1, h2⟩ := addEdge_null h0 hx
      obtain ⟨h3, h4⟩ := ih h2 he
      refine ⟨fun e hmem => ?_, h4⟩
      rcases List.mem_cons.1 hmem with rfl | hmem
      · exact h1
      · exact h3 e hmem

/-- The nodes of a message in any case: those listed get an address, others are null. -/
theorem fromProto_nodes {sgn : Bool} {addr : Nat → Nat} {h : Heap} (ha : Allocator addr h) (msg : Msg) :
    ∃ nodes h1, h1.mem 0 = none ∧ (∀ x, x ∈ nodes.map (·.1) ↔ x ∈ msg.nodeIds) ∧
      fromProto sgn addr msg h = (do
        let h ← makeEdges sgn nodes msg.edges h1
        .ok (h, ⟨nodeOf nodes msg.rootId, msg.size, none, none, none, []⟩)) := by
  have hm0 : Made addr h.count h.mem msg.finalIds [] h :=
    ⟨by simp, Nat.le_refl _, by simp, by simp, fun _ _ => rfl⟩
  obtain ⟨nodes, h1, r1, r2, r3⟩ := makeNodes_spec ha.inj msg.nodeIds hm0
  refine ⟨nodes, h1, ?_, by simpa using r3, ?_⟩
  · rw [r2.old 0 fun k _ _ he => ha.nonnull k he.symm]; exact ha.null
  · simp only [fromProto, r1]

theorem fromProto_unlisted_source {sgn : Bool} {addr : Nat → Nat} {h : Heap} (ha : Allocator addr h) {msg : Msg}
    {e : MsgEdge} (he : e ∈ msg.edges) (hs : e.source ∉ msg.nodeIds) : fromProto sgn addr msg h = .error .ub := by
  obtain ⟨nodes, h1, h0, hk, heq⟩ := fromProto_nodes (sgn := sgn) ha msg
  rw [heq]
  cases hr : makeEdges sgn nodes msg.edges h1 with
  | error x => rw [makeEdges_error hr]; rfl
  | ok h2 =>
    exact absurd (nodeOf_none fun hx => hs ((hk _).1 hx)) ((makeEdges_sources h0 hr).1 e he)

theorem fromProto_unlisted_root {sgn : Bool} {addr : Nat → Nat} {h h' : Heap} {d : SDawg} (ha : Allocator addr h)
    {msg : Msg} (hs : msg.rootId ∉ msg.nodeIds) (hr : fromProto sgn addr msg h = .ok (h', d)) :
    d.root = 0 ∧ h'.mem 0 = none ∧ d.floating = none := by
  obtain ⟨nodes, h1, h0, hk, heq⟩ := fromProto_nodes (sgn := sgn) ha msg
  rw [heq] at hr
  cases hr' : makeEdges sgn nodes msg.edges h1 with
  | error x => rw [hr'] at hr; cases hr
  | ok h2 =>
    rw [hr'] at hr; cases hr
    exact ⟨nodeOf_none fun hx => hs ((hk _).1 hx), (makeEdges_sources h0 hr').2, rfl⟩

/-! ### Cycles -/

/-- `C`: live nodes each with an edge into `C`.  Once one is pending, the loop of `all_nodes` goes on for ever. -/
theorem allNodesLoop_diverges {mem : Mem} {Z C : Nat → Prop} (hZ : Closed mem Z)
    (hC : ∀ a, C a → ∃ nd c b, mem a = some nd ∧ (c, b) ∈ nd.edges ∧ C b) :
    ∀ fuel pend nodes, (∀ a ∈ pend, Z a) → (∃ a ∈ pend, C a) → allNodesLoop mem fuel pend nodes = .error .diverge := by
  intro fuel
  induction fuel with
  | zero =>
    rintro pend nodes _ ⟨a, ha, _⟩
    cases pend with
    | nil => simp at ha
    | cons x pend => rfl
  | succ fuel ih =>
    rintro pend nodes hz ⟨a, ha, hca⟩
    cases pend with
    | nil => simp at ha
    | cons x pend =>
      obtain ⟨nd, h1, h2⟩ := hZ x (hz x (by simp))
      simp only [allNodesLoop, deref, h1, bind, Except.bind]
      refine ih _ _ ?_ ?_
      · intro y hy
        rcases List.mem_append.1 hy with hy | hy
        · exact hz y (by simp [hy])
        · obtain ⟨⟨c, b⟩, hb, rfl⟩ := List.mem_map.1 hy
          exact h2 c b hb
      · rcases List.mem_cons.1 ha with rfl | ha
        · obtain ⟨nd', c, b, h3, h4, h5⟩ := hC a hca
          rw [h1] at h3; obtain rfl := Option.some.inj h3
          exact ⟨b, List.mem_append_right _ (List.mem_map.2 ⟨_, h4, rfl⟩), h5⟩
        · exact ⟨a, List.mem_append_left _ ha, hca⟩

theorem msgReaches_trans {msg : Msg} {x y z : Nat} (h : MsgReaches msg x y) (h' : MsgReaches msg y z) :
    MsgReaches msg x z := by
  induction h with
  | refl => exact h'
  | step he _ ih => exact .step he (ih h')

theorem Restored.diverges {sgn : Bool} {addr : Nat → Nat} {h h' : Heap} {msg : Msg} {d : SDawg} {φ : Nat → Nat}
    (hr : Restored sgn addr h msg h' d φ) (hroot : msg.rootId ∈ msg.nodeIds)
    (ht : ∀ e ∈ msg.edges, e.target ∈ msg.nodeIds) {e : MsgEdge} (he : e ∈ msg.edges)
    (h1 : MsgReaches msg msg.rootId e.source) (h2 : MsgReaches msg e.target e.source) (fuel : Nat) :
    allNodes h'.mem fuel d.root = .error .diverge := by
  refine allNodesLoop_diverges (hr.closedAll ht) (C := fun a => ∃ x ∈ msg.nodeIds, a = φ x ∧ MsgReaches msg x e.source)
    ?_ fuel [d.root] [] ?_ ?_
  · rintro a ⟨x, hx, rfl, hxe⟩
    obtain ⟨es, g1, _, g3⟩ := hr.node x hx
    cases hxe with
    | refl =>
      exact ⟨_, charOfLabel e.label, φ e.target, g1, (g3 _ _).2 ⟨e, he, rfl, rfl, rfl⟩, _, ht e he, rfl, h2⟩
    | @step f _ hf hfe =>
      exact ⟨_, charOfLabel f.label, φ f.target, g1, (g3 _ _).2 ⟨f, hf, rfl, rfl, rfl⟩, _, ht f hf, rfl, hfe⟩
  · intro a ha
    rw [List.mem_singleton.1 ha]
    exact ⟨_, hroot, hr.root⟩
  · exact ⟨d.root, by simp, _, hroot, hr.root, h1⟩

end Lev
