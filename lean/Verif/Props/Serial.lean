import Verif.Proofs.SerialRound
import Verif.Props.Iter

/-!
# Properties C26 (second part), C27–C31, C60: writing and reading dictionaries

`toProto` is `to_protobuf`, `fromProto` is `from_protobuf`.  The bytes in between are the protobuf library's affair.
-/

namespace Lev.Props

open Lev Spec

/-- Summary of writing a dictionary built in an empty memory. -/
def exMsg (sgn : Bool) (terms : List Str) : Except Err Msg := do
  let (h, r) ← sortedDawg sgn (fun k => k + 1) 100 terms exHeap
  match r with
  | none => .error .ub
  | some d => toProto sgn h.mem 100 d.root d.size

example : exMsg true [[97, 200], [98, 200]] = .ok
    { nodeIds := [1, 2, 3], finalIds := [3], edges := [⟨1, 97, 2⟩, ⟨1, 98, 2⟩, ⟨2, 4294967240, 3⟩], rootId := 1, size := 2 } := by
  decide +kernel

/-! ### C30 -/

/-- C30: the label of a `char` is its value modulo 2^32, and the cast back gives the `char`, on the same platform or
one whose `char` has the other signedness (`charOfLabel` does not depend on it). -/
theorem c30_labels_survive (sgn : Bool) (c : UInt8) :
    charOfLabel (labelOfChar sgn c) = c ∧
    ((labelOfChar sgn c).toNat : Int) = (if sgn ∧ 128 ≤ c.toNat then (c.toNat : Int) - 256 else c.toNat) % 2 ^ 32 ∧
    ∀ c', labelOfChar sgn c = labelOfChar sgn c' → c = c' := by
  refine ⟨charOfLabel_labelOfChar sgn c, ?_, fun c' h => ?_⟩
  · rw [labelOfChar_toNat]
    have := c.toNat_lt
    split <;> omega
  · rw [← charOfLabel_labelOfChar sgn c, h, charOfLabel_labelOfChar]

example : (labelOfChar true 0xC8).toNat = 4294967240 ∧ (labelOfChar false 0xC8).toNat = 200 := by decide +kernel

/-! ### C29 -/

/-- The `char` of an edge of a message. -/
def edgeChar (e : MsgEdge) : UInt8 := UInt8.ofNat (e.label.toNat % 256)

/-- What a message that lists a graph says. -/
theorem lists_of_msgOf {sgn : Bool} {mem : Mem} {root size : Nat} {msg : Msg} (hm : MsgOf sgn mem root size msg) :
    msg.nodeIds.Pairwise (· < ·) ∧ (∀ a, a ∈ msg.nodeIds ↔ Reaches mem root a) ∧
      msg.finalIds.Pairwise (· < ·) ∧
      (∀ a, a ∈ msg.finalIds ↔ Reaches mem root a ∧ ∃ nd, mem a = some nd ∧ nd.final = true) ∧
      msg.edges.Pairwise (fun e f => e.source < f.source ∨ (e.source = f.source ∧ charLt sgn (edgeChar e) (edgeChar f))) ∧
      (∀ a c b, (∃ e ∈ msg.edges, e.source = a ∧ edgeChar e = c ∧ e.target = b) ↔
        Reaches mem root a ∧ ∃ nd, mem a = some nd ∧ (c, b) ∈ nd.edges) ∧
      msg.rootId = root ∧ msg.size = size := by
  have hec : ∀ e : MsgEdge, edgeChar e = charOfLabel e.label := fun e => by
    rw [edgeChar, ← charOfLabel_toNat]; simp
  refine ⟨hm.ids, hm.mem_ids, hm.fins, hm.mem_fins, ?_, fun a c b => ?_, hm.root_id, hm.size_eq⟩
  · obtain ⟨E, g1, _, g2⟩ := hm.edges
    rw [g2, List.pairwise_map]
    refine g1.imp fun {e f} hef => ?_
    simp only [hec, charOfLabel_labelOfChar]
    exact hef
  · constructor
    · rintro ⟨e, he, rfl, rfl, rfl⟩
      obtain ⟨g1, nd, c, g2, g3, g4⟩ := (hm.mem_edges e).1 he
      refine ⟨g1, nd, g2, ?_⟩
      rw [hec, g4, charOfLabel_labelOfChar]
      exact g3
    · rintro ⟨g1, nd, g2, g3⟩
      refine ⟨⟨a, labelOfChar sgn c, b⟩, (hm.mem_edges _).2 ⟨g1, nd, c, g2, g3, rfl⟩, rfl, ?_, rfl⟩
      rw [hec]; exact charOfLabel_labelOfChar _ _

/-- C29: `to_protobuf` ends without undefined behaviour and lists each node reachable from the root once, ascending;
the final ones among them once, ascending; each edge of those nodes once, ascending by source and `char`; and nothing
else. -/
theorem c29_lists_everything_once {sgn : Bool} {mem : Mem} {k root : Nat} (hd : DictNode sgn mem k root) (size : Nat) :
    ∃ msg, Ends (fun fuel => toProto sgn mem fuel root size) msg ∧
      msg.nodeIds.Pairwise (· < ·) ∧ (∀ a, a ∈ msg.nodeIds ↔ Reaches mem root a) ∧
      msg.finalIds.Pairwise (· < ·) ∧
      (∀ a, a ∈ msg.finalIds ↔ Reaches mem root a ∧ ∃ nd, mem a = some nd ∧ nd.final = true) ∧
      msg.edges.Pairwise (fun e f => e.source < f.source ∨ (e.source = f.source ∧ charLt sgn (edgeChar e) (edgeChar f))) ∧
      (∀ a c b, (∃ e ∈ msg.edges, e.source = a ∧ edgeChar e = c ∧ e.target = b) ↔
        Reaches mem root a ∧ ∃ nd, mem a = some nd ∧ (c, b) ∈ nd.edges) ∧
      msg.rootId = root ∧ msg.size = size := by
  obtain ⟨msg, h1, hm⟩ := toProto_spec hd size
  exact ⟨msg, h1, lists_of_msgOf hm⟩

/-! ### C27 -/

/-- C27: a dictionary is written and read back in the same process.  Nothing that was alive changes; the dictionary
read has new nodes, the same size and the same terms, and the two compare equal; deleting it frees exactly what reading it
allocated. -/
theorem c27_round_trip {sgn : Bool} {addr : Nat → Nat} {h : Heap} (ha : Allocator addr h) {k root : Nat}
    (hd : DictNode sgn h.mem k root) (size : Nat) :
    ∃ msg h' d', Ends (fun fuel => toProto sgn h.mem fuel root size) msg ∧ fromProto sgn addr msg h = .ok (h', d') ∧
      (∀ a, h.mem a ≠ none → h'.mem a = h.mem a) ∧
      (∀ a, Reaches h'.mem d'.root a → h.mem a = none ∧ h'.mem a ≠ none) ∧
      d'.size = size ∧
      Ends (fun fuel => dawgEq h'.mem fuel size root d'.size d'.root) true ∧
      Ends (fun fuel => dawgEq h'.mem fuel d'.size d'.root size root) true ∧
      (∀ t, Accepts h'.mem d'.root t ↔ Accepts h.mem root t) ∧
      (∀ t, containsTerm h'.mem d'.root t = containsTerm h.mem root t) ∧
      ∃ h'', Ends (fun fuel => destroyDawg fuel h' d') h'' ∧ ∀ a, h''.mem a = h.mem a := by
  obtain ⟨msg, h', d', φ, nd, F, h1, hm, hw, h2, hr, h3, h4, h5, h6, h7, h8, h9, h10⟩ :=
    roundTrip_spec (size := size) ha hd
  have hcl := DictNode.closed hd
  have hroot : d'.root = φ root := by rw [hr.root, hm.root_id]
  have hsame : ∀ a, Reaches h.mem root a → h'.mem a = h.mem a := fun a hra => by
    obtain ⟨n, hn, _⟩ := hcl a hra
    exact hr.oldAlive ha (by rw [hn]; simp)
  have h4' := h4.frame hcl hsame fun c b hb => .step h3 hb .refl
  have h3' : h'.mem root = some nd := by rw [hsame _ .refl]; exact h3
  have hacc : ∀ t, Accepts h'.mem d'.root t ↔ Accepts h.mem root t := fun t => by
    rw [hroot]; exact hm.accepts hr hcl .refl t
  have hnull' := (hr.allocator ha).null
  have hsz : d'.size = size := by rw [hr.size, hm.size_eq]
  refine ⟨msg, h', d', h1, h2, fun a => hr.oldAlive ha, fun a hra => ?_, hsz, ⟨F.height + 1, fun fuel hf => ?_⟩,
    ⟨F.height + 1, fun fuel hf => ?_⟩, hacc, fun t => ?_, ?_⟩
  · rw [hr.root] at hra
    obtain ⟨x, hx, rfl⟩ := (hr.closedAll hw.target).reaches (a := φ msg.rootId) ⟨_, hw.root, rfl⟩ hra
    obtain ⟨es, g, _⟩ := hr.node x hx
    exact ⟨hr.wasFree ha hx, by rw [g]; simp⟩
  · simp only [dawgEq, hsz, ne_eq, not_true_eq_false, if_false, deref, h3', h7, bind, Except.bind]
    rw [nodeEq_spec (y := ⟨nd.final, _⟩) hnull' h4' h8 h5 h5 (by omega)]
    simp
  · simp only [dawgEq, hsz, ne_eq, not_true_eq_false, if_false, deref, h3', h7, bind, Except.bind]
    rw [nodeEq_spec (x := ⟨nd.final, _⟩) hnull' h8 h4' h5 h5 (by omega)]
    simp
  · exact contains_same (sgn := sgn) hnull' ha.null t h7 h8 h3 h4 h5 rfl
  · obtain ⟨h'', g1, g2, _⟩ := hr.destroy ha hw.root hw.target h9
    exact ⟨h'', g1, fun a => g2 a fun x hx _ => h10 x hx⟩

/-- C27 for a dictionary built by `sorted_dawg`: it contains exactly what was put in. -/
theorem c27_round_trip_of_built {sgn : Bool} {addr : Nat → Nat} {h h1 : Heap} {terms : List Str} {d : SDawg}
    (ha : Allocator addr h) (hr : Ends (fun fuel => sortedDawg sgn addr fuel terms h) (h1, some d)) :
    ∃ msg h2 d2, Ends (fun fuel => toProto sgn h1.mem fuel d.root d.size) msg ∧ fromProto sgn addr msg h1 = .ok (h2, d2) ∧
      d2.size = terms.length ∧ Ends (fun fuel => dawgEq h2.mem fuel d.size d.root d2.size d2.root) true ∧
      (∀ t, Accepts h2.mem d2.root t ↔ t ∈ terms) ∧
      ∃ h3 h4, Ends (fun fuel => destroyDawg fuel h2 d2) h3 ∧ Ends (fun fuel => destroyDawg fuel h3 d) h4 ∧
        ∀ a, h4.mem a = h.mem a := by
  obtain ⟨_, hf⟩ := finished_of_run ha hr
  obtain ⟨nd, F, _, _, _, _, hd⟩ := hf.dict
  obtain ⟨msg, h2, d2, g1, g2, _, _, g5, g6, _, g8, _, h3, g10, g11⟩ := c27_round_trip (hf.allocator ha) hd d.size
  obtain ⟨h4, g12, g13⟩ := hf.destroy ha.fresh
  have hmem : h3.mem = h1.mem := funext g11
  obtain ⟨nd', F', m, u, _⟩ := hf.dict
  obtain ⟨h4', hrun, _, hdead, hold⟩ := deleteReach_spec (h := h3) (root := d.root) (by rw [hmem]; exact m)
    (by rw [hmem]; exact u) (by rw [hmem]; exact hf.null) (by rw [hmem]; exact hf.closed)
  refine ⟨msg, h2, d2, g1, g2, by rw [g5, hf.size], g6, fun t => by rw [g8, hf.accepts], h3, h4', g10,
    hrun.congr fun n => ?_, fun a => ?_⟩
  · simp only [destroyDawg, cleanUp, hf.ptrs.2.2, bind, Except.bind]
  · obtain ⟨h4'', hrun2, _, hdead2, hold2⟩ := deleteReach_spec (h := h1) m u hf.null hf.closed
    have : h4 = h4'' := g12.unique (hrun2.congr fun n => by
      simp only [destroyDawg, cleanUp, hf.ptrs.2.2, bind, Except.bind])
    rw [← g13 a, this]
    rw [hmem] at hdead hold
    by_cases hra : Reaches h1.mem d.root a
    · rw [hdead a hra, hdead2 a hra]
    · rw [hold a hra, hold2 a hra]

/-- C27 across platforms: a dictionary written where `char` has the signedness `sgn` and read, in any memory of any
process, where it has the signedness `sgn'` is a dictionary there with the same terms and size. -/
theorem c27_read_anywhere {sgn : Bool} (sgn' : Bool) {addr : Nat → Nat} {mem : Mem} {h : Heap} (ha : Allocator addr h)
    {k root : Nat} (hd : DictNode sgn mem k root) (size : Nat) :
    ∃ msg h' d', Ends (fun fuel => toProto sgn mem fuel root size) msg ∧ fromProto sgn' addr msg h = .ok (h', d') ∧
      DictNode sgn' h'.mem k d'.root ∧ d'.size = size ∧ ∀ t, Accepts h'.mem d'.root t ↔ Accepts mem root t := by
  obtain ⟨msg, h1, hm⟩ := toProto_spec hd size
  have hcl := DictNode.closed hd
  obtain ⟨h', d', φ, h2, hr⟩ := wellFormed_from (sgn := sgn') ha (hm.wellFormed hcl)
  have hroot : d'.root = φ root := by rw [hr.root, hm.root_id]
  exact ⟨msg, h', d', h1, h2, by rw [hroot]; exact hm.dictNode hr hcl hd .refl, by rw [hr.size, hm.size_eq],
    fun t => by rw [hroot]; exact hm.accepts hr hcl .refl t⟩

/-! ### C28 -/

/-- C28: the dictionary read, in any memory, answers every query with the same candidates in the same order, and
iterates over the same terms in the same order. -/
theorem c28_same_answers {sgn : Bool} {addr : Nat → Nat} {mem : Mem} {h : Heap} (ha : Allocator addr h) {root : Nat}
    (hd : Dictionary sgn mem root) (size : Nat) :
    ∃ msg h' d', Ends (fun fuel => toProto sgn mem fuel root size) msg ∧ fromProto sgn addr msg h = .ok (h', d') ∧
      (∀ (A : Algorithm) (R : Type) (upd : Str → Nat → R) (q : Str) (n : Nat), QueryFits n q → n < 2 ^ 64 →
        ∃ rs, Yields A upd mem root q n rs ∧ Yields A upd h'.mem d'.root q n rs) ∧
      ∀ (paddr paddr' : Nat → Nat) (ph ph' : PHeap), PAllocator paddr ph → PAllocator paddr' ph' →
        ∃ out ph1 ph1', Ends (fun fuel => rangeFor mem paddr fuel root size ph) (out, ph1) ∧
          Ends (fun fuel => rangeFor h'.mem paddr' fuel d'.root d'.size ph') (out, ph1') := by
  obtain ⟨k, hk, hd⟩ := hd
  obtain ⟨msg, h', d', φ, nd, F, h1, hm, hw, h2, hr, h3, h4, h5, h6, h7, h8, h9, h10⟩ :=
    roundTrip_spec (size := size) ha hd
  have ht : Tree sgn mem root nd F := ⟨h3, h4, h5, by omega⟩
  have ht' : Tree sgn h'.mem d'.root ⟨nd.final, nd.edges.map (fun e => (e.1, φ e.2))⟩ F := ⟨h7, h8, h5, by omega⟩
  refine ⟨msg, h', d', h1, h2, fun A R upd q n hq hn => ⟨_, ht.yields (by have := sizeMax_val; omega) (by omega) upd, ?_⟩,
    fun paddr paddr' ph ph' hp hp' => ?_⟩
  · exact ht'.yields (by have := sizeMax_val; omega) (by omega) upd
  · obtain ⟨ph1, g1, _⟩ := rangeFor_spec (size := size) hp h3 h4
    obtain ⟨ph1', g2, _⟩ := rangeFor_spec (size := d'.size) hp' h7 h8
    refine ⟨_, ph1, ph1', g1, ?_⟩
    rw [show d'.size = size by rw [hr.size, hm.size_eq]] at g2 ⊢
    exact g2

/-- Summary of a round trip in an empty memory: the size, what iteration yields, and how many of the first 20
addresses are alive while both dictionaries exist and after the second is deleted. -/
def exRoundTrip (sgn sgn' : Bool) (terms : List Str) : Except Err (Nat × List Str × Nat × Nat) := do
  let (h, r) ← sortedDawg sgn (fun k => k + 1) 100 terms exHeap
  match r with
  | none => .error .ub
  | some d => do
      let msg ← toProto sgn h.mem 100 d.root d.size
      let (h, d) ← fromProto sgn' (fun k => k + 1) msg h
      let (out, _) ← rangeFor h.mem (fun k => k + 1) 100 d.root d.size { mem := fun _ => none, count := 0 }
      let h' ← destroyDawg 100 h d
      .ok (d.size, out, ((List.range 20).filter (fun a => (h.mem a).isSome)).length,
        ((List.range 20).filter (fun a => (h'.mem a).isSome)).length)

example : exRoundTrip true true [[97, 98], [98], [200]] = .ok (3, [[200], [98], [97, 98]], 6, 3) := by decide +kernel

example : exRoundTrip true false [[97, 98], [98], [200]] = .ok (3, [[98], [200], [97, 98]], 6, 3) := by decide +kernel

/-! ### C26, second part -/

/-- C26 for dictionaries that were read: `add` of a non-empty term is undefined behaviour. -/
theorem c26_add_after_read_undefined {sgn : Bool} {addr : Nat → Nat} {h h' : Heap} {msg : Msg} {d : SDawg}
    (hr : fromProto sgn addr msg h = .ok (h', d)) (t : Str) (hne : t ≠ []) (fuel : Nat) :
    addTerm sgn addr fuel t h' d = .error .ub := by
  have hp : d.unchecked = none ∧ d.prev = [] := by
    simp only [fromProto, bind, Except.bind] at hr
    split at hr
    · cases hr
    · cases hr; exact ⟨rfl, rfl⟩
  have hlt : strLt t d.prev = false := by rw [hp.2, strLt_false_iff]; intro h; cases h
  simp only [addTerm, hlt, Bool.false_eq_true, if_false, hne, minimize, hp.1, bind, Except.bind]

/-! ### C31 -/

/-- A message with nothing in it, as parsed from an empty file. -/
def emptyMsg : Msg := { nodeIds := [], finalIds := [], edges := [], rootId := 0, size := 0 }

/-- C31, what is wrong with roots: whatever else the message says, if the root is not listed and the dictionary is
made, its root is null, `contains` is always false, and deleting it is undefined behaviour. -/
theorem c31_unlisted_root {sgn : Bool} {addr : Nat → Nat} {h h' : Heap} {msg : Msg} {d : SDawg} (ha : Allocator addr h)
    (hroot : msg.rootId ∉ msg.nodeIds) (hr : fromProto sgn addr msg h = .ok (h', d)) :
    d.root = 0 ∧ (∀ fuel, destroyDawg (fuel + 1) h' d = .error .ub) ∧ ∀ t, containsTerm h'.mem d.root t = .ok false := by
  obtain ⟨h1, h2, h3⟩ := fromProto_unlisted_root ha hroot hr
  refine ⟨h1, fun fuel => ?_, fun t => ?_⟩
  · simp only [destroyDawg, cleanUp, h3, bind, Except.bind, allNodes, allNodesLoop, h1, deref, h2]
  · cases t <;> simp [containsTerm, containsLoop, h1, bind, Except.bind]

/-- C31, what is wrong with edges: an edge from a node not listed is undefined behaviour of `from_protobuf`. -/
theorem c31_unlisted_source {sgn : Bool} {addr : Nat → Nat} {h : Heap} {msg : Msg} (ha : Allocator addr h) {e : MsgEdge}
    (he : e ∈ msg.edges) (hs : e.source ∉ msg.nodeIds) : fromProto sgn addr msg h = .error .ub :=
  fromProto_unlisted_source ha he hs

/-- C31, the claim that every message gives a dictionary that can be deleted is false: the empty message gives one
that cannot. -/
theorem c31_foreign_messages_unsafe :
    ¬ ∀ (sgn : Bool) (addr : Nat → Nat) (h : Heap) (msg : Msg), Allocator addr h →
      ∃ h' d h'', fromProto sgn addr msg h = .ok (h', d) ∧ Ends (fun fuel => destroyDawg fuel h' d) h'' := by
  intro hall
  obtain ⟨h', d, h'', h1, N, hN⟩ := hall true _ exHeap emptyMsg exAllocator
  have h2 := (c31_unlisted_root exAllocator (by simp [emptyMsg]) h1).2.1 N
  have h3 : destroyDawg (N + 1) h' d = .ok h'' := hN (N + 1) (by omega)
  rw [h2] at h3; cases h3

/-- What `from_protobuf` and deletion do in an empty memory: the number of the first 20 addresses alive after reading,
and after deletion. -/
def exRead (msg : Msg) : Except Err (Nat × Except Err Nat) := do
  let (h, d) ← fromProto true (fun k => k + 1) msg exHeap
  let alive := ((List.range 20).filter (fun a => (h.mem a).isSome)).length
  match destroyDawg 100 h d with
  | .ok h' => .ok (alive, .ok ((List.range 20).filter (fun a => (h'.mem a).isSome)).length)
  | .error e => .ok (alive, .error e)

/-- C31: an edge listed twice deletes its own target; two edges with labels that differ by 256 are the same edge. -/
theorem c31_repeated_edge_deletes_target :
    (∀ {r}, fromProto true (fun k => k + 1)
        { nodeIds := [7, 9], finalIds := [9], edges := [⟨7, 97, 9⟩, ⟨7, 353, 9⟩], rootId := 7, size := 1 } exHeap = .ok r →
      r.1.mem r.2.root = some ⟨false, [(97, 2)]⟩ ∧ r.1.mem 2 = none ∧ destroyDawg 100 r.1 r.2 = .error .ub) ∧
    ∃ r, fromProto true (fun k => k + 1)
        { nodeIds := [7, 9], finalIds := [9], edges := [⟨7, 97, 9⟩, ⟨7, 353, 9⟩], rootId := 7, size := 1 } exHeap = .ok r := by
  constructor
  · intro r hr
    cases hr
    exact ⟨by decide +kernel, by decide +kernel, rfl⟩
  · exact ⟨_, rfl⟩

/-- C31, what holds: a message whose root and ends of edges are listed, with at most one edge per node and `char`, and
without cycles, gives a dictionary.  Its terms are those the message spells, its size the number the message states,
`contains` decides the terms, and it can be deleted. -/
theorem c31_well_formed_messages_partial (sgn : Bool) {addr : Nat → Nat} {h : Heap} {msg : Msg} (ha : Allocator addr h)
    (hw : WellFormed msg) (hac : Acyclic msg) :
    ∃ h' d k, fromProto sgn addr msg h = .ok (h', d) ∧ DictNode sgn h'.mem k d.root ∧ d.size = msg.size ∧
      (∀ a, h.mem a ≠ none → h'.mem a = h.mem a) ∧
      (∀ t, Accepts h'.mem d.root t ↔ MsgAccepts msg msg.rootId t) ∧
      (∀ t, t.length < 2 ^ 31 → ∃ b, containsTerm h'.mem d.root t = .ok b ∧ (b = true ↔ MsgAccepts msg msg.rootId t)) ∧
      ∃ h'', Ends (fun fuel => destroyDawg fuel h' d) h'' ∧
        ((∀ x ∈ msg.nodeIds, MsgReaches msg msg.rootId x) → ∀ a, h''.mem a = h.mem a) := by
  obtain ⟨rank, hrank⟩ := hac
  obtain ⟨h', d, φ, h1, hr⟩ := wellFormed_from (sgn := sgn) ha hw
  have hd : DictNode sgn h'.mem (rank msg.rootId + 1) d.root := by
    rw [hr.root]; exact hr.dictNode hw.target hrank hw.root
  have hacc : ∀ t, Accepts h'.mem d.root t ↔ MsgAccepts msg msg.rootId t := fun t => by
    rw [hr.root]; exact hr.accepts hw.target hw.root t
  obtain ⟨h'', g1, g2, _⟩ := hr.destroy ha hw.root hw.target hd
  refine ⟨h', d, _, h1, hd, hr.size, fun a => hr.oldAlive ha, hacc, fun t ht => ?_, h'', g1, fun hall a => ?_⟩
  · obtain ⟨nd, F, m, u, _⟩ := DictNode.unf hd
    obtain ⟨b, g3, g4⟩ := contains_spec (hr.allocator ha).null m u (DictNode.sorted hd m u) t (.inl (by omega))
    exact ⟨b, g3, g4.trans (hacc t)⟩
  · exact g2 a fun x hx _ => hall x hx

/-- Two terms, "ab" and "b", in a message with ids 5, 7, 6. -/
def exForeign : Msg :=
  { nodeIds := [5, 7, 6, 5], finalIds := [6], edges := [⟨7, 353, 6⟩, ⟨5, 98, 6⟩, ⟨5, 97, 7⟩], rootId := 5, size := 2 }

example : WellFormed exForeign ∧ Acyclic exForeign := by
  refine ⟨⟨by decide, by decide, by decide, by decide⟩, fun x => if x = 5 then 2 else if x = 7 then 1 else 0, by decide⟩

example : exRead exForeign = .ok (3, .ok 0) := rfl

/-! ### C60 -/

/-- C60: a listed node that cannot be reached from the root is never deleted. -/
theorem c60_unreachable_nodes_leak (sgn : Bool) {addr : Nat → Nat} {h : Heap} {msg : Msg} (ha : Allocator addr h)
    (hw : WellFormed msg) (hac : Acyclic msg) {x : Nat} (hx : x ∈ msg.nodeIds) (hnr : ¬ MsgReaches msg msg.rootId x) :
    ∃ h' d h'' a, fromProto sgn addr msg h = .ok (h', d) ∧ Ends (fun fuel => destroyDawg fuel h' d) h'' ∧
      h.mem a = none ∧ h''.mem a ≠ none := by
  obtain ⟨rank, hrank⟩ := hac
  obtain ⟨h', d, φ, h1, hr⟩ := wellFormed_from (sgn := sgn) ha hw
  have hd : DictNode sgn h'.mem (rank msg.rootId + 1) d.root := by
    rw [hr.root]; exact hr.dictNode hw.target hrank hw.root
  obtain ⟨h'', g1, _, g3⟩ := hr.destroy ha hw.root hw.target hd
  obtain ⟨es, g4, _⟩ := hr.node x hx
  exact ⟨h', d, h'', φ x, h1, g1, hr.wasFree ha hx, by rw [g3 x hx hnr, g4]; simp⟩

/-- C60: a cycle that can be reached from the root makes a dictionary whose deletion never ends. -/
theorem c60_cycles_never_end (sgn : Bool) {addr : Nat → Nat} {h : Heap} {msg : Msg} (ha : Allocator addr h)
    (hw : WellFormed msg) {e : MsgEdge} (he : e ∈ msg.edges) (h1 : MsgReaches msg msg.rootId e.source)
    (h2 : MsgReaches msg e.target e.source) :
    ∃ h' d, fromProto sgn addr msg h = .ok (h', d) ∧ ∀ fuel, destroyDawg fuel h' d = .error .diverge := by
  obtain ⟨h', d, φ, h3, hr⟩ := wellFormed_from (sgn := sgn) ha hw
  refine ⟨h', d, h3, fun fuel => ?_⟩
  simp only [destroyDawg, cleanUp, hr.ptrs.2.2, bind, Except.bind, hr.diverges hw.root hw.target he h1 h2 fuel]

/-- A root with an edge to itself. -/
def exLoop : Msg := { nodeIds := [5], finalIds := [5], edges := [⟨5, 97, 5⟩], rootId := 5, size := 1 }

example : WellFormed exLoop ∧ (⟨5, 97, 5⟩ : MsgEdge) ∈ exLoop.edges ∧ MsgReaches exLoop exLoop.rootId 5 :=
  ⟨⟨by decide, by decide, by decide, by decide⟩, by decide, .refl⟩

/-- A listed node without edges beside the root. -/
def exGarbage : Msg := { nodeIds := [5, 6], finalIds := [5], edges := [], rootId := 5, size := 1 }

example : WellFormed exGarbage ∧ Acyclic exGarbage ∧ ¬ MsgReaches exGarbage exGarbage.rootId 6 := by
  refine ⟨⟨by decide, by decide, by decide, by decide⟩, ⟨fun _ => 0, by decide⟩, fun h => ?_⟩
  generalize hr : exGarbage.rootId = r at h
  cases h with
  | refl => exact absurd hr (by decide)
  | step he _ => exact absurd he (by simp [exGarbage])

example : exRead exGarbage = .ok (2, .ok 1) := rfl

end Lev.Props
