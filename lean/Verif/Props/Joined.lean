import Verif.Proofs.Joined
import Verif.Props.WireGrammar

/-!
# C101: several dictionaries in one stream

`serialize_protobuf(dawg, output)` appends to a stream, `deserialize_protobuf(input)` reads a stream to its end.  Neither
writes or reads a length, so dictionaries written one after the other do not come back one after the other.
-/

namespace Lev.Props

open Spec

/-- What a dictionary writes. -/
theorem written_message {sgn : Bool} {mem : Mem} {k root size : Nat} (hd : DictNode sgn mem k root)
    (haddr : ∀ a, Reaches mem root a → a < 2 ^ 64) (hsize : size < 2 ^ 64) {bs : List UInt8}
    (hw : Ends (fun fuel => serializeStream sgn mem fuel root size) (some bs)) :
    ∃ m, MsgOf sgn mem root size m ∧ MsgFits m ∧ WellFormed m ∧ bs = encodeBytes m ∧ DictBytes bs m := by
  obtain ⟨m, h1, hm⟩ := toProto_spec hd size
  have hcl := DictNode.closed hd
  have hf := hm.fits hcl haddr hsize
  obtain ⟨N, hN⟩ := h1
  obtain ⟨M, hM⟩ := hw
  have e1 : toProto sgn mem (max N M) root size = .ok m := hN _ (Nat.le_max_left _ _)
  have e2 : serializeStream sgn mem (max N M) root size = .ok (some bs) := hM _ (Nat.le_max_right _ _)
  simp only [serializeStream, e1, bind, Except.bind, pure, Except.pure, Except.ok.injEq, encodeMsg] at e2
  split at e2
  · next hl =>
    cases e2
    exact ⟨m, hm, hf, hm.wellFormed hcl, rfl, decodeMsg_iff.1 (decode_encode hf hl)⟩
  · cases e2

/-- C101: two dictionaries without common nodes, written one after the other, are read as the second one.  All that is
left of the first are its nodes, which are never given back, and its size, if the size of the second is 0. -/
theorem c101_second_wins {sgn1 sgn2 : Bool} {mem1 mem2 : Mem} {k1 k2 root1 root2 size1 size2 : Nat}
    (hd1 : DictNode sgn1 mem1 k1 root1) (hd2 : DictNode sgn2 mem2 k2 root2)
    (haddr1 : ∀ a, Reaches mem1 root1 a → a < 2 ^ 64) (haddr2 : ∀ a, Reaches mem2 root2 a → a < 2 ^ 64)
    (hsize1 : size1 < 2 ^ 64) (hsize2 : size2 < 2 ^ 64) (hnull : root2 ≠ 0)
    (hap : ∀ a, Reaches mem1 root1 a → ¬ Reaches mem2 root2 a) {b1 b2 : List UInt8}
    (hw1 : Ends (fun fuel => serializeStream sgn1 mem1 fuel root1 size1) (some b1))
    (hw2 : Ends (fun fuel => serializeStream sgn2 mem2 fuel root2 size2) (some b2))
    (hl : (b1 ++ b2).length < 2 ^ 31) (sgn : Bool) {addr : Nat → Nat} {h : Heap} (ha : Allocator addr h) :
    ∃ h' d h'', deserializeStream sgn addr (b1 ++ b2) h = .ok (h', some d) ∧ DictNode sgn h'.mem k2 d.root ∧
      d.size = (if size2 = 0 then size1 else size2) ∧ (∀ t, Accepts h'.mem d.root t ↔ Accepts mem2 root2 t) ∧
      Ends (fun fuel => destroyDawg fuel h' d) h'' ∧ (∀ a, h.mem a ≠ none → h''.mem a = h.mem a) ∧
      ∃ lost : List Nat, lost.Nodup ∧ (∀ a, a ∈ lost ↔ h.mem a = none ∧ h''.mem a ≠ none) ∧
        ∀ nodes : List Nat, nodes.Nodup → (∀ a, a ∈ nodes ↔ Reaches mem1 root1 a) → lost.length = nodes.length := by
  obtain ⟨m1, o1, f1, w1, rfl, g1⟩ := written_message hd1 haddr1 hsize1 hw1
  obtain ⟨m2, o2, f2, w2, rfl, g2⟩ := written_message hd2 haddr2 hsize2 hw2
  have hap' : NoCommon m1 m2 := fun x h1 h2 => hap x ((o1.mem_ids x).1 h1) ((o2.mem_ids x).1 h2)
  have hr2 : m2.rootId ≠ 0 := by rw [o2.root_id]; exact hnull
  have hJ := decodeMsg_iff.2 (dictBytes_joined g1 f2 hl)
  have wJ := joined_wellFormed w1 w2 hap' hr2
  have hrootJ : (joined m1 m2).rootId = root2 := by
    simp only [joined, lastWritten, o2.root_id, if_neg hnull]
  obtain ⟨h', d, φ, e1, hr⟩ := wellFormed_from (sgn := sgn) ha wJ
  have hx2 : root2 ∈ m2.nodeIds := (o2.mem_ids _).2 .refl
  have hd : DictNode sgn h'.mem k2 d.root := by
    rw [hr.root, hrootJ]
    exact o2.part_dictNode hr (fun x hx => by simp [joined, hx]) (fun e he hs => joined_edge w1 hap' he hs) hd2 .refl
  obtain ⟨h'', q1, q2, q3⟩ := hr.destroy ha wJ.root wJ.target hd
  have hreach : ∀ x, MsgReaches (joined m1 m2) (joined m1 m2).rootId x ↔ MsgReaches m2 root2 x := fun x => by
    rw [hrootJ]; exact joined_reaches w1 w2 hap' hx2
  have hin : ∀ x ∈ m2.nodeIds, MsgReaches m2 root2 x := fun x hx =>
    o2.msgReaches .refl (DictNode.closed hd2) ((o2.mem_ids x).1 hx)
  have hJm : ∀ x, x ∈ (joined m1 m2).nodeIds ↔ x ∈ m1.nodeIds ∨ x ∈ m2.nodeIds := fun x => by simp [joined]
  have hnr : ∀ x ∈ m1.nodeIds, ¬ MsgReaches (joined m1 m2) (joined m1 m2).rootId x := fun x hx hrx =>
    hap' x hx (msgReaches_listed w2 hx2 ((hreach x).1 hrx))
  refine ⟨h', d, h'', ?_, hd, ?_, fun t => ?_, q1, fun a hne => q2 a fun x hx he => ?_, m1.nodeIds.map φ, ?_, fun a => ?_, ?_⟩
  · simp only [deserializeStream, hJ, e1, bind, Except.bind, pure, Except.pure]
  · rw [hr.size]; simp only [joined, lastWritten, o1.size_eq, o2.size_eq]
  · rw [hr.root, hr.accepts wJ.target wJ.root, hrootJ,
      joined_accepts w1 w2 (fun x hx => (o1.mem_ids x).2 ((o1.mem_fins x).1 hx).1) hap' hx2, o2.accepts_iff .refl]
  · exact absurd (by rw [he]; exact hr.wasFree ha hx) hne
  · rw [List.Nodup, List.pairwise_map]
    refine List.Pairwise.imp_of_mem ?_ o1.ids
    intro x y hx hy hlt heq
    have := hr.inj x y ((hJm x).2 (.inl hx)) ((hJm y).2 (.inl hy)) heq
    omega
  · rw [List.mem_map]
    constructor
    · rintro ⟨x, hx, rfl⟩
      have hxJ := (hJm x).2 (.inl hx)
      obtain ⟨es, n1, _⟩ := hr.node x hxJ
      exact ⟨hr.wasFree ha hxJ, by rw [q3 x hxJ (hnr x hx), n1]; simp⟩
    · rintro ⟨hn, hne⟩
      apply Classical.byContradiction
      intro hno
      refine hne ?_
      rw [q2 a fun x hx he => ?_, hn]
      rcases (hJm x).1 hx with hx | hx
      · exact absurd ⟨x, hx, he.symm⟩ hno
      · exact (hreach x).2 (hin x hx)
  · intro nodes hn hm
    rw [List.length_map]
    have hid : m1.nodeIds.Nodup := o1.ids.imp fun h => Nat.ne_of_lt h
    have s1 : m1.nodeIds ⊆ nodes := fun x hx => (hm x).2 ((o1.mem_ids x).1 hx)
    have s2 : nodes ⊆ m1.nodeIds := fun x hx => (o1.mem_ids x).2 ((hm x).1 hx)
    exact Nat.le_antisymm (hid.length_le_of_subset s1) (hn.length_le_of_subset s2)

/-- C101: a dictionary with some term that is not empty, written twice to one stream.  Reading the stream is undefined
behaviour, or it gives a dictionary of which the deletion and the look-up of each term but the empty one are. -/
theorem c101_twice {sgn1 : Bool} {mem : Mem} {k root size : Nat} (hd : DictNode sgn1 mem k root)
    (haddr : ∀ a, Reaches mem root a → a < 2 ^ 64) (hsize : size < 2 ^ 64) {t0 : Str} (ht0 : Accepts mem root t0)
    (hne0 : t0 ≠ []) {bs : List UInt8} (hw : Ends (fun fuel => serializeStream sgn1 mem fuel root size) (some bs))
    (hl : (bs ++ bs).length < 2 ^ 31) (sgn : Bool) {addr : Nat → Nat} {h : Heap} (ha : Allocator addr h) :
    deserializeStream sgn addr (bs ++ bs) h = .error .ub ∨
    ∃ h' d, deserializeStream sgn addr (bs ++ bs) h = .ok (h', some d) ∧
      (∃ N, ∀ fuel, N ≤ fuel → destroyDawg fuel h' d = .error .ub) ∧
      ∀ t, Accepts mem root t → t ≠ [] → containsTerm h'.mem d.root t = .error .ub := by
  obtain ⟨m, o, f, w, rfl, g⟩ := written_message hd haddr hsize hw
  have hJ := dictBytes_joined g f hl
  have hwalk : ∀ t, Accepts mem root t → t ≠ [] → ∃ p y, p <+: t ∧ Walk (joined m m) (joined m m).rootId p y ∧
      Deletes (joined m m) (joined m m).edges y := by
    intro t ht hne
    cases ht with
    | here => exact absurd rfl hne
    | @step _ nd c b t' h1 h2 _ =>
      have he : (⟨root, labelOfChar sgn1 c, b⟩ : MsgEdge) ∈ m.edges := (o.mem_edges _).2 ⟨.refl, nd, c, h1, h2, rfl⟩
      have hw := twice_walk w he o.root_id.symm
      simp only [charOfLabel_labelOfChar] at hw
      exact ⟨[c], b, ⟨t', rfl⟩, hw, (twice_deletes w he).1⟩
  by_cases hu : Unreadable (joined m m)
  · exact .inl ((c100_file sgn ha _).2.1.2 ⟨_, hJ, hu⟩)
  · obtain ⟨h', d, e1, e2, _⟩ := (c100_file sgn ha _).2.2 _ hJ hu
    refine .inr ⟨h', d, e1, (c75_delete ha e2).1 ?_, fun t ht hne => ((c75_contains ha e2 t).1).2 (.inl (hwalk t ht hne))⟩
    obtain ⟨p, y, _, h1, h2⟩ := hwalk t0 ht0 hne0
    exact ⟨p, y, h1, .inr h2⟩

/-- C101: a second `deserialize_protobuf` from the same stream finds nothing left, takes that for a message, and gives
a dictionary without root: `contains` answers `false`, its deletion is undefined behaviour. -/
theorem c101_second_read (sgn : Bool) {addr : Nat → Nat} {h : Heap} (ha : Allocator addr h) :
    ∃ h' d, deserializeStream sgn addr [] h = .ok (h', some d) ∧ d.root = 0 ∧ d.size = 0 ∧
      (∀ t, containsTerm h'.mem d.root t = .ok false) ∧ ∀ fuel, destroyDawg (fuel + 1) h' d = .error .ub := by
  have h1 : deserializeStream sgn addr [] h = .ok (h, some ⟨0, 0, none, none, none, []⟩) := rfl
  have h2 : fromProto sgn addr Msg.empty h = .ok (h, ⟨0, 0, none, none, none, []⟩) := rfl
  obtain ⟨_, g2, g3⟩ := c31_unlisted_root ha (by simp [Msg.empty]) h2
  exact ⟨_, _, h1, rfl, rfl, g3, g2⟩

/-! ### Cases -/

/-- A node with an edge to another one. -/
def exMemA : Mem := fun a => if a = 1 then some ⟨false, [(97, 2)]⟩ else if a = 2 then some ⟨true, []⟩ else none

/-- The root of a dictionary without terms. -/
def exMemB : Mem := fun a => if a = 3 then some ⟨false, []⟩ else none

theorem exMemA_dict : DictNode true exMemA 2 1 :=
  .mk (nd := ⟨false, [(97, 2)]⟩) rfl (by simp) fun c b hb => by
    simp only [List.mem_singleton, Prod.mk.injEq] at hb
    obtain ⟨rfl, rfl⟩ := hb
    exact .mk (nd := ⟨true, []⟩) rfl (by simp) (by simp)

theorem exMemB_dict : DictNode true exMemB 1 3 := .mk (nd := ⟨false, []⟩) rfl (by simp) (by simp)

theorem exMemA_reaches {a : Nat} (h : Reaches exMemA 1 a) : a = 1 ∨ a = 2 := by
  cases h with
  | refl => exact .inl rfl
  | step h1 h2 h3 =>
    simp only [exMemA, if_true, Option.some.injEq] at h1
    subst h1
    simp only [List.mem_singleton, Prod.mk.injEq] at h2
    obtain ⟨rfl, rfl⟩ := h2
    cases h3 with
    | refl => exact .inr rfl
    | step h1 h2 _ =>
      simp [exMemA] at h1
      subst h1; cases h2

theorem exMemB_reaches {a : Nat} (h : Reaches exMemB 3 a) : a = 3 := by
  cases h with
  | refl => rfl
  | step h1 h2 _ => simp [exMemB] at h1; subst h1; cases h2

def exStreamA : List UInt8 := [10, 2, 1, 2, 18, 1, 2, 26, 6, 8, 1, 16, 97, 24, 2, 32, 1, 40, 1]
def exStreamB : List UInt8 := [10, 1, 3, 32, 3]

theorem exStreamA_written : Ends (fun fuel => serializeStream true exMemA fuel 1 1) (some exStreamA) := by
  refine ⟨3, fun fuel hf => ?_⟩
  obtain ⟨f, rfl⟩ : ∃ f, fuel = f + 3 := ⟨fuel - 3, by omega⟩
  have h : toProto true exMemA (f + 3) 1 1 =
      .ok { nodeIds := [1, 2], finalIds := [2], edges := [⟨1, 97, 2⟩], rootId := 1, size := 1 } := rfl
  simp only [serializeStream, h, bind, Except.bind]
  decide +kernel

theorem exStreamB_written : Ends (fun fuel => serializeStream true exMemB fuel 3 0) (some exStreamB) := by
  refine ⟨1, fun fuel hf => ?_⟩
  obtain ⟨f, rfl⟩ : ∃ f, fuel = f + 1 := ⟨fuel - 1, by omega⟩
  have h : toProto true exMemB (f + 1) 3 0 =
      .ok { nodeIds := [3], finalIds := [], edges := [], rootId := 3, size := 0 } := rfl
  simp only [serializeStream, h, bind, Except.bind]
  decide +kernel

theorem exMemA_small {a : Nat} (h : Reaches exMemA 1 a) : a < 2 ^ 64 := by
  rcases exMemA_reaches h with rfl | rfl <;> decide

theorem exMemB_small {a : Nat} (h : Reaches exMemB 3 a) : a < 2 ^ 64 := by rw [exMemB_reaches h]; decide

/-- C101, the claim that reading gives the size of the dictionary written last is false: a dictionary of one term and one
without terms, written one after the other, are read as a dictionary without terms of size 1. -/
theorem c101_wrong_size : ∃ h' d, deserializeStream true (fun k => k + 1) (exStreamA ++ exStreamB) exHeap = .ok (h', some d) ∧
    d.size = 1 ∧ ∀ t, ¬ Accepts h'.mem d.root t := by
  obtain ⟨h', d, _, h1, _, h2, h3, _⟩ := c101_second_wins exMemA_dict exMemB_dict (fun a => exMemA_small)
    (fun a => exMemB_small) (by decide) (by decide) (by decide)
    (fun a g1 g2 => by have := exMemB_reaches g2; rcases exMemA_reaches g1 with h | h <;> omega)
    exStreamA_written exStreamB_written (by decide) true exAllocator
  refine ⟨h', d, h1, by simpa using h2, fun t ht => ?_⟩
  have := (h3 t).1 ht
  cases this with
  | here g1 g2 => simp [exMemB] at g1; subst g1; cases g2
  | step g1 g2 _ => simp [exMemB] at g1; subst g1; cases g2

/-- The other order gives the second one with its size. -/
example : ∃ h' d, deserializeStream true (fun k => k + 1) (exStreamB ++ exStreamA) exHeap = .ok (h', some d) ∧
    d.size = 1 ∧ ∀ t, Accepts h'.mem d.root t ↔ Accepts exMemA 1 t := by
  obtain ⟨h', d, _, h1, _, h2, h3, _⟩ := c101_second_wins exMemB_dict exMemA_dict (fun a => exMemB_small)
    (fun a => exMemA_small) (by decide) (by decide) (by decide)
    (fun a g1 g2 => by have := exMemB_reaches g1; rcases exMemA_reaches g2 with h | h <;> omega)
    exStreamB_written exStreamA_written (by decide) true exAllocator
  exact ⟨h', d, h1, by simpa using h2, h3⟩

/-- One term, written twice. -/
example : Accepts exMemA 1 [97] ∧ ∃ h' d, deserializeStream true (fun k => k + 1) (exStreamA ++ exStreamA) exHeap = .ok (h', some d) ∧
    containsTerm h'.mem d.root [97] = .error .ub ∧ ∃ N, ∀ fuel, N ≤ fuel → destroyDawg fuel h' d = .error .ub := by
  have hacc : Accepts exMemA 1 [97] :=
    .step (nd := ⟨false, [(97, 2)]⟩) (b := 2) rfl (by simp) (.here (nd := ⟨true, []⟩) rfl rfl)
  refine ⟨hacc, ?_⟩
  rcases c101_twice exMemA_dict (fun a => exMemA_small) (by decide) hacc (by decide) exStreamA_written (by decide) true
    exAllocator with h | ⟨h', d, h1, h2, h3⟩
  · have h0 : (deserializeStream true (fun k => k + 1) (exStreamA ++ exStreamA) exHeap).map (fun r => r.2.isSome) = .ok true := by
      decide +kernel
    rw [h] at h0; cases h0
  · exact ⟨h', d, h1, h3 _ hacc (by decide), h2⟩

/-- One term of two characters: reading itself is undefined. -/
example : ∃ bs, encodeMsg { nodeIds := [1, 2, 3], finalIds := [3], edges := [⟨1, 97, 2⟩, ⟨2, 98, 3⟩], rootId := 1, size := 1 } = some bs ∧
    (deserializeStream true (fun k => k + 1) (bs ++ bs) exHeap).map (fun _ => ()) = .error .ub :=
  ⟨[10, 3, 1, 2, 3, 18, 1, 3, 26, 6, 8, 1, 16, 97, 24, 2, 26, 6, 8, 2, 16, 98, 24, 3, 32, 1, 40, 1], by decide +kernel,
    by decide +kernel⟩

end Lev.Props
