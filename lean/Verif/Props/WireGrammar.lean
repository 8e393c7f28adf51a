import Verif.Proofs.WireGrammar
import Verif.Props.SerialAny

/-!
# C100: exactly which bytes hold which dictionary

C61, C62 and C75 speak of `deserialize_protobuf` through the parser's own functions.  Here the bytes are described by a
grammar that knows nothing of the parser (`Spec/WireGrammar.lean`), and the parser accepts exactly the sentences of the
grammar, with the message the grammar gives them.
-/

namespace Lev.Props

open Spec

/-- C100: the parser takes the bytes for the message exactly if the grammar does. -/
theorem c100_message {bs : List UInt8} {m : Msg} : decodeMsg bs = some m ↔ DictBytes bs m := decodeMsg_iff

/-- C100: bytes hold at most one message. -/
theorem c100_unique {bs : List UInt8} {m m' : Msg} (h : DictBytes bs m) (h' : DictBytes bs m') : m = m' := by
  have h1 := decodeMsg_iff.2 h
  rw [decodeMsg_iff.2 h'] at h1
  exact (Option.some.inj h1).symm

/-- C100, every file: `deserialize_protobuf` always ends.  The result is the null pointer, with nothing allocated, exactly
for the bytes that hold no message; undefined behaviour exactly for those with a message that cannot be read; and in all
other cases a dictionary of the size that the message states. -/
theorem c100_file (sgn : Bool) {addr : Nat → Nat} {h : Heap} (ha : Allocator addr h) (bs : List UInt8) :
    (deserializeStream sgn addr bs h = .ok (h, none) ↔ ¬ ∃ m, DictBytes bs m) ∧
    (deserializeStream sgn addr bs h = .error .ub ↔ ∃ m, DictBytes bs m ∧ Unreadable m) ∧
    (∀ m, DictBytes bs m → ¬ Unreadable m → ∃ h' d, deserializeStream sgn addr bs h = .ok (h', some d) ∧
      fromProto sgn addr m h = .ok (h', d) ∧ d.size = m.size ∧ ∀ a, h.mem a ≠ none → h'.mem a = h.mem a) := by
  obtain ⟨h1, h2, _⟩ := c75_any_bytes sgn ha bs
  refine ⟨?_, ?_, fun m hm hu => ?_⟩
  · rw [h2]
    constructor
    · rintro hn ⟨m, hm⟩
      rw [decodeMsg_iff.2 hm] at hn; cases hn
    · intro hn
      cases hd : decodeMsg bs with
      | none => rfl
      | some m => exact absurd ⟨m, decodeMsg_iff.1 hd⟩ hn
  · rw [h1]
    exact ⟨fun ⟨m, a, b⟩ => ⟨m, decodeMsg_iff.1 a, b⟩, fun ⟨m, a, b⟩ => ⟨m, decodeMsg_iff.2 a, b⟩⟩
  · obtain ⟨h', d, g1, g2, g3⟩ := (c75_read sgn ha m).2 hu
    refine ⟨h', d, ?_, g1, g2, g3⟩
    simp only [deserializeStream, decodeMsg_iff.2 hm, g1, bind, Except.bind, pure, Except.pure]

/-- C100, what `serialize_protobuf` writes: bytes that hold the message of the dictionary. -/
theorem c100_written {sgn : Bool} {mem : Mem} {k root size : Nat} (hd : DictNode sgn mem k root)
    (haddr : ∀ a, Reaches mem root a → a < 2 ^ 64) (hsize : size < 2 ^ 64) {bs : List UInt8}
    (hw : Ends (fun fuel => serializeStream sgn mem fuel root size) (some bs)) :
    ∃ m, Ends (fun fuel => toProto sgn mem fuel root size) m ∧ DictBytes bs m := by
  obtain ⟨m, h1, hm⟩ := toProto_spec hd size
  have hf := hm.fits (DictNode.closed hd) haddr hsize
  refine ⟨m, h1, decodeMsg_iff.1 ?_⟩
  obtain ⟨N, hN⟩ := h1
  obtain ⟨M, hM⟩ := hw
  have e1 : toProto sgn mem (max N M) root size = .ok m := hN _ (Nat.le_max_left _ _)
  have e2 : serializeStream sgn mem (max N M) root size = .ok (some bs) := hM _ (Nat.le_max_right _ _)
  simp only [serializeStream, e1, bind, Except.bind, pure, Except.pure, Except.ok.injEq, encodeMsg] at e2
  split at e2
  · next hl =>
    cases e2
    exact decode_encode hf hl
  · cases e2

/-- C100, newer files: fields of numbers above 5, anywhere between the fields, change nothing. -/
theorem c100_unknown_fields {a u b : List UInt8} {fa fu fb : List (Nat × Payload)} {m : Msg} (ha : Fields 100 a fa)
    (hu : Fields 100 u fu) (hb : Fields 100 b fb) (hnew : ∀ f ∈ fu, 5 < f.1) (hm : DictBytes (a ++ b) m)
    (hl : (a ++ u ++ b).length < 2 ^ 31) : DictBytes (a ++ u ++ b) m := by
  obtain ⟨_, fs, h1, h2⟩ := hm
  have hfs : fs = fa ++ fb := fields_unique h1 (fields_append ha hb)
  subst hfs
  refine dictBytes_of_adds hl (fields_append (fields_append ha hu) hb) ?_
  have h3 := adds_of_fields h2
  rw [← applyFields_iff, applyFields_append] at h3
  rw [← applyFields_iff, applyFields_append, applyFields_append]
  cases hx : applyFields Msg.empty fa with
  | none => rw [hx] at h3; exact h3
  | some m1 =>
    rw [hx] at h3
    simp only [Option.bind_some] at h3 ⊢
    rw [applyFields_unknown hnew]
    exact h3

/-! ### Cases -/

/-- Node ids 300 (unpacked, as an older writer may put them) and 1 (packed), an unknown field 6 of four bytes, an unknown
group 7 with a number in it, the final id 1, an edge, the root twice and the size. -/
def exWire : List UInt8 :=
  [8, 172, 2,  10, 1, 1,  53, 1, 2, 3, 4,  59, 8, 5, 60,  18, 1, 1,  26, 7, 8, 172, 2, 16, 97, 24, 1,  32, 1,  32, 172, 2,
   40, 1]

def exWireMsg : Msg :=
  { nodeIds := [300, 1], finalIds := [1], edges := [⟨300, 97, 1⟩], rootId := 300, size := 1 }

theorem exWire_dict : DictBytes exWire exWireMsg := decodeMsg_iff.1 (by decide +kernel)

/-- The same by the grammar alone, for a message of one node. -/
example : DictBytes [8, 5, 32, 5] { nodeIds := [5], finalIds := [], edges := [], rootId := 5, size := 0 } where
  size := by decide
  fields := by
    have hn : ∀ k, 1 ≤ k → ∀ b : UInt8, b.toNat < 128 → Number k [b] b.toNat := fun k hk b hb =>
      ⟨by simpa using hk, ⟨[], b, rfl, by simp, hb⟩, by simp only [base128]; omega⟩
    have h4 : Fields 100 ([32] ++ [5] ++ []) [(4, .varint 5)] :=
      .plain (num := 4) (wire := 0) ⟨⟨32, hn 5 (by omega) 32 (by decide), rfl⟩, by omega, by omega⟩
        (.varint (hn 10 (by omega) 5 (by decide))) .nil
    have h1 : Fields 100 ([8] ++ [5] ++ [32, 5]) [(1, .varint 5), (4, .varint 5)] :=
      .plain (num := 1) (wire := 0) ⟨⟨8, hn 5 (by omega) 8 (by decide), rfl⟩, by omega, by omega⟩
        (.varint (hn 10 (by omega) 5 (by decide))) h4
    exact ⟨_, h1, .one (.other (by omega) .nil), .other (by omega) (.other (by omega) .nil),
      .other (by omega) (.other (by omega) .nil), rfl, rfl⟩

/-- Bytes that hold no message: a length beyond the end, the end of another group, a tag of six bytes, a field 0, a fixed
number cut off, and a packed number cut off. -/
example : (∀ bs ∈ ([[10, 2, 1], [59, 8, 5, 68], [136, 128, 128, 128, 128, 0, 5], [0, 5], [49, 1, 2, 3, 4], [10, 1, 128]] :
    List (List UInt8)), ¬ ∃ m, DictBytes bs m) := by
  have h0 : ∀ bs ∈ ([[10, 2, 1], [59, 8, 5, 68], [136, 128, 128, 128, 128, 0, 5], [0, 5], [49, 1, 2, 3, 4], [10, 1, 128]] :
      List (List UInt8)), decodeMsg bs = none := by decide +kernel
  intro bs hbs ⟨m, hm⟩
  have h1 := decodeMsg_iff.2 hm
  have h2 := h0 bs hbs
  rw [h2] at h1; cases h1

/-- Groups are nested 100 deep at most. -/
example : (∃ m, DictBytes (List.replicate 100 51 ++ List.replicate 100 52) m) ∧
    ¬ ∃ m, DictBytes (List.replicate 101 51 ++ List.replicate 101 52) m := by
  refine ⟨⟨Msg.empty, decodeMsg_iff.1 (by decide +kernel)⟩, ?_⟩
  rintro ⟨m, hm⟩
  have h1 := decodeMsg_iff.2 hm
  have h2 : decodeMsg (List.replicate 101 51 ++ List.replicate 101 52) = none := by decide +kernel
  rw [h2] at h1; cases h1

example : (exWire.length < 2 ^ 31) ∧ ¬ Unreadable exWireMsg := by
  refine ⟨by decide, ?_⟩
  intro hu
  have h1 := ((c75_read true exAllocator exWireMsg).1).2 hu
  have h2 : (fromProto true (fun k => k + 1) exWireMsg exHeap).map (fun _ => ()) = .ok () := rfl
  rw [h1] at h2; cases h2

/-- A field 6 of four bytes between the two fields of a message. -/
example : DictBytes [8, 5, 53, 1, 2, 3, 4, 32, 5] { nodeIds := [5], finalIds := [], edges := [], rootId := 5, size := 0 } :=
  c100_unknown_fields (a := [8, 5]) (u := [53, 1, 2, 3, 4]) (b := [32, 5]) (fa := [(1, .varint 5)])
    (fu := [(6, .fixed [1, 2, 3, 4])]) (fb := [(4, .varint 5)]) (readFields_iff.1 (by decide +kernel))
    (readFields_iff.1 (by decide +kernel)) (readFields_iff.1 (by decide +kernel)) (by decide)
    (decodeMsg_iff.1 (by decide +kernel)) (by decide)

end Lev.Props
