import Verif.Proofs.Wire
import Verif.Props.Serial

/-!
# Properties C61, C62: the bytes of a serialized dictionary

`serializeStream` is `serialize_protobuf` to a stream, `deserializeStream` is `deserialize_protobuf` from one
(`Verif/Model/Wire.lean`).  A node's id is its address, so addresses are assumed to have 64 bits.
-/

namespace Lev.Props

open Lev Spec

/-! ### C61 -/

/-- C61, messages: whatever the numbers are, what `SerializeToOstream` writes is read back as the same message. -/
theorem c61_messages_survive {m : Msg} {bs : List UInt8} (hi : ∀ v ∈ m.nodeIds ++ m.finalIds, v < 2 ^ 64)
    (he : ∀ e ∈ m.edges, e.source < 2 ^ 64 ∧ e.target < 2 ^ 64) (hr : m.rootId < 2 ^ 64) (hs : m.size < 2 ^ 64)
    (hw : encodeMsg m = some bs) : decodeMsg bs = some m := by
  unfold encodeMsg at hw
  split at hw
  · next hl =>
    cases hw
    exact decode_encode ⟨fun v hv => hi v (by simp [hv]), fun v hv => hi v (by simp [hv]), he, hr, hs⟩ hl
  · cases hw

-- a label 0 and a size 0 are not written, and come back
example : encodeMsg { nodeIds := [300, 1], finalIds := [1], edges := [⟨300, 0, 1⟩, ⟨300, 4294967240, 1⟩], rootId := 300, size := 0 } =
    some [10, 3, 172, 2, 1, 18, 1, 1, 26, 5, 8, 172, 2, 24, 1, 26, 11, 8, 172, 2, 16, 200, 255, 255, 255, 15, 24, 1, 32, 172, 2] := by
  decide +kernel

example : decodeMsg [10, 3, 172, 2, 1, 18, 1, 1, 26, 5, 8, 172, 2, 24, 1, 26, 11, 8, 172, 2, 16, 200, 255, 255, 255, 15, 24, 1, 32, 172, 2] =
    some { nodeIds := [300, 1], finalIds := [1], edges := [⟨300, 0, 1⟩, ⟨300, 4294967240, 1⟩], rootId := 300, size := 0 } := by
  decide +kernel

/-- Unknown fields are skipped: a number (field 6), eight bytes (field 7), four bytes (field 8), a group (field 9) that
contains a number and a group; so are known fields of another type (field 3 as a number). -/
example : decodeMsg ([48, 5] ++ [32, 7] ++ [57, 1, 2, 3, 4, 5, 6, 7, 8] ++ [69, 1, 2, 3, 4] ++ [75, 8, 1, 83, 84, 76] ++ [24, 9] ++
    [40, 1]) = some { nodeIds := [], finalIds := [], edges := [], rootId := 7, size := 1 } := by decide +kernel

/-- A group that is not closed, one closed by the end of another, and the end of a group that is not open are rejected. -/
example : decodeMsg [32, 7, 75, 8, 1] = none ∧ decodeMsg [75, 83, 76, 84] = none ∧ decodeMsg [32, 7, 76] = none := by
  decide +kernel

/-- A hundred nested groups are skipped at the top, one hundred and one are rejected; in an edge one fewer. -/
example : (decodeMsg (List.replicate 100 75 ++ List.replicate 100 76)).isSome ∧
    decodeMsg (List.replicate 101 75 ++ List.replicate 101 76) = none ∧
    (decodeMsg ([26, 198, 1] ++ (List.replicate 99 75 ++ List.replicate 99 76))).isSome ∧
    decodeMsg ([26, 200, 1] ++ (List.replicate 100 75 ++ List.replicate 100 76)) = none := by decide +kernel

/-- A length of five bytes is read, one of six bytes is rejected. -/
example : decodeMsg [10, 129, 128, 128, 128, 0, 5] = some { nodeIds := [5], finalIds := [], edges := [], rootId := 0, size := 0 } ∧
    decodeMsg [10, 129, 128, 128, 128, 128, 0, 5] = none := by decide +kernel

/-- C61: a dictionary is written to a stream.  If the result is true, the bytes, read in any memory of any process on a platform of either signedness, give a dictionary with the
same terms and the same size. -/
theorem c61_bytes_round_trip {sgn : Bool} {mem : Mem} {k root size : Nat} (hd : DictNode sgn mem k root)
    (haddr : ∀ a, Reaches mem root a → a < 2 ^ 64) (hsize : size < 2 ^ 64) :
    ∃ r, Ends (fun fuel => serializeStream sgn mem fuel root size) r ∧
      ∀ bs, r = some bs → ∀ (sgn' : Bool) (addr : Nat → Nat) (h : Heap), Allocator addr h →
        ∃ h' d', deserializeStream sgn' addr bs h = .ok (h', some d') ∧ DictNode sgn' h'.mem k d'.root ∧
          d'.size = size ∧ (∀ t, Accepts h'.mem d'.root t ↔ Accepts mem root t) ∧
          ∀ a, h.mem a ≠ none → h'.mem a = h.mem a := by
  obtain ⟨msg, h1, hm⟩ := toProto_spec hd size
  have hcl := DictNode.closed hd
  have hf := hm.fits hcl haddr hsize
  refine ⟨encodeMsg msg, ?_, fun bs hbs sgn' addr h ha => ?_⟩
  · obtain ⟨N, hN⟩ := h1
    refine ⟨N, fun fuel hfu => ?_⟩
    have : toProto sgn mem fuel root size = .ok msg := hN fuel hfu
    simp only [serializeStream, this, bind, Except.bind]
    rfl
  · have hdec : decodeMsg bs = some msg := by
      unfold encodeMsg at hbs
      split at hbs
      · next hl => cases hbs; exact decode_encode hf hl
      · cases hbs
    obtain ⟨h', d', φ, h2, hr⟩ := wellFormed_from (sgn := sgn') ha (hm.wellFormed hcl)
    have hroot : d'.root = φ root := by rw [hr.root, hm.root_id]
    refine ⟨h', d', ?_, ?_, by rw [hr.size, hm.size_eq], fun t => ?_, fun a hne => hr.oldAlive ha hne⟩
    · simp only [deserializeStream, hdec, h2, bind, Except.bind]
      rfl
    · rw [hroot]; exact hm.dictNode hr hcl hd .refl
    · rw [hroot]; exact hm.accepts hr hcl .refl t

/-- C61: the result is false only if the message takes more than `INT_MAX` bytes, so writing succeeds if the dictionary is not too large: `V` nodes and `E` edges need at most `20 V + 35 E + 44`
bytes. -/
theorem c61_small_enough {sgn : Bool} {mem : Mem} {k root size : Nat} (hd : DictNode sgn mem k root)
    (haddr : ∀ a, Reaches mem root a → a < 2 ^ 64) (hsize : size < 2 ^ 64) :
    ∃ msg, Ends (fun fuel => toProto sgn mem fuel root size) msg ∧
      (20 * msg.nodeIds.length + 35 * msg.edges.length + 44 ≤ 2 ^ 31 - 1 →
        ∃ bs, Ends (fun fuel => serializeStream sgn mem fuel root size) (some bs) ∧
          bs.length ≤ 20 * msg.nodeIds.length + 35 * msg.edges.length + 44) := by
  obtain ⟨msg, h1, hm⟩ := toProto_spec hd size
  have hcl := DictNode.closed hd
  have hf := hm.fits hcl haddr hsize
  refine ⟨msg, h1, fun hsmall => ?_⟩
  have hsub : msg.finalIds.Sublist msg.nodeIds :=
    sorted_sublist (lt := fun a b : Nat => a < b) (fun a h => Nat.lt_irrefl a h) (fun a b h h' => by omega) hm.fins hm.ids
      fun a ha => (hm.mem_ids a).2 ((hm.mem_fins a).1 ha).1
  have hle := hsub.length_le
  have hlen := encodeBytes_length hf ⟨by omega, by omega⟩
  refine ⟨encodeBytes msg, ?_, by omega⟩
  obtain ⟨N, hN⟩ := h1
  refine ⟨N, fun fuel hfu => ?_⟩
  have : toProto sgn mem fuel root size = .ok msg := hN fuel hfu
  have hmax : (encodeBytes msg).length ≤ maxBytes := by unfold maxBytes; omega
  have henc : encodeMsg msg = some (encodeBytes msg) := if_pos hmax
  simp only [serializeStream, this, bind, Except.bind, henc]
  rfl

/-! ### C62 -/

/-- C62, the claim that a file cut off is noticed is false: nothing at all is read as a dictionary, with a null root and
undefined behaviour when it is deleted. -/
theorem c62_truncation_unnoticed :
    ¬ ∀ (sgn : Bool) (mem : Mem) (k root size : Nat) (bs p : List UInt8) (addr : Nat → Nat) (h : Heap),
      DictNode sgn mem k root → Ends (fun fuel => serializeStream sgn mem fuel root size) (some bs) →
      p <+: bs → p ≠ bs → Allocator addr h → deserializeStream sgn addr p h = .ok (h, none) := by
  intro hall
  have hd : DictNode true (fun a => if a = 1 then some ⟨true, []⟩ else none) 1 1 :=
    .mk (nd := ⟨true, []⟩) rfl (by simp) (by simp)
  have := hall true _ 1 1 1 [10, 1, 1, 18, 1, 1, 32, 1, 40, 1] [] _ exHeap hd
    ⟨1, fun fuel hf => ?_⟩ List.nil_prefix (by simp) exAllocator
  · have h2 : (deserializeStream true (fun k => k + 1) [] exHeap).map (fun r => r.2.isSome) = .ok true := by
      decide +kernel
    rw [this] at h2
    cases h2
  · obtain ⟨f, rfl⟩ : ∃ f, fuel = f + 1 := ⟨fuel - 1, by omega⟩
    have : toProto true (fun a => if a = 1 then some ⟨true, []⟩ else none) (f + 1) 1 1 =
        .ok { nodeIds := [1], finalIds := [1], edges := [], rootId := 1, size := 1 } := by
      simp [toProto, collectNodes, collectEdges, deref, setInsert, bind, Except.bind, pure, Except.pure]
    simp only [serializeStream, this, bind, Except.bind]
    decide +kernel

/-- C62, what holds: a proper beginning of a written file, read in any memory, gives
* the null pointer, or
* a dictionary that is visibly broken: its root is null, it contains nothing and deleting it is undefined behaviour, or
* the whole dictionary, only with size 0.

It never gives a dictionary that misses some of the terms or has others. -/
theorem c62_truncated_files_partial {sgn : Bool} {mem : Mem} {k root size : Nat} (hd : DictNode sgn mem k root)
    (hnull : ¬ Reaches mem root 0) (haddr : ∀ a, Reaches mem root a → a < 2 ^ 64)
    (hsize : size < 2 ^ 64) {bs p : List UInt8}
    (hw : Ends (fun fuel => serializeStream sgn mem fuel root size) (some bs)) (hp : p <+: bs) (hne : p ≠ bs)
    (sgn' : Bool) {addr : Nat → Nat} {h : Heap} (ha : Allocator addr h) :
    deserializeStream sgn' addr p h = .ok (h, none) ∨
    ∃ h' d', deserializeStream sgn' addr p h = .ok (h', some d') ∧ d'.size = 0 ∧
      ((d'.root = 0 ∧ (∀ fuel, destroyDawg (fuel + 1) h' d' = .error .ub) ∧ ∀ t, containsTerm h'.mem d'.root t = .ok false) ∨
       (size ≠ 0 ∧ DictNode sgn' h'.mem k d'.root ∧ ∀ t, Accepts h'.mem d'.root t ↔ Accepts mem root t)) := by
  obtain ⟨msg, h1, hm⟩ := toProto_spec hd size
  have hcl := DictNode.closed hd
  have hf := hm.fits hcl haddr hsize
  have hwf := hm.wellFormed hcl
  have henc : encodeMsg msg = some bs := by
    obtain ⟨N, hN⟩ := h1
    refine Ends.unique ⟨N, fun fuel hfu => ?_⟩ hw
    have : toProto sgn mem fuel root size = .ok msg := hN fuel hfu
    simp only [serializeStream, this, bind, Except.bind]
    rfl
  unfold encodeMsg at henc
  split at henc
  · next hl =>
    cases henc
    have hids : msg.nodeIds ≠ [] := fun h => by have := hwf.root; rw [h] at this; simp at this
    have hid0 : 0 ∉ msg.nodeIds := fun h => hnull ((hm.mem_ids 0).1 h)
    have hbad : ∀ m' : Msg, m'.rootId = 0 → 0 ∉ m'.nodeIds → m'.size = 0 →
        (∀ e ∈ m'.edges, e.source ∈ m'.nodeIds) →
        (m'.edges.Pairwise (fun e f => e.source ≠ f.source ∨ e.label.toNat % 256 ≠ f.label.toNat % 256)) →
        decodeMsg p = some m' →
        ∃ h' d', deserializeStream sgn' addr p h = .ok (h', some d') ∧ d'.size = 0 ∧ d'.root = 0 ∧
          (∀ fuel, destroyDawg (fuel + 1) h' d' = .error .ub) ∧ ∀ t, containsTerm h'.mem d'.root t = .ok false := by
      intro m' r1 r2 r3 r4 r5 hdec
      obtain ⟨h', d', φ, g1, g2⟩ := fromProto_spec (sgn := sgn') ha r4 (r5.imp fun {e f} hef => by
        rcases hef with h | h
        · exact .inl h
        · exact .inr fun he => h (by rw [← charOfLabel_toNat, ← charOfLabel_toNat, he]))
      obtain ⟨u1, u2, u3⟩ := c31_unlisted_root ha (by rw [r1]; exact r2) g1
      refine ⟨h', d', ?_, by rw [g2.size, r3], u1, u2, u3⟩
      simp only [deserializeStream, hdec, g1, bind, Except.bind]
      rfl
    rcases decode_cut hf hl hids (by rw [hm.root_id]; exact fun h => hnull (h ▸ .refl)) hp hne with hdec | ⟨m', hdec, hrem⟩
    · left
      simp only [deserializeStream, hdec]
    · right
      cases hrem with
      | nothing =>
        obtain ⟨h', d', g1, g2, g3⟩ := hbad Msg.empty rfl (by simp [Msg.empty]) rfl (by simp [Msg.empty])
          (by simp [Msg.empty]) hdec
        exact ⟨h', d', g1, g2, .inl g3⟩
      | noRoot finals es hfin hes =>
        have hsub := hes.subset
        obtain ⟨h', d', g1, g2, g3⟩ := hbad
          { nodeIds := msg.nodeIds, finalIds := finals, edges := es, rootId := 0, size := 0 } rfl hid0 rfl
          (fun e he => hwf.source e (hsub he)) (hwf.keys.sublist hes.sublist) hdec
        exact ⟨h', d', g1, g2, .inl g3⟩
      | noSize hs =>
        rw [hm.size_eq] at hs
        have hm' : MsgOf sgn mem root 0 { msg with size := 0 } :=
          ⟨hm.ids, hm.mem_ids, hm.fins, hm.mem_fins, hm.edges, hm.root_id, rfl⟩
        obtain ⟨h', d', φ, g1, g2⟩ := wellFormed_from (sgn := sgn') ha (hm'.wellFormed hcl)
        have hroot : d'.root = φ root := by rw [g2.root]; exact congrArg φ hm.root_id
        refine ⟨h', d', ?_, by rw [g2.size], .inr ⟨hs, ?_, fun t => ?_⟩⟩
        · simp only [deserializeStream, hdec, g1, bind, Except.bind]
          rfl
        · rw [hroot]; exact hm'.dictNode g2 hcl hd .refl
        · rw [hroot]; exact hm'.accepts g2 hcl .refl t
  · cases henc

/-- C62, which cuts are noticed: a written file is a sequence of fields (nodes, final nodes if there are any, one for each
edge, root, size if it is not 0), and reading a beginning of it gives the null pointer exactly if the cut is inside a
field. -/
theorem c62_noticed_cuts {sgn : Bool} {mem : Mem} {k root size : Nat} (hd : DictNode sgn mem k root)
    (hnull : ¬ Reaches mem root 0) (haddr : ∀ a, Reaches mem root a → a < 2 ^ 64)
    (hsize : size < 2 ^ 64) {bs : List UInt8}
    (hw : Ends (fun fuel => serializeStream sgn mem fuel root size) (some bs)) :
    ∃ (msg : Msg) (fields : List (List UInt8)), Ends (fun fuel => toProto sgn mem fuel root size) msg ∧
      bs = fields.flatten ∧ [] ∉ fields ∧
      fields.length = msg.edges.length + 2 + (if msg.finalIds = [] then 0 else 1) + (if size = 0 then 0 else 1) ∧
      ∀ (sgn' : Bool) (addr : Nat → Nat) (h : Heap), Allocator addr h → ∀ p, p <+: bs →
        (deserializeStream sgn' addr p h = .ok (h, none) ↔ ∀ k, p ≠ (fields.take k).flatten) := by
  obtain ⟨msg, h1, hm⟩ := toProto_spec hd size
  have hcl := DictNode.closed hd
  have hf := hm.fits hcl haddr hsize
  have hwf := hm.wellFormed hcl
  have henc : encodeMsg msg = some bs := by
    obtain ⟨N, hN⟩ := h1
    refine Ends.unique ⟨N, fun fuel hfu => ?_⟩ hw
    have : toProto sgn mem fuel root size = .ok msg := hN fuel hfu
    simp only [serializeStream, this, bind, Except.bind]
    rfl
  unfold encodeMsg at henc
  split at henc
  · next hl =>
    cases henc
    have hids : msg.nodeIds ≠ [] := fun h => by have := hwf.root; rw [h] at this; simp at this
    have hroot : msg.rootId ≠ 0 := by rw [hm.root_id]; exact fun h => hnull (h ▸ .refl)
    have hok := msgChunks_ok hf hl
    have hflat : ∀ cs : List (List UInt8 × (Nat × Payload)), (cs.map (·.1)).flatten = flat cs := by
      intro cs; simp [flat, List.flatMap_def]
    refine ⟨msg, (msgChunks msg).map (·.1), h1, ?_, ?_, ?_, ?_⟩
    · rw [hflat, flat_msgChunks]
    · intro hmem
      obtain ⟨c, hc, he⟩ := List.mem_map.1 hmem
      exact (hok c hc).ne he
    · rw [← hm.size_eq]
      simp only [msgChunks, packedChunks, scalarChunks, hids, hroot, if_false, List.length_map, List.length_append,
        List.length_singleton]
      split <;> split <;> simp <;> omega
    · intro sgn' addr h ha p hp
      have hread : deserializeStream sgn' addr p h = .ok (h, none) ↔ decodeMsg p = none := by
        unfold deserializeStream
        cases hb : decodeMsg p with
        | none => simp
        | some m' =>
          simp only [bind, Except.bind, reduceCtorEq, iff_false]
          split <;> simp [pure, Except.pure]
      rw [hread]
      have hpl : p.length ≤ maxBytes := Nat.le_trans hp.length_le hl
      constructor
      · rintro hnone k rfl
        rw [← List.map_take, hflat] at hnone hp hpl
        by_cases hk : flat ((msgChunks msg).take k) = encodeBytes msg
        · rw [hk, decode_encode hf hl] at hnone
          cases hnone
        · have hdec : decodeMsg (flat ((msgChunks msg).take k)) =
              applyFields Msg.empty (((msgChunks msg).take k).map (·.2)) := by
            unfold decodeMsg
            rw [if_pos hpl, readFields_chunks (fun c hc => hok c (List.mem_of_mem_take hc)) _ _ (Nat.le_refl _)]
          have htot := applyFields_msgChunks hf
          rw [← List.take_append_drop k (msgChunks msg), List.map_append, applyFields_append, ← hdec, hnone] at htot
          cases htot
      · intro hall
        rw [← flat_msgChunks] at hp
        rcases readFields_cut hok hp with h1 | ⟨k, _, rfl⟩
        · unfold decodeMsg
          rw [if_pos hpl, h1]
        · exact absurd (by rw [← List.map_take, hflat]) (hall k)
  · cases henc

/-- Bytes of the dictionary of the given terms, built in an empty memory. -/
def exBytes (terms : List Str) : Except Err (Option (List UInt8)) := do
  let (h, r) ← sortedDawg true (fun k => k + 1) 100 terms exHeap
  match r with
  | none => .error .ub
  | some d => serializeStream true h.mem 100 d.root d.size

/-- What becomes of each beginning of them: its length, and the root and the size of the dictionary read. -/
def exCuts (terms : List Str) : Except Err (List (Nat × Option (Nat × Nat))) := do
  match ← exBytes terms with
  | none => .error .ub
  | some bs =>
    (List.range (bs.length + 1)).filterMapM fun k => do
      let (_, r) ← deserializeStream true (fun k => k + 1) (bs.take k) exHeap
      return r.map (fun d => (k, some (d.root, d.size)))

-- 40 bytes: all beginnings not listed are rejected
example : exBytes [[97, 200], [98, 200]] = .ok (some
    [10, 3, 1, 2, 3, 18, 1, 3, 26, 6, 8, 1, 16, 97, 24, 2, 26, 6, 8, 1, 16, 98, 24, 2, 26, 10, 8, 2, 16, 200, 255, 255,
     255, 15, 24, 3, 32, 1, 40, 2]) := by decide +kernel

example : exCuts [[97, 200], [98, 200]] = .ok
    [(0, some (0, 0)), (5, some (0, 0)), (8, some (0, 0)), (16, some (0, 0)), (24, some (0, 0)), (36, some (0, 0)),
     (38, some (1, 0)), (40, some (1, 2))] := by decide +kernel

end Lev.Props
