import Verif.Model.Wire
import Verif.Proofs.SerialRound

/-!
The byte format: what was written is read back, and what remains of it when it is cut off.
-/

namespace Lev

open Spec

/-! ### Numbers -/

theorem varint_ne_nil (n : Nat) : varint n ≠ [] := by
  rw [varint]; split <;> simp

theorem readVarintN_varint {k n : Nat} (h : n < 128 ^ k) (hk : 0 < k) (rest : List UInt8) :
    readVarintN k (varint n ++ rest) = some (n, rest) := by
  induction k generalizing n with
  | zero => omega
  | succ k ih =>
    rw [varint]
    split
    · next hn =>
      have : (UInt8.ofNat n).toNat = n := by simp; omega
      simp only [List.cons_append, List.nil_append, readVarintN, this, hn, if_true]
    · next hn =>
      have h1 : (UInt8.ofNat (n % 128 + 128)).toNat = n % 128 + 128 := by simp [UInt8.toNat_ofNat]; omega
      have hk' : 0 < k := by
        cases k with
        | zero => simp at h; omega
        | succ k => omega
      have h2 : n / 128 < 128 ^ k := by
        rw [Nat.div_lt_iff_lt_mul (by omega)]
        rw [Nat.pow_succ] at h; exact h
      simp only [List.cons_append, readVarintN, h1, ih h2 hk']
      rw [if_neg (by omega)]
      congr 2
      omega

/-- A number that is cut off cannot be read. -/
theorem readVarintN_cut {k n : Nat} {p : List UInt8} (hp : p <+: varint n) (hne : p ≠ varint n) :
    readVarintN k p = none := by
  induction k generalizing n p with
  | zero => rfl
  | succ k ih =>
    cases p with
    | nil => rfl
    | cons b p =>
      rw [varint] at hp hne
      split at hp
      · next hn =>
        rw [if_pos hn] at hne
        obtain ⟨t, ht⟩ := hp
        simp only [List.cons_append, List.cons.injEq, List.append_eq_nil_iff] at ht
        obtain ⟨rfl, rfl, _⟩ := ht
        exact absurd rfl hne
      · next hn =>
        rw [if_neg hn] at hne
        rw [List.cons_prefix_cons] at hp
        obtain ⟨rfl, hp⟩ := hp
        have h1 : (UInt8.ofNat (n % 128 + 128)).toNat = n % 128 + 128 := by simp [UInt8.toNat_ofNat]; omega
        simp only [readVarintN, h1]
        rw [if_neg (by omega), ih hp (fun h => hne (by rw [h]))]

theorem readVarint_varint {n : Nat} (h : n < 2 ^ 64) (rest : List UInt8) :
    readVarint (varint n ++ rest) = some (n, rest) := by
  rw [readVarint, readVarintN_varint (by omega) (by omega)]
  simp only [Option.map_some, Nat.mod_eq_of_lt h]

theorem readVarint_cut {n : Nat} {p : List UInt8} (hp : p <+: varint n) (hne : p ≠ varint n) :
    readVarint p = none := by
  rw [readVarint, readVarintN_cut hp hne]; rfl

theorem takeN_append (bs rest : List UInt8) : takeN bs.length (bs ++ rest) = some (bs, rest) := by
  unfold takeN
  rw [if_pos (by simp)]
  simp

/-! ### Fields -/

/-- `bs` is a field: it is read as such whatever follows, and what remains of it when it is cut off is rejected. -/
structure Chunk (bs : List UInt8) (f : Nat × Payload) : Prop where
  ne : bs ≠ []
  read : ∀ depth rest, readField depth (bs ++ rest) = some (f.1, f.2, rest)
  cut : ∀ depth p, p <+: bs → p ≠ bs → readField depth p = none

theorem prefix_append_cases {α : Type} {p a b : List α} (h : p <+: a ++ b) :
    (p <+: a ∧ p ≠ a) ∨ ∃ p', p = a ++ p' ∧ p' <+: b := by
  induction a generalizing p with
  | nil => exact .inr ⟨p, rfl, h⟩
  | cons x a ih =>
    cases p with
    | nil => exact .inl ⟨List.nil_prefix, by simp⟩
    | cons y p =>
      rw [List.cons_append, List.cons_prefix_cons] at h
      obtain ⟨rfl, h⟩ := h
      rcases ih h with ⟨h1, h2⟩ | ⟨p', rfl, h2⟩
      · exact .inl ⟨by rw [List.cons_prefix_cons]; exact ⟨rfl, h1⟩, by simpa using h2⟩
      · exact .inr ⟨p', rfl, h2⟩

theorem readField_tag {t : Nat} (ht : t < 2 ^ 32) (rest : List UInt8) :
    readTag (varint t ++ rest) = some (t, rest) := by
  rw [readTag, readVarintN_varint (by omega) (by omega)]
  simp only [Option.map_some, Nat.mod_eq_of_lt ht]

theorem readTag_cut {n : Nat} {p : List UInt8} (hp : p <+: varint n) (hne : p ≠ varint n) : readTag p = none := by
  rw [readTag, readVarintN_cut hp hne]; rfl

theorem chunk_scalar {num v : Nat} (h1 : 1 ≤ num) (h2 : num ≤ 5) (hv : v < 2 ^ 64) :
    Chunk (varint (num * 8) ++ varint v) (num, .varint v) where
  ne := by simp [varint_ne_nil]
  read depth rest := by
    simp only [readField, List.append_assoc, readField_tag (show num * 8 < 2 ^ 32 by omega)]
    rw [if_neg (by omega), if_neg (by omega), show num * 8 % 8 = 0 by omega, readPlain, readVarint_varint hv]
    simp only [Option.map_some, Option.some.injEq, Prod.mk.injEq, and_true]
    omega
  cut depth p hp hne := by
    rcases prefix_append_cases hp with ⟨g1, g2⟩ | ⟨p', rfl, g⟩
    · simp only [readField, readTag_cut g1 g2]
    · simp only [readField, readField_tag (show num * 8 < 2 ^ 32 by omega)]
      rw [if_neg (by omega), if_neg (by omega), show num * 8 % 8 = 0 by omega, readPlain,
        readVarint_cut g (fun h => hne (by rw [h]))]
      rfl

theorem chunk_bytes {num : Nat} {bs : List UInt8} (h1 : 1 ≤ num) (h2 : num ≤ 5) (hl : bs.length < 2 ^ 35) :
    Chunk (putBytes num bs) (num, .bytes bs) where
  ne := by simp [putBytes, varint_ne_nil]
  read depth rest := by
    simp only [readField, putBytes, List.append_assoc, readField_tag (show num * 8 + 2 < 2 ^ 32 by omega)]
    rw [if_neg (by omega), if_neg (by omega), show (num * 8 + 2) % 8 = 2 by omega, readPlain]
    simp only [readVarintN_varint (show bs.length < 128 ^ 5 by omega) (show 0 < 5 by omega), takeN_append, Option.map_some, Option.some.injEq, Prod.mk.injEq,
      and_true]
    omega
  cut depth p hp hne := by
    unfold putBytes at hp hne
    rw [List.append_assoc] at hp hne
    rcases prefix_append_cases hp with ⟨g1, g2⟩ | ⟨p', rfl, g⟩
    · simp only [readField, readTag_cut g1 g2]
    · simp only [readField, readField_tag (show num * 8 + 2 < 2 ^ 32 by omega)]
      rw [if_neg (by omega), if_neg (by omega), show (num * 8 + 2) % 8 = 2 by omega, readPlain]
      rcases prefix_append_cases g with ⟨g1, g2⟩ | ⟨p'', rfl, g'⟩
      · simp only [readVarintN_cut g1 g2, Option.map_none]
      · simp only [readVarintN_varint (show bs.length < 128 ^ 5 by omega) (show 0 < 5 by omega)]
        have hlt : p''.length < bs.length := by
          refine Nat.lt_of_le_of_ne g'.length_le fun h => hne ?_
          rw [g'.eq_of_length h]
        unfold takeN
        rw [if_neg (by omega)]
        rfl

/-! ### Sequences of fields -/

theorem readFields_nil (depth fuel : Nat) : readFields depth fuel [] = some [] := by cases fuel <;> rfl

theorem readFields_step {depth fuel : Nat} {bs rest : List UInt8} {f : Nat × Payload} (hne : bs ≠ [])
    (h : readField depth bs = some (f.1, f.2, rest)) :
    readFields depth (fuel + 1) bs = (readFields depth fuel rest).map (fun fs => f :: fs) := by
  cases bs with
  | nil => exact absurd rfl hne
  | cons b bs => rw [readFields, h]

theorem readFields_fail {depth fuel : Nat} {bs : List UInt8} (hne : bs ≠ []) (h : readField depth bs = none) :
    readFields depth fuel bs = none := by
  cases bs with
  | nil => exact absurd rfl hne
  | cons b bs =>
    cases fuel with
    | zero => rfl
    | succ fuel => rw [readFields, h]

/-- The bytes of a list of fields. -/
def flat (cs : List (List UInt8 × (Nat × Payload))) : List UInt8 := cs.flatMap (·.1)

theorem readFields_chunks {cs : List (List UInt8 × (Nat × Payload))} (h : ∀ c ∈ cs, Chunk c.1 c.2) (depth fuel : Nat)
    (hf : (flat cs).length ≤ fuel) : readFields depth fuel (flat cs) = some (cs.map (·.2)) := by
  induction cs generalizing fuel with
  | nil => exact readFields_nil depth fuel
  | cons c cs ih =>
    have hc := h c (by simp)
    have hpos : 0 < c.1.length := List.length_pos_iff.2 hc.ne
    simp only [flat, List.flatMap_cons, List.length_append] at hf ih ⊢
    obtain ⟨fuel, rfl⟩ : ∃ f, fuel = f + 1 := ⟨fuel - 1, by omega⟩
    rw [readFields_step (by simp [hc.ne]) (hc.read _ _), ih (fun c hc => h c (by simp [hc])) fuel (by omega)]
    rfl

/-- What remains of a list of fields when it is cut off: it is rejected unless the cut is between two fields. -/
theorem readFields_cut {cs : List (List UInt8 × (Nat × Payload))} (h : ∀ c ∈ cs, Chunk c.1 c.2) {p : List UInt8}
    (hp : p <+: flat cs) :
    (∀ depth fuel, readFields depth fuel p = none) ∨ ∃ k, k ≤ cs.length ∧ p = flat (cs.take k) := by
  induction cs generalizing p with
  | nil =>
    have : p = [] := by simpa [flat] using hp
    exact .inr ⟨0, by simp, by rw [this]; rfl⟩
  | cons c cs ih =>
    have hc := h c (by simp)
    simp only [flat, List.flatMap_cons] at hp
    by_cases hnil : p = []
    · exact .inr ⟨0, by simp, by rw [hnil]; rfl⟩
    rcases prefix_append_cases hp with ⟨g1, g2⟩ | ⟨p', rfl, g⟩
    · exact .inl fun depth fuel => readFields_fail hnil (hc.cut _ p g1 g2)
    · rcases ih (fun c hc => h c (by simp [hc])) g with h1 | ⟨k, hk, rfl⟩
      · left
        intro depth fuel
        cases fuel with
        | zero =>
          cases hh : c.1 ++ p' with
          | nil => exact absurd hh hnil
          | cons b bs => rfl
        | succ fuel =>
          rw [readFields_step hnil (hc.read _ _), h1 depth fuel]
          rfl
      · exact .inr ⟨k + 1, by simpa using hk, by simp [flat]⟩

/-! ### Repeated numbers -/

theorem readPacked_nil (fuel : Nat) : readPacked fuel [] = some [] := by cases fuel <;> rfl

theorem readPacked_flat {vs : List Nat} (h : ∀ v ∈ vs, v < 2 ^ 64) (fuel : Nat)
    (hf : (vs.flatMap varint).length ≤ fuel) : readPacked fuel (vs.flatMap varint) = some vs := by
  induction vs generalizing fuel with
  | nil => exact readPacked_nil fuel
  | cons v vs ih =>
    have hne := varint_ne_nil v
    have hpos : 0 < (varint v).length := List.length_pos_iff.2 hne
    simp only [List.flatMap_cons, List.length_append] at hf ⊢
    obtain ⟨fuel, rfl⟩ : ∃ f, fuel = f + 1 := ⟨fuel - 1, by omega⟩
    have hrd := readVarint_varint (h v (by simp)) (vs.flatMap varint)
    cases hb : varint v ++ vs.flatMap varint with
    | nil => exact absurd (List.append_eq_nil_iff.1 hb).1 hne
    | cons b bs =>
      rw [hb] at hrd
      rw [readPacked, hrd]
      simp only [ih (fun v hv => h v (by simp [hv])) fuel (by omega), Option.map_some]

/-! ### Edges -/

/-- Scalars as fields. -/
def scalarChunks (num v : Nat) : List (List UInt8 × (Nat × Payload)) :=
  if v = 0 then [] else [(varint (num * 8) ++ varint v, (num, .varint v))]

theorem flat_append (a b : List (List UInt8 × (Nat × Payload))) : flat (a ++ b) = flat a ++ flat b := by
  simp [flat]

theorem flat_scalarChunks (num v : Nat) : flat (scalarChunks num v) = putScalar num v := by
  unfold scalarChunks putScalar
  split <;> simp [flat]

theorem scalarChunks_ok {num v : Nat} (h1 : 1 ≤ num) (h2 : num ≤ 5) (hv : v < 2 ^ 64) :
    ∀ c ∈ scalarChunks num v, Chunk c.1 c.2 := by
  unfold scalarChunks
  split
  · simp
  · simpa using chunk_scalar h1 h2 hv

/-- The ids of an edge fit. -/
def EdgeFits (e : MsgEdge) : Prop := e.source < 2 ^ 64 ∧ e.target < 2 ^ 64

theorem decodeEdge_encodeEdge {e : MsgEdge} (h : EdgeFits e) : decodeEdge (encodeEdge e) = some e := by
  have hlab : e.label.toNat < 2 ^ 64 := by have := e.label.toNat_lt; omega
  have hflat : encodeEdge e =
      flat (scalarChunks 1 e.source ++ scalarChunks 2 e.label.toNat ++ scalarChunks 3 e.target) := by
    simp only [encodeEdge, flat_append, flat_scalarChunks]
  unfold decodeEdge
  rw [hflat, readFields_chunks ?_ _ _ (Nat.le_refl _)]
  · simp only [Option.map_some, Option.some.injEq, List.map_append, List.foldl_append]
    have key : ∀ (x : MsgEdge) num v, ((scalarChunks num v).map (·.2)).foldl applyEdge x =
        if v = 0 then x else applyEdge x (num, .varint v) := by
      intro x num v
      unfold scalarChunks
      split <;> simp
    rw [key, key, key]
    obtain ⟨s, l, t⟩ := e
    simp only
    have hl : UInt32.ofNat l.toNat = l := by simp
    have hl0 : l.toNat = 0 → l = 0 := fun h => by rw [← hl, h]; rfl
    by_cases h1 : s = 0 <;> by_cases h2 : l.toNat = 0 <;> by_cases h3 : t = 0 <;>
      simp [h1, h2, h3, applyEdge, hl] <;> exact (hl0 h2).symm
  · intro c hc
    simp only [List.mem_append] at hc
    rcases hc with (hc | hc) | hc
    · exact scalarChunks_ok (by omega) (by omega) h.1 c hc
    · exact scalarChunks_ok (by omega) (by omega) hlab c hc
    · exact scalarChunks_ok (by omega) (by omega) h.2 c hc

/-! ### Messages -/

/-- The fields of a message. -/
def packedChunks (num : Nat) (vs : List Nat) : List (List UInt8 × (Nat × Payload)) :=
  if vs = [] then [] else [(putBytes num (vs.flatMap varint), (num, .bytes (vs.flatMap varint)))]

def edgeChunk (e : MsgEdge) : List UInt8 × (Nat × Payload) := (putBytes 3 (encodeEdge e), (3, .bytes (encodeEdge e)))

def msgChunks (m : Msg) : List (List UInt8 × (Nat × Payload)) :=
  packedChunks 1 m.nodeIds ++ packedChunks 2 m.finalIds ++ m.edges.map edgeChunk ++ scalarChunks 4 m.rootId ++
    scalarChunks 5 m.size

theorem flat_msgChunks (m : Msg) : flat (msgChunks m) = encodeBytes m := by
  have hp : ∀ num vs, flat (packedChunks num vs) = putPacked num vs := by
    intro num vs
    unfold packedChunks putPacked
    split <;> simp [flat]
  have he : ∀ es : List MsgEdge, flat (es.map edgeChunk) = es.flatMap (fun e => putBytes 3 (encodeEdge e)) := by
    intro es
    simp [flat, edgeChunk, List.flatMap_map]
  simp only [msgChunks, encodeBytes, flat_append, flat_scalarChunks, hp, he]

/-- All numbers of a message fit into 64 bits. -/
structure MsgFits (m : Msg) : Prop where
  ids : ∀ v ∈ m.nodeIds, v < 2 ^ 64
  finals : ∀ v ∈ m.finalIds, v < 2 ^ 64
  edges : ∀ e ∈ m.edges, EdgeFits e
  root : m.rootId < 2 ^ 64
  size : m.size < 2 ^ 64

theorem mem_flat_length {cs : List (List UInt8 × (Nat × Payload))} {c : List UInt8 × (Nat × Payload)} (h : c ∈ cs) :
    c.1.length ≤ (flat cs).length := by
  induction cs with
  | nil => simp at h
  | cons d cs ih =>
    simp only [flat, List.flatMap_cons, List.length_append] at ih ⊢
    rcases List.mem_cons.1 h with rfl | h
    · omega
    · have := ih h; omega

theorem msgChunks_ok {m : Msg} (h : MsgFits m) (hl : (encodeBytes m).length ≤ maxBytes) :
    ∀ c ∈ msgChunks m, Chunk c.1 c.2 := by
  have hlen : ∀ num bs (f : Nat × Payload), (putBytes num bs, f) ∈ msgChunks m → bs.length < 2 ^ 35 := by
    intro num bs f hc
    have := mem_flat_length hc
    rw [flat_msgChunks] at this
    simp only [putBytes, List.length_append] at this
    unfold maxBytes at hl
    omega
  intro c hc
  have hc' := hc
  simp only [msgChunks, List.mem_append] at hc
  rcases hc with (((hc | hc) | hc) | hc) | hc
  · unfold packedChunks at hc
    split at hc
    · simp at hc
    · simp only [List.mem_singleton] at hc
      subst hc
      exact chunk_bytes (by omega) (by omega) (hlen _ _ _ hc')
  · unfold packedChunks at hc
    split at hc
    · simp at hc
    · simp only [List.mem_singleton] at hc
      subst hc
      exact chunk_bytes (by omega) (by omega) (hlen _ _ _ hc')
  · obtain ⟨e, _, rfl⟩ := List.mem_map.1 hc
    exact chunk_bytes (by omega) (by omega) (hlen _ _ _ hc')
  · exact scalarChunks_ok (by omega) (by omega) h.root c hc
  · exact scalarChunks_ok (by omega) (by omega) h.size c hc

theorem applyFields_append (m : Msg) (a b : List (Nat × Payload)) :
    applyFields m (a ++ b) = (applyFields m a).bind (fun m' => applyFields m' b) := by
  induction a generalizing m with
  | nil => rfl
  | cons f a ih =>
    simp only [List.cons_append, applyFields]
    cases applyField m f with
    | none => rfl
    | some m' => exact ih m'

theorem applyFields_edges {es : List MsgEdge} (h : ∀ e ∈ es, EdgeFits e) (m : Msg) :
    applyFields m ((es.map edgeChunk).map (·.2)) = some { m with edges := m.edges ++ es } := by
  induction es generalizing m with
  | nil => simp [applyFields]
  | cons e es ih =>
    simp only [List.map_cons, applyFields, edgeChunk, applyField, decodeEdge_encodeEdge (h e (by simp)),
      Option.map_some]
    have := ih (fun e he => h e (by simp [he])) { m with edges := m.edges ++ [e] }
    simp only [List.append_assoc, List.singleton_append] at this
    exact this

theorem applyFields_ids {vs : List Nat} (h : ∀ v ∈ vs, v < 2 ^ 64) (m : Msg) :
    applyFields m ((packedChunks 1 vs).map (·.2)) = some { m with nodeIds := m.nodeIds ++ vs } := by
  unfold packedChunks
  split
  · next hv => simp [applyFields, hv]
  · simp only [List.map_cons, List.map_nil, applyFields, applyField, readPacked_flat h _ (Nat.le_refl _),
      Option.map_some]

theorem applyFields_finals {vs : List Nat} (h : ∀ v ∈ vs, v < 2 ^ 64) (m : Msg) :
    applyFields m ((packedChunks 2 vs).map (·.2)) = some { m with finalIds := m.finalIds ++ vs } := by
  unfold packedChunks
  split
  · next hv => simp [applyFields, hv]
  · simp only [List.map_cons, List.map_nil, applyFields, applyField, readPacked_flat h _ (Nat.le_refl _),
      Option.map_some]

/-- What the fields of a message make of the default message. -/
theorem applyFields_msgChunks {m : Msg} (h : MsgFits m) :
    applyFields Msg.empty ((msgChunks m).map (·.2)) = some m := by
  simp only [msgChunks, List.map_append, applyFields_append, applyFields_ids h.ids, applyFields_finals h.finals,
    applyFields_edges h.edges, Option.bind_some, Msg.empty, List.nil_append]
  obtain ⟨ids, fs, es, r, s⟩ := m
  unfold scalarChunks
  by_cases hr : r = 0 <;> by_cases hs : s = 0 <;> simp [hr, hs, applyFields, applyField]

/-- What was written is read back. -/
theorem decode_encode {m : Msg} (h : MsgFits m) (hl : (encodeBytes m).length ≤ maxBytes) :
    decodeMsg (encodeBytes m) = some m := by
  unfold decodeMsg
  rw [if_pos hl, ← flat_msgChunks, readFields_chunks (msgChunks_ok h hl) _ _ (Nat.le_refl _)]
  exact applyFields_msgChunks h

/-! ### Cut off -/

theorem take_map_edge (es : List MsgEdge) (k : Nat) : (es.map edgeChunk).take k = (es.take k).map edgeChunk := by
  rw [List.map_take]

/-- What remains of a message with a root when it is cut off. -/
inductive Remains (m : Msg) : Msg → Prop
  /-- Nothing. -/
  | nothing : Remains m Msg.empty
  /-- The nodes, perhaps with the final ones among them and some edges, but no root. -/
  | noRoot (finals : List Nat) (es : List MsgEdge) : finals = [] ∨ finals = m.finalIds → es <+: m.edges →
      Remains m { nodeIds := m.nodeIds, finalIds := finals, edges := es, rootId := 0, size := 0 }
  /-- Everything but the size. -/
  | noSize : m.size ≠ 0 → Remains m { m with size := 0 }

theorem take_append_cases {α : Type} (a b : List α) (k : Nat) :
    (∃ j, j ≤ a.length ∧ (a ++ b).take k = a.take j) ∨ (a ++ b).take k = a ++ b.take (k - a.length) := by
  rw [List.take_append]
  by_cases h : k ≤ a.length
  · exact .inl ⟨k, h, by simp [Nat.sub_eq_zero_of_le h]⟩
  · exact .inr (by rw [List.take_of_length_le (by omega)])

theorem decode_cut {m : Msg} (h : MsgFits m) (hl : (encodeBytes m).length ≤ maxBytes) (hids : m.nodeIds ≠ [])
    (hroot : m.rootId ≠ 0) {p : List UInt8} (hp : p <+: encodeBytes m) (hne : p ≠ encodeBytes m) :
    decodeMsg p = none ∨ ∃ m', decodeMsg p = some m' ∧ Remains m m' := by
  have hpl : p.length ≤ maxBytes := Nat.le_trans hp.length_le hl
  have hok := msgChunks_ok h hl
  rw [← flat_msgChunks] at hp hne
  rcases readFields_cut hok hp with h1 | ⟨k, hk, rfl⟩
  · left
    unfold decodeMsg
    rw [if_pos hpl, h1]
  · right
    have hk' : k < (msgChunks m).length := by
      refine Nat.lt_of_le_of_ne hk fun he => hne ?_
      rw [he, List.take_length]
    have hdec : decodeMsg (flat ((msgChunks m).take k)) =
        applyFields Msg.empty (((msgChunks m).take k).map (·.2)) := by
      unfold decodeMsg
      rw [if_pos hpl, readFields_chunks (fun c hc => hok c (List.mem_of_mem_take hc)) _ _ (Nat.le_refl _)]
    rw [hdec]
    clear hdec hne hp hpl hok
    obtain ⟨c1, hc1⟩ : ∃ c, packedChunks 1 m.nodeIds = [c] := by
      unfold packedChunks; rw [if_neg hids]; exact ⟨_, rfl⟩
    obtain ⟨c4, hc4⟩ : ∃ c, scalarChunks 4 m.rootId = [c] := by
      unfold scalarChunks; rw [if_neg hroot]; exact ⟨_, rfl⟩
    have e1 := applyFields_ids h.ids Msg.empty
    have e4 : ∀ x : Msg, applyFields x ((scalarChunks 4 m.rootId).map (·.2)) = some { x with rootId := m.rootId } := by
      intro x
      unfold scalarChunks
      rw [if_neg hroot]
      rfl
    cases k with
    | zero => exact ⟨_, rfl, .nothing⟩
    | succ k =>
      have hsplit : msgChunks m = packedChunks 1 m.nodeIds ++ (packedChunks 2 m.finalIds ++ (m.edges.map edgeChunk ++
          (scalarChunks 4 m.rootId ++ scalarChunks 5 m.size))) := by
        simp only [msgChunks, List.append_assoc]
      have hk1 : (msgChunks m).take (k + 1) = packedChunks 1 m.nodeIds ++ (packedChunks 2 m.finalIds ++
          (m.edges.map edgeChunk ++ (scalarChunks 4 m.rootId ++ scalarChunks 5 m.size))).take k := by
        rw [hsplit, hc1]; rfl
      have hlen : k < (packedChunks 2 m.finalIds ++ (m.edges.map edgeChunk ++
          (scalarChunks 4 m.rootId ++ scalarChunks 5 m.size))).length := by
        rw [hsplit, List.length_append, hc1, List.length_singleton] at hk'
        omega
      rw [hk1, List.map_append, applyFields_append, e1, Option.bind_some]
      simp only [Msg.empty, List.nil_append]
      -- the final ids
      rcases take_append_cases (packedChunks 2 m.finalIds) (m.edges.map edgeChunk ++
          (scalarChunks 4 m.rootId ++ scalarChunks 5 m.size)) k with ⟨j, hj, hj'⟩ | hj'
      · rw [hj']
        have : (packedChunks 2 m.finalIds).take j = [] ∨ (packedChunks 2 m.finalIds).take j = packedChunks 2 m.finalIds := by
          unfold packedChunks
          split
          · simp
          · cases j <;> simp
        rcases this with h0 | h0
        · rw [h0]
          exact ⟨_, rfl, .noRoot [] [] (.inl rfl) List.nil_prefix⟩
        · rw [h0, applyFields_finals h.finals]
          exact ⟨_, rfl, .noRoot m.finalIds [] (.inr rfl) List.nil_prefix⟩
      · rw [hj', List.map_append, applyFields_append, applyFields_finals h.finals, Option.bind_some]
        rw [List.length_append] at hlen
        simp only [List.nil_append]
        -- the edges
        rcases take_append_cases (m.edges.map edgeChunk) (scalarChunks 4 m.rootId ++ scalarChunks 5 m.size)
          (k - (packedChunks 2 m.finalIds).length) with ⟨i, hi, hi'⟩ | hi'
        · rw [hi', take_map_edge, applyFields_edges fun e he => h.edges e (List.mem_of_mem_take he)]
          exact ⟨_, rfl, .noRoot m.finalIds (m.edges.take i) (.inr rfl) (List.take_prefix _ _)⟩
        · rw [hi', List.map_append, applyFields_append, applyFields_edges h.edges, Option.bind_some]
          rw [List.length_append] at hlen
          simp only [List.nil_append]
          -- root and size
          generalize hu : k - (packedChunks 2 m.finalIds).length - (m.edges.map edgeChunk).length = u
          have hlt : u < (scalarChunks 4 m.rootId ++ scalarChunks 5 m.size).length := by
            by_cases hh : k - (packedChunks 2 m.finalIds).length ≤ (m.edges.map edgeChunk).length
            · rw [← hu, Nat.sub_eq_zero_of_le hh, hc4]; simp
            · omega
          rw [List.length_append, hc4, List.length_singleton] at hlt
          cases u with
          | zero =>
            exact ⟨_, rfl, .noRoot m.finalIds m.edges (.inr rfl) (List.prefix_refl _)⟩
          | succ u =>
            have hs : m.size ≠ 0 := by
              intro h0
              rw [h0] at hlt
              simp [scalarChunks] at hlt
            have hu0 : u = 0 := by
              unfold scalarChunks at hlt
              rw [if_neg hs] at hlt
              simp at hlt
              omega
            subst hu0
            have ht : (scalarChunks 4 m.rootId ++ scalarChunks 5 m.size).take (0 + 1) = scalarChunks 4 m.rootId := by
              rw [hc4]; rfl
            rw [ht, e4]
            exact ⟨_, rfl, .noSize hs⟩

/-! ### Sizes -/

theorem varint_length {n k : Nat} (h : n < 128 ^ k) (hk : 0 < k) : (varint n).length ≤ k := by
  induction k generalizing n with
  | zero => omega
  | succ k ih =>
    rw [varint]
    split
    · simp
    · next hn =>
      have hk' : 0 < k := by
        cases k with
        | zero => simp at h; omega
        | succ k => omega
      have : n / 128 < 128 ^ k := by
        rw [Nat.div_lt_iff_lt_mul (by omega)]
        rw [Nat.pow_succ] at h; exact h
      have := ih this hk'
      simp only [List.length_cons]
      omega

theorem putScalar_length {num v : Nat} (h2 : num ≤ 5) (hv : v < 2 ^ 64) : (putScalar num v).length ≤ 11 := by
  unfold putScalar
  split
  · simp
  · have h3 := varint_length (n := num * 8) (k := 1) (by omega) (by omega)
    have h4 := varint_length (n := v) (k := 10) (by omega) (by omega)
    simp only [List.length_append]
    omega

theorem flatMap_varint_length {vs : List Nat} (h : ∀ v ∈ vs, v < 2 ^ 64) :
    (vs.flatMap varint).length ≤ 10 * vs.length := by
  induction vs with
  | nil => simp
  | cons v vs ih =>
    have h4 := varint_length (n := v) (k := 10) (by have := h v (by simp); omega) (by omega)
    have := ih fun v hv => h v (by simp [hv])
    simp only [List.flatMap_cons, List.length_append, List.length_cons]
    omega

theorem putPacked_length {num : Nat} {vs : List Nat} (h2 : num ≤ 5) (h : ∀ v ∈ vs, v < 2 ^ 64)
    (hl : 10 * vs.length < 2 ^ 64) : (putPacked num vs).length ≤ 10 * vs.length + 11 := by
  unfold putPacked putBytes
  split
  · simp
  · have h1 := flatMap_varint_length h
    have h3 := varint_length (n := num * 8 + 2) (k := 1) (by omega) (by omega)
    have h4 := varint_length (n := (vs.flatMap varint).length) (k := 10) (by omega) (by omega)
    simp only [List.length_append]
    omega

theorem edgeBytes_length {e : MsgEdge} (h : EdgeFits e) : (putBytes 3 (encodeEdge e)).length ≤ 35 := by
  have h1 := putScalar_length (num := 1) (by omega) h.1
  have h2 := putScalar_length (num := 2) (v := e.label.toNat) (by omega) (by have := e.label.toNat_lt; omega)
  have h3 := putScalar_length (num := 3) (by omega) h.2
  have h4 : (encodeEdge e).length ≤ 33 := by simp only [encodeEdge, List.length_append]; omega
  have h5 := varint_length (n := 3 * 8 + 2) (k := 1) (by omega) (by omega)
  have h6 := varint_length (n := (encodeEdge e).length) (k := 1) (by omega) (by omega)
  simp only [putBytes, List.length_append]
  omega

/-- How large a message is at most. -/
theorem encodeBytes_length {m : Msg} (h : MsgFits m)
    (hl : 10 * m.nodeIds.length < 2 ^ 64 ∧ 10 * m.finalIds.length < 2 ^ 64) :
    (encodeBytes m).length ≤ 10 * m.nodeIds.length + 10 * m.finalIds.length + 35 * m.edges.length + 44 := by
  have h1 := putPacked_length (num := 1) (by omega) h.ids hl.1
  have h2 := putPacked_length (num := 2) (by omega) h.finals hl.2
  have h3 : ∀ es : List MsgEdge, (∀ e ∈ es, EdgeFits e) →
      (es.flatMap (fun e => putBytes 3 (encodeEdge e))).length ≤ 35 * es.length := by
    intro es hes
    induction es with
    | nil => simp
    | cons e es ih =>
      have := edgeBytes_length (hes e (by simp))
      have := ih fun e he => hes e (by simp [he])
      simp only [List.flatMap_cons, List.length_append, List.length_cons]
      omega
  have h3 := h3 m.edges h.edges
  have h4 := putScalar_length (num := 4) (by omega) h.root
  have h5 := putScalar_length (num := 5) (by omega) h.size
  simp only [encodeBytes, List.length_append]
  omega

/-! ### The message of a dictionary -/

section
variable {sgn : Bool} {mem : Mem} {root size : Nat} {msg : Msg}

theorem MsgOf.fits (hm : MsgOf sgn mem root size msg) (hcl : Closed mem (Reaches mem root))
    (haddr : ∀ a, Reaches mem root a → a < 2 ^ 64) (hsize : size < 2 ^ 64) : MsgFits msg := by
  refine ⟨fun v hv => haddr v ((hm.mem_ids v).1 hv), fun v hv => haddr v ((hm.mem_fins v).1 hv).1, fun e he => ?_,
    by rw [hm.root_id]; exact haddr _ .refl, by rw [hm.size_eq]; exact hsize⟩
  have hw := hm.wellFormed hcl
  exact ⟨haddr _ ((hm.mem_ids _).1 (hw.source e he)), haddr _ ((hm.mem_ids _).1 (hw.target e he))⟩

end

end Lev
