import Verif.Proofs.Demo
import Verif.Proofs.SerialCopy
import Verif.Props.SerialAny
import Verif.Spec.DemoAny

/-!
# The demo program with a serialization file from elsewhere
-/

namespace Lev

open Spec

/-! ### Numbers in a message that was read -/

theorem readVarint_lt {bs rest : List UInt8} {v : Nat} (h : readVarint bs = some (v, rest)) : v < 2 ^ 64 := by
  unfold readVarint at h
  cases hb : readVarintN 10 bs with
  | none => simp [hb] at h
  | some r =>
    simp only [hb, Option.map_some, Option.some.injEq, Prod.mk.injEq] at h
    rw [← h.1]
    exact Nat.mod_lt _ (by omega)

theorem readPlain_lt {wire : Nat} {bs rest : List UInt8} {v : Nat} (h : readPlain wire bs = some (.varint v, rest)) :
    v < 2 ^ 64 := by
  unfold readPlain at h
  split at h
  · simp only [Option.map_eq_some_iff] at h
    obtain ⟨s, hs, h⟩ := h
    simp only [Prod.mk.injEq, Payload.varint.injEq] at h
    rw [← h.1]
    exact readVarint_lt (rest := s.2) hs
  · simp only [Option.map_eq_some_iff] at h
    obtain ⟨s, _, h⟩ := h
    simp at h
  · split at h
    · cases h
    · simp only [Option.map_eq_some_iff] at h
      obtain ⟨s, _, h⟩ := h
      simp at h
  · simp only [Option.map_eq_some_iff] at h
    obtain ⟨s, _, h⟩ := h
    simp at h
  · cases h

theorem readField_lt {depth : Nat} {bs rest : List UInt8} {num v : Nat}
    (h : readField depth bs = some (num, .varint v, rest)) : v < 2 ^ 64 := by
  unfold readField at h
  split at h
  · cases h
  · split at h
    · cases h
    · split at h
      · split at h
        · cases h
        · simp only [Option.map_eq_some_iff] at h
          obtain ⟨s, _, h⟩ := h
          simp at h
      · simp only [Option.map_eq_some_iff] at h
        obtain ⟨s, hs, h⟩ := h
        simp only [Prod.mk.injEq] at h
        obtain ⟨_, h1, rfl⟩ := h
        exact readPlain_lt (rest := s.2) (by rw [hs, ← h1])

theorem readFields_lt {depth fuel : Nat} {bs : List UInt8} {fs : List (Nat × Payload)} (h : readFields depth fuel bs = some fs)
    {num v : Nat} (hm : (num, Payload.varint v) ∈ fs) : v < 2 ^ 64 := by
  induction fuel generalizing bs fs with
  | zero =>
    cases bs with
    | nil => simp only [readFields, Option.some.injEq] at h; subst h; simp at hm
    | cons b bs => simp [readFields] at h
  | succ fuel ih =>
    cases bs with
    | nil => simp only [readFields, Option.some.injEq] at h; subst h; simp at hm
    | cons b bs =>
      simp only [readFields] at h
      split at h
      · cases h
      · next num' p rest hf =>
        simp only [Option.map_eq_some_iff] at h
        obtain ⟨fs', h1, rfl⟩ := h
        rcases List.mem_cons.1 hm with he | hm
        · cases he
          exact readField_lt hf
        · exact ih h1 hm

theorem readPacked_lt {fuel : Nat} {bs : List UInt8} {vs : List Nat} (h : readPacked fuel bs = some vs) {v : Nat}
    (hm : v ∈ vs) : v < 2 ^ 64 := by
  induction fuel generalizing bs vs with
  | zero =>
    cases bs with
    | nil => simp only [readPacked, Option.some.injEq] at h; subst h; simp at hm
    | cons b bs => simp [readPacked] at h
  | succ fuel ih =>
    cases bs with
    | nil => simp only [readPacked, Option.some.injEq] at h; subst h; simp at hm
    | cons b bs =>
      simp only [readPacked] at h
      split at h
      · cases h
      · next v' rest hf =>
        simp only [Option.map_eq_some_iff] at h
        obtain ⟨vs', h1, rfl⟩ := h
        rcases List.mem_cons.1 hm with rfl | hm
        · exact readVarint_lt hf
        · exact ih h1 hm

theorem decodeEdge_fits {bs : List UInt8} {e : MsgEdge} (h : decodeEdge bs = some e) : EdgeFits e := by
  simp only [decodeEdge, Option.map_eq_some_iff] at h
  obtain ⟨fs, h1, rfl⟩ := h
  have key : ∀ (fs : List (Nat × Payload)) (e : MsgEdge), (∀ num v, (num, Payload.varint v) ∈ fs → v < 2 ^ 64) →
      EdgeFits e → EdgeFits (fs.foldl applyEdge e) := by
    intro fs
    induction fs with
    | nil => intro e _ h; exact h
    | cons f fs ih =>
      intro e hv he
      refine ih _ (fun num v hm => hv num v (by simp [hm])) ?_
      unfold applyEdge
      split
      · next v => exact ⟨hv 1 v (by simp), he.2⟩
      · exact he
      · next v => exact ⟨he.1, hv 3 v (by simp)⟩
      · exact he
  exact key fs _ (fun num v hm => readFields_lt h1 hm) ⟨by simp, by simp⟩

/-- Every message that was parsed has numbers of 64 bits. -/
theorem decode_fits {bs : List UInt8} {m : Msg} (h : decodeMsg bs = some m) : MsgFits m := by
  unfold decodeMsg at h
  split at h
  · split at h
    · cases h
    · next fs hf =>
      have key : ∀ (fs : List (Nat × Payload)) (m m' : Msg), (∀ num v, (num, Payload.varint v) ∈ fs → v < 2 ^ 64) →
          MsgFits m → applyFields m fs = some m' → MsgFits m' := by
        intro fs
        induction fs with
        | nil => intro m m' _ hm h; cases h; exact hm
        | cons f fs ih =>
          intro m m' hv hm h
          simp only [applyFields] at h
          split at h
          · cases h
          · next m1 h1 =>
            refine ih _ _ (fun num v hm => hv num v (by simp [hm])) ?_ h
            unfold applyField at h1
            split at h1
            · next v =>
              cases h1
              exact ⟨fun x hx => (List.mem_append.1 hx).elim (hm.ids x) fun hx => by
                rw [List.mem_singleton.1 hx]; exact hv 1 v (by simp), hm.finals, hm.edges, hm.root, hm.size⟩
            · next bs =>
              simp only [Option.map_eq_some_iff] at h1
              obtain ⟨vs, h2, rfl⟩ := h1
              exact ⟨fun x hx => (List.mem_append.1 hx).elim (hm.ids x) fun hx => readPacked_lt h2 hx,
                hm.finals, hm.edges, hm.root, hm.size⟩
            · next v =>
              cases h1
              exact ⟨hm.ids, fun x hx => (List.mem_append.1 hx).elim (hm.finals x) fun hx => by
                rw [List.mem_singleton.1 hx]; exact hv 2 v (by simp), hm.edges, hm.root, hm.size⟩
            · next bs =>
              simp only [Option.map_eq_some_iff] at h1
              obtain ⟨vs, h2, rfl⟩ := h1
              exact ⟨hm.ids, fun x hx => (List.mem_append.1 hx).elim (hm.finals x) fun hx => readPacked_lt h2 hx,
                hm.edges, hm.root, hm.size⟩
            · next bs =>
              simp only [Option.map_eq_some_iff] at h1
              obtain ⟨e, h2, rfl⟩ := h1
              exact ⟨hm.ids, hm.finals, fun x hx => (List.mem_append.1 hx).elim (hm.edges x) fun hx => by
                rw [List.mem_singleton.1 hx]; exact decodeEdge_fits h2, hm.root, hm.size⟩
            · next v => cases h1; exact ⟨hm.ids, hm.finals, hm.edges, hv 4 v (by simp), hm.size⟩
            · next v => cases h1; exact ⟨hm.ids, hm.finals, hm.edges, hm.root, hv 5 v (by simp)⟩
            · cases h1; exact hm
      exact key fs _ _ (fun num v hm => readFields_lt hf hm) ⟨by simp [Msg.empty], by simp [Msg.empty], by simp [Msg.empty],
        by simp [Msg.empty], by simp [Msg.empty]⟩ h
  · cases h

/-! ### How many nodes are allocated -/

theorem makeNodes_count (addr : Nat → Nat) (finals ids : List Nat) (nodes : List (Nat × Nat)) (h : Heap) :
    (makeNodes addr finals ids nodes h).2.count ≤ h.count + ids.length := by
  induction ids generalizing nodes h with
  | nil => simp [makeNodes]
  | cons id ids ih =>
    simp only [makeNodes, List.length_cons]
    split
    · have := ih nodes h; omega
    · refine Nat.le_trans (ih _ _) ?_
      simp only; omega

theorem makeEdges_count {sgn : Bool} {nodes : List (Nat × Nat)} {es : List MsgEdge} {h h' : Heap}
    (e : makeEdges sgn nodes es h = .ok h') : h'.count = h.count := by
  induction es generalizing h with
  | nil => cases e; rfl
  | cons x es ih =>
    simp only [makeEdges, bind, Except.bind] at e
    split at e
    · cases e
    · next h1 he => rw [ih e, addEdge_count he]

theorem fromProto_count {sgn : Bool} {addr : Nat → Nat} {msg : Msg} {h h' : Heap} {d : SDawg}
    (e : fromProto sgn addr msg h = .ok (h', d)) : h'.count ≤ h.count + msg.nodeIds.length := by
  simp only [fromProto, bind, Except.bind] at e
  split at e
  · cases e
  · next h1 he =>
    cases e
    rw [makeEdges_count he]
    exact makeNodes_count ..

/-! ### What is written -/

section
variable {sgn : Bool} {addr : Nat → Nat} {h h' : Heap} {msg : Msg} {d : SDawg} {φ : Nat → Nat}

/-- The nodes and edges of what was read are at most those of the message. -/
theorem ReadAny.counted (hr : ReadAny sgn addr h msg h' d φ) (hd : ¬ Dangling msg) :
    Counted h'.mem d.root msg.nodeIds.length msg.edges.length := by
  have hl := hr.allAlive.2 hd
  have hreach : ∀ a, Reaches h'.mem d.root a → ∃ x, x ∈ msg.nodeIds ∧ ¬ Deletes msg msg.edges x ∧ a = φ x := by
    intro a ha
    obtain ⟨t, y, hw, rfl⟩ := (hr.reaches hd a).1 ha
    refine ⟨y, ?_, ?_, rfl⟩
    · exact Classical.byContradiction fun hn => hd ⟨t, y, hw, .inl hn⟩
    · exact fun hn => hd ⟨t, y, hw, .inr hn⟩
  refine ⟨fun l hn hl => ?_, fun l hn hl => ?_⟩
  · have := hn.length_le_of_subset (l₂ := msg.nodeIds.map φ) fun a hal => by
      obtain ⟨y, hy, _, rfl⟩ := hreach a (hl a hal)
      exact List.mem_map.2 ⟨y, hy, rfl⟩
    simpa using this
  · have := hn.length_le_of_subset (l₂ := msg.edges.map fun e => (φ e.source, charOfLabel e.label)) fun x hx => by
      obtain ⟨a, c⟩ := x
      obtain ⟨hra, nd, b, hm, hb⟩ := hl _ hx
      obtain ⟨y, hy, hdel, he⟩ := hreach _ hra
      simp only at he hm hb
      subst he
      obtain ⟨es, g3, _, g4⟩ := hr.node y hy hdel
      rw [hm] at g3
      obtain rfl := Option.some.inj g3
      obtain ⟨e, he, e1, e2, _⟩ := (g4 c b).1 hb
      exact List.mem_map.2 ⟨e, he.mem, by rw [e1, e2]⟩
    simpa using this

/-- The message of a graph is a tidy version of the one it was read from. -/
theorem ReadAny.tidied (hr : ReadAny sgn addr h msg h' d φ) (hd : ¬ Dangling msg) {msg' : Msg}
    (hm : MsgOf sgn h'.mem d.root d.size msg') {bs : List UInt8} (hb : decodeMsg bs = some msg') : Tidied msg bs := by
  have hl := hr.allAlive.2 hd
  have hcl := closed_of_alive hl
  have hw := hm.wellFormed hcl
  have ha : Allocator (fun k => k + 1) ⟨fun _ => none, 0⟩ := ⟨by simp, by simp, rfl, fun _ _ => rfl⟩
  obtain ⟨g', d', ψ, r1, r2⟩ := wellFormed_from (sgn := sgn) ha hw
  obtain ⟨hc, _⟩ := hm.copyOf r2 hl
  obtain ⟨χ, r3⟩ := Props.readAny_of_ok ha r1
  have hd' := r3.allAlive.1 (hc.alive hl)
  refine ⟨msg', hb, hw, fun x hx => ?_, by rw [hm.size_eq, hr.size], fun t => ?_, ?_⟩
  · rw [hm.root_id]
    exact hm.msgReaches .refl hcl ((hm.mem_ids x).1 hx)
  · unfold MsgSpells
    rw [← r3.accepts hd', hc.accepts hl, hr.accepts hd]
  · rw [← r3.hasCycle hd', hc.hasCycle hl, hr.hasCycle hd]

/-- What `serialize_protobuf` writes of a graph that was read. -/
theorem ReadAny.saved (hr : ReadAny sgn addr h msg h' d φ) (hd : ¬ Dangling msg)
    (haddr : ∀ a, Reaches h'.mem d.root a → a < 2 ^ 64) (hsize : msg.size < 2 ^ 64) :
    ∃ r, Ends (fun fuel => serializeStream sgn h'.mem fuel d.root d.size) r ∧ Saved msg (r.getD []) := by
  have hl := hr.allAlive.2 hd
  have hcl := closed_of_alive hl
  obtain ⟨U, hU⟩ := hr.finite
  obtain ⟨msg', ⟨N, hN⟩, hm⟩ := (toProto_graph hU hr.sorted d.size).1 hl
  have hf := hm.fits hcl haddr (by rw [hr.size]; exact hsize)
  obtain ⟨c1, c2⟩ := hr.counted hd
  have hV : msg'.nodeIds.length ≤ msg.nodeIds.length :=
    c1 _ (hm.ids.imp fun h => Nat.ne_of_lt h) fun a ha => (hm.mem_ids a).1 ha
  have hE : msg'.edges.length ≤ msg.edges.length := by
    obtain ⟨L, g1, g2, g3⟩ := hm.edges
    have := c2 (L.map (·.1)) (List.pairwise_map.2 (g1.imp fun h he => by
      rw [he] at h; simp [KeyLt, charLt] at h)) (fun x hx => by
        obtain ⟨⟨⟨s, l⟩, t⟩, hy, rfl⟩ := List.mem_map.1 hx
        obtain ⟨a1, nd, a2, a3⟩ := (g2 s l t).1 hy
        exact ⟨a1, nd, t, a2, a3⟩)
    rw [g3]; simpa using this
  have hsub : msg'.finalIds.Sublist msg'.nodeIds :=
    sorted_sublist (lt := fun a b : Nat => a < b) (fun a h => Nat.lt_irrefl a h) (fun a b h h' => by omega) hm.fins hm.ids
      fun a ha => (hm.mem_ids a).2 ((hm.mem_fins a).1 ha).1
  have hle := hsub.length_le
  refine ⟨encodeMsg msg', ⟨N, fun fuel hfu => ?_⟩, ?_⟩
  · have : toProto sgn h'.mem fuel d.root d.size = .ok msg' := hN fuel hfu
    simp only [serializeStream, this, bind, Except.bind]
    rfl
  · by_cases hmax : (encodeBytes msg').length ≤ maxBytes
    · rw [encodeMsg, if_pos hmax]
      exact .inl (hr.tidied hd hm (decode_encode hf hmax))
    · rw [encodeMsg, if_neg hmax]
      refine .inr ⟨rfl, Classical.byContradiction fun hn => hmax ?_⟩
      have hlen := encodeBytes_length hf ⟨by omega, by omega⟩
      unfold maxBytes; omega

end

/-! ### The loop of queries -/

section
variable {A : Algorithm} {n : Nat} {mem : Mem} {root : Nat}

/-- What the loop does if one of the queries is undefined. -/
theorem demoLoop_ub {qs : List Str} (h : ∀ q ∈ qs, NoNewline q ∧ q ≠ []) (rest : List UInt8)
    (hy : ∀ q ∈ qs, (∃ rs, Yields A updCandidate mem root q n rs) ∨
      ∃ N, ∀ fuel, N ≤ fuel → ∀ dflt, transduce A updCandidate dflt mem root q n fuel = .error .ub)
    (hub : ∃ q ∈ qs, ∃ N, ∀ fuel, N ≤ fuel → ∀ dflt, transduce A updCandidate dflt mem root q n fuel = .error .ub) :
    ∃ N, ∀ bound fuel, N ≤ bound → N ≤ fuel → ∀ str,
      demoLoop A n mem root bound fuel (.open (textOf qs rest)) str = .error .ub := by
  induction qs with
  | nil => obtain ⟨q, hq, _⟩ := hub; simp at hq
  | cons q qs ih =>
    obtain ⟨hq, hne⟩ := h q (by simp)
    have e : textOf (q :: qs) rest = q ++ 10 :: textOf qs rest := by simp [textOf]
    by_cases hu : ∃ N, ∀ fuel, N ≤ fuel → ∀ dflt, transduce A updCandidate dflt mem root q n fuel = .error .ub
    · obtain ⟨N, hN⟩ := hu
      refine ⟨N + 1, fun bound fuel hb hf str => ?_⟩
      obtain ⟨fuel, rfl⟩ : ∃ k, fuel = k + 1 := ⟨fuel - 1, by omega⟩
      simp only [demoLoop, e, getline_newline hq, hne, if_false, hN bound (by omega), bind, Except.bind]
    · obtain ⟨rs, M, hM⟩ := (hy q (by simp)).resolve_right hu
      obtain ⟨N, hN⟩ := ih (fun q' hq' => h q' (by simp [hq'])) (fun q' hq' => hy q' (by simp [hq'])) (by
        obtain ⟨q', hq', hu'⟩ := hub
        rcases List.mem_cons.1 hq' with rfl | hq'
        · exact absurd hu' hu
        · exact ⟨q', hq', hu'⟩)
      refine ⟨max N M + 1, fun bound fuel hb hf str => ?_⟩
      obtain ⟨fuel, rfl⟩ : ∃ k, fuel = k + 1 := ⟨fuel - 1, by omega⟩
      simp only [demoLoop, e, getline_newline hq, hne, if_false, hM bound (by omega), bind, Except.bind]
      rw [hN bound fuel (by omega) (by omega)]

/-- The same if it is the last one, which has no newline. -/
theorem demoLoop_last_ub {qs : List Str} (h : ∀ q ∈ qs, NoNewline q ∧ q ≠ []) {last : Str} (hl : NoNewline last)
    (hne : last ≠ []) (hy : ∀ q ∈ qs, ∃ rs, Yields A updCandidate mem root q n rs)
    (hub : ∃ N, ∀ fuel, N ≤ fuel → ∀ dflt, transduce A updCandidate dflt mem root last n fuel = .error .ub) :
    ∃ N, ∀ bound fuel, N ≤ bound → N ≤ fuel → ∀ str,
      demoLoop A n mem root bound fuel (.open (textOf qs last)) str = .error .ub := by
  induction qs with
  | nil =>
    obtain ⟨N, hN⟩ := hub
    refine ⟨N + 1, fun bound fuel hb hf str => ?_⟩
    obtain ⟨fuel, rfl⟩ : ∃ k, fuel = k + 1 := ⟨fuel - 1, by omega⟩
    simp only [textOf, List.flatMap_nil, List.nil_append, demoLoop, getline_end hl, hne, if_false, hN bound (by omega), bind,
      Except.bind]
  | cons q qs ih =>
    obtain ⟨hq, hqe⟩ := h q (by simp)
    have e : textOf (q :: qs) last = q ++ 10 :: textOf qs last := by simp [textOf]
    obtain ⟨rs, M, hM⟩ := hy q (by simp)
    obtain ⟨N, hN⟩ := ih (fun q' hq' => h q' (by simp [hq'])) fun q' hq' => hy q' (by simp [hq'])
    refine ⟨max N M + 1, fun bound fuel hb hf str => ?_⟩
    obtain ⟨fuel, rfl⟩ : ∃ k, fuel = k + 1 := ⟨fuel - 1, by omega⟩
    simp only [demoLoop, e, getline_newline hq, hqe, if_false, hM bound (by omega), bind, Except.bind]
    rw [hN bound fuel (by omega) (by omega)]

end

/-- Every input asks for some queries. -/
theorem asks_exists (stdin : List UInt8) : ∃ qs stuck, Asks stdin qs stuck := by
  obtain ⟨ls, last, rfl, h1, h2⟩ := textOf_exists stdin
  have key : ∀ ls : List Str, (∀ l ∈ ls, NoNewline l) → ∃ qs stuck, Asks (textOf ls last) qs stuck := by
    intro ls
    induction ls with
    | nil =>
      intro _
      by_cases hl : last = []
      · exact ⟨[], false, by simp, .inl ⟨rfl, [], by simp [textOf, hl], .inr rfl⟩⟩
      · exact ⟨[last], true, by simpa using ⟨h2, hl⟩, .inr ⟨rfl, [], last, rfl, rfl⟩⟩
    | cons a ls ih =>
      intro h
      have e : textOf (a :: ls) last = a ++ 10 :: textOf ls last := by simp [textOf]
      by_cases ha : a = []
      · exact ⟨[], false, by simp, .inl ⟨rfl, 10 :: textOf ls last, by rw [e, ha]; simp [textOf], .inl ⟨_, rfl⟩⟩⟩
      · obtain ⟨qs, stuck, g1, g2⟩ := ih fun l hl => h l (by simp [hl])
        refine ⟨a :: qs, stuck, ?_, ?_⟩
        · intro q hq
          rcases List.mem_cons.1 hq with rfl | hq
          · exact ⟨h q (by simp), ha⟩
          · exact g1 q hq
        · rcases g2 with ⟨g3, rest, g4, g5⟩ | ⟨g3, ls', last', g4, g5⟩
          · exact .inl ⟨g3, rest, by rw [e, g4]; simp [textOf], g5⟩
          · exact .inr ⟨g3, a :: ls', last', by rw [g4]; rfl, by rw [e, g5]; simp [textOf]⟩
  exact key ls h1

end Lev
