import Verif.Spec.Joined
import Verif.Proofs.WireGrammar
import Verif.Proofs.SerialWalk

/-!
Several dictionaries in one stream.
-/

namespace Lev

open Spec

/-! ### Bytes -/

/-- What the fields of a message make of another one. -/
theorem applyFields_msgChunks_joined {m1 m2 : Msg} (h : MsgFits m2) :
    applyFields m1 ((msgChunks m2).map (·.2)) = some (joined m1 m2) := by
  simp only [msgChunks, List.map_append, applyFields_append, applyFields_ids h.ids, applyFields_finals h.finals,
    applyFields_edges h.edges, Option.bind_some]
  obtain ⟨ids, fs, es, r, s⟩ := m2
  unfold scalarChunks
  by_cases hr : r = 0 <;> by_cases hs : s = 0 <;> simp [hr, hs, applyFields, applyField, joined, lastWritten]

theorem fields_encodeBytes {m : Msg} (h : MsgFits m) (hl : (encodeBytes m).length ≤ maxBytes) :
    Fields 100 (encodeBytes m) ((msgChunks m).map (·.2)) := by
  rw [← readFields_iff, ← flat_msgChunks]
  exact readFields_chunks (msgChunks_ok h hl) _ _ (Nat.le_refl _)

theorem dictBytes_joined {b1 : List UInt8} {m1 m2 : Msg} (h1 : DictBytes b1 m1) (h2 : MsgFits m2)
    (hl : (b1 ++ encodeBytes m2).length < 2 ^ 31) : DictBytes (b1 ++ encodeBytes m2) (joined m1 m2) := by
  obtain ⟨_, fs, g1, g2⟩ := h1
  have hl2 : (encodeBytes m2).length ≤ maxBytes := by
    rw [List.length_append] at hl; unfold maxBytes; omega
  refine dictBytes_of_adds hl (fields_append g1 (fields_encodeBytes h2 hl2)) ?_
  rw [← applyFields_iff, applyFields_append, applyFields_iff.2 (adds_of_fields g2)]
  exact applyFields_msgChunks_joined h2

/-! ### Two dictionaries without common nodes -/

section
variable {m1 m2 : Msg}

/-- No node belongs to both. -/
def NoCommon (m1 m2 : Msg) : Prop := ∀ x ∈ m1.nodeIds, x ∉ m2.nodeIds

theorem joined_wellFormed (w1 : WellFormed m1) (w2 : WellFormed m2) (hap : NoCommon m1 m2) (hr : m2.rootId ≠ 0) :
    WellFormed (joined m1 m2) := by
  refine ⟨?_, fun e he => ?_, fun e he => ?_, ?_⟩
  · simp only [joined, lastWritten, if_neg hr, List.mem_append]; exact .inr w2.root
  · simp only [joined, List.mem_append] at he ⊢
    rcases he with he | he
    · exact .inl (w1.source e he)
    · exact .inr (w2.source e he)
  · simp only [joined, List.mem_append] at he ⊢
    rcases he with he | he
    · exact .inl (w1.target e he)
    · exact .inr (w2.target e he)
  · simp only [joined]
    rw [List.pairwise_append]
    refine ⟨w1.keys, w2.keys, fun e he f hf => .inl fun heq => ?_⟩
    exact hap _ (w1.source e he) (heq ▸ w2.source f hf)

theorem joined_edge (w1 : WellFormed m1) (hap : NoCommon m1 m2) {e : MsgEdge} (he : e ∈ (joined m1 m2).edges)
    (hs : e.source ∈ m2.nodeIds) : e ∈ m2.edges := by
  simp only [joined, List.mem_append] at he
  rcases he with he | he
  · exact absurd hs (hap _ (w1.source e he))
  · exact he

theorem joined_accepts (w1 : WellFormed m1) (w2 : WellFormed m2) (f1 : ∀ x ∈ m1.finalIds, x ∈ m1.nodeIds)
    (hap : NoCommon m1 m2) {x : Nat} (hx : x ∈ m2.nodeIds) (t : Str) : MsgAccepts (joined m1 m2) x t ↔ MsgAccepts m2 x t := by
  constructor
  · intro h
    induction h with
    | here hf =>
      simp only [joined, List.mem_append] at hf
      rcases hf with hf | hf
      · exact absurd hx (hap _ (f1 _ hf))
      · exact .here hf
    | step he hc _ ih =>
      have he' := joined_edge w1 hap he hx
      exact .step he' hc (ih (w2.target _ he'))
  · intro h
    induction h with
    | here hf => exact .here (by simp only [joined, List.mem_append]; exact .inr hf)
    | step he hc _ ih => exact .step (by simp only [joined, List.mem_append]; exact .inr he) hc (ih (w2.target _ he))

theorem joined_reaches (w1 : WellFormed m1) (w2 : WellFormed m2) (hap : NoCommon m1 m2) {x y : Nat} (hx : x ∈ m2.nodeIds) :
    MsgReaches (joined m1 m2) x y ↔ MsgReaches m2 x y := by
  constructor
  · intro h
    induction h with
    | refl => exact .refl
    | step he _ ih =>
      have he' := joined_edge w1 hap he hx
      exact .step he' (ih (w2.target _ he'))
  · intro h
    induction h with
    | refl => exact .refl
    | step he _ ih => exact .step (by simp only [joined, List.mem_append]; exact .inr he) (ih (w2.target _ he))

theorem msgReaches_listed (w : WellFormed m2) {x y : Nat} (hx : x ∈ m2.nodeIds) (h : MsgReaches m2 x y) : y ∈ m2.nodeIds := by
  induction h with
  | refl => exact hx
  | step he _ ih => exact ih (w.target _ he)

end

/-! ### The message of a dictionary -/

section
variable {sgn sgn' : Bool} {mem : Mem} {root size k : Nat} {msg : Msg}

theorem reaches_trans {a b c : Nat} (h : Reaches mem a b) (h' : Reaches mem b c) : Reaches mem a c := by
  induction h with
  | refl => exact h'
  | step hm he _ ih => exact .step hm he (ih h')

theorem MsgOf.accepts_iff (hm : MsgOf sgn mem root size msg) {x : Nat} (hx : Reaches mem root x) (t : Str) :
    MsgAccepts msg x t ↔ Accepts mem x t := by
  constructor
  · intro h
    induction h with
    | here hf =>
      obtain ⟨_, nd, h1, h2⟩ := (hm.mem_fins _).1 hf
      exact .here h1 h2
    | @step e c t he hc _ ih =>
      obtain ⟨_, nd, c', h2, h3, h4⟩ := (hm.mem_edges e).1 he
      have hcc : c' = c := by
        have := charOfLabel_eq_iff.2 hc
        rw [h4, charOfLabel_labelOfChar] at this; exact this
      subst hcc
      exact .step h2 h3 (ih (reaches_trans hx (.step h2 h3 .refl)))
  · intro h
    induction h with
    | here h1 h2 => exact .here ((hm.mem_fins _).2 ⟨hx, _, h1, h2⟩)
    | @step a nd c b t h1 h2 _ ih =>
      have he : (⟨a, labelOfChar sgn c, b⟩ : MsgEdge) ∈ msg.edges := (hm.mem_edges _).2 ⟨hx, nd, c, h1, h2, rfl⟩
      refine MsgAccepts.step (e := ⟨a, labelOfChar sgn c, b⟩) he ?_ (ih (reaches_trans hx (.step h1 h2 .refl)))
      exact charOfLabel_eq_iff.1 (charOfLabel_labelOfChar sgn c)

/-- The dictionary that a part of a message describes. -/
theorem MsgOf.part_dictNode {addr : Nat → Nat} {h h' : Heap} {J : Msg} {d : SDawg} {φ : Nat → Nat}
    (hm : MsgOf sgn mem root size msg) (hr : Restored sgn' addr h J h' d φ)
    (hN : ∀ x ∈ msg.nodeIds, x ∈ J.nodeIds) (hE : ∀ e ∈ J.edges, e.source ∈ msg.nodeIds → e ∈ msg.edges)
    {x : Nat} (hd : DictNode sgn mem k x) (hx : Reaches mem root x) : DictNode sgn' h'.mem k (φ x) := by
  induction hd with
  | @mk k x nd hmx _ _ ih =>
    have hxm := (hm.mem_ids x).2 hx
    obtain ⟨es, h1, h2, h3⟩ := hr.node x (hN x hxm)
    refine .mk h1 h2 fun c b hb => ?_
    obtain ⟨e, he, hs, _, rfl⟩ := (h3 c b).1 hb
    obtain ⟨_, nd', c', h4, h5, _⟩ := (hm.mem_edges e).1 (hE e he (hs ▸ hxm))
    rw [hs, hmx] at h4; obtain rfl := Option.some.inj h4
    exact ih c' e.target h5 (reaches_trans hx (.step hmx h5 .refl))

end

/-! ### The same dictionary twice -/

section
variable {m : Msg}

theorem lastEdge_keys {es : List MsgEdge}
    (hk : es.Pairwise (fun e f => e.source ≠ f.source ∨ e.label.toNat % 256 ≠ f.label.toNat % 256)) {e : MsgEdge}
    (he : e ∈ es) : LastEdge es e := by
  obtain ⟨l1, l2, rfl⟩ := List.append_of_mem he
  refine ⟨l1, l2, rfl, fun g hg hs => ?_⟩
  rw [List.pairwise_append] at hk
  rcases (List.pairwise_cons.1 hk.2.1).1 g hg with h | h
  · exact h hs.1.symm
  · exact h hs.2.symm

/-- Each edge deletes the node to which it leads itself. -/
theorem twice_deletes (w : WellFormed m) {e : MsgEdge} (he : e ∈ m.edges) :
    Deletes (joined m m) (joined m m).edges e.target ∧ LastEdge (joined m m).edges e := by
  obtain ⟨l1, l2, hl⟩ := List.append_of_mem he
  obtain ⟨k1, k2, hk, hno⟩ := lastEdge_keys w.keys he
  have hlast : LastEdge (m.edges ++ l1) e := by
    refine ⟨k1, k2 ++ l1, by rw [hk]; simp, fun g hg hs => ?_⟩
    rcases List.mem_append.1 hg with hg | hg
    · exact hno g hg hs
    · have hkeys := w.keys
      rw [hl, List.pairwise_append] at hkeys
      rcases hkeys.2.2 g hg e (by simp) with h | h
      · exact h hs.1
      · exact h hs.2
  refine ⟨⟨m.edges ++ l1, e, l2, ?_, e, hlast, ⟨rfl, rfl⟩, rfl, ?_⟩, ⟨m.edges ++ k1, k2, ?_, hno⟩⟩
  · show m.edges ++ m.edges = _
    conv => lhs; rhs; rw [hl]
    simp
  · show e.target ∈ m.nodeIds ++ m.nodeIds
    simp [w.target e he]
  · show m.edges ++ m.edges = _
    conv => lhs; rhs; rw [hk]
    simp

theorem joined_self_root : (joined m m).rootId = m.rootId := by
  simp only [joined, lastWritten]; split <;> simp_all

theorem joined_self_size : (joined m m).size = m.size := by
  simp only [joined, lastWritten]; split <;> simp_all

theorem twice_walk (w : WellFormed m) {e : MsgEdge} (he : e ∈ m.edges) (hs : e.source = m.rootId) :
    Walk (joined m m) (joined m m).rootId [charOfLabel e.label] e.target := by
  rw [joined_self_root, ← hs]
  exact .step (twice_deletes w he).2 (charOfLabel_eq_iff.1 rfl) .here

end

end Lev
