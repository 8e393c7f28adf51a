import Verif.Proofs.SerialCopy
import Verif.Props.AnyGraph

/-!
# Property C81: serializing any graph

C27 to C29 are about dictionaries: no cycles, no missing nodes.  Here nothing is assumed of the graph but that the memory is
finite and that the edges of each node are in the order of a `std::map`.
-/

namespace Lev.Props

open Lev Spec

section
variable {sgn : Bool} {mem : Mem} {root : Nat}

/-- C81, what dictionaries are among graphs: the finite ones without missing nodes and cycles. -/
theorem c81_dictionaries :
    (∃ k, DictNode sgn mem k root) ↔ FiniteGraph mem root ∧ EdgesSorted sgn mem root ∧ AllAlive mem root ∧
      ¬ HasCycle mem root := by
  constructor
  · rintro ⟨k, hd⟩
    exact ⟨DictNode.finiteGraph hd, DictNode.edgesSorted hd, DictNode.allAlive hd, DictNode.noCycle hd⟩
  · rintro ⟨⟨U, hU⟩, hs, hl, hc⟩
    exact ⟨_, hl.dictNode hs hU hc⟩

/-- C81: `to_protobuf` always ends, cycle or not.  It is undefined behaviour exactly if a missing node can be reached;
otherwise the message lists every node that can be reached once, and every edge once, and nothing else. -/
theorem c81_outcome (hf : FiniteGraph mem root) (hs : EdgesSorted sgn mem root) (size : Nat) :
    (¬ AllAlive mem root → ∃ N, ∀ fuel, N ≤ fuel → toProto sgn mem fuel root size = .error .ub) ∧
    (AllAlive mem root → ∃ msg, Ends (fun fuel => toProto sgn mem fuel root size) msg ∧
      msg.nodeIds.Pairwise (· < ·) ∧ (∀ a, a ∈ msg.nodeIds ↔ Reaches mem root a) ∧
      msg.finalIds.Pairwise (· < ·) ∧
      (∀ a, a ∈ msg.finalIds ↔ Reaches mem root a ∧ ∃ nd, mem a = some nd ∧ nd.final = true) ∧
      msg.edges.Pairwise (fun e f => e.source < f.source ∨ (e.source = f.source ∧ charLt sgn (edgeChar e) (edgeChar f))) ∧
      (∀ a c b, (∃ e ∈ msg.edges, e.source = a ∧ edgeChar e = c ∧ e.target = b) ↔
        Reaches mem root a ∧ ∃ nd, mem a = some nd ∧ (c, b) ∈ nd.edges) ∧
      msg.rootId = root ∧ msg.size = size) := by
  obtain ⟨U, hU⟩ := hf
  obtain ⟨h1, h2⟩ := toProto_graph hU hs size
  refine ⟨fun hn => h2 ?_, fun hl => ?_⟩
  · simp only [AllAlive, Classical.not_forall, Classical.not_not] at hn
    obtain ⟨a, ha, hm⟩ := hn
    exact ⟨a, ha, hm⟩
  · obtain ⟨msg, g1, g2⟩ := h1 hl
    exact ⟨msg, g1, lists_of_msgOf g2⟩

/-- C81: what was written can be read in any memory and on any platform, and gives a copy of the graph, node by node and
edge by edge, with the same language; with a cycle exactly if there was one. -/
theorem c81_copy (hf : FiniteGraph mem root) (hs : EdgesSorted sgn mem root) (hl : AllAlive mem root) (size : Nat)
    (sgn' : Bool) {addr : Nat → Nat} {h : Heap} (ha : Allocator addr h) :
    ∃ msg h' d' φ, Ends (fun fuel => toProto sgn mem fuel root size) msg ∧ fromProto sgn' addr msg h = .ok (h', d') ∧
      d'.size = size ∧ CopyOf mem root h'.mem d'.root φ ∧ EdgesSorted sgn' h'.mem d'.root ∧
      (∀ a, h.mem a ≠ none → h'.mem a = h.mem a) ∧
      (∀ t, Accepts h'.mem d'.root t ↔ Accepts mem root t) ∧ (HasCycle h'.mem d'.root ↔ HasCycle mem root) := by
  obtain ⟨U, hU⟩ := hf
  obtain ⟨msg, h1, hm⟩ := (toProto_graph hU hs size).1 hl
  obtain ⟨h', d', φ, h2, hr⟩ := wellFormed_from (sgn := sgn') ha (hm.wellFormed (closed_of_alive hl))
  obtain ⟨hc, hs'⟩ := hm.copyOf hr hl
  exact ⟨msg, h', d', φ, h1, h2, by rw [hr.size, hm.size_eq], hc, hs', fun a => hr.oldAlive ha, hc.accepts hl, hc.hasCycle hl⟩

theorem lex_asymm {s t : Str} (h : List.Lex (charLt sgn) s t) : ¬ List.Lex (charLt sgn) t s := by
  induction h with
  | nil => intro h'; cases h'
  | rel h =>
    intro h'
    cases h' with
    | rel h' => exact charLt_irrefl (charLt_trans h h')
    | cons _ => exact charLt_irrefl h
  | cons _ ih =>
    intro h'
    cases h' with
    | rel h' => exact charLt_irrefl h'
    | cons h' => exact ih h'

theorem shortLex_asymm {s t : Str} (h : shortLex sgn s t) : ¬ shortLex sgn t s := by
  rcases h with h | ⟨h1, h2⟩
  · rintro (h' | ⟨h', _⟩) <;> omega
  · rintro (h' | ⟨_, h'⟩)
    · omega
    · exact lex_asymm h2 h'

theorem answers_unique {rs rs' : List (Str × Nat)} (h : rs.Pairwise (fun a b => shortLex sgn a.1 b.1))
    (h' : rs'.Pairwise (fun a b => shortLex sgn a.1 b.1)) (he : ∀ t d, (t, d) ∈ rs ↔ (t, d) ∈ rs') : rs = rs' := by
  have s1 := sorted_sublist (lt := fun a b : Str × Nat => shortLex sgn a.1 b.1) (fun _ h => shortLex_irrefl h)
    (fun _ _ h h' => shortLex_asymm h h') h h' fun a ha => (he a.1 a.2).1 ha
  have s2 := sorted_sublist (lt := fun a b : Str × Nat => shortLex sgn a.1 b.1) (fun _ h => shortLex_irrefl h)
    (fun _ _ h h' => shortLex_asymm h h') h' h fun a ha => (he a.1 a.2).2 ha
  exact s1.eq_of_length_le s2.length_le

/-- C81: on the same platform, the copy answers every query as the graph itself, in the same order. -/
theorem c81_same_answers (hf : FiniteGraph mem root) (hs : EdgesSorted sgn mem root) (hl : AllAlive mem root) (size : Nat)
    {addr : Nat → Nat} {h : Heap} (ha : Allocator addr h) :
    ∃ msg h' d', Ends (fun fuel => toProto sgn mem fuel root size) msg ∧ fromProto sgn addr msg h = .ok (h', d') ∧
      ∀ (A : Algorithm) (q : Str) (n : Nat), QueryFits n q ∧ q.length + n + 2 ≤ 2 ^ 62 →
        ∃ rs, Yields A updCandidate mem root q n rs ∧ Yields A updCandidate h'.mem d'.root q n rs := by
  obtain ⟨msg, h', d', φ, h1, h2, _, hc, hs', _, hacc, _⟩ := c81_copy hf hs hl size sgn ha
  refine ⟨msg, h', d', h1, h2, fun A q n hL => ?_⟩
  obtain ⟨rs, g1, g2, g3⟩ := c80_all_there hs hl A hL
  obtain ⟨rs', g4, g5, g6⟩ := c80_all_there hs' (hc.alive hl) A hL
  refine ⟨rs, g1, ?_⟩
  rw [answers_unique g3 g6 fun t d => by rw [g2, g5, hacc]]
  exact g4

end

/-- C81, foreign messages: writing what was read is undefined behaviour exactly if a missing node can be reached from the
root.  Otherwise it ends, even with a cycle, and reading the new message anywhere gives the language of the old one, and a
cycle exactly if the old one had one; but in the new message every node can be reached, no edge takes the place of another,
and reading it deletes nothing. -/
theorem c81_foreign {sgn : Bool} {addr : Nat → Nat} {h h' : Heap} {msg : Msg} {d : SDawg} (ha : Allocator addr h)
    (hok : fromProto sgn addr msg h = .ok (h', d)) :
    (Dangling msg → ∃ N, ∀ fuel, N ≤ fuel → toProto sgn h'.mem fuel d.root d.size = .error .ub) ∧
    (¬ Dangling msg → ∃ msg', Ends (fun fuel => toProto sgn h'.mem fuel d.root d.size) msg' ∧ msg'.size = msg.size ∧
      WellFormed msg' ∧ (∀ x ∈ msg'.nodeIds, MsgReaches msg' msg'.rootId x) ∧
      ∀ (sgn' : Bool) (addr' : Nat → Nat) (g : Heap), Allocator addr' g →
        ∃ g' d', fromProto sgn' addr' msg' g = .ok (g', d') ∧ AllAlive g'.mem d'.root ∧
          (∀ t, Accepts g'.mem d'.root t ↔ ∃ y, Walk msg msg.rootId t y ∧ y ∈ msg.finalIds) ∧
          (HasCycle g'.mem d'.root ↔ Cyclic msg)) := by
  obtain ⟨φ, hr⟩ := readAny_of_ok ha hok
  obtain ⟨U, hU⟩ := hr.finite
  obtain ⟨h1, h2⟩ := toProto_graph hU hr.sorted d.size
  refine ⟨fun hd => h2 ?_, fun hd => ?_⟩
  · have hn : ¬ AllAlive h'.mem d.root := fun hl => hr.allAlive.1 hl hd
    simp only [AllAlive, Classical.not_forall, Classical.not_not] at hn
    obtain ⟨a, ha, hm⟩ := hn
    exact ⟨a, ha, hm⟩
  · have hl := hr.allAlive.2 hd
    have hcl := closed_of_alive hl
    obtain ⟨msg', g1, hm⟩ := h1 hl
    have hw := hm.wellFormed hcl
    refine ⟨msg', g1, by rw [hm.size_eq, hr.size], hw, fun x hx => ?_, fun sgn' addr' g ha' => ?_⟩
    · rw [hm.root_id]
      exact hm.msgReaches .refl hcl ((hm.mem_ids x).1 hx)
    · obtain ⟨g', d', ψ, r1, r2⟩ := wellFormed_from (sgn := sgn') ha' hw
      obtain ⟨hc, _⟩ := hm.copyOf r2 hl
      exact ⟨g', d', r1, hc.alive hl, fun t => by rw [hc.accepts hl, hr.accepts hd], by rw [hc.hasCycle hl, hr.hasCycle hd]⟩

/-! ### Cases -/

/-- Reading a message and writing the result. -/
def exRewrite (msg : Msg) : Except Err Msg := do
  let (h, d) ← fromProto true (fun k => k + 1) msg exHeap
  toProto true h.mem 100 d.root d.size

-- a cycle is written as it is; the edge that was replaced and its target are left out; a missing node is undefined behaviour
example : exRewrite exLoop = .ok { nodeIds := [1], finalIds := [1], edges := [⟨1, 97, 1⟩], rootId := 1, size := 1 } := by
  decide +kernel

example : exRewrite exReplaced = .ok { nodeIds := [1, 3], finalIds := [3], edges := [⟨1, 97, 3⟩], rootId := 1, size := 1 } := by
  decide +kernel

example : exRewrite { nodeIds := [7], finalIds := [7], edges := [⟨7, 97, 9⟩], rootId := 7, size := 1 } = .error .ub := by
  decide +kernel

/-- Two nodes on a cycle. -/
def exRing : Mem := fun a => match a with
  | 1 => some ⟨false, [(97, 2)]⟩
  | 2 => some ⟨true, [(98, 1)]⟩
  | _ => none

theorem exRing_reaches {x a : Nat} (hx : x = 1 ∨ x = 2) (h : Reaches exRing x a) : a = 1 ∨ a = 2 := by
  induction h with
  | refl => exact hx
  | step hm he _ ih =>
    refine ih ?_
    rcases hx with rfl | rfl <;> cases hm <;> simp at he <;> simp [he.2]

theorem exRing_fine (sgn : Bool) : FiniteGraph exRing 1 ∧ EdgesSorted sgn exRing 1 ∧ AllAlive exRing 1 ∧ HasCycle exRing 1 := by
  refine ⟨⟨[1, 2], fun a ha => by simpa using exRing_reaches (.inl rfl) ha⟩, fun a nd ha hm => ?_, fun a ha hm => ?_, ?_⟩
  · rcases exRing_reaches (.inl rfl) ha with rfl | rfl <;> cases hm <;> simp
  · rcases exRing_reaches (.inl rfl) ha with rfl | rfl <;> cases hm
  · exact ⟨1, ⟨false, [(97, 2)]⟩, 97, 2, .refl, rfl, by simp, .step (nd := ⟨true, [(98, 1)]⟩) (c := 98) rfl (by simp) .refl⟩

example : toProto true exRing 100 1 7 =
    .ok { nodeIds := [1, 2], finalIds := [2], edges := [⟨1, 97, 2⟩, ⟨2, 98, 1⟩], rootId := 1, size := 7 } := by
  decide +kernel

end Lev.Props
