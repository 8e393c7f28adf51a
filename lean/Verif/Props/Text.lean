import Verif.Proofs.Text
import Verif.Props.Distance

/-!
# Property C79: the texts of nodes, dictionaries and pairs

The model is `Verif/Model/Text.lean`; a text is a sequence of bytes, `lit` turns a literal into one.
-/

namespace Lev.Props

open Lev Spec

/-- C79, the text of a node: whether it is final, and its labels in order, separated by commas. -/
theorem c79_node (nd : DNode) :
    putNode nd = lit "DawgNode{is_final=" ++ lit (if nd.final then "true" else "false") ++ lit ", edges={" ++
      (lit ", ").intercalate (nd.edges.map fun e => lit "'" ++ [e.1] ++ lit "':DawgNode{...}") ++ lit "}}" := by
  have e : (fun e : UInt8 × Nat => lit "'" ++ [e.1] ++ lit "':DawgNode{...}") = fun e => edgeText e.1 := by
    funext e
    simp only [edgeText, show lit "'" = [39] by decide, List.cons_append, List.nil_append]
  rw [e, putNode, putEdges_zero]
  cases nd.final <;> rfl

/-- C79: the text tells a node's flag and labels, whatever bytes the labels are (quotes, commas and braces too), and
nothing else. -/
theorem c79_node_readable (x y : DNode) :
    putNode x = putNode y ↔ x.final = y.final ∧ x.edges.map (·.1) = y.edges.map (·.1) := by
  refine ⟨putNode_inj, fun ⟨h1, h2⟩ => ?_⟩
  have h3 : x.edges.map (fun e => edgeText e.1) = y.edges.map (fun e => edgeText e.1) := by
    have := congrArg (List.map edgeText) h2
    rwa [List.map_map, List.map_map] at this
  simp only [putNode, putEdges_zero, h1, h3]

/-- C79: the text of a dictionary tells its size and, as far as the text of a pointer does, where its root is. -/
theorem c79_dictionary_readable (ptr : Nat → Str) (size root size' root' : Nat) :
    putDawg ptr size root = putDawg ptr size' root' ↔ size = size' ∧ ptr root = ptr root' :=
  ⟨putDawg_inj, fun ⟨h1, h2⟩ => by simp only [putDawg, h1, h2]⟩

/-- C79: the text of a pair of strings without quotes tells which two strings they are. -/
theorem c79_pair_readable {u v x y : Str} (h : ∀ s ∈ [u, v, x, y], 34 ∉ s) :
    putPair (SymPair.make u v) = putPair (SymPair.make x y) ↔ (u = x ∧ v = y) ∨ (u = y ∧ v = x) := by
  have hno : ∀ {a b : Str}, 34 ∉ a → 34 ∉ b → 34 ∉ (SymPair.make a b).first := by
    intro a b ha hb
    unfold SymPair.make
    split
    · exact ha
    · exact hb
  rw [← c14_unordered_pair]
  simp only [SymPair.eq, Bool.and_eq_true, beq_iff_eq]
  constructor
  · intro he
    have := putPair_inj (hno (h u (by simp)) (h v (by simp))) (hno (h x (by simp)) (h y (by simp))) he
    simp [this]
  · rintro ⟨h1, h2⟩
    simp only [putPair, h1, h2]

/-- C79, the limit of it: two different pairs with the same text, since quotes are not marked. -/
theorem c79_pair_ambiguous : ∃ u v x y : Str, ¬ ((u = x ∧ v = y) ∨ (u = y ∧ v = x)) ∧
    putPair (SymPair.make u v) = putPair (SymPair.make x y) :=
  ⟨lit "a", lit "b\", second=\"c", lit "a\", second=\"b", lit "c", by decide, by decide⟩

-- a final node with the labels `'` and `,`; targets do not show
example : putNode { final := true, edges := [(39, 8), (44, 16)] } =
    lit "DawgNode{is_final=true, edges={''':DawgNode{...}, ',':DawgNode{...}}}" := by decide +kernel

example : putNode { final := false, edges := [] } = lit "DawgNode{is_final=false, edges={}}" := by decide

example : putDawg (fun a => lit "0x" ++ putSize a) 10 1 = lit "Dawg{size=10, root=0x1}" := by decide +kernel

example : putPair (SymPair.make (lit "foo") (lit "bar")) = lit "SymmetricPair{first=\"bar\", second=\"foo\"}" := by
  decide +kernel

-- strings without quotes
example : ∀ s ∈ [lit "foo", lit "bar", lit "bar", lit "foo"], (34 : UInt8) ∉ s := by decide

end Lev.Props
