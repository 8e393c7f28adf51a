import Verif.Model.DemoText
import Verif.Model.Distance

/-!
# Texts of nodes, dictionaries and pairs

The three `operator<<` that are not used by the rest of the library: `dawg_node.cpp:77-89`, `dawg.cpp:67-70`,
`distance/symmetric_pair.cpp:23-28`. A text is what is appended to the stream.
-/

namespace Lev

/-- The calls of the lambda in `operator<<` of a node (`dawg_node.cpp:80-86`), `index` counted up and the text appended to
`out`. -/
def putEdges (index : Nat) (out : Str) : List (UInt8 × Nat) → Str
  | [] => out
  | (label, _) :: es =>
      let out := if index > 0 then out ++ lit ", " else out
      putEdges (index + 1) (out ++ lit "'" ++ [label] ++ lit "':DawgNode{...}") es

/-- `operator<<(std::ostream &, const DawgNode &)` (`dawg_node.cpp:77-89`). -/
def putNode (nd : DNode) : Str :=
  putEdges 0 (lit "DawgNode{is_final=" ++ (if nd.final then lit "true" else lit "false") ++ lit ", edges={") nd.edges ++
    lit "}}"

/-- `operator<<(std::ostream &, const Dawg &)` (`dawg.cpp:67-70`). How a pointer is printed is left to the implementation:
`ptr`. -/
def putDawg (ptr : Nat → Str) (size root : Nat) : Str :=
  lit "Dawg{size=" ++ putSize size ++ lit ", root=" ++ ptr root ++ lit "}"

/-- `operator<<(std::ostream &, const SymmetricPair &)` (`distance/symmetric_pair.cpp:23-28`). -/
def putPair (p : SymPair) : Str :=
  lit "SymmetricPair{first=\"" ++ p.first ++ lit "\", second=\"" ++ p.second ++ lit "\"}"

end Lev
