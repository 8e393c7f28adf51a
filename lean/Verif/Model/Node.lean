import Verif.Model.Basic
import Verif.Model.Hash

/-!
# Nodes of the dictionary graph in memory

Models the data of `/repo/src/liblevenshtein/collection/dawg_node.{h,cpp}`.
-/

namespace Lev

/-- `DawgNode` (`dawg_node.h:20-101`).  `edges` lists the entries of `std::map<char, DawgNode *> _edges` in
the order of the map; a target is an address, 0 being `nullptr`. -/
structure DNode where
  final : Bool
  edges : List (UInt8 × Nat)
deriving DecidableEq, Repr

/-- The memory in which nodes live: what is allocated at an address. -/
abbrev Mem := Nat → Option DNode

/-- Dereferencing a node pointer: anything but a live node is undefined behaviour. -/
def deref (mem : Mem) (a : Nat) : Except Err DNode :=
  match mem a with
  | some nd => .ok nd
  | none => .error .ub

end Lev
