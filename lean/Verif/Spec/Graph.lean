import Verif.Spec.Dict
import Verif.Spec.Edit

/-!
# Graphs that are no dictionaries

Graphs in memory with cycles or with edges to places where there is no node, as they come out of foreign files.
-/

namespace Lev

namespace Spec

/-- Edges are in the order of a `std::map` wherever there is a node below `root`. -/
def EdgesSorted (sgn : Bool) (mem : Mem) (root : Nat) : Prop :=
  ∀ a nd, Reaches mem root a → mem a = some nd → nd.edges.Pairwise (fun e f => charLt sgn e.1 f.1)

/-- Finitely many places can be reached from `root`. -/
def FiniteGraph (mem : Mem) (root : Nat) : Prop := ∃ U : List Nat, ∀ a, Reaches mem root a → a ∈ U

/-- Every place that can be reached from `root` holds a node. -/
def AllAlive (mem : Mem) (root : Nat) : Prop := ∀ a, Reaches mem root a → mem a ≠ none

/-- A cycle can be reached from `root`. -/
def HasCycle (mem : Mem) (root : Nat) : Prop :=
  ∃ a nd c b, Reaches mem root a ∧ mem a = some nd ∧ (c, b) ∈ nd.edges ∧ Reaches mem b a

/-- The graph below `root'` in `mem'` is a copy of that below `root` in `mem`: `φ` maps nodes to nodes, no two to the same,
and no node is left out on either side. -/
structure CopyOf (mem : Mem) (root : Nat) (mem' : Mem) (root' : Nat) (φ : Nat → Nat) : Prop where
  base : root' = φ root
  inj : ∀ x y, Reaches mem root x → Reaches mem root y → φ x = φ y → x = y
  node : ∀ x nd, Reaches mem root x → mem x = some nd → ∃ es, mem' (φ x) = some ⟨nd.final, es⟩ ∧
    ∀ c b, (c, b) ∈ es ↔ ∃ b0, (c, b0) ∈ nd.edges ∧ b = φ b0
  onto : ∀ a, Reaches mem' root' a ↔ ∃ x, Reaches mem root x ∧ a = φ x

/-- A prefix that can be continued to a string within cost `n` of `q` leads to a place where there is no node. -/
def Pitfall (A : Algorithm) (n : Nat) (q : Str) (mem : Mem) (root : Nat) : Prop :=
  ∃ w b, Viable A q n w ∧ Leads mem root w b ∧ mem b = none

/-- Reading `v` leads to a place where there is no node. -/
def LeadsNowhere (mem : Mem) (root : Nat) (v : Str) : Prop := ∃ b, Leads mem root v b ∧ mem b = none

/-- `L` lists the first strings of the graph's language, by length and then by `char`. -/
def FirstTerms (sgn : Bool) (mem : Mem) (root : Nat) (L : List Str) : Prop :=
  L.Pairwise (shortLex sgn) ∧ (∀ t ∈ L, Accepts mem root t) ∧
    ∀ t, Accepts mem root t → t ∈ L ∨ ∀ u ∈ L, shortLex sgn u t

/-- No more than `k` strings have the property. -/
def AtMost (k : Nat) (P : Str → Prop) : Prop := ∀ L : List Str, L.Nodup → (∀ t ∈ L, P t) → L.length ≤ k

/-- In lexicographic order, `v` is the first string that leads to a missing node, and only finitely many strings that can be
read come before it. -/
def FirstGap (sgn : Bool) (mem : Mem) (root : Nat) (v : Str) : Prop :=
  LeadsNowhere mem root v ∧ (∀ w, List.Lex (charLt sgn) w v → ¬ LeadsNowhere mem root w) ∧
    ∃ N, ∀ w b, Leads mem root w b → List.Lex (charLt sgn) w v → w.length ≤ N

/-- Reading `w` leads somewhere from both places. -/
def CommonAt (mem : Mem) (a b : Nat) (w : Str) : Prop := (∃ x, Leads mem a w x) ∧ ∃ y, Leads mem b w y

/-- Where `v` leads from `a` there is something else than where it leads from `b`: nodes that differ in being final or in the
number of their edges, or an edge from `a` for which there is none from `b`, or one that is null. -/
def DifferAt (mem : Mem) (a b : Nat) (v : Str) : Prop :=
  (∃ x y nd nd', Leads mem a v x ∧ Leads mem b v y ∧ mem x = some nd ∧ mem y = some nd' ∧
    (nd.final ≠ nd'.final ∨ nd.edges.length ≠ nd'.edges.length)) ∨
  ∃ u c x y nd, v = u ++ [c] ∧ Leads mem a v x ∧ Leads mem b u y ∧ mem y = some nd ∧ ∀ z, (c, z) ∈ nd.edges → z = 0

/-- `v` can be read from both places, and leads to a missing node from one of them. -/
def GoneAt (mem : Mem) (a b : Nat) (v : Str) : Prop :=
  ∃ x y, Leads mem a v x ∧ Leads mem b v y ∧ (v = [] ∨ y ≠ 0) ∧ (mem x = none ∨ mem y = none)

/-- In lexicographic order, there is no difference and no missing node before `v`, and only finitely many strings that can be
read from both places. -/
def ClearBefore (sgn : Bool) (mem : Mem) (a b : Nat) (v : Str) : Prop :=
  (∀ w, List.Lex (charLt sgn) w v → ¬ DifferAt mem a b w ∧ ¬ GoneAt mem a b w) ∧
    ∃ N, ∀ w, CommonAt mem a b w → List.Lex (charLt sgn) w v → w.length ≤ N

end Spec

end Lev
