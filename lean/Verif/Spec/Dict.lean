import Verif.Model.Node

/-!
# What a dictionary graph in memory means

`Accepts` is the language of a node: the strings read along its edges to a final node.  `DictNode` is the
shape the code relies on: live nodes, no cycle, edges sorted by label as in a `std::map`.
-/

namespace Lev

namespace Spec

/-- The string `t` leads from the node at `a` to a final node. -/
inductive Accepts (mem : Mem) : Nat → Str → Prop
  | here {a : Nat} {nd : DNode} : mem a = some nd → nd.final = true → Accepts mem a []
  | step {a : Nat} {nd : DNode} {c : UInt8} {b : Nat} {t : Str} :
      mem a = some nd → (c, b) ∈ nd.edges → Accepts mem b t → Accepts mem a (c :: t)

/-- A path of edges leads from the node at the first address to the second address. -/
inductive Reaches (mem : Mem) : Nat → Nat → Prop
  | refl {a : Nat} : Reaches mem a a
  | step {a : Nat} {nd : DNode} {c : UInt8} {b x : Nat} :
      mem a = some nd → (c, b) ∈ nd.edges → Reaches mem b x → Reaches mem a x

/-- Reading `w` along the edges leads from the node at the first address to the second address. -/
inductive Leads (mem : Mem) (a : Nat) : Str → Nat → Prop
  | here : Leads mem a [] a
  | snoc {w : Str} {b : Nat} {nd : DNode} {c : UInt8} {d : Nat} :
      Leads mem a w b → mem b = some nd → (c, d) ∈ nd.edges → Leads mem a (w ++ [c]) d

/-- A number that orders the values of the platform's `char`; `sgn` says whether `char` is signed, in which
case the bytes 128 to 255 are negative. -/
def charKey (sgn : Bool) (c : UInt8) : Nat := if sgn then (c.toNat + 128) % 256 else c.toNat

/-- `std::less<char>`. -/
def charLt (sgn : Bool) (a b : UInt8) : Prop := charKey sgn a < charKey sgn b

/-- The graph below the node at `a`: all nodes are alive, no path visits more than `d` nodes, and edges are in
the order of a `std::map<char, _>`. -/
inductive DictNode (sgn : Bool) (mem : Mem) : Nat → Nat → Prop
  | mk {d a : Nat} {nd : DNode} : mem a = some nd →
      nd.edges.Pairwise (fun e f => charLt sgn e.1 f.1) →
      (∀ c b, (c, b) ∈ nd.edges → DictNode sgn mem d b) →
      DictNode sgn mem (d + 1) a

/-- A dictionary with its root at `root`, none of whose terms has 2^62 or more characters. -/
def Dictionary (sgn : Bool) (mem : Mem) (root : Nat) : Prop := ∃ d, d ≤ 2 ^ 62 ∧ DictNode sgn mem d root

/-- The length of the query word `q` is one of a string in memory, and it is less than 2^31 unless the distance `n` is less
than 2^30. -/
structure QueryFits (n : Nat) (q : Str) : Prop where
  lt : q.length < 2 ^ 62
  fits : q.length < 2 ^ 31 ∨ n < 2 ^ 30

instance decQueryFits (n : Nat) (q : Str) : Decidable (QueryFits n q) :=
  decidable_of_iff (q.length < 2 ^ 62 ∧ (q.length < 2 ^ 31 ∨ n < 2 ^ 30)) ⟨fun h => ⟨h.1, h.2⟩, fun h => ⟨h.lt, h.fits⟩⟩

theorem QueryFits.le {n m : Nat} {q : Str} (h : QueryFits m q) (hn : n ≤ m) : QueryFits n q :=
  ⟨h.lt, h.fits.imp id fun h => Nat.lt_of_le_of_lt hn h⟩

theorem QueryFits.of_short {n : Nat} {q : Str} (h : q.length < 2 ^ 31) : QueryFits n q := ⟨Nat.lt_trans h (by decide), .inl h⟩

/-- Order in which dictionaries and queries list terms: by length, then lexicographically by `char`. -/
def shortLex (sgn : Bool) (s t : Str) : Prop :=
  s.length < t.length ∨ (s.length = t.length ∧ List.Lex (charLt sgn) s t)

/-- `s` comes before `t` in the order of `std::string`: lexicographic by unsigned bytes. -/
def strLess (s t : Str) : Prop := List.Lex (fun x y : UInt8 => x.toNat < y.toNat) s t

/-- No term is smaller than an earlier one. -/
def SortedTerms (terms : List Str) : Prop := terms.Pairwise (fun s t => ¬ strLess t s)

/-- Some term is smaller than the term just before it. -/
def HasDescent (terms : List Str) : Prop := ∃ l s t r, terms = l ++ s :: t :: r ∧ strLess t s

end Spec

end Lev
