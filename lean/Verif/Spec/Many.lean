import Verif.Spec.Second

/-!
# Any number of constructions on one dictionary: what happens to its words

No nodes here, only words.  Every construction leaves a layer of words.  Within a layer two beginnings lead to the same node exactly
if the same endings make words of them; beginnings of different layers never do.
-/

namespace Lev.Spec

/-- The words of `W` that do not begin like one of `ws`. -/
def survivors (ws W : List Str) : List Str :=
  W.filter fun t => match t with
    | [] => true
    | c :: _ => !ws.any fun v => v.head? == some c

/-- A dictionary after some constructions. -/
structure Stock where
  /-- the last word that was taken -/
  prev : Str := []
  /-- for each construction, what is left of its words -/
  layers : List (List Str) := []
  size : Nat := 0
deriving DecidableEq, Repr

/-- What the next construction makes of its calls. -/
def Stock.draft (s : Stock) (ops : List BuildOp) : Option (List Bool × Draft) := (⟨s.prev, [], [], s.size⟩ : Draft).run ops

/-- The dictionary after a construction that has made `d`. -/
def Stock.next (s : Stock) (d : Draft) : Stock := ⟨d.prev, s.layers.map (survivors d.words) ++ [d.words], d.size⟩

/-- No construction overwrites an edge that it has made itself, or one whose node is still needed. -/
def Sound (s : Stock) : List (List BuildOp) → Prop
  | [] => True
  | ops :: rest => ∃ bs d, s.draft ops = some (bs, d) ∧ (∀ W ∈ s.layers, ¬ StillNeeded W (firsts d.words)) ∧ Sound (s.next d) rest

/-- Some construction leaves nodes that are neither needed nor freed. -/
def Leaks (s : Stock) : List (List BuildOp) → Prop
  | [] => False
  | ops :: rest => ∃ bs d, s.draft ops = some (bs, d) ∧ ((∃ W ∈ s.layers, GoneAstray W (firsts d.words)) ∨ Leaks (s.next d) rest)

/-- What all calls of `add` return and what the dictionary is in the end. -/
def Stock.run (s : Stock) : List (List BuildOp) → List (List Bool) × Stock
  | [] => ([], s)
  | ops :: rest =>
      match s.draft ops with
      | none => ([], s)
      | some (bs, d) => ((bs :: ((s.next d).run rest).1), ((s.next d).run rest).2)

/-- The words in the dictionary. -/
def Stock.words (s : Stock) : List Str := s.layers.flatten

end Lev.Spec
