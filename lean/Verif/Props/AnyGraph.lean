import Verif.Proofs.AnyGraphMsg
import Verif.Props.SerialAny

/-!
# Property C80: queries on graphs with cycles or missing nodes

Such graphs come out of foreign files (C75).  `Pitfall A n q mem root`: some prefix that can be continued to a string within
the distance `n` of `q` leads to a place where there is no node.
-/

namespace Lev.Props

open Lev Spec

section
variable {A : Algorithm} {n : Nat} {q : Str} {mem : Mem} {root : Nat} {sgn : Bool}

/-- C80: whatever the graph, a query that meets no missing node ends, and yields exactly the strings of the graph's
language within the distance, in the order of C37.  Cycles do no harm, though the language is infinite. -/
theorem c80_exact (hs : EdgesSorted sgn mem root) (hL : QueryFits n q ∧ q.length + n + 2 ≤ 2 ^ 62) (hp : ¬ Pitfall A n q mem root) :
    ∃ rs : List (Str × Nat), Yields A updCandidate mem root q n rs ∧ Yields A updString mem root q n (rs.map Prod.fst) ∧
      (∀ t d, (t, d) ∈ rs ↔ Accepts mem root t ∧ IsMinCost A q t d ∧ d ≤ n) ∧
      rs.Pairwise (fun a b => shortLex sgn a.1 b.1) := by
  obtain ⟨rs, h1, h2, h3⟩ := query_graph hs hL hp
  refine ⟨rs, ?_, h3 updString, h1, h2⟩
  simpa [updCandidate] using h3 updCandidate

/-- C80: a query that can get to a missing node is undefined behaviour, even if nothing of the language is within the
distance. -/
theorem c80_undefined (hs : EdgesSorted sgn mem root) (hL : QueryFits n q ∧ q.length + n + 2 ≤ 2 ^ 62) (hp : Pitfall A n q mem root) :
    (∃ N, ∀ fuel, N ≤ fuel → ∀ dflt, transduce A updCandidate dflt mem root q n fuel = .error .ub) ∧
    ∃ N, ∀ fuel, N ≤ fuel → ∀ dflt, transduce A updString dflt mem root q n fuel = .error .ub :=
  ⟨query_pitfall hs hL hp ⟨Prod.fst, fun _ _ => rfl⟩, query_pitfall hs hL hp ⟨id, fun _ _ => rfl⟩⟩

/-- C80: if every node that can be reached is there, all queries are exact. -/
theorem c80_all_there (hs : EdgesSorted sgn mem root) (hl : ∀ a, Reaches mem root a → mem a ≠ none)
    (A : Algorithm) {q : Str} {n : Nat} (hL : QueryFits n q ∧ q.length + n + 2 ≤ 2 ^ 62) :
    ∃ rs : List (Str × Nat), Yields A updCandidate mem root q n rs ∧
      (∀ t d, (t, d) ∈ rs ↔ Accepts mem root t ∧ IsMinCost A q t d ∧ d ≤ n) ∧
      rs.Pairwise (fun a b => shortLex sgn a.1 b.1) := by
  obtain ⟨rs, h1, _, h2, h3⟩ := c80_exact (A := A) hs hL (fun ⟨_, b, _, h1, h2⟩ => hl b h1.toReaches h2)
  exact ⟨rs, h1, h2, h3⟩

end

/-- C80, foreign messages: a query on what was read is undefined behaviour exactly if a prefix that can be continued within
the distance leads to a missing node; otherwise it yields exactly the strings within the distance that lead from the root
to a final node. -/
theorem c80_messages {sgn : Bool} {addr : Nat → Nat} {h h' : Heap} {msg : Msg} {d : SDawg} (ha : Allocator addr h)
    (hok : fromProto sgn addr msg h = .ok (h', d)) (A : Algorithm) {q : Str} {n : Nat} (hL : QueryFits n q ∧ q.length + n + 2 ≤ 2 ^ 62) :
    ((∃ w y, Viable A q n w ∧ Walk msg msg.rootId w y ∧ Missing msg y) →
      ∃ N, ∀ fuel, N ≤ fuel → ∀ dflt, transduce A updCandidate dflt h'.mem d.root q n fuel = .error .ub) ∧
    ((¬ ∃ w y, Viable A q n w ∧ Walk msg msg.rootId w y ∧ Missing msg y) →
      ∃ rs : List (Str × Nat), Yields A updCandidate h'.mem d.root q n rs ∧
        (∀ t m, (t, m) ∈ rs ↔ (∃ y, Walk msg msg.rootId t y ∧ y ∈ msg.finalIds) ∧ IsMinCost A q t m ∧ m ≤ n) ∧
        rs.Pairwise (fun a b => shortLex sgn a.1 b.1)) := by
  obtain ⟨φ, hr⟩ := readAny_of_ok ha hok
  rw [← hr.pitfall]
  refine ⟨fun hp => (c80_undefined hr.sorted hL hp).1, fun hp => ?_⟩
  obtain ⟨rs, h1, _, h2, h3⟩ := c80_exact hr.sorted hL hp
  refine ⟨rs, h1, fun t m => ?_, h3⟩
  rw [h2]
  constructor
  · rintro ⟨g1, g2, g3⟩
    exact ⟨(hr.accepts_near hp ⟨[], m, g3, by simpa using g2.1⟩).1 g1, g2, g3⟩
  · rintro ⟨g1, g2, g3⟩
    exact ⟨(hr.accepts_near hp ⟨[], m, g3, by simpa using g2.1⟩).2 g1, g2, g3⟩

/-! ### Cases -/

/-- A graph with a cycle: `a` followed by any number of `b`; and `zz` leads to nowhere. -/
def exDamaged : Mem := fun a => match a with
  | 1 => some ⟨false, [(97, 2), (122, 3)]⟩
  | 2 => some ⟨true, [(98, 2)]⟩
  | 3 => some ⟨false, [(122, 0)]⟩
  | _ => none

theorem exDamaged_leads {w : Str} {b : Nat} (hl : Leads exDamaged 1 w b) : b = 1 ∧ w = [] ∨ b = 2 ∨ b = 3 ∧ w = [122] ∨
    b = 0 ∧ w = [122, 122] := by
  induction hl with
  | here => exact .inl ⟨rfl, rfl⟩
  | snoc _ hm he ih =>
    rcases ih with ⟨rfl, rfl⟩ | rfl | ⟨rfl, rfl⟩ | ⟨rfl, rfl⟩ <;> cases hm <;>
      simp only [List.mem_cons, Prod.mk.injEq, List.not_mem_nil, or_false] at he
    · rcases he with ⟨rfl, rfl⟩ | ⟨rfl, rfl⟩ <;> simp
    · simp [he.2]
    · obtain ⟨rfl, rfl⟩ := he; simp

theorem exDamaged_sorted (sgn : Bool) : EdgesSorted sgn exDamaged 1 := by
  intro a nd ha hm
  obtain ⟨w, hl⟩ := Spec.Leads.of_reaches ha
  rcases exDamaged_leads hl with ⟨rfl, _⟩ | rfl | ⟨rfl, _⟩ | ⟨rfl, _⟩ <;> cases hm <;> cases sgn <;> simp [charLt, charKey]

/-- Characters that the query does not have cost something each. -/
theorem foreign_cost {v w : Str} {c : Nat} (h : Align .standard v w c) {x : UInt8} (hx : x ∉ v) : w.count x ≤ c := by
  induction h with
  | nil => simp
  | keep a _ ih =>
    have : a ≠ x := fun he => hx (by simp [he])
    rw [List.count_cons_of_ne this]
    exact ih fun hm => hx (by simp [hm])
  | sub a b _ ih =>
    have := ih fun hm => hx (by simp [hm])
    rw [List.count_cons]; split <;> omega
  | ins b _ ih =>
    have := ih hx
    rw [List.count_cons]; split <;> omega
  | del a _ ih =>
    have := ih fun hm => hx (by simp [hm])
    omega
  | swap h => cases h
  | merge h => cases h
  | split h => cases h

-- near "abb" there is no missing node
example : ¬ Pitfall .standard 1 [97, 98, 98] exDamaged 1 := by
  rintro ⟨w, b, ⟨u, c, hc, hal⟩, hl, hb⟩
  rcases exDamaged_leads hl with ⟨rfl, _⟩ | rfl | ⟨rfl, _⟩ | ⟨rfl, rfl⟩
  · cases hb
  · cases hb
  · cases hb
  · have := foreign_cost hal (x := 122) (by decide)
    simp only [List.cons_append, List.nil_append, List.count_cons_self] at this
    omega

example : transduce .standard updCandidate ([], 0) exDamaged 1 [97, 98, 98] 1 100 =
    .ok [([97, 98], 1), ([97, 98, 98], 0), ([97, 98, 98, 98], 1)] := by decide +kernel

-- with distance 2 there is one: `zzb`
example : Pitfall .standard 2 [97, 98, 98] exDamaged 1 :=
  ⟨[122, 122], 0, ⟨[98], 2, by omega, .sub 97 122 (.sub 98 122 (.keep 98 .nil))⟩,
    .snoc (w := [122]) (b := 3) (.snoc (w := []) .here (nd := ⟨false, [(97, 2), (122, 3)]⟩) rfl (by simp))
      (nd := ⟨false, [(122, 0)]⟩) rfl (by simp), rfl⟩

example : transduce .standard updCandidate ([], 0) exDamaged 1 [97, 98, 98] 2 1000 = .error .ub := by decide +kernel

/-- Reading a message and searching in the result. -/
def exSearch (msg : Msg) (q : Str) (n : Nat) : Except Err (List (Str × Nat)) := do
  let (h, d) ← fromProto true (fun k => k + 1) msg exHeap
  transduce .standard updCandidate ([], 0) h.mem d.root q n 1000

-- a cycle, and a root that is not listed
example : exSearch exLoop [97, 97] 1 = .ok [([97], 1), ([97, 97], 0), ([97, 97, 97], 1)] := by decide +kernel

example : exSearch { exLoop with rootId := 6 } [97, 97] 1 = .error .ub := by decide +kernel

end Lev.Props
