import Verif.Proofs.SerialWalk
import Verif.Props.Serial
import Verif.Props.Wire

/-!
# C75: the exact outcome of reading any message

C31 and C60 describe single faults of messages.  Here nothing is assumed of the message: which of them can be read, what
`contains` says, what deletion does, and when the result is a dictionary.
-/

namespace Lev.Props

open Spec

/-- C75, reading: undefined behaviour exactly for the messages where some edge starts at a node that is not listed or has
been deleted, or deletes a node a second time.  Otherwise the reader ends, with the stated size, and leaves the older part
of the memory alone. -/
theorem c75_read (sgn : Bool) {addr : Nat → Nat} {h : Heap} (ha : Allocator addr h) (msg : Msg) :
    (fromProto sgn addr msg h = .error .ub ↔ Unreadable msg) ∧
    (¬ Unreadable msg → ∃ h' d, fromProto sgn addr msg h = .ok (h', d) ∧ d.size = msg.size ∧
      ∀ a, h.mem a ≠ none → h'.mem a = h.mem a) := by
  obtain ⟨h1, h2⟩ := fromProto_any (sgn := sgn) ha msg
  refine ⟨⟨fun he => ?_, h1⟩, fun hn => ?_⟩
  · apply Classical.byContradiction
    intro hn
    obtain ⟨h', d, φ, h3, _⟩ := h2 hn
    rw [h3] at he; cases he
  · obtain ⟨h', d, φ, h3, hr⟩ := h2 hn
    exact ⟨h', d, h3, hr.size, fun a hne => hr.old a fun x hx he => hne (by rw [he]; exact (hr.listed x hx).2)⟩

/-- What is known once the reader has ended. -/
theorem readAny_of_ok {sgn : Bool} {addr : Nat → Nat} {h h' : Heap} {msg : Msg} {d : SDawg} (ha : Allocator addr h)
    (hok : fromProto sgn addr msg h = .ok (h', d)) : ∃ φ, ReadAny sgn addr h msg h' d φ := by
  obtain ⟨h1, h2⟩ := fromProto_any (sgn := sgn) ha msg
  have hn : ¬ Unreadable msg := fun hu => by rw [h1 hu] at hok; cases hok
  obtain ⟨h'', d', φ, h3, hr⟩ := h2 hn
  rw [h3] at hok
  cases hok
  exact ⟨φ, hr⟩

/-- C75, deletion of what was read: undefined behaviour if a missing node can be reached from the root; else it never ends
if a cycle can be reached; else it ends, leaves the older part of the memory alone, and gives all memory back exactly if
every node that is there can be reached from the root. -/
theorem c75_delete {sgn : Bool} {addr : Nat → Nat} {h h' : Heap} {msg : Msg} {d : SDawg} (ha : Allocator addr h)
    (hok : fromProto sgn addr msg h = .ok (h', d)) :
    (Dangling msg → ∃ N, ∀ fuel, N ≤ fuel → destroyDawg fuel h' d = .error .ub) ∧
    (¬ Dangling msg → Cyclic msg → ∀ fuel, destroyDawg fuel h' d = .error .diverge) ∧
    (¬ Dangling msg → ¬ Cyclic msg → ∃ h'', Ends (fun fuel => destroyDawg fuel h' d) h'' ∧
      (∀ a, h.mem a ≠ none → h''.mem a = h.mem a) ∧
      ((∀ a, h''.mem a = h.mem a) ↔ ∀ x, ¬ Missing msg x → ∃ t, Walk msg msg.rootId t x)) := by
  obtain ⟨φ, hr⟩ := readAny_of_ok ha hok
  exact hr.destroy

/-- C75, `contains`, for strings of any length: undefined behaviour exactly if reading some prefix of the term leads to a deleted
node, or if reading 2^31 - 1 characters of a longer term leads to a listed node (the counter is an `int`); otherwise the answer is
whether the term leads to a listed final node.  Cycles and unlisted nodes do no harm here. -/
theorem c75_contains {sgn : Bool} {addr : Nat → Nat} {h h' : Heap} {msg : Msg} {d : SDawg} (ha : Allocator addr h)
    (hok : fromProto sgn addr msg h = .ok (h', d)) (t : Str) :
    (containsTerm h'.mem d.root t = .error .ub ↔ Stumbles msg t) ∧
    (¬ Stumbles msg t → ∃ b, containsTerm h'.mem d.root t = .ok b ∧
        (b = true ↔ ∃ y, Walk msg msg.rootId t y ∧ y ∈ msg.nodeIds ∧ y ∈ msg.finalIds)) := by
  obtain ⟨φ, hr⟩ := readAny_of_ok ha hok
  have heq : containsTerm h'.mem d.root t = containsFrom h'.mem t 0 (φ msg.rootId) := by rw [← hr.root]; rfl
  have hst : Stumbles msg t ↔ StumblesFrom msg msg.rootId t 0 :=
    or_congr Iff.rfl (and_congr ⟨fun h => by omega, fun h => by omega⟩ Iff.rfl)
  obtain ⟨h1, h2⟩ := hr.contains t (i := 0) (x := msg.rootId) (by omega)
  rw [heq, hst]
  refine ⟨⟨fun he => ?_, h1⟩, h2⟩
  apply Classical.byContradiction
  intro hn
  obtain ⟨b, hb, _⟩ := h2 hn
  rw [hb] at he; cases he

/-- C75, dictionaries: what was read is a dictionary exactly if no missing node and no cycle can be reached from the root,
and its terms are those spelled by the edges that are left. -/
theorem c75_dictionary {sgn : Bool} {addr : Nat → Nat} {h h' : Heap} {msg : Msg} {d : SDawg} (ha : Allocator addr h)
    (hok : fromProto sgn addr msg h = .ok (h', d)) :
    ((∃ k, DictNode sgn h'.mem k d.root) ↔ ¬ Dangling msg ∧ ¬ Cyclic msg) ∧
    (¬ Dangling msg → ∀ t, Accepts h'.mem d.root t ↔ ∃ y, Walk msg msg.rootId t y ∧ y ∈ msg.finalIds) := by
  obtain ⟨φ, hr⟩ := readAny_of_ok ha hok
  refine ⟨⟨?_, fun ⟨h1, h2⟩ => ⟨_, hr.dictNode h1 h2⟩⟩, fun hd t => hr.accepts hd t⟩
  rintro ⟨k, hk⟩
  obtain ⟨nd, F, m, u, _⟩ := DictNode.unf hk
  obtain ⟨h'', ⟨N, hN⟩, _⟩ := deleteReach_spec m u hr.null (DictNode.closed hk)
  obtain ⟨g1, g2, _⟩ := hr.destroy
  have hdes : ∀ fuel, N ≤ fuel → destroyDawg fuel h' d = .ok h'' := fun fuel hf => by
    rw [hr.destroy_eq]; exact hN fuel hf
  have hnd : ¬ Dangling msg := fun hd => by
    obtain ⟨M, hM⟩ := g1 hd
    have := hM (max N M) (Nat.le_max_right _ _)
    rw [hdes _ (Nat.le_max_left _ _)] at this
    cases this
  refine ⟨hnd, fun hc => ?_⟩
  have := g2 hnd hc N
  rw [hdes _ (Nat.le_refl _)] at this
  cases this

/-- C75, queries: if no missing node and no cycle can be reached from the root, every query of the dictionary that was read
yields exactly the terms within the distance, with their distances, by length and then by `char`. -/
theorem c75_queries {sgn : Bool} {addr : Nat → Nat} {h h' : Heap} {msg : Msg} {d : SDawg} (ha : Allocator addr h)
    (hok : fromProto sgn addr msg h = .ok (h', d)) (hd : ¬ Dangling msg) (hc : ¬ Cyclic msg)
    (hlen : msg.nodeIds.length < 2 ^ 31) (A : Algorithm) {q : Str} {n : Nat} (hq : QueryFits n q) (hn : n < 2 ^ 64) :
    ∃ rs, Yields A updCandidate h'.mem d.root q n rs ∧
      (∀ t m, (t, m) ∈ rs ↔ (∃ y, Walk msg msg.rootId t y ∧ y ∈ msg.finalIds) ∧ IsMinCost A q t m ∧ m ≤ n) ∧
      rs.Pairwise (fun a b => shortLex sgn a.1 b.1) := by
  obtain ⟨φ, hr⟩ := readAny_of_ok ha hok
  have hD : Dictionary sgn h'.mem d.root := ⟨_, by omega, hr.dictNode hd hc⟩
  obtain ⟨rs, h1, h2⟩ := query_exact A hD hq hn
  exact ⟨rs, h1, fun t m => by rw [h2, hr.accepts hd], c37_order hD hq hn h1⟩

/-- C75, any file: reading an arbitrary sequence of bytes never fails to end.  It gives the null pointer exactly if the
parser rejects the bytes, and is undefined behaviour exactly if the message in them is not readable. -/
theorem c75_any_bytes (sgn : Bool) {addr : Nat → Nat} {h : Heap} (ha : Allocator addr h) (bs : List UInt8) :
    (deserializeStream sgn addr bs h = .error .ub ↔ ∃ msg, decodeMsg bs = some msg ∧ Unreadable msg) ∧
    (deserializeStream sgn addr bs h = .ok (h, none) ↔ decodeMsg bs = none) ∧
    deserializeStream sgn addr bs h ≠ .error .diverge := by
  unfold deserializeStream
  cases hb : decodeMsg bs with
  | none => simp
  | some msg =>
    obtain ⟨h1, h2⟩ := fromProto_any (sgn := sgn) ha msg
    by_cases hu : Unreadable msg
    · simp [h1 hu, bind, Except.bind, hu]
    · obtain ⟨h', d, φ, h3, _⟩ := h2 hu
      simp [h3, bind, Except.bind, pure, Except.pure, hu]

/-! ### Cases -/

/-- The second edge takes the place of the first and deletes node 9, which is not used any more. -/
def exReplaced : Msg :=
  { nodeIds := [7, 9, 4], finalIds := [9, 4], edges := [⟨7, 97, 9⟩, ⟨7, 353, 4⟩], rootId := 7, size := 1 }

theorem exReplaced_last : LastEdge exReplaced.edges ⟨7, 353, 4⟩ := ⟨[⟨7, 97, 9⟩], [], rfl, by simp⟩

theorem exReplaced_last_iff {e : MsgEdge} (he : LastEdge exReplaced.edges e) : e = ⟨7, 353, 4⟩ := by
  obtain ⟨l1, l2, h1, h2⟩ := he
  match l1, h1 with
  | [], h1 =>
    simp only [exReplaced, List.nil_append, List.cons.injEq] at h1
    obtain ⟨rfl, rfl⟩ := h1
    exact absurd (show SameSlot ⟨7, 353, 4⟩ ⟨7, 97, 9⟩ from ⟨rfl, by decide⟩) (h2 _ (by simp))
  | [a], h1 =>
    simp only [exReplaced, List.cons_append, List.nil_append, List.cons.injEq] at h1
    exact h1.2.1.symm
  | a :: b :: l, h1 => simp [exReplaced] at h1

theorem exReplaced_deletes {l1 l2 : List MsgEdge} {e : MsgEdge} {x : Nat} (h1 : exReplaced.edges = l1 ++ e :: l2)
    (h2 : Replaces exReplaced l1 e x) : x = 9 ∧ l1 = [⟨7, 97, 9⟩] := by
  match l1, h1 with
  | [], _ =>
    obtain ⟨f, ⟨m1, m2, h, _⟩, _⟩ := h2
    simp at h
  | [a], h1 =>
    simp only [exReplaced, List.cons_append, List.nil_append, List.cons.injEq] at h1
    obtain ⟨rfl, _⟩ := h1
    obtain ⟨f, hf, _, rfl, _⟩ := h2
    rw [List.mem_singleton.1 hf.mem]
    exact ⟨rfl, rfl⟩
  | a :: b :: l, h1 => simp [exReplaced] at h1

/-- A message of which a node is deleted while reading, and which gives a dictionary all the same. -/
theorem exReplaced_fine : ¬ Unreadable exReplaced ∧ ¬ Dangling exReplaced ∧ ¬ Cyclic exReplaced ∧
    Deletes exReplaced exReplaced.edges 9 ∧ Walk exReplaced exReplaced.rootId [97] 4 := by
  have hdel : ∀ {x}, Deletes exReplaced exReplaced.edges x → x = 9 := by
    rintro x ⟨l1, e, l2, h1, h2⟩
    exact (exReplaced_deletes h1 h2).1
  have hwalk : ∀ {x t y}, Walk exReplaced x t y → (t = [] ∧ y = x) ∨ (x = 7 ∧ t = [97] ∧ y = 4) := by
    intro x t y hw
    match t with
    | [] => cases hw; exact .inl ⟨rfl, rfl⟩
    | [c] =>
      obtain ⟨e, he, h1, h2, h3⟩ := walk_cons_iff.1 hw
      rw [exReplaced_last_iff he] at h1 h2 h3
      generalize hz : (MsgEdge.mk 7 353 4).target = z at h3
      cases h3
      exact .inr ⟨h1.symm, by rw [← h2]; decide, hz.symm⟩
    | c :: c' :: t =>
      obtain ⟨e, he, h1, h2, h3⟩ := walk_cons_iff.1 hw
      obtain ⟨f, hf, h4, _⟩ := walk_cons_iff.1 h3
      rw [exReplaced_last_iff he, exReplaced_last_iff hf] at h4
      simp at h4
  refine ⟨?_, ?_, ?_, ?_, ?_⟩
  · rintro ⟨l1, e, l2, h1, h2⟩
    have he : e ∈ exReplaced.edges := by rw [h1]; simp
    have hs : e.source = 7 := by
      simp only [exReplaced, List.mem_cons, List.not_mem_nil, or_false] at he
      rcases he with rfl | rfl <;> rfl
    rcases h2 with h2 | ⟨m1, f, m2, h2, h3⟩ | ⟨x, h2, m1, f, m2, h3, h4⟩
    · rw [hs] at h2; exact h2 (by simp [exReplaced])
    · have h4 : exReplaced.edges = m1 ++ f :: (m2 ++ l2) := by
        rw [h1, List.append_cons l1 e l2, h2]; simp
      have := (exReplaced_deletes h4 h3).1
      rw [hs] at this; simp at this
    · obtain ⟨_, g1⟩ := exReplaced_deletes h1 h2
      have g2 : exReplaced.edges = m1 ++ f :: (m2 ++ e :: l2) := by rw [h1, h3]; simp
      obtain ⟨_, g3⟩ := exReplaced_deletes g2 h4
      rw [h3, g3] at g1
      simp at g1
  · rintro ⟨t, x, hw, hm⟩
    have hx : x = 7 ∨ x = 4 := by
      rcases hwalk hw with ⟨_, rfl⟩ | ⟨_, _, rfl⟩
      · exact .inl rfl
      · exact .inr rfl
    rcases hm with hm | hm
    · rcases hx with rfl | rfl <;> exact hm (by simp [exReplaced])
    · have := hdel hm
      rcases hx with rfl | rfl <;> simp at this
  · rintro ⟨s, t, x, _, hw, hne⟩
    rcases hwalk hw with ⟨h, _⟩ | ⟨h1, _, h2⟩
    · exact hne h
    · rw [h1] at h2; simp at h2
  · exact ⟨[⟨7, 97, 9⟩], ⟨7, 353, 4⟩, [], rfl, ⟨7, 97, 9⟩, ⟨[], [], rfl, by simp⟩, ⟨rfl, by decide⟩, rfl, by simp [exReplaced]⟩
  · exact .step exReplaced_last (by decide) .here

example : exRead exReplaced = .ok (2, .ok 0) := rfl

/-- An edge that starts at a node the edge before has deleted. -/
example : Unreadable { exReplaced with edges := exReplaced.edges ++ [⟨9, 97, 4⟩] } :=
  ⟨exReplaced.edges, ⟨9, 97, 4⟩, [], rfl, .inr (.inl ⟨[⟨7, 97, 9⟩], ⟨7, 353, 4⟩, [⟨9, 97, 4⟩], rfl, ⟨7, 97, 9⟩,
    ⟨[], [], rfl, by simp⟩, ⟨rfl, by decide⟩, rfl, by simp [exReplaced]⟩)⟩

example : exRead { exReplaced with edges := exReplaced.edges ++ [⟨9, 97, 4⟩] } = .error .ub := rfl

/-- An edge to a node that is not listed: reading succeeds, `contains` too, deletion is undefined. -/
example : Dangling { nodeIds := [7], finalIds := [7], edges := [⟨7, 97, 9⟩], rootId := 7, size := 1 } :=
  ⟨[97], 9, .step (e := ⟨7, 97, 9⟩) ⟨[], [], rfl, by simp⟩ (by decide) .here, .inl (by decide)⟩

example : exRead { nodeIds := [7], finalIds := [7], edges := [⟨7, 97, 9⟩], rootId := 7, size := 1 } =
    .ok (1, .error .ub) := rfl

/-- A root with an edge to itself: 2^31 characters are too many for `contains`, 2^31 - 1 are not. -/
theorem exLoop_walk (n : Nat) : Walk exLoop 5 (List.replicate n 97) 5 := by
  induction n with
  | zero => exact .here
  | succ n ih => rw [List.replicate_succ]; exact .step (e := ⟨5, 97, 5⟩) ⟨[], [], rfl, by simp⟩ (by decide) ih

example : Stumbles exLoop (List.replicate (2 ^ 31) 97) ∧ ¬ Stumbles exLoop (List.replicate (2 ^ 31 - 1) 97) := by
  refine ⟨.inr ⟨by rw [List.length_replicate]; exact Nat.le_refl _, 5, ?_, by simp [exLoop]⟩, ?_⟩
  · rw [List.take_replicate]; exact exLoop_walk _
  · rintro (⟨p, y, _, _, l1, e, l2, h1, f, ⟨l3, l4, h2, _⟩, _⟩ | ⟨h, _⟩)
    · have := congrArg List.length h1
      rw [h2] at this
      simp [exLoop] at this
      omega
    · rw [List.length_replicate] at h; omega

end Lev.Props
