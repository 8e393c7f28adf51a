import Verif.Proofs.DeleteCost
import Verif.Props.SerialAny

/-!
# C76: how long deleting a dictionary takes

`Dawg::all_nodes` puts the children of a node in its queue each time the node comes up, even if it has been seen.  So the
loop runs once for each path from the root, and not once for each node.
-/

namespace Lev.Props

open Spec

/-- C76, the loop of `all_nodes`: it runs once for every string that can be read from the root.  With fewer iterations it
has not ended; with so many it has, and the set holds the nodes that can be reached. -/
theorem c76_iterations {sgn : Bool} {mem : Mem} {k root : Nat} (hd : DictNode sgn mem k root) {ws : List Str}
    (hnd : ws.Nodup) (hws : ∀ w, w ∈ ws ↔ ∃ b, Leads mem root w b) (fuel : Nat) :
    (fuel < ws.length → allNodes mem fuel root = .error .diverge) ∧
    (ws.length ≤ fuel → ∃ r, allNodes mem fuel root = .ok r ∧ r.Nodup ∧ ∀ x, x ∈ r ↔ Reaches mem root x) := by
  obtain ⟨nd, F, h1, h2, _⟩ := DictNode.unf hd
  rw [DictNode.count_paths hd h1 h2 hnd hws]
  exact allNodes_exact h1 h2 fuel

/-- Deletion takes as many iterations as `all_nodes`. -/
theorem delete_iterations {sgn : Bool} {h : Heap} {k : Nat} {d : SDawg} (hd : DictNode sgn h.mem k d.root)
    (hfl : d.floating = none) (h0 : h.mem 0 = none) {ws : List Str}
    (hnd : ws.Nodup) (hws : ∀ w, w ∈ ws ↔ ∃ b, Leads h.mem d.root w b) (fuel : Nat) :
    (fuel < ws.length → destroyDawg fuel h d = .error .diverge) ∧
    (ws.length ≤ fuel → ∃ h', destroyDawg fuel h d = .ok h') := by
  obtain ⟨h1, h2⟩ := c76_iterations hd hnd hws fuel
  have he : destroyDawg fuel h d = (do let nodes ← allNodes h.mem fuel d.root; deleteAll nodes h) := by
    simp only [destroyDawg, cleanUp, hfl, bind, Except.bind]
  refine ⟨fun hf => by rw [he, h1 hf]; rfl, fun hf => ?_⟩
  obtain ⟨r, g1, g2, g3⟩ := h2 hf
  have := deleteAll_spec g2 h0 (fun a ha => by
    obtain ⟨nd, h1, _⟩ := DictNode.closed hd a ((g3 a).1 ha)
    rw [h1]; simp)
  exact ⟨_, by rw [he, g1]; exact this⟩

/-- C76, a dictionary built from terms: deleting it takes one iteration for each different beginning of a term (the empty
one included), so at most one more than the terms have characters. -/
theorem c76_built {sgn : Bool} {addr : Nat → Nat} {h h' : Heap} {terms : List Str} {d : SDawg}
    (ha : Allocator addr h) (hr : Ends (fun fuel => sortedDawg sgn addr fuel terms h) (h', some d)) {ws : List Str}
    (hnd : ws.Nodup) (hws : ∀ w, w ∈ ws ↔ w = [] ∨ ∃ t ∈ terms, w <+: t) :
    (∀ fuel, fuel < ws.length → destroyDawg fuel h' d = .error .diverge) ∧
    (∀ fuel, ws.length ≤ fuel → ∃ h'', destroyDawg fuel h' d = .ok h'') ∧
    ws.length ≤ (terms.map List.length).sum + 1 := by
  obtain ⟨_, hf⟩ := finished_of_run ha hr
  have hl : ∀ w, w ∈ ws ↔ ∃ b, Leads h'.mem d.root w b := fun w => by
    rw [hws, hf.leads_iff]
  obtain ⟨nd, F, _, _, _, _, hd⟩ := hf.dict
  have hit := delete_iterations hd hf.ptrs.2.2 hf.null hnd hl
  refine ⟨fun fuel => (hit fuel).1, fun fuel => (hit fuel).2, ?_⟩
  have := hnd.length_le_of_subset (l₂ := [] :: beginnings terms) fun w hw => by
    rcases (hws w).1 hw with rfl | ⟨t, ht, u, rfl⟩
    · simp
    · by_cases hne : w = []
      · simp [hne]
      · exact List.mem_cons_of_mem _ (mem_beginnings ht hne)
  simpa [beginnings_length] using this

/-- C76, what was read from a message: one iteration for each string that can be read along the edges that are left. -/
theorem c76_message {sgn : Bool} {addr : Nat → Nat} {h h' : Heap} {msg : Msg} {d : SDawg} (ha : Allocator addr h)
    (hok : fromProto sgn addr msg h = .ok (h', d)) (hd : ¬ Dangling msg) (hc : ¬ Cyclic msg) {ws : List Str}
    (hnd : ws.Nodup) (hws : ∀ w, w ∈ ws ↔ ∃ y, Walk msg msg.rootId w y) (fuel : Nat) :
    (fuel < ws.length → destroyDawg fuel h' d = .error .diverge) ∧
    (ws.length ≤ fuel → ∃ h'', destroyDawg fuel h' d = .ok h'') := by
  obtain ⟨φ, hr⟩ := readAny_of_ok ha hok
  exact delete_iterations (hr.dictNode hd hc) hr.ptrs.2.2 hr.null hnd (fun w => by rw [hws, hr.leads hd]) fuel

/-- The message of the dictionary of all strings of length `n` over two letters, which has `n + 1` nodes. -/
def ladder (n : Nat) : Msg :=
  { nodeIds := (List.range (n + 1)).map (· + 1)
    finalIds := [n + 1]
    edges := (List.range n).flatMap fun i => [⟨i + 1, 97, i + 2⟩, ⟨i + 1, 98, i + 2⟩]
    rootId := 1
    size := 2 ^ n % 2 ^ 64 }

theorem mem_ladder {n : Nat} {e : MsgEdge} :
    e ∈ (ladder n).edges ↔ ∃ i < n, e = ⟨i + 1, 97, i + 2⟩ ∨ e = ⟨i + 1, 98, i + 2⟩ := by
  simp [ladder]

theorem ladder_edges (n : Nat) : (ladder n).edges.length = 2 * n := by
  simp only [ladder]
  induction n with
  | zero => rfl
  | succ n ih => rw [List.range_succ, List.flatMap_append, List.length_append, ih]; simp; omega

theorem ladder_slots (n : Nat) : (ladder n).edges.Pairwise fun e f => ¬ SameSlot e f := by
  simp only [ladder, List.pairwise_flatMap]
  refine ⟨fun i _ => ?_, List.pairwise_lt_range.imp fun {i j} hij => ?_⟩
  · simp [SameSlot]
  · intro e he f hf hs
    simp only [List.mem_cons, List.not_mem_nil, or_false] at he hf
    have := hs.1
    rcases he with rfl | rfl <;> rcases hf with rfl | rfl <;> simp at this <;> omega

theorem lastEdge_iff {es : List MsgEdge} (h : es.Pairwise fun e f => ¬ SameSlot e f) (e : MsgEdge) :
    LastEdge es e ↔ e ∈ es := by
  refine ⟨fun h => h.mem, fun he => ?_⟩
  obtain ⟨l1, l2, rfl⟩ := List.append_of_mem he
  refine ⟨l1, l2, rfl, fun g hg hs => ?_⟩
  have h2 := (List.pairwise_append.1 h).2.1
  exact (List.pairwise_cons.1 h2).1 g hg ⟨hs.1.symm, hs.2.symm⟩

theorem not_replaces {msg : Msg} (h : msg.edges.Pairwise fun e f => ¬ SameSlot e f) {l1 l2 : List MsgEdge} {e : MsgEdge}
    {x : Nat} (he : msg.edges = l1 ++ e :: l2) : ¬ Replaces msg l1 e x := by
  rintro ⟨f, hf, hs, _⟩
  rw [he] at h
  exact (List.pairwise_append.1 h).2.2 f hf.mem e (by simp) hs

theorem not_deletes {msg : Msg} (h : msg.edges.Pairwise fun e f => ¬ SameSlot e f) {es rest : List MsgEdge}
    (he : msg.edges = es ++ rest) {x : Nat} : ¬ Deletes msg es x := by
  rintro ⟨l1, e, l2, rfl, hr⟩
  exact not_replaces h (l1 := l1) (e := e) (l2 := l2 ++ rest) (by simpa using he) hr

/-- Strings of at most `n` letters. -/
def shortWords : Nat → List Str
  | 0 => [[]]
  | n + 1 => [] :: ((shortWords n).map (97 :: ·) ++ (shortWords n).map (98 :: ·))

theorem shortWords_length (n : Nat) : (shortWords n).length + 1 = 2 ^ (n + 1) := by
  induction n with
  | zero => rfl
  | succ n ih => simp only [shortWords, List.length_cons, List.length_append, List.length_map]; omega

theorem shortWords_nodup (n : Nat) : (shortWords n).Nodup := by
  induction n with
  | zero => simp [shortWords]
  | succ n ih =>
    refine List.nodup_cons.2 ⟨by simp, List.nodup_append.2 ⟨?_, ?_, ?_⟩⟩
    · exact List.pairwise_map.2 (ih.imp fun h he => h (List.cons.inj he).2)
    · exact List.pairwise_map.2 (ih.imp fun h he => h (List.cons.inj he).2)
    · intro a ha b hb he
      obtain ⟨u, _, rfl⟩ := List.mem_map.1 ha
      obtain ⟨v, _, rfl⟩ := List.mem_map.1 hb
      cases he

theorem ladder_walk {n : Nat} (w : Str) (k i : Nat) (hk : i + k = n) :
    w ∈ shortWords k ↔ ∃ y, Walk (ladder n) (i + 1) w y := by
  induction k generalizing w i with
  | zero =>
    cases w with
    | nil => simp only [shortWords, List.mem_singleton, true_iff]; exact ⟨_, .here⟩
    | cons c u =>
      simp only [shortWords, List.mem_singleton, reduceCtorEq, false_iff]
      rintro ⟨y, hw⟩
      obtain ⟨e, he, h1, _⟩ := walk_cons_iff.1 hw
      obtain ⟨j, hj, rfl | rfl⟩ := mem_ladder.1 he.mem <;> simp at h1 <;> omega
  | succ k ih =>
    cases w with
    | nil => simp only [shortWords, List.mem_cons, true_or, true_iff]; exact ⟨_, .here⟩
    | cons c u =>
      have hi := ih u (i + 1) (by omega)
      simp only [shortWords, List.mem_cons, reduceCtorEq, false_or, List.mem_append, List.mem_map, List.cons.injEq]
      constructor
      · rintro (⟨v, hv, rfl, rfl⟩ | ⟨v, hv, rfl, rfl⟩) <;> obtain ⟨y, hy⟩ := hi.1 hv
        · exact ⟨y, .step (e := ⟨i + 1, 97, i + 2⟩) ((lastEdge_iff (ladder_slots n) _).2 (mem_ladder.2 ⟨i, by omega, .inl rfl⟩))
            (by rfl) hy⟩
        · exact ⟨y, .step (e := ⟨i + 1, 98, i + 2⟩) ((lastEdge_iff (ladder_slots n) _).2 (mem_ladder.2 ⟨i, by omega, .inr rfl⟩))
            (by rfl) hy⟩
      · rintro ⟨y, hw⟩
        obtain ⟨e, he, h1, h2, h3⟩ := walk_cons_iff.1 hw
        obtain ⟨j, hj, rfl | rfl⟩ := mem_ladder.1 he.mem
        · simp only [Nat.add_right_cancel_iff] at h1
          subst h1
          refine .inl ⟨u, hi.2 ⟨y, h3⟩, ?_, rfl⟩
          rw [← h2]; rfl
        · simp only [Nat.add_right_cancel_iff] at h1
          subst h1
          refine .inr ⟨u, hi.2 ⟨y, h3⟩, ?_, rfl⟩
          rw [← h2]; rfl

theorem ladder_rise {n x y : Nat} {w : Str} (h : Walk (ladder n) x w y) : y = x + w.length := by
  induction h with
  | here => rfl
  | @step e c t y he _ _ ih =>
    obtain ⟨j, hj, rfl | rfl⟩ := mem_ladder.1 he.mem <;> simp only [List.length_cons] at ih ⊢ <;> omega

theorem mem_shortWords {w : Str} {n : Nat} : w ∈ shortWords n ↔ w.length ≤ n ∧ ∀ c ∈ w, c = 97 ∨ c = 98 := by
  induction n generalizing w with
  | zero => cases w <;> simp [shortWords]
  | succ n ih =>
    cases w with
    | nil => simp [shortWords]
    | cons c u =>
      simp only [shortWords, List.mem_cons, reduceCtorEq, false_or, List.mem_append, List.mem_map, List.cons.injEq, ih,
        List.length_cons, Nat.add_le_add_iff_right, forall_eq_or_imp]
      constructor
      · rintro (⟨v, ⟨h1, h2⟩, rfl, rfl⟩ | ⟨v, ⟨h1, h2⟩, rfl, rfl⟩)
        · exact ⟨h1, .inl rfl, h2⟩
        · exact ⟨h1, .inr rfl, h2⟩
      · rintro ⟨h1, rfl | rfl, h2⟩
        · exact .inl ⟨u, ⟨h1, h2⟩, rfl, rfl⟩
        · exact .inr ⟨u, ⟨h1, h2⟩, rfl, rfl⟩

theorem ladder_fine (n : Nat) : ¬ Unreadable (ladder n) ∧ ¬ Dangling (ladder n) ∧ ¬ Cyclic (ladder n) := by
  refine ⟨?_, ?_, ?_⟩
  · rintro ⟨l1, e, l2, h1, h2 | h2 | ⟨x, h2, _⟩⟩
    · have he : e ∈ (ladder n).edges := by rw [h1]; simp
      obtain ⟨i, hi, rfl | rfl⟩ := mem_ladder.1 he <;> exact h2 (by simp [ladder]; omega)
    · exact not_deletes (ladder_slots n) (rest := l2) (by simpa using h1) h2
    · exact not_replaces (ladder_slots n) h1 h2
  · rintro ⟨t, x, hw, h | h⟩
    · have h1 := (mem_shortWords.1 ((ladder_walk t n 0 (by omega)).2 ⟨x, hw⟩)).1
      have h2 := ladder_rise hw
      refine h ?_
      simp only [ladder, List.mem_map, List.mem_range] at h2 ⊢
      exact ⟨t.length, by omega, by omega⟩
    · exact not_deletes (ladder_slots n) (rest := []) (by simp) h
  · rintro ⟨s, t, x, _, hw, hne⟩
    have := ladder_rise hw
    have := List.length_pos_iff.2 hne
    omega

theorem ladder_fits {n : Nat} (hn : n ≤ 10000000) : MsgFits (ladder n) ∧ (encodeBytes (ladder n)).length ≤ 80 * n + 64 := by
  have hf : MsgFits (ladder n) := by
    refine ⟨fun v hv => ?_, fun v hv => ?_, fun e he => ?_, Nat.one_lt_two_pow (by decide), Nat.mod_lt _ (by decide)⟩
    · simp only [ladder, List.mem_map, List.mem_range] at hv
      omega
    · simp only [ladder, List.mem_singleton] at hv
      omega
    · obtain ⟨i, hi, rfl | rfl⟩ := mem_ladder.1 he <;> exact ⟨by simp only; omega, by simp only; omega⟩
  have h1 : (ladder n).nodeIds.length = n + 1 := by simp [ladder]
  have h2 : (ladder n).finalIds.length = 1 := rfl
  have h3 := ladder_edges n
  have := encodeBytes_length hf (by omega)
  exact ⟨hf, by omega⟩

/-- C76, files: for every `n` up to ten million there is a file of at most 80 n + 64 bytes, holding a dictionary of n + 1
nodes and 2 n edges without any fault, whose deletion takes exactly 2^(n+1) - 1 iterations. -/
theorem c76_exponential (sgn : Bool) {addr : Nat → Nat} {h : Heap} (ha : Allocator addr h) {n : Nat} (hn : n ≤ 10000000) :
    ∃ bs msg h' d, bs.length ≤ 80 * n + 64 ∧ decodeMsg bs = some msg ∧ msg.nodeIds.length = n + 1 ∧
      msg.edges.length = 2 * n ∧ deserializeStream sgn addr bs h = .ok (h', some d) ∧ DictNode sgn h'.mem (n + 1) d.root ∧
      (∀ t, Accepts h'.mem d.root t ↔ t.length = n ∧ ∀ c ∈ t, c = 97 ∨ c = 98) ∧
      (∀ fuel, fuel < 2 ^ (n + 1) - 1 → destroyDawg fuel h' d = .error .diverge) ∧
      (∀ fuel, 2 ^ (n + 1) - 1 ≤ fuel → ∃ h'', destroyDawg fuel h' d = .ok h'') := by
  obtain ⟨h1, h2, h3⟩ := ladder_fine n
  obtain ⟨h', d, hok, _⟩ := (c75_read sgn ha (ladder n)).2 h1
  have hlen := shortWords_length n
  have hit := c76_message ha hok h2 h3 (shortWords_nodup n) (fun w => ladder_walk w n 0 (by omega))
  obtain ⟨φ, hr⟩ := readAny_of_ok ha hok
  have hdn := hr.dictNode h2 h3
  obtain ⟨hf, hl⟩ := ladder_fits hn
  have hdec := decode_encode hf (by unfold maxBytes; omega)
  refine ⟨encodeBytes (ladder n), ladder n, h', d, hl, hdec, by simp [ladder], ?_, ?_, by simpa [ladder] using hdn,
    fun t => ?_, fun fuel hf => (hit fuel).1 (by omega), fun fuel hf => (hit fuel).2 (by omega)⟩
  · exact ladder_edges n
  · simp [deserializeStream, hdec, hok, bind, Except.bind, pure, Except.pure]
  · rw [(c75_dictionary ha hok).2 h2]
    constructor
    · rintro ⟨y, hw, hy⟩
      have h4 := ladder_rise hw
      have h5 := (ladder_walk t n 0 (by omega)).2 ⟨y, hw⟩
      simp only [ladder, List.mem_singleton] at hy h4
      exact ⟨by omega, (mem_shortWords.1 h5).2⟩
    · rintro ⟨h4, h5⟩
      obtain ⟨y, hw⟩ := (ladder_walk (n := n) t n 0 (by omega)).1 (mem_shortWords.2 ⟨Nat.le_of_eq h4, h5⟩)
      have h6 := ladder_rise hw
      exact ⟨y, hw, by simp only [ladder, List.mem_singleton] at h6 ⊢; omega⟩

/-! ### Cases -/

/-- The terms "a", "ab", "cb" have the beginnings "", "a", "ab", "c", "cb": five iterations, for three nodes. -/
example : ∀ h' d, Ends (fun fuel => sortedDawg true (fun i => i + 1) fuel [[97], [97, 98], [99, 98]] exHeap) (h', some d) →
    destroyDawg 4 h' d = .error .diverge ∧ ∃ h'', destroyDawg 5 h' d = .ok h'' := by
  intro h' d hr
  obtain ⟨h1, h2, _⟩ := c76_built (ws := [[], [97], [97, 98], [99], [99, 98]]) exAllocator hr (by decide) (fun w => by
    simp only [List.mem_cons, List.not_mem_nil, or_false, exists_eq_or_imp, exists_eq_left, List.prefix_cons_iff,
      List.prefix_nil]
    grind)
  exact ⟨h1 4 (by decide), h2 5 (by decide)⟩

/-- The hypothesis of the case above is met. -/
example : ∃ h' d, Ends (fun fuel => sortedDawg true (fun i => i + 1) fuel [[97], [97, 98], [99, 98]] exHeap) (h', some d) := by
  obtain ⟨h', d, h1, _⟩ := c15_contains_exactly_terms true exAllocator (terms := [[97], [97, 98], [99, 98]])
    (by unfold SortedTerms; decide)
  exact ⟨h', d, h1⟩

/-- Sixty-four letters: a file of at most 5184 bytes, and about 3.7 · 10^19 iterations. -/
example : ∃ bs h' d, bs.length ≤ 5184 ∧ deserializeStream true (fun i => i + 1) bs exHeap = .ok (h', some d) ∧
    destroyDawg 36893488147419103230 h' d = .error .diverge := by
  obtain ⟨bs, msg, h', d, h1, _, _, _, h2, _, _, h3, _⟩ := c76_exponential true exAllocator (n := 64) (by decide)
  exact ⟨bs, h', d, h1, h2, h3 _ (by decide)⟩

end Lev.Props
