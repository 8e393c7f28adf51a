import Verif.Proofs.QueryCost
import Verif.Spec.Graph

/-!
# Queries on graphs with cycles and missing nodes

A query visits prefixes that can be continued to a string within the maximum distance, so none longer than the query and
the maximum distance together.  Unrolled to that depth, with empty nodes in place of missing ones, any graph is a
dictionary; a query on the graph takes the same steps, unless it gets to a missing node.
-/

namespace Lev

open Spec

/-- The copy of the node at `a` in depth `d`, if there are `W` depths. -/
def copyAt (W a d : Nat) : Nat := a * W + d

/-- The graph unrolled to depth `L`. -/
def unroll (mem : Mem) (L : Nat) : Mem := fun x =>
  match mem (x / (L + 1)) with
  | none => some ⟨false, []⟩
  | some nd =>
      if x % (L + 1) = L then some ⟨nd.final, []⟩
      else some ⟨nd.final, nd.edges.map fun e => (e.1, copyAt (L + 1) e.2 (x % (L + 1) + 1))⟩

theorem copyAt_div {W a d : Nat} (h : d < W) : copyAt W a d / W = a := by
  unfold copyAt
  rw [Nat.mul_comm, Nat.mul_add_div (by omega), Nat.div_eq_of_lt h, Nat.add_zero]

theorem copyAt_mod {W a d : Nat} (h : d < W) : copyAt W a d % W = d := by
  unfold copyAt
  rw [Nat.mul_comm, Nat.mul_add_mod, Nat.mod_eq_of_lt h]

theorem unroll_none {mem : Mem} {L a d : Nat} (hd : d ≤ L) (h : mem a = none) :
    unroll mem L (copyAt (L + 1) a d) = some ⟨false, []⟩ := by
  unfold unroll
  rw [copyAt_div (by omega), h]

theorem unroll_last {mem : Mem} {L a : Nat} {nd : DNode} (h : mem a = some nd) :
    unroll mem L (copyAt (L + 1) a L) = some ⟨nd.final, []⟩ := by
  unfold unroll
  rw [copyAt_div (by omega), copyAt_mod (by omega), h]
  simp

theorem unroll_node {mem : Mem} {L a d : Nat} {nd : DNode} (hd : d < L) (h : mem a = some nd) :
    unroll mem L (copyAt (L + 1) a d) = some ⟨nd.final, nd.edges.map fun e => (e.1, copyAt (L + 1) e.2 (d + 1))⟩ := by
  unfold unroll
  rw [copyAt_div (by omega), copyAt_mod (by omega), h]
  simp only
  rw [if_neg (by omega)]

/-- The unrolled graph is a dictionary. -/
theorem unroll_dict {sgn : Bool} {mem : Mem} {L a : Nat} (hs : EdgesSorted sgn mem a) {d : Nat} (hd : d ≤ L) :
    DictNode sgn (unroll mem L) (L + 1 - d) (copyAt (L + 1) a d) := by
  obtain ⟨r, hr⟩ : ∃ r, L = d + r := ⟨L - d, by omega⟩
  induction r generalizing a d with
  | zero =>
    have he : L = d := by omega
    rw [show L + 1 - d = 0 + 1 by omega]
    cases hm : mem a with
    | none => exact .mk (unroll_none hd hm) (by simp) (by simp)
    | some nd => subst he; exact .mk (unroll_last hm) (by simp) (by simp)
  | succ r ih =>
    rw [show L + 1 - d = (L + 1 - (d + 1)) + 1 by omega]
    cases hm : mem a with
    | none => exact .mk (unroll_none hd hm) (by simp) (by simp)
    | some nd =>
      refine .mk (unroll_node (by omega) hm) ?_ ?_
      · simp only [List.pairwise_map]
        exact hs a nd .refl hm
      · intro c b hb
        obtain ⟨⟨c', b'⟩, he, heq⟩ := List.mem_map.1 hb
        simp only [Prod.mk.injEq] at heq
        rw [← heq.2]
        exact ih (fun x nd' hx hx' => hs x nd' (.step hm he hx) hx') (by omega) (by omega)

/-- Its language: the strings accepted that are not too long. -/
theorem unroll_accepts {mem : Mem} {L a d : Nat} {w : Str} (hd : d ≤ L) :
    Accepts (unroll mem L) (copyAt (L + 1) a d) w ↔ w.length + d ≤ L ∧ Accepts mem a w := by
  induction w generalizing a d with
  | nil =>
    have h1 : ∀ {m : Mem} {x : Nat}, Accepts m x [] ↔ ∃ nd, m x = some nd ∧ nd.final = true :=
      ⟨fun h => by cases h with | here h1 h2 => exact ⟨_, h1, h2⟩, fun ⟨_, h1, h2⟩ => .here h1 h2⟩
    rw [h1, h1]
    cases hm : mem a with
    | none => rw [unroll_none hd hm]; simp
    | some nd =>
      by_cases he : d = L
      · subst he; rw [unroll_last hm]; simp
      · rw [unroll_node (by omega) hm]; simp [hd]
  | cons c w ih =>
    have h1 : ∀ {m : Mem} {x : Nat}, Accepts m x (c :: w) ↔ ∃ nd b, m x = some nd ∧ (c, b) ∈ nd.edges ∧ Accepts m b w :=
      ⟨fun h => by cases h with | step h1 h2 h3 => exact ⟨_, _, h1, h2, h3⟩, fun ⟨_, _, h1, h2, h3⟩ => .step h1 h2 h3⟩
    rw [h1, h1]
    cases hm : mem a with
    | none => rw [unroll_none hd hm]; simp
    | some nd =>
      by_cases he : d = L
      · subst he; rw [unroll_last hm]; simp; omega
      · rw [unroll_node (by omega) hm]
        constructor
        · rintro ⟨nd', b, h2, h3, h4⟩
          cases h2
          obtain ⟨⟨c', b'⟩, h5, h6⟩ := List.mem_map.1 h3
          simp only [Prod.mk.injEq] at h6
          obtain ⟨rfl, rfl⟩ := h6
          obtain ⟨h7, h8⟩ := (ih (by omega)).1 h4
          exact ⟨by simp only [List.length_cons]; omega, nd, b', rfl, h5, h8⟩
        · rintro ⟨hl, nd', b, h2, h3, h4⟩
          cases h2
          simp only [List.length_cons] at hl
          exact ⟨_, copyAt (L + 1) b (d + 1), rfl, List.mem_map.2 ⟨(c, b), h3, rfl⟩, (ih (by omega)).2 ⟨by omega, h4⟩⟩

/-- Its paths are paths of the graph. -/
theorem unroll_leads {mem : Mem} {L a x : Nat} {w : Str} (h : Leads (unroll mem L) (copyAt (L + 1) a 0) w x) :
    w.length ≤ L ∧ ∃ b, x = copyAt (L + 1) b w.length ∧ Leads mem a w b := by
  induction h with
  | here => exact ⟨by simp, a, rfl, .here⟩
  | @snoc w y nd c z _ hm he ih =>
    obtain ⟨hl, b, rfl, hb⟩ := ih
    cases hmb : mem b with
    | none => rw [unroll_none hl hmb] at hm; cases hm; simp at he
    | some nd' =>
      by_cases hL : w.length = L
      · have : unroll mem L (copyAt (L + 1) b w.length) = some ⟨nd'.final, []⟩ := by rw [hL]; exact unroll_last hmb
        rw [this] at hm; cases hm; simp at he
      · rw [unroll_node (by omega) hmb] at hm
        cases hm
        obtain ⟨⟨c', b'⟩, h5, h6⟩ := List.mem_map.1 he
        simp only [Prod.mk.injEq] at h6
        obtain ⟨rfl, rfl⟩ := h6
        refine ⟨by simp; omega, b', by simp, .snoc hb hmb h5⟩

/-! ### The same steps -/

/-- An intersection, with its node's copy in the right depth. -/
def Inter.unrolled {S : Type} (W : Nat) : Inter S → Inter S
  | .root a s => .root (copyAt W a 0) s
  | .child l a s p => .child l (copyAt W a (p.str.length + 1)) s (p.unrolled W)

theorem Inter.unrolled_str {S : Type} (W : Nat) (I : Inter S) : (I.unrolled W).str = I.str := by
  induction I with
  | root => rfl
  | child l a s p ih => simp only [Inter.unrolled, Inter.str, ih]

theorem Inter.unrolled_state {S : Type} (W : Nat) (I : Inter S) : (I.unrolled W).state = I.state := by
  cases I <;> rfl

theorem Inter.unrolled_node {S : Type} (W : Nat) (I : Inter S) : (I.unrolled W).node = copyAt W I.node I.str.length := by
  cases I <;> simp [Inter.unrolled, Inter.node, Inter.str]

/-- The depth of the nodes that the edges at hand lead to. -/
def Query.depth {S R : Type} (Q : Query S R) : Nat := match Q.cur with
  | none => 0
  | some I => I.str.length + 1

/-- A query, with its nodes' copies. -/
def Query.unrolled {S R : Type} (W : Nat) (Q : Query S R) : Query S R :=
  { Q with pending := Q.pending.map (Inter.unrolled W), cur := Q.cur.map (Inter.unrolled W),
           edges := Q.edges.map fun e => (e.1, copyAt W e.2 Q.depth) }

section
variable {R : Type} {A : Algorithm} {n : Nat} {q : Str} {mem : Mem} {root : Nat} {upd : Str → Nat → R} {sgn : Bool}

theorem viable_length {w : Str} (h : Viable A q n w) : w.length ≤ q.length + n := by
  obtain ⟨u, c, hc, h⟩ := h
  have := h.length_bounds.2
  simp only [List.length_append] at this
  omega

/-- The unrolled graph used for the query. -/
abbrev unrollFor (n : Nat) (q : Str) (mem : Mem) : Mem := unroll mem (q.length + n + 1)

/-- The number of its depths. -/
abbrev widthFor (n : Nat) (q : Str) : Nat := q.length + n + 1 + 1

theorem unrollFor_dictionary (hs : EdgesSorted sgn mem root) (hL : QueryFits n q ∧ q.length + n + 2 ≤ 2 ^ 62) :
    Dictionary sgn (unrollFor n q mem) (copyAt (widthFor n q) root 0) :=
  ⟨_, by omega, unroll_dict hs (Nat.zero_le _)⟩

/-- What an intersection in the unrolled graph tells about the graph. -/
theorem visit_unrolled (hL : QueryFits n q ∧ q.length + n + 2 ≤ 2 ^ 62) {I : Inter (List Pos)}
    (h : Visit A n q (unrollFor n q mem) (copyAt (widthFor n q) root 0) (I.unrolled (widthFor n q))) :
    Viable A q n I.str ∧ I.str.length < q.length + n + 1 ∧ Leads mem root I.str I.node := by
  obtain ⟨h1, h2⟩ := h
  rw [Inter.unrolled_str, Inter.unrolled_state] at *
  obtain ⟨h3, b, h4, h5⟩ := unroll_leads h1
  have hsem := h2.sem (by rw [sizeMax_val]; omega) hL.1 (by omega)
  have hv := hsem.viable
  have hl := viable_length hv
  refine ⟨hv, by omega, ?_⟩
  rw [Inter.unrolled_node] at h4
  have : I.node = b := by
    have := congrArg (· / widthFor n q) h4
    simpa only [copyAt_div (show I.str.length < widthFor n q by unfold widthFor; omega)] using this
  rw [this]
  exact h5

/-- One iteration: the same in the graph and in the unrolled graph, or the graph has a missing node and the iteration is
undefined. -/
theorem queryIter_unroll (hs : EdgesSorted sgn mem root) (hL : QueryFits n q ∧ q.length + n + 2 ≤ 2 ^ 62) {k : Nat}
    {Q : Query (List Pos) R}
    (hrun : QueryRun A n q (unrollFor n q mem) (copyAt (widthFor n q) root 0) upd k (Q.unrolled (widthFor n q)))
    (hne : Q.edges ≠ [] ∨ Q.pending ≠ []) :
    queryIter (listBackend A n q.length) (unrollFor n q mem) upd () (Q.unrolled (widthFor n q)) =
        (queryIter (listBackend A n q.length) mem upd () Q).map (fun r => ((), r.2.1.unrolled (widthFor n q), r.2.2)) ∨
      (queryIter (listBackend A n q.length) mem upd () Q = .error .ub ∧ Pitfall A n q mem root) := by
  have hd := unrollFor_dictionary (n := n) (q := q) hs hL
  have hn : n ≤ sizeMax := by rw [sizeMax_val]; omega
  obtain ⟨E, hinv⟩ := hrun.inv hd hn hL.1
  have hne' : (Q.unrolled (widthFor n q)).edges ≠ [] ∨ (Q.unrolled (widthFor n q)).pending ≠ [] := by
    simpa [Query.unrolled] using hne
  cases hes : Q.edges with
  | nil =>
    cases hp : Q.pending with
    | nil => simp [hes, hp] at hne
    | cons I rest =>
      obtain ⟨hv, hl, hlead⟩ := visit_unrolled hL (hinv.visit (I.unrolled _) (by simp [Query.unrolled, hp]))
      cases hi : (listBackend A n q.length).headIdx () I.state with
      | error e =>
        refine .inl ?_
        simp only [queryIter, Query.unrolled, hes, hp, List.map_nil, List.map_cons, Inter.unrolled_state, hi, bind,
          Except.bind, Except.map]
      | ok i =>
        cases hm : mem I.node with
        | none =>
          refine .inr ⟨?_, I.str, I.node, hv, hlead, hm⟩
          simp only [queryIter, hes, hp, hi, bind, Except.bind, deref, hm]
        | some nd =>
          refine .inl ?_
          have h1 := unroll_node (mem := mem) (L := q.length + n + 1) (d := I.str.length) hl hm
          simp only [queryIter, Query.unrolled, hes, hp, List.map_nil, List.map_cons, Inter.unrolled_state, hi, bind,
            Except.bind, Except.map, Inter.unrolled_node, deref, h1, hm, pure, Except.pure, Option.map_some, Query.depth]
  | cons e es =>
    obtain ⟨label, target⟩ := e
    cases hc : Q.cur with
    | none =>
      refine .inl ?_
      simp only [queryIter, Query.unrolled, hes, hc, List.map_cons, Option.map_none, Except.map]
    | some I =>
      cases hcv : charVec label Q.term Q.k Q.i with
      | error e =>
        refine .inl ?_
        simp only [queryIter, Query.unrolled, hes, hc, List.map_cons, Option.map_some, hcv, bind, Except.bind, Except.map]
      | ok cv =>
        cases ht : (listBackend A n q.length).trans () I.state cv with
        | error e =>
          refine .inl ?_
          simp only [queryIter, Query.unrolled, hes, hc, List.map_cons, Option.map_some, hcv, bind, Except.bind, Except.map,
            Inter.unrolled_state, ht]
        | ok r =>
          obtain ⟨⟨⟩, next⟩ := r
          cases next with
          | none =>
            refine .inl ?_
            simp only [queryIter, Query.unrolled, hes, hc, List.map_cons, Option.map_some, hcv, bind, Except.bind,
              Except.map, Inter.unrolled_state, ht, pure, Except.pure, Query.depth]
          | some s =>
            have hlI : I.str.length < q.length + n + 1 := by
              rcases hinv.cur with h1 | ⟨I', _, _, _, h1, h2, _⟩
              · simp [Query.unrolled, hes] at h1
              · simp only [Query.unrolled, hc, Option.map_some, Option.some.injEq] at h1
                subst h1
                exact (visit_unrolled hL h2).2.1
            have hdep : Q.depth = I.str.length + 1 := by simp [Query.depth, hc]
            cases hm : mem target with
            | none =>
              have h1 := unroll_none (mem := mem) (L := q.length + n + 1) (d := I.str.length + 1) (by omega) hm
              have hiter : queryIter (listBackend A n q.length) (unrollFor n q mem) upd () (Q.unrolled (widthFor n q)) =
                  .ok ((), { Q.unrolled (widthFor n q) with
                    edges := es.map fun e => (e.1, copyAt (widthFor n q) e.2 Q.depth)
                    pending := (Q.unrolled (widthFor n q)).pending ++ [(Inter.child label target s I).unrolled (widthFor n q)]
                    owned := Q.owned ++ [s] }, false) := by
                simp only [queryIter, Query.unrolled, hes, hc, List.map_cons, Option.map_some, hcv, bind, Except.bind,
                  Inter.unrolled_state, ht, pure, Except.pure, hdep, deref, h1, Inter.unrolled]
                rfl
              obtain ⟨E', hinv'⟩ := (QueryRun.iter hrun hne' hiter).inv hd hn hL.1
              obtain ⟨hv, hl, hlead⟩ := visit_unrolled hL (hinv'.visit ((Inter.child label target s I).unrolled _) (by simp))
              refine .inr ⟨?_, _, target, hv, hlead, hm⟩
              simp only [queryIter, hes, hc, hcv, bind, Except.bind, ht, deref, hm]
            | some nd =>
              refine .inl ?_
              have h1 : ∃ es', unrollFor n q mem (copyAt (widthFor n q) target (I.str.length + 1)) = some ⟨nd.final, es'⟩ := by
                by_cases he : I.str.length + 1 = q.length + n + 1
                · rw [he]; exact ⟨_, unroll_last hm⟩
                · exact ⟨_, unroll_node (by omega) hm⟩
              obtain ⟨es', h1⟩ := h1
              have hterm : (Q.unrolled (widthFor n q)).term = Q.term := rfl
              simp only [queryIter, Query.unrolled, hes, hc, List.map_cons, Option.map_some, hcv, bind, Except.bind,
                Except.map, Inter.unrolled_state, ht, pure, Except.pure, hdep, deref, h1, hm, Query.depth]
              cases nd.final with
              | false => simp [Inter.unrolled]
              | true =>
                simp only [if_true]
                cases (listBackend A n q.length).dist () s Q.term.length with
                | error e => rfl
                | ok d =>
                  by_cases hdm : d ≤ Q.maxD
                  · simp [hdm, Inter.unrolled, Inter.str, Inter.unrolled_str]
                  · simp [hdm, Inter.unrolled]

/-- The loop. -/
theorem queryLoop_unroll (hs : EdgesSorted sgn mem root) (hL : QueryFits n q ∧ q.length + n + 2 ≤ 2 ^ 62) (fuel : Nat) {k : Nat}
    {Q : Query (List Pos) R}
    (hrun : QueryRun A n q (unrollFor n q mem) (copyAt (widthFor n q) root 0) upd k (Q.unrolled (widthFor n q)))
    (hne : Q.edges ≠ [] ∨ Q.pending ≠ []) :
    queryLoop (listBackend A n q.length) (unrollFor n q mem) upd fuel () (Q.unrolled (widthFor n q)) =
        (queryLoop (listBackend A n q.length) mem upd fuel () Q).map (fun r => ((), r.2.unrolled (widthFor n q))) ∨
      (queryLoop (listBackend A n q.length) mem upd fuel () Q = .error .ub ∧ Pitfall A n q mem root) := by
  induction fuel generalizing k Q with
  | zero => exact .inl rfl
  | succ fuel ih =>
    have hne' : (Q.unrolled (widthFor n q)).edges ≠ [] ∨ (Q.unrolled (widthFor n q)).pending ≠ [] := by
      simpa [Query.unrolled] using hne
    rw [queryLoop, queryLoop]
    rcases queryIter_unroll hs hL hrun hne with h | ⟨h, hp⟩
    · cases hi : queryIter (listBackend A n q.length) mem upd () Q with
      | error e =>
        rw [hi] at h
        rw [h]
        exact .inl rfl
      | ok r =>
        obtain ⟨⟨⟩, Q1, stop⟩ := r
        rw [hi] at h
        simp only [Except.map] at h
        rw [h]
        simp only [bind, Except.bind, pure, Except.pure]
        cases stop with
        | true => exact .inl rfl
        | false =>
          have he : ((Q1.unrolled (widthFor n q)).edges.isEmpty && (Q1.unrolled (widthFor n q)).pending.isEmpty) =
              (Q1.edges.isEmpty && Q1.pending.isEmpty) := by simp [Query.unrolled]
          rw [he]
          cases hb : (Q1.edges.isEmpty && Q1.pending.isEmpty) with
          | true => exact .inl rfl
          | false => exact ih (.iter hrun hne' h) (QueryInv.more (by simp [hb]))
    · refine .inr ⟨?_, hp⟩
      rw [h]; rfl

theorem queryAdvance_unroll (hs : EdgesSorted sgn mem root) (hL : QueryFits n q ∧ q.length + n + 2 ≤ 2 ^ 62) (fuel : Nat) {k : Nat}
    {Q : Query (List Pos) R}
    (hrun : QueryRun A n q (unrollFor n q mem) (copyAt (widthFor n q) root 0) upd k (Q.unrolled (widthFor n q))) :
    queryAdvance (listBackend A n q.length) (unrollFor n q mem) upd fuel () (Q.unrolled (widthFor n q)) =
        (queryAdvance (listBackend A n q.length) mem upd fuel () Q).map (fun r => ((), r.2.unrolled (widthFor n q))) ∨
      (queryAdvance (listBackend A n q.length) mem upd fuel () Q = .error .ub ∧ Pitfall A n q mem root) := by
  have he : ((Q.unrolled (widthFor n q)).edges.isEmpty && (Q.unrolled (widthFor n q)).pending.isEmpty) =
      (Q.edges.isEmpty && Q.pending.isEmpty) := by simp [Query.unrolled]
  rw [queryAdvance, queryAdvance, he]
  cases hb : (Q.edges.isEmpty && Q.pending.isEmpty) with
  | true => exact .inl rfl
  | false =>
    exact queryLoop_unroll (Q := { Q with complete := true }) hs hL fuel (.mark hrun) (QueryInv.more (by simp [hb]))

theorem queryBegin_unroll (hs : EdgesSorted sgn mem root) (hL : QueryFits n q ∧ q.length + n + 2 ≤ 2 ^ 62) (fuel : Nat) (dflt : R) :
    queryBegin (listBackend A n q.length) (unrollFor n q mem) upd fuel dflt () (copyAt (widthFor n q) root 0) initialState
        q n =
        (queryBegin (listBackend A n q.length) mem upd fuel dflt () root initialState q n).map
          (fun r => ((), r.2.unrolled (widthFor n q))) ∨
      (queryBegin (listBackend A n q.length) mem upd fuel dflt () root initialState q n = .error .ub ∧
        Pitfall A n q mem root) := by
  rw [queryBegin, queryBegin]
  cases hm : mem root with
  | none =>
    refine .inr ⟨?_, [], root, viable_nil, .here, hm⟩
    simp only [deref, hm, bind, Except.bind]
  | some nd =>
    have h1 := unroll_node (mem := mem) (L := q.length + n + 1) (d := 0) (by omega) hm
    simp only [deref, hm, h1, bind, Except.bind]
    cases hb : (nd.final && decide (q.length ≤ n)) with
    | true => exact .inl rfl
    | false =>
      exact queryAdvance_unroll (Q := queryStart n q root dflt) hs hL fuel (.start dflt)

theorem queryCollect_unroll (hs : EdgesSorted sgn mem root) (hL : QueryFits n q ∧ q.length + n + 2 ≤ 2 ^ 62) (fuel : Nat) {k : Nat}
    {Q : Query (List Pos) R}
    (hrun : QueryRun A n q (unrollFor n q mem) (copyAt (widthFor n q) root 0) upd k (Q.unrolled (widthFor n q))) :
    queryCollect (listBackend A n q.length) (unrollFor n q mem) upd fuel () (Q.unrolled (widthFor n q)) =
        queryCollect (listBackend A n q.length) mem upd fuel () Q ∨
      (queryCollect (listBackend A n q.length) mem upd fuel () Q = .error .ub ∧ Pitfall A n q mem root) := by
  induction fuel generalizing k Q with
  | zero => exact .inl rfl
  | succ fuel ih =>
    rw [queryCollect, queryCollect]
    have hc : (Q.unrolled (widthFor n q)).complete = Q.complete := rfl
    rw [hc]
    cases Q.complete with
    | true => exact .inl rfl
    | false =>
      simp only [Bool.false_eq_true, if_false]
      rcases queryAdvance_unroll hs hL fuel hrun with h | ⟨h, hp⟩
      · cases ha : queryAdvance (listBackend A n q.length) mem upd fuel () Q with
        | error e =>
          rw [ha] at h
          rw [h]
          exact .inl rfl
        | ok r =>
          obtain ⟨⟨⟩, Q1⟩ := r
          rw [ha] at h
          simp only [Except.map] at h
          obtain ⟨k', _, hrun'⟩ := queryAdvance_run hrun h
          rw [h]
          simp only [bind, Except.bind]
          rcases ih hrun' with h2 | ⟨h2, hp⟩
          · left; rw [h2]; rfl
          · right; rw [h2]; exact ⟨rfl, hp⟩
      · refine .inr ⟨?_, hp⟩
        rw [h]; rfl

/-- A whole query: the same results, or the graph has a missing node and the query is undefined. -/
theorem transduce_unroll (hs : EdgesSorted sgn mem root) (hL : QueryFits n q ∧ q.length + n + 2 ≤ 2 ^ 62) (fuel : Nat) (dflt : R) :
    transduce A upd dflt (unrollFor n q mem) (copyAt (widthFor n q) root 0) q n fuel =
        transduce A upd dflt mem root q n fuel ∨
      (transduce A upd dflt mem root q n fuel = .error .ub ∧ Pitfall A n q mem root) := by
  unfold transduce queryAll
  rcases queryBegin_unroll (A := A) (upd := upd) hs hL fuel dflt with h | ⟨h, hp⟩
  · cases ha : queryBegin (listBackend A n q.length) mem upd fuel dflt () root initialState q n with
    | error e =>
      rw [ha] at h
      rw [h]
      exact .inl rfl
    | ok r =>
      obtain ⟨⟨⟩, Q1⟩ := r
      rw [ha] at h
      simp only [Except.map] at h
      obtain ⟨k', hrun'⟩ := queryBegin_run h
      rw [h]
      simp only [bind, Except.bind]
      rcases queryCollect_unroll hs hL fuel hrun' with h2 | ⟨h2, hp⟩
      · left; rw [h2]
      · right; rw [h2]; exact ⟨rfl, hp⟩
  · refine .inr ⟨?_, hp⟩
    rw [h]; rfl

end

end Lev
