import Verif.Proofs.QueryCost
import Verif.Props.Query
import Verif.Props.State

/-!
# Property C64: the cost of a query; C45, C53, C54 for the states of a running query

`QueryRun A n q mem root upd k Q`: the query has made `k` iterations of the loop of `advance`, over all increments
together, and looks like `Q` (`Verif/Model/QuerySteps.lean`).
-/

namespace Lev.Props

open Lev Spec

section
variable {R : Type} {A : Algorithm} {n : Nat} {q : Str} {mem : Mem} {root : Nat} {upd : Str → Nat → R}

/-- Whatever `begin()` and `++` return was reached by iterations: what is proved of all runs holds of the model. -/
theorem runs_cover {fuel j : Nat} {dflt : R} {Q Q' : Query (List Pos) R}
    (hb : queryBegin (listBackend A n q.length) mem upd fuel dflt () root initialState q n = .ok ((), Q))
    (ha : queryAdvances (listBackend A n q.length) mem upd fuel j () Q = .ok ((), Q')) :
    ∃ k, QueryRun A n q mem root upd k Q' := by
  obtain ⟨k, h⟩ := queryBegin_run hb
  obtain ⟨k', _, h'⟩ := queryAdvances_run h ha
  exact ⟨k', h'⟩

/-- The invariants of `Verif/Proofs/QueryRun.lean` hold too. -/
theorem run_queryInv {sgn : Bool} (hd : Dictionary sgn mem root) (hn : n < 2 ^ 64) (hq : QueryFits n q)
    {k : Nat} {Q : Query (List Pos) R} (h : QueryRun A n q mem root upd k Q) :
    ∃ D P ch, D < 2 ^ 62 ∧ QueryInv A n q (fun (_ : Unit) s l => s = l) mem initialState D () Q P ch := by
  obtain ⟨nd, F, ht⟩ := hd.tree
  have hs := sizeMax_val
  suffices ∃ P ch, QueryInv A n q (fun (_ : Unit) s l => s = l) mem initialState F.height () Q P ch by
    obtain ⟨P, ch, h⟩ := this
    exact ⟨_, P, ch, ht.height, h⟩
  induction h with
  | start r =>
    refine ⟨[rootItem nd F], [], rfl, rfl, rfl, ?_, ?_, .inl ⟨rfl, rfl⟩⟩
    · refine .cons ⟨rfl, ⟨_, rfl, initialState_sem A n q⟩, ⟨nd, ht.node, rfl, ht.unf⟩, ?_⟩ .nil
      simp [rootItem]
    · intro I hI
      simp only [queryStart, List.mem_singleton] at hI
      subst hI
      exact .inl rfl
  | mark _ ih =>
    obtain ⟨P, ch, h⟩ := ih
    exact ⟨P, ch, h.term, h.maxD, h.a, h.pending, h.pendingOwn, h.cur⟩
  | iter _ hne hit ih =>
    obtain ⟨P, ch, h⟩ := ih
    obtain ⟨_, _, _, P', ch', heq, hinv, _⟩ := queryIter_spec (upd := upd) (listBackend_ok A n q.length) (by omega) (by omega)
      ht.height h hne
    rw [hit] at heq
    cases heq
    exact ⟨P', ch', hinv⟩

/-! ### C54 -/

/-- C54, in a query: whenever a running query looks at an edge, the window lies inside the query term, has at most
`2 n + 1` characters, and building the characteristic vector succeeds, whatever the label is. -/
theorem c54_query_windows {sgn : Bool} (hd : Dictionary sgn mem root) (hn : n < 2 ^ 64) (hq : QueryFits n q)
    {k : Nat} {Q : Query (List Pos) R} (h : QueryRun A n q mem root upd k Q) (he : Q.edges ≠ []) :
    Q.term = q ∧ Q.i + Q.k ≤ q.length ∧ Q.k ≤ 2 * n + 1 ∧
      ∀ x, ∃ cv, charVec x Q.term Q.k Q.i = .ok cv ∧ cv.length = Q.k := by
  obtain ⟨D, P, ch, hD, h⟩ := run_queryInv hd hn hq h
  have hs := sizeMax_val
  have hsw := sizeW_val
  rcases h.cur with hc | ⟨I, it, F, p, tl, h1, h2, h3, h4, h5, h6, h7, h8, h9, h10⟩
  · exact absurd hc.1 he
  · have hlen : it.path.length < 2 ^ 62 := by have := h2.height; omega
    have hsm : Small n q it.path.length := ⟨by omega, hq, hlen⟩
    have hhd := h8.inv.ok p (by simp)
    have hi := hhd.index_le
    have key : ∀ x, ∃ cv, charVec x Q.term Q.k Q.i = .ok cv ∧ Window n q x p.index it.path.length cv := by
      intro x
      obtain ⟨cv, hcv, hwin⟩ := charVec_window (x := x) hsm hi (by have := hhd.behind; have := hhd.errors_le; omega)
      exact ⟨cv, by rw [h.term, h9, h10]; exact hcv, hwin⟩
    have hlens : ∀ x cv, charVec x Q.term Q.k Q.i = .ok cv → cv.length = Q.k := by
      intro x cv hcv
      unfold charVec at hcv
      split at hcv
      · have : ∀ r j cv, cvLoop x Q.term Q.i r j = .ok cv → cv.length = r := by
          intro r
          induction r with
          | zero => intro j cv h; cases h; rfl
          | succ r ih =>
            intro j cv h
            rw [cvLoop] at h
            cases hc : strAt Q.term (wadd Q.i j) with
            | error e => rw [hc] at h; cases h
            | ok c =>
              rw [hc] at h
              cases hl : cvLoop x Q.term Q.i r (j + 1) with
              | error e => simp only [hl, bind, Except.bind] at h; cases h
              | ok rest =>
                simp only [hl, bind, Except.bind, pure, Except.pure, Except.ok.injEq] at h
                subst h
                simp [ih _ _ hl]
        exact this _ _ _ hcv
      · cases hcv
    obtain ⟨cv, hcv, hwin⟩ := key 0
    have hl := hwin.length
    have hk := hlens 0 cv hcv
    refine ⟨h.term, by omega, by omega, fun x => ?_⟩
    obtain ⟨cv, hcv, _⟩ := key x
    exact ⟨cv, hcv, hlens x cv hcv⟩

/-- C54, in a query: no iteration of a running query goes wrong, in particular none reads outside the query term or a
characteristic vector. -/
theorem c54_iterations_succeed {sgn : Bool} (hd : Dictionary sgn mem root) (hn : n < 2 ^ 64) (hq : QueryFits n q)
    {k : Nat} {Q : Query (List Pos) R} (h : QueryRun A n q mem root upd k Q) (hne : Q.edges ≠ [] ∨ Q.pending ≠ []) :
    ∃ Q' stop, queryIter (listBackend A n q.length) mem upd () Q = .ok ((), Q', stop) ∧
      QueryRun A n q mem root upd (k + 1) Q' := by
  obtain ⟨D, P, ch, hD, hinv⟩ := run_queryInv hd hn hq h
  have hs := sizeMax_val
  obtain ⟨⟨⟩, Q', stop, _, _, heq, _⟩ := queryIter_spec (upd := upd) (listBackend_ok A n q.length) (by omega) (by omega)
    hD hinv hne
  exact ⟨Q', stop, heq, .iter h hne heq⟩

/-! ### C45, C53 -/

/-- C45, in a query: the states in the queue of a running query are states reached by reading the prefix they belong to,
so the theorems on reachable states apply to them. -/
theorem c45_query_states {sgn : Bool} (hd : Dictionary sgn mem root) (hn : n < 2 ^ 64) (hq : QueryFits n q)
    {k : Nat} {Q : Query (List Pos) R} (h : QueryRun A n q mem root upd k Q) {I : Inter (List Pos)} (hI : I ∈ Q.pending) :
    ReachState A n q I.str I.state := by
  have hs := sizeMax_val
  obtain ⟨E, h⟩ := h.inv hd (by omega) (by omega)
  exact (h.visit I hI).state

/-- C53, in a query: the intersections in the queue are prefixes spelled along the edges of the dictionary, ending at the
intersection's node, and none is there twice. -/
theorem c53_query_prefixes {sgn : Bool} (hd : Dictionary sgn mem root) (hn : n < 2 ^ 64) (hq : QueryFits n q)
    {k : Nat} {Q : Query (List Pos) R} (h : QueryRun A n q mem root upd k Q) :
    (∀ I ∈ Q.pending, Leads mem root I.str I.node) ∧ (Q.pending.map Inter.str).Nodup := by
  have hs := sizeMax_val
  obtain ⟨E, h⟩ := h.inv hd (by omega) (by omega)
  exact ⟨fun I hI => (h.visit I hI).leads, (List.nodup_append.1 h.nodup).2.1⟩

/-! ### C64 -/

/-- C64: a state has at most `(n+1)²` positions, `(n+1)² + n²` for the algorithms with special positions: the lengths
of the query and of the terms do not matter. -/
theorem c64_state_size {w : Str} {l : List Pos} (h : ReachState A n q w l) (hn : n < 2 ^ 64) (hq : QueryFits n q)
    (hw : w.length < 2 ^ 62) : l.length ≤ (n + 1) ^ 2 + (if A = .standard then 0 else n ^ 2) := by
  have hs := sizeMax_val
  have := (h.sem (by omega) (by omega) (by omega)).length_le
  simpa only [Nat.pow_two] using this

/-- C64: a query in progress has so far visited some prefixes in the dictionary, each once, all of which can be
continued to strings within the distance, and has made at most one iteration for each of them and one for each edge
that leaves one. -/
theorem c64_progress {sgn : Bool} (hd : Dictionary sgn mem root) (hn : n < 2 ^ 64) (hq : QueryFits n q)
    {k : Nat} {Q : Query (List Pos) R} (h : QueryRun A n q mem root upd k Q) :
    ∃ E : List (Str × DNode), (E.map (·.1)).Nodup ∧
      (∀ e ∈ E, Viable A q n e.1 ∧ ∃ b, Leads mem root e.1 b ∧ mem b = some e.2) ∧
      k ≤ (E.map (fun e => 1 + e.2.edges.length)).sum := by
  have hs := sizeMax_val
  obtain ⟨E, h⟩ := h.inv hd (by omega) (by omega)
  exact ⟨E, (List.nodup_append.1 h.nodup).1, h.done, by have := h.count; omega⟩

/-- C64: a finished query has visited exactly the prefixes in the dictionary that can be continued (by whatever
characters) to a string within the distance, each once, and the number of its iterations is the number of these prefixes
plus the number of edges leaving them. -/
theorem c64_visits_viable_prefixes {sgn : Bool} (hd : Dictionary sgn mem root) (hn : n < 2 ^ 64) (hq : QueryFits n q)
    {k : Nat} {Q : Query (List Pos) R} (h : QueryRun A n q mem root upd k Q) (he : Q.edges = []) (hp : Q.pending = []) :
    ∃ E : List (Str × DNode), (E.map (·.1)).Nodup ∧ (∀ e ∈ E, ∃ b, Leads mem root e.1 b ∧ mem b = some e.2) ∧
      (∀ w, w ∈ E.map (·.1) ↔ (∃ b, Leads mem root w b) ∧ Viable A q n w) ∧
      k = (E.map (fun e => 1 + e.2.edges.length)).sum := by
  have hs := sizeMax_val
  obtain ⟨E, h⟩ := h.inv hd (by omega) (by omega)
  obtain ⟨d, _, hdn⟩ := hd
  refine ⟨E, (List.nodup_append.1 h.nodup).1, fun e he => (h.done e he).2, fun w => ⟨fun hw => ?_, fun hw => ?_⟩, ?_⟩
  · obtain ⟨e, he, rfl⟩ := List.mem_map.1 hw
    obtain ⟨h1, b, h2, _⟩ := h.done e he
    exact ⟨⟨b, h2⟩, h1⟩
  · obtain ⟨⟨b, hb⟩, hv⟩ := hw
    exact h.finished hdn he hp hb hv
  · have := h.count
    rw [he] at this
    simpa using this

/-- C64: a node has at most 256 edges, so a query makes at most 257 iterations for each viable prefix. -/
theorem c64_iterations_bound {sgn : Bool} (hd : Dictionary sgn mem root) (hn : n < 2 ^ 64) (hq : QueryFits n q)
    {k : Nat} {Q : Query (List Pos) R} (h : QueryRun A n q mem root upd k Q) (ps : List Str)
    (hps : ∀ w b, Leads mem root w b → Viable A q n w → w ∈ ps) : k ≤ 257 * ps.length := by
  obtain ⟨E, h1, h2, h3⟩ := c64_progress hd hn hq h
  obtain ⟨d, _, hdn⟩ := hd
  have hlen : E.length ≤ ps.length := by
    have := h1.length_le_of_subset (l₂ := ps) fun w hw => by
      obtain ⟨e, he, rfl⟩ := List.mem_map.1 hw
      obtain ⟨hv, b, hb, _⟩ := h2 e he
      exact hps _ b hb hv
    simpa using this
  have hdeg : ∀ e ∈ E, e.2.edges.length ≤ 256 := by
    intro e he
    obtain ⟨_, b, hb, hm⟩ := h2 e he
    have hnd := hb.labels_nodup hdn hm
    have hnd' : ((e.2.edges.map (·.1)).map UInt8.toNat).Nodup :=
      List.pairwise_map.2 (hnd.imp fun hne heq => hne (UInt8.toNat_inj.1 heq))
    have := hnd'.length_le_of_subset (l₂ := List.range 256) fun x hx => by
      obtain ⟨c, _, rfl⟩ := List.mem_map.1 hx
      exact List.mem_range.2 c.toNat_lt
    simpa using this
  have hsum : (E.map (fun e => 1 + e.2.edges.length)).sum ≤ 257 * E.length := by
    clear h1 h2 h3 hlen
    induction E with
    | nil => simp
    | cons e E ih =>
      have := ih fun e he => hdeg e (by simp [he])
      have := hdeg e (by simp)
      simp only [List.map_cons, List.sum_cons, List.length_cons]
      omega
  omega

/-- C64: the whole query is such a run: iterating it to its end makes exactly that many iterations. -/
theorem c64_whole_query {sgn : Bool} (hd : Dictionary sgn mem root) (hn : n < 2 ^ 64) (hq : QueryFits n q)
    (dflt : Str × Nat) : ∃ rs fuel Q Q' k,
      queryBegin (listBackend A n q.length) mem updCandidate fuel dflt () root initialState q n = .ok ((), Q) ∧
      queryAdvances (listBackend A n q.length) mem updCandidate fuel rs.length () Q = .ok ((), Q') ∧
      Yields A updCandidate mem root q n rs ∧ QueryRun A n q mem root updCandidate k Q' ∧ Q'.edges = [] ∧ Q'.pending = [] := by
  obtain ⟨rs, N, hy, h⟩ := c38_terminates_and_stays_finished (A := A) (q := q) (n := n) hd hq hn
  obtain ⟨Q, hb, hadv⟩ := h N (Nat.le_refl _) dflt
  obtain ⟨Q', ha, hc, _⟩ := hadv rs.length
  obtain ⟨k, hrun⟩ := runs_cover hb ha
  have hfin := complete_finished hb ha (hc.2 (Nat.le_refl _))
  exact ⟨rs, N, Q, Q', k, hb, ha, hy, hrun, hfin⟩

end

/-! ### Examples -/

/-- Performs iterations until nothing is left to do; the number of them. -/
def exIterations (A : Algorithm) (n : Nat) (q : Str) (mem : Mem) (root : Nat) : Nat → Nat → Query (List Pos) Str →
    Except Err Nat
  | 0, _, _ => .error .diverge
  | fuel + 1, k, Q =>
      if Q.edges.isEmpty && Q.pending.isEmpty then .ok k
      else do
        let (_, Q', _) ← queryIter (listBackend A n q.length) mem updString () Q
        exIterations A n q mem root fuel (k + 1) Q'

-- The dictionary of the examples has the prefixes "", a, c, ab, cb, abc, cbc and one edge into each but the first.
-- For the query ("ab", 1) all but "cbc" can be continued to a string within distance 1: 6 prefixes, with 6 edges.
example : exIterations .standard 1 [97, 98] exMem 0 100 0 (queryStart 1 [97, 98] 0 []) = .ok 12 := by decide +kernel

-- With distance 0 only "", a and ab are visited, and the edges a, c, b, c looked at.
example : exIterations .standard 0 [97, 98] exMem 0 100 0 (queryStart 0 [97, 98] 0 []) = .ok 7 := by decide +kernel

example : ¬ Viable .standard ([97, 98] : Str) 0 [99] := by
  rintro ⟨u, c, hc, h⟩
  obtain rfl : c = 0 := by omega
  cases h

end Lev.Props
