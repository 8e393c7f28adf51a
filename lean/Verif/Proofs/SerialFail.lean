import Verif.Spec.SerialFail
import Verif.Proofs.SerialRound
import Verif.Proofs.DemoAny

/-!
What is left when `from_protobuf` throws: what it would have made of a beginning of the message.
-/

namespace Lev

open Spec

/-! ### Nodes -/

theorem makeNodesF_ok {addr : Nat → Nat} {f : Option LFault} {finals : List Nat} (ids : List Nat) {k : Nat}
    {nodes nodes' : List (Nat × Nat)} {h h' : Heap} (hr : makeNodesF addr f finals k ids nodes h = (nodes', h', false)) :
    makeNodes addr finals ids nodes h = (nodes', h') := by
  induction ids generalizing k nodes h with
  | nil =>
    simp only [makeNodesF, Prod.mk.injEq, and_true] at hr
    simp only [makeNodes, hr.1, hr.2]
  | cons id ids ih =>
    rw [makeNodesF] at hr
    rw [makeNodes]
    split at hr
    · next hany => rw [if_pos hany]; exact ih hr
    · next hany =>
      rw [if_neg hany]
      split at hr
      · simp at hr
      · simp only at hr
        split at hr
        · simp at hr
        · exact ih hr

/-- How many entries of `node_id`, counted from number `k` on, have a node when the fault `f` throws. -/
def nodesDone (f : Option LFault) (k : Nat) : Nat :=
  match f with
  | some (.node j) => j - k
  | some (.entry j) => j + 1 - k
  | _ => 0

theorem makeNodesF_threw {addr : Nat → Nat} {f : Option LFault} {finals : List Nat} (ids : List Nat) {k : Nat}
    {nodes nodes' : List (Nat × Nat)} {h h' : Heap} (hr : makeNodesF addr f finals k ids nodes h = (nodes', h', true)) :
    nodesDone f k ≤ ids.length ∧ (makeNodes addr finals (ids.take (nodesDone f k)) nodes h).2 = h' ∧
      ((∃ j, f = some (.node j) ∧ k ≤ j ∧ j < k + ids.length) ∨ ∃ j, f = some (.entry j) ∧ k ≤ j ∧ j < k + ids.length) := by
  induction ids generalizing k nodes h with
  | nil => simp [makeNodesF] at hr
  | cons id ids ih =>
    have step : ((∃ j, f = some (.node j) ∧ k + 1 ≤ j ∧ j < k + 1 + ids.length) ∨
          ∃ j, f = some (.entry j) ∧ k + 1 ≤ j ∧ j < k + 1 + ids.length) →
        nodesDone f k = nodesDone f (k + 1) + 1 ∧ ((∃ j, f = some (.node j) ∧ k ≤ j ∧ j < k + (id :: ids).length) ∨
          ∃ j, f = some (.entry j) ∧ k ≤ j ∧ j < k + (id :: ids).length) := by
      rw [List.length_cons]
      rintro (⟨j, rfl, hj⟩ | ⟨j, rfl, hj⟩)
      · exact ⟨by simp only [nodesDone]; omega, .inl ⟨j, rfl, by omega⟩⟩
      · exact ⟨by simp only [nodesDone]; omega, .inr ⟨j, rfl, by omega⟩⟩
    rw [makeNodesF] at hr
    split at hr
    · next hany =>
      obtain ⟨h1, h2, h3⟩ := ih hr
      obtain ⟨s1, s2⟩ := step h3
      refine ⟨by rw [s1, List.length_cons]; omega, ?_, s2⟩
      rw [s1, List.take_succ_cons, makeNodes, if_pos hany]
      exact h2
    · next hany =>
      split at hr
      · next hf =>
        simp only [Prod.mk.injEq, and_true] at hr
        subst hf
        refine ⟨by simp [nodesDone], ?_, .inl ⟨k, rfl, Nat.le_refl _, by simp⟩⟩
        simp only [nodesDone, Nat.sub_self, List.take_zero, makeNodes]
        exact hr.2
      · simp only at hr
        split at hr
        · next hf =>
          simp only [Prod.mk.injEq, and_true] at hr
          subst hf
          refine ⟨by simp [nodesDone], ?_, .inr ⟨k, rfl, Nat.le_refl _, by simp⟩⟩
          simp only [nodesDone, Nat.add_sub_cancel_left, List.take_succ_cons, List.take_zero, makeNodes, if_neg hany]
          exact hr.2
        · obtain ⟨h1, h2, h3⟩ := ih hr
          obtain ⟨s1, s2⟩ := step h3
          refine ⟨by rw [s1, List.length_cons]; omega, ?_, s2⟩
          rw [s1, List.take_succ_cons, makeNodes, if_neg hany]
          exact h2

/-! ### Edges -/

theorem addEdgeF_cases (sgn fail : Bool) (a : Nat) (c : UInt8) (b : Nat) (h : Heap) :
    addEdgeF sgn fail a c b h = (addEdge sgn a c b h).map (fun h => (h, false)) ∨
    (fail = true ∧ addEdgeF sgn fail a c b h = .ok (h, true) ∧
      ∃ nd, h.mem a = some nd ∧ nd.edges.any (fun e => e.1 == c) = false) := by
  unfold addEdgeF addEdge deref
  cases h1 : h.mem a with
  | none => exact .inl rfl
  | some nd =>
    simp only [bind, Except.bind]
    cases hany : nd.edges.any (fun e => e.1 == c) with
    | false =>
      have ht : nodeTransition nd c = 0 := by
        unfold nodeTransition
        have : nd.edges.find? (fun x => x.1 == c) = none := by
          rw [List.find?_eq_none]
          intro x hx hxc
          rw [List.any_eq_false] at hany
          exact hany x hx hxc
        simp only [this]
      simp only [ht, deleteNode, if_true, h1, hany, Bool.not_false, Bool.and_true]
      cases fail with
      | true => exact .inr ⟨rfl, rfl, nd, rfl, hany⟩
      | false => exact .inl rfl
    | true =>
      left
      cases hdel : deleteNode (nodeTransition nd c) h with
      | error e => rfl
      | ok h2 =>
        simp only
        cases h3 : h2.mem a with
        | none => rfl
        | some nd2 =>
          have hnd : nd2 = nd := by
            unfold deleteNode at hdel
            split at hdel
            · cases hdel; rw [h1] at h3; exact (Option.some.inj h3).symm
            · split at hdel
              · cases hdel
                simp only [Mem.set] at h3
                split at h3
                · cases h3
                · rw [h1] at h3; exact (Option.some.inj h3).symm
              · cases hdel
          subst hnd
          simp [hany, Except.map, pure, Except.pure]

/-- How many edges, counted from number `k` on, have been added when the fault `f` throws. -/
def edgesDone (f : Option LFault) (k : Nat) : Nat :=
  match f with
  | some (.source j) => j - k
  | some (.target j) => j - k
  | some (.edge j) => j - k
  | _ => 0

/-- The fault is at an edge, from number `k` on, that can fail. -/
def AtEdge (nodes : List (Nat × Nat)) (es : List MsgEdge) (f : Option LFault) (k : Nat) : Prop :=
  ∃ j, k ≤ j ∧ ((f = some (.source j) ∧ ∃ e ∈ es, needsEntry nodes e.source) ∨
    (f = some (.target j) ∧ ∃ e ∈ es, needsEntry nodes e.target) ∨ f = some (.edge j))

theorem makeEdgesF_cases {sgn : Bool} {f : Option LFault} {nodes : List (Nat × Nat)} (es : List MsgEdge) (k : Nat) (h : Heap) :
    makeEdgesF sgn f nodes k es h = (makeEdges sgn nodes es h).map (fun h => (h, false)) ∨
    ∃ h', makeEdgesF sgn f nodes k es h = .ok (h', true) ∧ edgesDone f k < es.length ∧ AtEdge nodes es f k ∧
      makeEdges sgn nodes (es.take (edgesDone f k)) h = .ok h' := by
  induction es generalizing k h with
  | nil => exact .inl rfl
  | cons e es ih =>
    have here : AtEdge nodes (e :: es) f k → edgesDone f k = 0 → ∃ h', (.ok (h, true) : Except Err (Heap × Bool)) = .ok (h', true) ∧
        edgesDone f k < (e :: es).length ∧ AtEdge nodes (e :: es) f k ∧ makeEdges sgn nodes ((e :: es).take (edgesDone f k)) h = .ok h' := by
      intro h1 h2
      exact ⟨h, rfl, by simp [h2], h1, by simp [h2, makeEdges]⟩
    rw [makeEdgesF]
    split
    · next hf =>
      exact .inr (here ⟨k, Nat.le_refl _, .inl ⟨hf.1, e, by simp, hf.2⟩⟩ (by rw [hf.1]; simp [edgesDone]))
    · split
      · next hf =>
        exact .inr (here ⟨k, Nat.le_refl _, .inr (.inl ⟨hf.1, e, by simp, hf.2⟩)⟩ (by rw [hf.1]; simp [edgesDone]))
      · rcases addEdgeF_cases sgn (decide (f = some (.edge k))) (nodeOf nodes e.source) (charOfLabel e.label)
          (nodeOf nodes e.target) h with hc | ⟨hf, hc, _⟩
        · rw [hc]
          cases hadd : addEdge sgn (nodeOf nodes e.source) (charOfLabel e.label) (nodeOf nodes e.target) h with
          | error er =>
            left
            simp only [makeEdges, hadd, Except.map, bind, Except.bind]
          | ok h1 =>
            simp only [Except.map, bind, Except.bind, Bool.false_eq_true, if_false]
            rcases ih (k + 1) h1 with hi | ⟨h', i1, i2, ⟨j, i3, i4⟩, i5⟩
            · left
              rw [hi]
              simp only [makeEdges, hadd, bind, Except.bind]
              rfl
            · right
              have hd : edgesDone f k = edgesDone f (k + 1) + 1 := by
                rcases i4 with ⟨rfl, _⟩ | ⟨rfl, _⟩ | rfl <;> simp only [edgesDone] <;> omega
              refine ⟨h', i1, by rw [hd, List.length_cons]; omega, ⟨j, by omega, ?_⟩, ?_⟩
              · rcases i4 with ⟨i4, x, hx, i6⟩ | ⟨i4, x, hx, i6⟩ | i4
                · exact .inl ⟨i4, x, by simp [hx], i6⟩
                · exact .inr (.inl ⟨i4, x, by simp [hx], i6⟩)
                · exact .inr (.inr i4)
              rw [hd, List.take_succ_cons]
              simp only [makeEdges, hadd, bind, Except.bind]
              exact i5
        · rw [hc]
          have hf : f = some (.edge k) := by simpa using hf
          right
          simp only [bind, Except.bind, if_true]
          exact here ⟨k, Nat.le_refl _, .inr (.inr hf)⟩ (by rw [hf]; simp [edgesDone])

/-! ### `from_protobuf` -/

/-- The beginning of a message: the first `i` nodes and the first `j` edges. -/
def Msg.cut (msg : Msg) (i j : Nat) : Msg := { msg with nodeIds := msg.nodeIds.take i, edges := msg.edges.take j }

/-- What of the message has been dealt with when the fault throws: so many nodes, so many edges. -/
def progress (msg : Msg) : LFault → Nat × Nat
  | .parse => (0, 0)
  | .final _ => (0, 0)
  | .node k => (k, 0)
  | .entry k => (k + 1, 0)
  | .source k => (msg.nodeIds.length, k)
  | .target k => (msg.nodeIds.length, k)
  | .edge k => (msg.nodeIds.length, k)
  | .root => (msg.nodeIds.length, msg.edges.length)
  | .object => (msg.nodeIds.length, msg.edges.length)

/-- The call may come past the place. -/
def CanFail (msg : Msg) : LFault → Prop
  | .parse => False
  | .final k => k < msg.finalIds.length
  | .node k => k < msg.nodeIds.length
  | .entry k => k < msg.nodeIds.length
  | .source _ => ∃ e ∈ msg.edges, e.source ∉ msg.nodeIds
  | .target _ => ∃ e ∈ msg.edges, e.target ∉ msg.nodeIds
  | .edge k => k < msg.edges.length
  | .root => msg.rootId ∉ msg.nodeIds
  | .object => True

theorem makeNodes_keys {addr : Nat → Nat} {finals : List Nat} (ids : List Nat) {nodes : List (Nat × Nat)} {h : Heap} (x : Nat) :
    x ∈ (makeNodes addr finals ids nodes h).1.map (·.1) ↔ x ∈ nodes.map (·.1) ∨ x ∈ ids := by
  induction ids generalizing nodes h with
  | nil => simp [makeNodes]
  | cons id ids ih =>
    rw [makeNodes]
    split
    · next hany =>
      obtain ⟨e, he, hk⟩ := List.any_eq_true.1 hany
      have : id ∈ nodes.map (·.1) := List.mem_map.2 ⟨e, he, by simpa using hk⟩
      rw [ih, List.mem_cons]
      constructor
      · rintro (h | h)
        · exact .inl h
        · exact .inr (.inr h)
      · rintro (h | rfl | h)
        · exact .inl h
        · exact .inl this
        · exact .inr h
    · simp only [ih, List.map_append, List.map_cons, List.map_nil, List.mem_append, List.not_mem_nil, false_or, List.mem_cons,
        or_assoc]

theorem needsEntry_iff {nodes : List (Nat × Nat)} {id : Nat} : needsEntry nodes id = true ↔ id ∉ nodes.map (·.1) := by
  simp only [needsEntry, Bool.not_eq_true', List.any_eq_false, beq_iff_eq, List.mem_map, not_exists, not_and]

theorem finalsFail_fault {f : Option LFault} (ids : List Nat) {k : Nat} {seen : List Nat}
    (h : finalsFail f k seen ids = true) : ∃ j, f = some (.final j) ∧ k ≤ j ∧ j - k < ids.length := by
  induction ids generalizing k seen with
  | nil => cases h
  | cons id ids ih =>
    simp only [finalsFail, Bool.or_eq_true, Bool.and_eq_true, decide_eq_true_eq] at h
    rcases h with h | h
    · exact ⟨k, h.1, Nat.le_refl _, by simp⟩
    · obtain ⟨j, h1, h2, h3⟩ := ih h
      exact ⟨j, h1, by omega, by rw [List.length_cons]; omega⟩

/-- The call is the one without failures, or it throws and leaves what it would have made of a beginning of the message. -/
theorem fromProtoF_cases (sgn : Bool) (addr : Nat → Nat) (f : Option LFault) (msg : Msg) (h : Heap) :
    fromProtoF sgn addr f msg h = (fromProto sgn addr msg h).map (fun r => (r.1, some r.2)) ∨
    ∃ g h' d, f = some g ∧ CanFail msg g ∧ fromProtoF sgn addr f msg h = .ok (h', none) ∧ (progress msg g).1 ≤ msg.nodeIds.length ∧
      (progress msg g).2 ≤ msg.edges.length ∧
      fromProto sgn addr (msg.cut (progress msg g).1 (progress msg g).2) h = .ok (h', d) := by
  unfold fromProtoF
  split
  · next hf =>
    obtain ⟨j, rfl, _, hj⟩ := finalsFail_fault _ hf
    exact .inr ⟨_, h, _, rfl, by simpa [CanFail] using hj, rfl, by simp [progress], by simp [progress],
      by simp [progress, Msg.cut, fromProto, makeNodes, makeEdges, bind, Except.bind]; rfl⟩
  · cases hn : makeNodesF addr f msg.finalIds 0 msg.nodeIds [] h with
    | mk nodes r =>
      obtain ⟨h1, threw⟩ := r
      cases threw with
      | true =>
        obtain ⟨n1, n2, n3⟩ := makeNodesF_threw _ hn
        simp only [if_true]
        right
        have hp : ∃ g, f = some g ∧ CanFail msg g ∧ progress msg g = (nodesDone f 0, 0) := by
          rcases n3 with ⟨j, rfl, _, hj⟩ | ⟨j, rfl, _, hj⟩ <;> exact ⟨_, rfl, by simpa [CanFail] using hj, rfl⟩
        obtain ⟨g, hg, hc, hp⟩ := hp
        have hx : ∃ d, fromProto sgn addr (msg.cut (progress msg g).1 (progress msg g).2) h = .ok (h1, d) := by
          rw [hp]
          simp only [Msg.cut, fromProto, List.take_zero, makeEdges, bind, Except.bind]
          rw [n2]
          exact ⟨_, rfl⟩
        obtain ⟨d, hx⟩ := hx
        exact ⟨g, h1, d, hg, hc, rfl, by rw [hp]; exact n1, by rw [hp]; simp, hx⟩
      | false =>
        have n1 := makeNodesF_ok _ hn
        have hkeys : ∀ x, needsEntry nodes x = true → x ∉ msg.nodeIds := by
          intro x hx hm
          rw [needsEntry_iff] at hx
          have := (makeNodes_keys (addr := addr) (finals := msg.finalIds) msg.nodeIds (nodes := []) (h := h) x).2 (.inr hm)
          rw [n1] at this
          exact hx this
        simp only [Bool.false_eq_true, if_false]
        rcases makeEdgesF_cases (sgn := sgn) (f := f) (nodes := nodes) msg.edges 0 h1 with he | ⟨h2, e1, e2, ⟨j, _, e3⟩, e4⟩
        · rw [he]
          cases hm : makeEdges sgn nodes msg.edges h1 with
          | error er =>
            left
            simp only [fromProto, n1, hm, Except.map, bind, Except.bind]
          | ok h2 =>
            simp only [Except.map, bind, Except.bind, Bool.false_eq_true, if_false]
            have whole : ∀ g, f = some g → CanFail msg g → progress msg g = (msg.nodeIds.length, msg.edges.length) →
                ∃ g h' d, f = some g ∧ CanFail msg g ∧ (.ok (h2, none) : Except Err (Heap × Option SDawg)) = .ok (h', none) ∧
                  (progress msg g).1 ≤ msg.nodeIds.length ∧ (progress msg g).2 ≤ msg.edges.length ∧
                  fromProto sgn addr (msg.cut (progress msg g).1 (progress msg g).2) h = .ok (h', d) := by
              intro g hg hc hp
              have hx : ∃ d, fromProto sgn addr (msg.cut (progress msg g).1 (progress msg g).2) h = .ok (h2, d) := by
                rw [hp]
                simp only [Msg.cut, List.take_length, fromProto, n1, hm, bind, Except.bind]
                exact ⟨_, rfl⟩
              obtain ⟨d, hx⟩ := hx
              exact ⟨g, h2, d, hg, hc, rfl, by rw [hp]; exact Nat.le_refl _, by rw [hp]; exact Nat.le_refl _, hx⟩
            split
            · next hf => exact .inr (whole _ hf.1 (hkeys _ hf.2) rfl)
            · split
              · next hf => exact .inr (whole _ hf trivial rfl)
              · left
                simp only [fromProto, n1, hm, bind, Except.bind]
        · rw [e1]
          simp only [bind, Except.bind, if_true]
          right
          have hp : ∃ g, f = some g ∧ CanFail msg g ∧ progress msg g = (msg.nodeIds.length, edgesDone f 0) := by
            rcases e3 with ⟨rfl, x, hx, hn⟩ | ⟨rfl, x, hx, hn⟩ | rfl
            · exact ⟨_, rfl, ⟨x, hx, hkeys _ hn⟩, rfl⟩
            · exact ⟨_, rfl, ⟨x, hx, hkeys _ hn⟩, rfl⟩
            · exact ⟨_, rfl, by simpa [edgesDone, CanFail] using e2, rfl⟩
          obtain ⟨g, hg, hc, hp⟩ := hp
          have hx : ∃ d, fromProto sgn addr (msg.cut (progress msg g).1 (progress msg g).2) h = .ok (h2, d) := by
            rw [hp]
            simp only [Msg.cut, List.take_length, fromProto, n1, e4, bind, Except.bind]
            exact ⟨_, rfl⟩
          obtain ⟨d, hx⟩ := hx
          exact ⟨g, h2, d, hg, hc, rfl, by rw [hp]; exact Nat.le_refl _, by rw [hp]; exact Nat.le_of_lt e2, hx⟩

/-! ### Messages in which everything is listed, once -/

theorem finalsFail_strikes (j : Nat) (ids : List Nat) {k : Nat} {seen : List Nat} (hn : ids.Nodup)
    (hs : ∀ x ∈ ids, x ∉ seen) (hk : k ≤ j) (hj : j < k + ids.length) :
    finalsFail (some (.final j)) k seen ids = true := by
  induction ids generalizing k seen with
  | nil => simp at hj; omega
  | cons id ids ih =>
    rw [finalsFail]
    by_cases hjk : j = k
    · subst hjk
      simp [hs id (by simp)]
    · rw [List.nodup_cons] at hn
      rw [List.length_cons] at hj
      rw [ih hn.2 ?_ (by omega) (by omega), Bool.or_true]
      intro x hx hm
      rcases List.mem_cons.1 hm with rfl | hm
      · exact hn.1 hx
      · exact hs x (by simp [hx]) hm

theorem makeNodesF_strikes {addr : Nat → Nat} {finals : List Nat} {f : LFault} {j : Nat}
    (hf : f = .node j ∨ f = .entry j) (ids : List Nat) {k : Nat} {nodes : List (Nat × Nat)} {h : Heap} (hn : ids.Nodup)
    (hs : ∀ x ∈ ids, x ∉ nodes.map (·.1)) (hk : k ≤ j) (hj : j < k + ids.length) :
    (makeNodesF addr (some f) finals k ids nodes h).2.2 = true := by
  induction ids generalizing k nodes h with
  | nil => simp at hj; omega
  | cons id ids ih =>
    have hany : ¬ (nodes.any fun e => e.1 == id) = true := by
      intro hany
      obtain ⟨e, he, hk⟩ := List.any_eq_true.1 hany
      exact hs id (by simp) (List.mem_map.2 ⟨e, he, by simpa using hk⟩)
    rw [makeNodesF, if_neg hany]
    rw [List.nodup_cons] at hn
    rw [List.length_cons] at hj
    by_cases hjk : j = k
    · subst hjk
      rcases hf with rfl | rfl
      · simp
      · simp
    · have h1 : some f ≠ some (.node k) := by
        rcases hf with rfl | rfl <;> simp
        exact hjk
      have h2 : some f ≠ some (.entry k) := by
        rcases hf with rfl | rfl <;> simp
        exact hjk
      simp only [if_neg h1, if_neg h2]
      refine ih hn.2 ?_ (by omega) (by omega)
      intro x hx hm
      simp only [List.map_append, List.map_cons, List.map_nil, List.mem_append, List.mem_singleton] at hm
      rcases hm with hm | rfl
      · exact hs x (by simp [hx]) hm
      · exact hn.1 hx

theorem makeEdgesF_strikes {sgn : Bool} {nodes : List (Nat × Nat)} {j : Nat} {e : MsgEdge} {es l : List MsgEdge} {k : Nat}
    {h h' : Heap} (hj : j = k + l.length) (h1 : makeEdges sgn nodes l h = .ok h')
    (h2 : addEdgeF sgn true (nodeOf nodes e.source) (charOfLabel e.label) (nodeOf nodes e.target) h' = .ok (h', true)) :
    makeEdgesF sgn (some (.edge j)) nodes k (l ++ e :: es) h = .ok (h', true) := by
  induction l generalizing k h with
  | nil =>
    simp only [makeEdges, Except.ok.injEq] at h1
    subst h1
    simp only [List.length_nil, Nat.add_zero] at hj
    subst hj
    simp [makeEdgesF, h2, bind, Except.bind]
  | cons x l ih =>
    rw [List.length_cons] at hj
    simp only [makeEdges, bind, Except.bind] at h1
    split at h1
    · cases h1
    · next h3 hadd =>
      have hjk : ¬ some (LFault.edge j) = some (.edge k) := by simp; omega
      have hF : addEdgeF sgn false (nodeOf nodes x.source) (charOfLabel x.label) (nodeOf nodes x.target) h = .ok (h3, false) := by
        rcases addEdgeF_cases sgn false (nodeOf nodes x.source) (charOfLabel x.label) (nodeOf nodes x.target) h with hc | hc
        · rw [hc, hadd]; rfl
        · simp at hc
      rw [List.cons_append, makeEdgesF]
      simp only [reduceCtorEq, false_and, if_false, decide_eq_false hjk, hF, bind, Except.bind, Bool.false_eq_true]
      exact ih (by omega) h1

/-- Everything referred to is listed, and nothing is listed twice. -/
structure TidyMsg (msg : Msg) : Prop extends WellFormed msg where
  ids : msg.nodeIds.Nodup
  fins : msg.finalIds.Nodup

theorem MsgOf.tidy {sgn : Bool} {mem : Mem} {root size : Nat} {msg : Msg} (hm : MsgOf sgn mem root size msg)
    (hcl : Closed mem (Reaches mem root)) : TidyMsg msg :=
  { hm.wellFormed hcl with
    ids := hm.ids.imp fun h => Nat.ne_of_lt h
    fins := hm.fins.imp fun h => Nat.ne_of_lt h }

theorem TidyMsg.charKeys {msg : Msg} (ht : TidyMsg msg) :
    msg.edges.Pairwise (fun e f => e.source ≠ f.source ∨ charOfLabel e.label ≠ charOfLabel f.label) := by
  refine ht.keys.imp fun {e f} hef => ?_
  rcases hef with h | h
  · exact .inl h
  · exact .inr fun heq => h (by rw [← charOfLabel_toNat, ← charOfLabel_toNat, heq])

theorem makeNodes_count_nodup {addr : Nat → Nat} {finals : List Nat} (ids : List Nat) {nodes : List (Nat × Nat)} {h : Heap}
    (hn : ids.Nodup) (hs : ∀ x ∈ ids, x ∉ nodes.map (·.1)) :
    (makeNodes addr finals ids nodes h).2.count = h.count + ids.length := by
  induction ids generalizing nodes h with
  | nil => rfl
  | cons id ids ih =>
    have hany : ¬ (nodes.any fun e => e.1 == id) = true := by
      intro hany
      obtain ⟨e, he, hk⟩ := List.any_eq_true.1 hany
      exact hs id (by simp) (List.mem_map.2 ⟨e, he, by simpa using hk⟩)
    rw [List.nodup_cons] at hn
    rw [makeNodes, if_neg hany]
    simp only
    rw [ih hn.2]
    · simp only [List.length_cons]; omega
    · intro x hx hm
      simp only [List.map_append, List.map_cons, List.map_nil, List.mem_append, List.mem_singleton] at hm
      rcases hm with hm | rfl
      · exact hs x (by simp [hx]) hm
      · exact hn.1 hx

theorem fromProto_count_nodup {sgn : Bool} {addr : Nat → Nat} {msg : Msg} {h h' : Heap} {d : SDawg} (hn : msg.nodeIds.Nodup)
    (hr : fromProto sgn addr msg h = .ok (h', d)) : h'.count = h.count + msg.nodeIds.length := by
  unfold fromProto at hr
  simp only [bind, Except.bind] at hr
  split at hr
  · cases hr
  · next h1 he =>
    simp only [Except.ok.injEq, Prod.mk.injEq] at hr
    rw [← hr.1, makeEdges_count he, makeNodes_count_nodup _ hn (by simp)]

/-- What is left of a tidy message. -/
theorem Restored.litter {sgn : Bool} {addr : Nat → Nat} {h h' : Heap} {msg : Msg} {d : SDawg} {φ : Nat → Nat}
    (hr : Restored sgn addr h msg h' d φ) (ha : Allocator addr h) (hc : h'.count = h.count + msg.nodeIds.length) :
    Litter addr h h' msg.nodeIds.length := by
  refine ⟨fun a => hr.oldAlive ha, fun a => ?_⟩
  by_cases hx : ∃ x ∈ msg.nodeIds, a = φ x
  · obtain ⟨k, k1, k2, k3⟩ := (hr.range a).2 hx
    obtain ⟨x, hx, rfl⟩ := hx
    obtain ⟨es, h1, _⟩ := hr.node x hx
    refine ⟨fun _ => .inr ⟨k - h.count, by omega, ?_⟩, fun _ => by simp [h1]⟩
    rw [show h.count + (k - h.count) = k by omega]; exact k3
  · rw [hr.old a fun x hx' he => hx ⟨x, hx', he⟩]
    refine ⟨.inl, ?_⟩
    rintro (h | ⟨k, k1, rfl⟩)
    · exact h
    · exact absurd ((hr.range _).1 ⟨h.count + k, by omega, by omega, rfl⟩) hx

theorem Spec.Litter.trans {addr : Nat → Nat} {h h1 h2 : Heap} {m n : Nat} (l1 : Litter addr h h1 m)
    (hc : h1.count = h.count + m) (l2 : Litter addr h1 h2 n) : Litter addr h h2 (m + n) := by
  refine ⟨fun a ha => ?_, fun a => ?_⟩
  · have h1a := l1.old a ha
    rw [l2.old a (by rw [h1a]; exact ha), h1a]
  · rw [l2.new, l1.new, hc]
    constructor
    · rintro ((h | ⟨k, k1, k2⟩) | ⟨k, k1, k2⟩)
      · exact .inl h
      · exact .inr ⟨k, by omega, k2⟩
      · exact .inr ⟨m + k, by omega, by rw [k2, Nat.add_assoc]⟩
    · rintro (h | ⟨k, k1, k2⟩)
      · exact .inl (.inl h)
      · by_cases hk : k < m
        · exact .inl (.inr ⟨k, hk, k2⟩)
        · exact .inr ⟨k - m, by omega, by rw [k2]; congr 1; omega⟩

/-- The call on a tidy message. -/
theorem fromProtoF_tidy {sgn : Bool} {addr : Nat → Nat} {h : Heap} (ha : Allocator addr h) {msg : Msg} (ht : TidyMsg msg)
    {f : LFault} (hp : f ≠ .parse) :
    (Strikes msg.nodeIds.length msg.finalIds.length msg.edges.length f →
      ∃ h', fromProtoF sgn addr (some f) msg h = .ok (h', none) ∧ Litter addr h h' (lost msg.nodeIds.length f) ∧
        h'.count = h.count + lost msg.nodeIds.length f ∧ Allocator addr h') ∧
    (¬ Strikes msg.nodeIds.length msg.finalIds.length msg.edges.length f →
      fromProtoF sgn addr (some f) msg h = (fromProto sgn addr msg h).map (fun r => (r.1, some r.2))) := by
  -- if it throws at all, what is left is as it should be
  have key : ∀ h', fromProtoF sgn addr (some f) msg h = .ok (h', none) →
      Litter addr h h' (lost msg.nodeIds.length f) ∧ h'.count = h.count + lost msg.nodeIds.length f ∧
        Allocator addr h' := by
    intro h' hr
    rcases fromProtoF_cases sgn addr (some f) msg h with hc | ⟨g, h2, d, hg, _, hc, c1, c2, c3⟩
    · rw [hc] at hr
      cases hm : fromProto sgn addr msg h with
      | error e => rw [hm] at hr; cases hr
      | ok r => rw [hm] at hr; simp [Except.map] at hr
    · rw [hc] at hr
      simp only [Except.ok.injEq, Prod.mk.injEq, and_true] at hr
      subst hr
      cases hg
      have hlen : (msg.cut (progress msg f).1 (progress msg f).2).nodeIds.length = lost msg.nodeIds.length f := by
        simp only [Msg.cut, List.length_take]
        rw [Nat.min_eq_left c1]
        cases f <;> rfl
      have hs : ∀ e ∈ (msg.cut (progress msg f).1 (progress msg f).2).edges,
          e.source ∈ (msg.cut (progress msg f).1 (progress msg f).2).nodeIds := by
        intro e he
        simp only [Msg.cut] at he ⊢
        have hm := ht.source e (List.mem_of_mem_take he)
        cases f <;> simp [progress] at he ⊢ <;> exact hm
      obtain ⟨h3, d3, φ, r1, r2⟩ := fromProto_spec (sgn := sgn) (msg := msg.cut (progress msg f).1 (progress msg f).2) ha hs
        (ht.charKeys.sublist (List.take_sublist _ _))
      rw [c3] at r1
      cases r1
      have hcount := fromProto_count_nodup (ht.ids.sublist (List.take_sublist _ _)) c3
      have := r2.litter ha hcount
      rw [hlen] at this hcount
      exact ⟨this, hcount, r2.allocator ha⟩
  constructor
  · intro hst
    have hthrow : ∃ h', fromProtoF sgn addr (some f) msg h = .ok (h', none) := by
      obtain ⟨h0, d0, φ0, hok, _⟩ := fromProto_spec (sgn := sgn) ha ht.source ht.charKeys
      cases f with
      | parse => exact absurd rfl hp
      | final k =>
        have := finalsFail_strikes k msg.finalIds (k := 0) (seen := []) ht.fins (by simp) (Nat.zero_le _)
          (by simpa [Strikes] using hst)
        exact ⟨h, by simp only [fromProtoF, this, if_true]⟩
      | source => exact absurd hst (by simp [Strikes])
      | target => exact absurd hst (by simp [Strikes])
      | root => exact absurd hst (by simp [Strikes])
      | node k =>
        have := makeNodesF_strikes (addr := addr) (finals := msg.finalIds) (f := .node k) (.inl rfl) msg.nodeIds (k := 0)
          (nodes := []) (h := h) ht.ids (by simp) (Nat.zero_le _) (by simpa [Strikes] using hst)
        unfold fromProtoF
        split
        · exact ⟨_, rfl⟩
        · simp only [this, if_true]; exact ⟨_, rfl⟩
      | entry k =>
        have := makeNodesF_strikes (addr := addr) (finals := msg.finalIds) (f := .entry k) (.inr rfl) msg.nodeIds (k := 0)
          (nodes := []) (h := h) ht.ids (by simp) (Nat.zero_le _) (by simpa [Strikes] using hst)
        unfold fromProtoF
        split
        · exact ⟨_, rfl⟩
        · simp only [this, if_true]; exact ⟨_, rfl⟩
      | object =>
        rcases fromProtoF_cases sgn addr (some .object) msg h with hc | ⟨g, h2, d, hg, _, hc, _⟩
        · exfalso
          rw [hok] at hc
          simp only [Except.map] at hc
          unfold fromProtoF at hc
          split at hc
          · simp at hc
          · simp only at hc
            split at hc
            · simp at hc
            · simp only [bind, Except.bind] at hc
              split at hc
              · simp at hc
              · simp at hc
        · exact ⟨h2, hc⟩
      | edge k =>
        have hk : k < msg.edges.length := hst
        have hm0 : Made addr h.count h.mem msg.finalIds [] h :=
          ⟨by simp, Nat.le_refl _, by simp, by simp, fun _ _ => rfl⟩
        obtain ⟨nodes, h1, r1, r2, r3⟩ := makeNodes_spec ha.inj msg.nodeIds hm0
        simp only [List.map_nil, List.not_mem_nil, false_or] at r3
        have haddr : (nodes.map (·.2)).Nodup := by
          rw [r2.addrs]
          exact List.pairwise_map.2 ((List.nodup_range' (s := h.count) (n := h1.count - h.count)).imp
            fun hne he => hne (ha.inj _ _ he))
        have hl0 : Linked sgn nodes msg.finalIds h1.mem [] h1 :=
          ⟨fun e he => ⟨[], r2.content e he, .nil, by simp⟩, fun _ _ => rfl⟩
        have hsplit : msg.edges = msg.edges.take k ++ msg.edges[k] :: msg.edges.drop (k + 1) := by
          rw [List.getElem_cons_drop, List.take_append_drop]
        have hpw := ht.charKeys
        rw [hsplit] at hpw
        obtain ⟨h2, s1, s2, s3⟩ := makeEdges_spec r2.keys haddr (msg.edges.take k) [] hl0
          (fun e he => (r3 _).2 (ht.source e (List.mem_of_mem_take he)))
          (by simpa using ht.charKeys.sublist (List.take_sublist _ _))
        simp only [List.nil_append] at s2
        have hF : addEdgeF sgn true (nodeOf nodes msg.edges[k].source) (charOfLabel msg.edges[k].label)
            (nodeOf nodes msg.edges[k].target) h2 = .ok (h2, true) := by
          have hin : msg.edges[k] ∈ msg.edges := List.getElem_mem _
          obtain ⟨es, e1, e2, e3⟩ := s2.content _ (nodeOf_mem ((r3 _).2 (ht.source _ hin)))
          have hany : (es.any fun e => e.1 == charOfLabel msg.edges[k].label) = false := by
            rw [List.any_eq_false]
            rintro ⟨c, b⟩ hx hcb
            obtain ⟨y, hy, hy1, hy2, _⟩ := (e3 c b).1 hx
            simp only [beq_iff_eq] at hcb
            rcases (List.pairwise_append.1 hpw).2.2 y hy msg.edges[k] List.mem_cons_self with h | h
            · exact h hy1
            · exact h (hy2.trans hcb)
          have htr : nodeTransition ⟨decide (msg.edges[k].source ∈ msg.finalIds), es⟩ (charOfLabel msg.edges[k].label) = 0 := by
            unfold nodeTransition
            have : es.find? (fun x => x.1 == charOfLabel msg.edges[k].label) = none := by
              rw [List.find?_eq_none]
              intro x hx hxc
              rw [List.any_eq_false] at hany
              exact hany x hx hxc
            simp only [this]
          simp [addEdgeF, deref, e1, htr, deleteNode, hany, bind, Except.bind, pure, Except.pure]
        have hedges := makeEdgesF_strikes (k := 0) (j := k) (es := msg.edges.drop (k + 1))
          (by rw [List.length_take]; omega) s1 hF
        rw [← hsplit] at hedges
        have hnodes : makeNodesF addr (some (.edge k)) msg.finalIds 0 msg.nodeIds [] h = (nodes, h1, false) := by
          cases hn : makeNodesF addr (some (.edge k)) msg.finalIds 0 msg.nodeIds [] h with
          | mk nodes' r =>
            obtain ⟨h1', threw⟩ := r
            cases threw with
            | true => obtain ⟨_, _, n3⟩ := makeNodesF_threw _ hn; simp at n3
            | false =>
              have := makeNodesF_ok _ hn
              rw [r1] at this
              cases this
              rfl
        refine ⟨h2, ?_⟩
        unfold fromProtoF
        split
        · next hf => obtain ⟨j, hj, _⟩ := finalsFail_fault _ hf; cases hj
        · simp only [hnodes, Bool.false_eq_true, if_false, hedges, bind, Except.bind, if_true]
    obtain ⟨h', hr⟩ := hthrow
    exact ⟨h', hr, key h' hr⟩
  · intro hst
    rcases fromProtoF_cases sgn addr (some f) msg h with hc | ⟨g, h2, d, hg, hcan, _⟩
    · exact hc
    · exfalso
      cases hg
      apply hst
      cases f with
      | source => obtain ⟨e, he, hn⟩ := hcan; exact absurd (ht.source e he) hn
      | target => obtain ⟨e, he, hn⟩ := hcan; exact absurd (ht.target e he) hn
      | root => exact absurd ht.root hcan
      | parse => exact absurd rfl hp
      | _ => exact hcan

end Lev
