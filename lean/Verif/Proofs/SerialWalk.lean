import Verif.Proofs.SerialAny

/-!
What can be done with the graph that `from_protobuf` builds from an arbitrary message.
-/

namespace Lev

open Spec

/-! ### Walks -/

theorem walk_append {msg : Msg} {x y z : Nat} {s t : Str} (h : Walk msg x s y) (h' : Walk msg y t z) :
    Walk msg x (s ++ t) z := by
  induction h with
  | here => exact h'
  | step he hc _ ih => exact .step he hc (ih h')

theorem walk_snoc {msg : Msg} {e : MsgEdge} {x : Nat} {s : Str} (h : Walk msg x s e.source) (he : LastEdge msg.edges e) :
    Walk msg x (s ++ [charOfLabel e.label]) e.target :=
  walk_append h (.step he (charOfLabel_toNat _) .here)

/-- The nodes of a walk: as many as characters and one more, each can be reached from those before. -/
theorem walk_nodes {msg : Msg} {x y : Nat} {t : Str} (h : Walk msg x t y) :
    ∃ vs : List Nat, vs.length = t.length ∧ (∀ v ∈ x :: vs, ∃ s, Walk msg x s v) ∧
      (x :: vs).Pairwise (fun a b => ∃ s, s ≠ [] ∧ Walk msg a s b) := by
  induction h with
  | here => exact ⟨[], rfl, by simp only [List.mem_singleton, forall_eq]; exact ⟨[], .here⟩, by simp⟩
  | @step e c t y he hc hw ih =>
    obtain ⟨vs, h1, h2, h3⟩ := ih
    refine ⟨e.target :: vs, by simp [h1], ?_, List.pairwise_cons.2 ⟨?_, h3⟩⟩
    · intro v hv
      rcases List.mem_cons.1 hv with rfl | hv
      · exact ⟨[], .here⟩
      · obtain ⟨s, hs⟩ := h2 v hv
        exact ⟨c :: s, .step he hc hs⟩
    · intro v hv
      obtain ⟨s, hs⟩ := h2 v hv
      exact ⟨c :: s, by simp, .step he hc hs⟩

/-- Without cycle no walk is longer than the list of nodes. -/
theorem walk_bound {msg : Msg} (hd : ¬ Dangling msg) (hc : ¬ Cyclic msg) {y : Nat} {t : Str} (h : Walk msg msg.rootId t y) :
    t.length < msg.nodeIds.length := by
  obtain ⟨vs, h1, h2, h3⟩ := walk_nodes h
  have hn : (msg.rootId :: vs).Nodup := by
    refine (List.pairwise_iff_forall_sublist.2 fun {a b} hs hab => ?_)
    obtain ⟨s, hs1, hs2⟩ := List.pairwise_iff_forall_sublist.1 h3 hs
    obtain ⟨r, hr⟩ := h2 a (hs.subset (by simp))
    exact hc ⟨r, s, a, hr, by rw [← hab] at hs2; exact hs2, hs1⟩
  have := hn.length_le_of_subset (l₂ := msg.nodeIds) fun a ha => by
    obtain ⟨r, hr⟩ := h2 a ha
    apply Classical.byContradiction
    intro hna
    exact hd ⟨r, a, hr, .inl hna⟩
  simp only [List.length_cons] at this
  omega

/-! ### `all_nodes` meets a node that is not there -/

/-- A path of `k` edges leads from the first address to one where there is no node. -/
inductive FallsOff (mem : Mem) : Nat → Nat → Prop
  | here {a : Nat} : mem a = none → FallsOff mem 0 a
  | step {a : Nat} {nd : DNode} {c : UInt8} {b k : Nat} :
      mem a = some nd → (c, b) ∈ nd.edges → FallsOff mem k b → FallsOff mem (k + 1) a

theorem allNodesLoop_ub {mem : Mem} {k : Nat} : ∀ (l1 : List Nat) {a : Nat} {l2 nodes : List Nat}, FallsOff mem k a →
    ∃ N, ∀ fuel, N ≤ fuel → allNodesLoop mem fuel (l1 ++ a :: l2) nodes = .error .ub := by
  induction k with
  | zero =>
    intro l1
    induction l1 with
    | nil =>
      intro a l2 nodes hf
      cases hf with
      | here hm =>
        refine ⟨1, fun fuel hfu => ?_⟩
        obtain ⟨fuel, rfl⟩ : ∃ n, fuel = n + 1 := ⟨fuel - 1, by omega⟩
        simp only [List.nil_append, allNodesLoop, deref, hm, bind, Except.bind]
    | cons x l1 ih =>
      intro a l2 nodes hf
      cases hx : mem x with
      | none =>
        refine ⟨1, fun fuel hfu => ?_⟩
        obtain ⟨fuel, rfl⟩ : ∃ n, fuel = n + 1 := ⟨fuel - 1, by omega⟩
        simp only [List.cons_append, allNodesLoop, deref, hx, bind, Except.bind]
      | some nd =>
        obtain ⟨N, hN⟩ := ih (l2 := l2 ++ nd.edges.map (·.2)) (nodes := if x ∈ nodes then nodes else x :: nodes) hf
        refine ⟨N + 1, fun fuel hfu => ?_⟩
        obtain ⟨fuel, rfl⟩ : ∃ n, fuel = n + 1 := ⟨fuel - 1, by omega⟩
        simp only [List.cons_append, allNodesLoop, deref, hx, bind, Except.bind]
        rw [← hN fuel (by omega)]
        simp
  | succ k ihk =>
    intro l1
    induction l1 with
    | nil =>
      intro a l2 nodes hf
      cases hf with
      | @step _ nd c b _ hm hb hf =>
        obtain ⟨m1, m2, hm12⟩ := List.append_of_mem (List.mem_map.2 ⟨(c, b), hb, rfl⟩ : b ∈ nd.edges.map (·.2))
        obtain ⟨N, hN⟩ := ihk (l2 ++ m1) (l2 := m2) (nodes := if a ∈ nodes then nodes else a :: nodes) hf
        refine ⟨N + 1, fun fuel hfu => ?_⟩
        obtain ⟨fuel, rfl⟩ : ∃ n, fuel = n + 1 := ⟨fuel - 1, by omega⟩
        simp only [List.nil_append, allNodesLoop, deref, hm, bind, Except.bind]
        rw [← hN fuel (by omega), hm12]
        simp
    | cons x l1 ih =>
      intro a l2 nodes hf
      cases hx : mem x with
      | none =>
        refine ⟨1, fun fuel hfu => ?_⟩
        obtain ⟨fuel, rfl⟩ : ∃ n, fuel = n + 1 := ⟨fuel - 1, by omega⟩
        simp only [List.cons_append, allNodesLoop, deref, hx, bind, Except.bind]
      | some nd =>
        obtain ⟨N, hN⟩ := ih (l2 := l2 ++ nd.edges.map (·.2)) (nodes := if x ∈ nodes then nodes else x :: nodes) hf
        refine ⟨N + 1, fun fuel hfu => ?_⟩
        obtain ⟨fuel, rfl⟩ : ∃ n, fuel = n + 1 := ⟨fuel - 1, by omega⟩
        simp only [List.cons_append, allNodesLoop, deref, hx, bind, Except.bind]
        rw [← hN fuel (by omega)]
        simp

/-! ### The graph in memory -/

section
variable {sgn : Bool} {addr : Nat → Nat} {h h' : Heap} {msg : Msg} {d : SDawg} {φ : Nat → Nat}

theorem ReadAny.missing (hr : ReadAny sgn addr h msg h' d φ) {x : Nat} (hx : Missing msg x) : h'.mem (φ x) = none := by
  rcases hx with hx | hx
  · rw [hr.unlisted x hx]; exact hr.null
  · exact hr.gone x hx

theorem ReadAny.present (hr : ReadAny sgn addr h msg h' d φ) {x : Nat} (hx : ¬ Missing msg x) :
    ∃ es, h'.mem (φ x) = some ⟨decide (x ∈ msg.finalIds), es⟩ ∧ es.Pairwise (fun e f => charLt sgn e.1 f.1) ∧
      ∀ c b, (c, b) ∈ es ↔ ∃ e, LastEdge msg.edges e ∧ e.source = x ∧ charOfLabel e.label = c ∧ φ e.target = b := by
  rw [Missing, not_or, Classical.not_not] at hx
  exact hr.node x hx.1 hx.2

theorem ReadAny.fallsOff (hr : ReadAny sgn addr h msg h' d φ) {x y : Nat} {t : Str} (hw : Walk msg x t y)
    (hm : Missing msg y) : ∃ k, FallsOff h'.mem k (φ x) := by
  induction hw with
  | here => exact ⟨0, .here (hr.missing hm)⟩
  | @step e c t y he hc hw ih =>
    by_cases hs : Missing msg e.source
    · exact ⟨0, .here (hr.missing hs)⟩
    · obtain ⟨k, hk⟩ := ih hm
      obtain ⟨es, h1, _, h3⟩ := hr.present hs
      exact ⟨k + 1, .step h1 ((h3 _ _).2 ⟨e, he, rfl, rfl, rfl⟩) hk⟩

theorem ReadAny.closed (hr : ReadAny sgn addr h msg h' d φ) (hd : ¬ Dangling msg) :
    Closed h'.mem (fun a => ∃ t x, Walk msg msg.rootId t x ∧ a = φ x) := by
  rintro a ⟨t, x, hw, rfl⟩
  obtain ⟨es, h1, _, h3⟩ := hr.present fun hx => hd ⟨t, x, hw, hx⟩
  refine ⟨_, h1, fun c b hb => ?_⟩
  obtain ⟨e, he, rfl, _, rfl⟩ := (h3 c b).1 hb
  exact ⟨_, _, walk_snoc hw he, rfl⟩

theorem ReadAny.reaches (hr : ReadAny sgn addr h msg h' d φ) (hd : ¬ Dangling msg) (a : Nat) :
    Reaches h'.mem d.root a ↔ ∃ t x, Walk msg msg.rootId t x ∧ a = φ x := by
  rw [hr.root]
  constructor
  · intro hre
    exact (hr.closed hd).reaches (a := φ msg.rootId) ⟨[], _, .here, rfl⟩ hre
  · rintro ⟨t, x, hw, rfl⟩
    have hgen : ∀ {r x : Nat} {t : Str}, Walk msg r t x → ∀ s, Walk msg msg.rootId s r →
        Reaches h'.mem (φ r) (φ x) := by
      intro r x t hw
      induction hw with
      | here => exact fun _ _ => .refl
      | @step e c t y he hc hw ih =>
        intro s hs
        obtain ⟨es, h1, _, h3⟩ := hr.present fun hx => hd ⟨s, _, hs, hx⟩
        exact .step h1 ((h3 _ _).2 ⟨e, he, rfl, rfl, rfl⟩) (ih _ (walk_snoc hs he))
    exact hgen hw [] .here

theorem ReadAny.dictNode (hr : ReadAny sgn addr h msg h' d φ) (hd : ¬ Dangling msg) (hc : ¬ Cyclic msg) :
    DictNode sgn h'.mem msg.nodeIds.length d.root := by
  rw [hr.root]
  have hgen : ∀ n s x, Walk msg msg.rootId s x → s.length + n = msg.nodeIds.length → DictNode sgn h'.mem n (φ x) := by
    intro n
    induction n with
    | zero => intro s x hw hn; have := walk_bound hd hc hw; omega
    | succ n ih =>
      intro s x hw hn
      obtain ⟨es, h1, h2, h3⟩ := hr.present fun hx => hd ⟨s, x, hw, hx⟩
      refine .mk h1 h2 fun c b hb => ?_
      obtain ⟨e, he, rfl, _, rfl⟩ := (h3 c b).1 hb
      exact ih _ _ (walk_snoc hw he) (by simp only [List.length_append, List.length_singleton]; omega)
  exact hgen _ [] _ .here (by simp)

theorem ReadAny.diverges (hr : ReadAny sgn addr h msg h' d φ) (hd : ¬ Dangling msg) (hc : Cyclic msg) (fuel : Nat) :
    allNodes h'.mem fuel d.root = .error .diverge := by
  obtain ⟨s, t, x, hs, ht, hne⟩ := hc
  refine allNodesLoop_diverges (hr.closed hd)
    (C := fun a => ∃ y r u, Walk msg msg.rootId r y ∧ Walk msg y u x ∧ a = φ y) ?_ fuel [d.root] [] ?_ ?_
  · rintro a ⟨y, r, u, h1, h2, rfl⟩
    obtain ⟨es, g1, _, g3⟩ := hr.present fun hy => hd ⟨r, y, h1, hy⟩
    have hgo : ∀ {v : Str} {z : Nat}, Walk msg y v z → v ≠ [] → Walk msg z [] z → ∃ e, LastEdge msg.edges e ∧ e.source = y ∧
        ∃ w, Walk msg e.target w z := by
      intro v z hv hvn _
      cases hv with
      | here => exact absurd rfl hvn
      | @step e c t' _ he _ hw => exact ⟨e, he, rfl, _, hw⟩
    obtain ⟨v, hv, hvn⟩ : ∃ v, Walk msg y v x ∧ v ≠ [] := ⟨u ++ t, walk_append h2 ht, by simp [hne]⟩
    obtain ⟨e, he, rfl, w, hw⟩ := hgo hv hvn .here
    exact ⟨_, charOfLabel e.label, φ e.target, g1, (g3 _ _).2 ⟨e, he, rfl, rfl, rfl⟩, _, _, w, walk_snoc h1 he, hw, rfl⟩
  · intro a ha
    rw [List.mem_singleton.1 ha]
    exact ⟨[], _, .here, hr.root⟩
  · exact ⟨d.root, by simp, _, [], s, .here, hs, hr.root⟩

theorem ReadAny.destroy_eq (hr : ReadAny sgn addr h msg h' d φ) (fuel : Nat) :
    destroyDawg fuel h' d = (do let nodes ← allNodes h'.mem fuel d.root; deleteAll nodes h') := by
  simp only [destroyDawg, cleanUp, hr.ptrs.2.2, bind, Except.bind]

/-- Deletion. -/
theorem ReadAny.destroy (hr : ReadAny sgn addr h msg h' d φ) :
    (Dangling msg → ∃ N, ∀ fuel, N ≤ fuel → destroyDawg fuel h' d = .error .ub) ∧
    (¬ Dangling msg → Cyclic msg → ∀ fuel, destroyDawg fuel h' d = .error .diverge) ∧
    (¬ Dangling msg → ¬ Cyclic msg → ∃ h'', Ends (fun fuel => destroyDawg fuel h' d) h'' ∧
      (∀ a, h.mem a ≠ none → h''.mem a = h.mem a) ∧
      ((∀ a, h''.mem a = h.mem a) ↔ ∀ x, ¬ Missing msg x → ∃ t, Walk msg msg.rootId t x)) := by
  refine ⟨?_, fun hd hc fuel => ?_, fun hd hc => ?_⟩
  · rintro ⟨t, x, hw, hm⟩
    obtain ⟨k, hk⟩ := hr.fallsOff hw hm
    rw [← hr.root] at hk
    obtain ⟨N, hN⟩ := allNodesLoop_ub [] (l2 := []) (nodes := []) hk
    refine ⟨N, fun fuel hf => ?_⟩
    have : allNodes h'.mem fuel d.root = .error .ub := hN fuel hf
    rw [hr.destroy_eq, this]; rfl
  · rw [hr.destroy_eq, hr.diverges hd hc]; rfl
  · have hdn := hr.dictNode hd hc
    obtain ⟨nd, F, h1, h2, _⟩ := DictNode.unf hdn
    obtain ⟨h'', hrun, _, hdead, hold⟩ := deleteReach_spec h1 h2 hr.null (DictNode.closed hdn)
    refine ⟨h'', hrun.congr fun n => hr.destroy_eq n, fun a ha => ?_, ?_⟩
    · have hno : ∀ x ∈ msg.nodeIds, a ≠ φ x := fun x hx he => ha (by rw [he]; exact (hr.listed x hx).2)
      rw [hold a, hr.old a hno]
      intro hre
      obtain ⟨t, x, hw, rfl⟩ := (hr.reaches hd a).1 hre
      by_cases hx : x ∈ msg.nodeIds
      · exact hno x hx rfl
      · exact hd ⟨t, x, hw, .inl hx⟩
    · constructor
      · intro hall x hx
        apply Classical.byContradiction
        intro hnw
        obtain ⟨es, g1, _, _⟩ := hr.present hx
        have hxl : x ∈ msg.nodeIds := by
          rw [Missing, not_or, Classical.not_not] at hx; exact hx.1
        have h3 := hold (φ x) fun hre => by
          obtain ⟨t, y, hw, he⟩ := (hr.reaches hd _).1 hre
          by_cases hy : y ∈ msg.nodeIds
          · rw [hr.inj x y hxl hy he] at hnw; exact hnw ⟨t, hw⟩
          · exact hd ⟨t, y, hw, .inl hy⟩
        rw [hall, (hr.listed x hxl).2, g1] at h3
        cases h3
      · intro hall a
        by_cases hre : Reaches h'.mem d.root a
        · rw [hdead a hre]
          obtain ⟨t, x, hw, rfl⟩ := (hr.reaches hd a).1 hre
          by_cases hx : x ∈ msg.nodeIds
          · exact (hr.listed x hx).2.symm
          · exact absurd ⟨t, x, hw, .inl hx⟩ hd
        · rw [hold a hre]
          by_cases hex : ∃ x ∈ msg.nodeIds, a = φ x
          · obtain ⟨x, hx, rfl⟩ := hex
            by_cases hdel : Deletes msg msg.edges x
            · rw [hr.gone x hdel, (hr.listed x hx).2]
            · obtain ⟨t, hw⟩ := hall x fun hm => hm.elim (fun h => h hx) hdel
              exact absurd ((hr.reaches hd _).2 ⟨t, x, hw, rfl⟩) hre
          · exact hr.old a fun x hx he => hex ⟨x, hx, he⟩

theorem ReadAny.accepts (hr : ReadAny sgn addr h msg h' d φ) (hd : ¬ Dangling msg) (t : Str) :
    Accepts h'.mem d.root t ↔ ∃ y, Walk msg msg.rootId t y ∧ y ∈ msg.finalIds := by
  rw [hr.root]
  constructor
  · have hgen : ∀ {b : Nat} {t : Str}, Accepts h'.mem b t → ∀ {s : Str} {x : Nat}, Walk msg msg.rootId s x → φ x = b →
        ∃ y, Walk msg x t y ∧ y ∈ msg.finalIds := by
      intro b t hacc
      induction hacc with
      | here hm hf =>
        intro s x hw hb
        subst hb
        obtain ⟨es, h1, _, h3⟩ := hr.present fun hx => hd ⟨s, x, hw, hx⟩
        rw [h1] at hm; cases hm
        exact ⟨x, .here, by simpa using hf⟩
      | step hm hbe _ ih =>
        intro s x hw hb
        subst hb
        obtain ⟨es, h1, _, h3⟩ := hr.present fun hx => hd ⟨s, x, hw, hx⟩
        rw [h1] at hm; cases hm
        obtain ⟨e, he, rfl, he2, he3⟩ := (h3 _ _).1 hbe
        obtain ⟨y, y1, y2⟩ := ih (walk_snoc hw he) he3
        exact ⟨y, .step he (charOfLabel_eq_iff.1 he2) y1, y2⟩
    intro hacc
    exact hgen hacc .here rfl
  · have hgen : ∀ {x y : Nat} {t : Str}, Walk msg x t y → y ∈ msg.finalIds → ∀ {s : Str}, Walk msg msg.rootId s x →
        Accepts h'.mem (φ x) t := by
      intro x y t hw hf
      induction hw with
      | @here x =>
        intro s hs
        obtain ⟨es, h1, _, _⟩ := hr.present fun hx => hd ⟨s, x, hs, hx⟩
        exact .here h1 (by simpa using hf)
      | @step e c t y he hc _ ih =>
        intro s hs
        obtain ⟨es, h1, _, h3⟩ := hr.present fun hx => hd ⟨s, _, hs, hx⟩
        exact .step h1 ((h3 c (φ e.target)).2 ⟨e, he, rfl, charOfLabel_eq_iff.2 hc, rfl⟩) (ih hf (walk_snoc hs he))
    rintro ⟨y, hw, hf⟩
    exact hgen hw hf .here

/-! ### `contains` -/

theorem walk_cons_iff {x y : Nat} {c : UInt8} {t : Str} :
    Walk msg x (c :: t) y ↔ ∃ e, LastEdge msg.edges e ∧ e.source = x ∧ charOfLabel e.label = c ∧ Walk msg e.target t y := by
  constructor
  · intro h
    cases h with
    | @step e _ _ _ he hc hw => exact ⟨e, he, rfl, charOfLabel_eq_iff.2 hc, hw⟩
  · rintro ⟨e, he, rfl, hc, hw⟩
    exact .step he (charOfLabel_eq_iff.1 hc) hw

/-- `contains` from the node at `a` on. -/
def containsFrom (mem : Mem) (t : Str) (i a : Nat) : Except Err Bool := do
  let b ← containsLoop mem t i a
  if b = 0 then .ok false
  else do
    let nd ← deref mem b
    .ok nd.final

theorem containsFrom_null (mem : Mem) (t : Str) (i : Nat) : containsFrom mem t i 0 = .ok false := by
  cases t <;> simp [containsFrom, containsLoop, bind, Except.bind]

/-- `Stumbles` from the node `x` on, with `i` characters read. -/
def StumblesFrom (msg : Msg) (x : Nat) (t : Str) (i : Nat) : Prop :=
  (∃ p y, p <+: t ∧ Walk msg x p y ∧ Deletes msg msg.edges y) ∨
  (2147483647 - i < t.length ∧ ∃ y, Walk msg x (t.take (2147483647 - i)) y ∧ y ∈ msg.nodeIds)

theorem ReadAny.contains (hr : ReadAny sgn addr h msg h' d φ) (t : Str) {i x : Nat} (hi : i ≤ 2147483647) :
    (StumblesFrom msg x t i → containsFrom h'.mem t i (φ x) = .error .ub) ∧
    (¬ StumblesFrom msg x t i →
      ∃ b, containsFrom h'.mem t i (φ x) = .ok b ∧
        (b = true ↔ ∃ y, Walk msg x t y ∧ y ∈ msg.nodeIds ∧ y ∈ msg.finalIds)) := by
  induction t generalizing i x with
  | nil =>
    have hnil : ∀ {y}, Walk msg x [] y → y = x := fun hw => by cases hw; rfl
    by_cases hx : x ∈ msg.nodeIds
    · have h0 := (hr.listed x hx).1
      by_cases hdel : Deletes msg msg.edges x
      · refine ⟨fun _ => ?_, fun hn => absurd (.inl ⟨[], x, List.nil_prefix, .here, hdel⟩) hn⟩
        simp only [containsFrom, containsLoop, bind, Except.bind, h0, if_false, deref, hr.gone x hdel]
      · obtain ⟨es, h1, _, _⟩ := hr.node x hx hdel
        constructor
        · rintro (⟨p, y, hp, hw, hy⟩ | ⟨hl, _⟩)
          · rw [List.prefix_nil.1 hp] at hw
            rw [hnil hw] at hy
            exact absurd hy hdel
          · simp at hl
        · intro _
          refine ⟨decide (x ∈ msg.finalIds), ?_, ?_⟩
          · simp only [containsFrom, containsLoop, bind, Except.bind, h0, if_false, deref, h1]
          · rw [decide_eq_true_eq]
            constructor
            · intro hf; exact ⟨x, .here, hx, hf⟩
            · rintro ⟨y, hw, _, hf⟩; rwa [hnil hw] at hf
    · constructor
      · rintro (⟨p, y, hp, hw, hy⟩ | ⟨hl, _⟩)
        · rw [List.prefix_nil.1 hp] at hw
          rw [hnil hw] at hy
          exact absurd hy.listed hx
        · simp at hl
      · intro _
        refine ⟨false, by rw [hr.unlisted x hx]; exact containsFrom_null _ _ _, ?_⟩
        constructor
        · intro h; cases h
        · rintro ⟨y, hw, hy, _⟩
          rw [hnil hw] at hy
          exact absurd hy hx
  | cons c t ih =>
    by_cases hx : x ∈ msg.nodeIds
    · have h0 := (hr.listed x hx).1
      by_cases hdel : Deletes msg msg.edges x
      · refine ⟨fun _ => ?_, fun hn => absurd (.inl ⟨[], x, List.nil_prefix, .here, hdel⟩) hn⟩
        simp only [containsFrom, containsLoop, bind, Except.bind, h0, if_false, deref, hr.gone x hdel]
      · obtain ⟨es, h1, h2, h3⟩ := hr.node x hx hdel
        by_cases hov : i + 1 > 2147483647
        · have hi' : i = 2147483647 := by omega
          refine ⟨fun _ => ?_, fun hn => absurd (.inr ⟨by simp [hi'], x, by rw [hi']; exact .here, hx⟩) hn⟩
          simp only [containsFrom, containsLoop, bind, Except.bind, h0, if_false, deref, h1, hov, if_true]
        have hstep : containsFrom h'.mem (c :: t) i (φ x) =
            containsFrom h'.mem t (i + 1) (nodeTransition ⟨decide (x ∈ msg.finalIds), es⟩ c) := by
          simp only [containsFrom, containsLoop, bind, Except.bind, h0, if_false, deref, h1, hov]
        have hk : 2147483647 - i = (2147483647 - (i + 1)) + 1 := by omega
        rw [hstep]
        have hpre : ∀ {p : Str}, p <+: c :: t → p = [] ∨ ∃ q, p = c :: q ∧ q <+: t := by
          intro p hp
          cases p with
          | nil => exact .inl rfl
          | cons b q =>
            obtain ⟨rfl, hq⟩ := List.cons_prefix_cons.1 hp
            exact .inr ⟨q, rfl, hq⟩
        by_cases hex : ∃ e, LastEdge msg.edges e ∧ e.source = x ∧ charOfLabel e.label = c
        · obtain ⟨e, he, hes, hec⟩ := hex
          have htr : nodeTransition ⟨decide (x ∈ msg.finalIds), es⟩ c = φ e.target := by
            have hmem : (c, φ e.target) ∈ es := (h3 _ _).2 ⟨e, he, hes, hec, rfl⟩
            unfold nodeTransition
            cases hfd : es.find? (fun x => x.1 == c) with
            | none =>
              have := List.find?_eq_none.1 hfd _ hmem
              simp at this
            | some p =>
              obtain ⟨c', b⟩ := p
              have p1 := List.mem_of_find?_eq_some hfd
              have p2 : c' = c := by simpa using List.find?_some hfd
              obtain ⟨g, g1, g2, g3, g4⟩ := (h3 _ _).1 p1
              simp only
              rw [← g4, g1.unique he (sameSlot_iff.2 ⟨g2.trans hes.symm, g3.trans (p2.trans hec.symm)⟩)]
          rw [htr]
          obtain ⟨ih1, ih2⟩ := ih (i := i + 1) (x := e.target) (by omega)
          have hw : ∀ {p y}, Walk msg x (c :: p) y ↔ Walk msg e.target p y := by
            intro p y
            rw [walk_cons_iff]
            constructor
            · rintro ⟨g, g1, g2, g3, g4⟩
              rwa [g1.unique he (sameSlot_iff.2 ⟨g2.trans hes.symm, g3.trans hec.symm⟩)] at g4
            · intro hw; exact ⟨e, he, hes, hec, hw⟩
          have hiff : StumblesFrom msg x (c :: t) i ↔ StumblesFrom msg e.target t (i + 1) := by
            simp only [StumblesFrom, hk, List.length_cons, List.take_succ_cons, Nat.add_lt_add_iff_right, hw]
            refine or_congr ?_ Iff.rfl
            constructor
            · rintro ⟨p, y, hp, hpw, hy⟩
              rcases hpre hp with rfl | ⟨q, rfl, hq⟩
              · cases hpw; exact absurd hy hdel
              · exact ⟨q, y, hq, hw.1 hpw, hy⟩
            · rintro ⟨p, y, hp, hpw, hy⟩
              exact ⟨c :: p, y, List.cons_prefix_cons.2 ⟨rfl, hp⟩, hw.2 hpw, hy⟩
          rw [hiff]
          refine ⟨ih1, fun hn => ?_⟩
          obtain ⟨b, b1, b2⟩ := ih2 hn
          exact ⟨b, b1, b2.trans ⟨fun ⟨y, y1, y2⟩ => ⟨y, hw.2 y1, y2⟩, fun ⟨y, y1, y2⟩ => ⟨y, hw.1 y1, y2⟩⟩⟩
        · have htr : nodeTransition ⟨decide (x ∈ msg.finalIds), es⟩ c = 0 := by
            unfold nodeTransition
            have : es.find? (fun x => x.1 == c) = none := by
              refine List.find?_eq_none.2 ?_
              rintro ⟨c', b⟩ hb hc
              obtain ⟨g, g1, g2, g3, _⟩ := (h3 _ _).1 hb
              exact hex ⟨g, g1, g2, g3.trans (by simpa using hc)⟩
            simp only [this]
          have hnw : ∀ {p y}, ¬ Walk msg x (c :: p) y := by
            intro p y hw
            obtain ⟨g, g1, g2, g3, _⟩ := walk_cons_iff.1 hw
            exact hex ⟨g, g1, g2, g3⟩
          rw [htr, containsFrom_null]
          constructor
          · rintro (⟨p, y, hp, hpw, hy⟩ | ⟨_, y, hpw, _⟩)
            · rcases hpre hp with rfl | ⟨q, rfl, _⟩
              · cases hpw; exact absurd hy hdel
              · exact absurd hpw hnw
            · rw [hk, List.take_succ_cons] at hpw
              exact absurd hpw hnw
          · intro _
            refine ⟨false, rfl, ?_⟩
            constructor
            · intro h; cases h
            · rintro ⟨y, hw, _⟩; exact absurd hw hnw
    · have hnw : ∀ {p y}, ¬ Walk msg x (c :: p) y := by
        intro p y hw
        obtain ⟨g, g1, g2, _⟩ := walk_cons_iff.1 hw
        exact hx (g2 ▸ hr.source g g1.mem)
      constructor
      · rintro (⟨p, y, hp, hpw, hy⟩ | ⟨_, y, hpw, hy⟩)
        · cases p with
          | nil => cases hpw; exact absurd hy.listed hx
          | cons b q =>
            obtain ⟨rfl, _⟩ := List.cons_prefix_cons.1 hp
            exact absurd hpw hnw
        · cases hq : (c :: t).take (2147483647 - i) with
          | nil => rw [hq] at hpw; cases hpw; exact absurd hy hx
          | cons b q =>
            have hb : b = c := by
              cases hn : 2147483647 - i with
              | zero => rw [hn] at hq; simp at hq
              | succ n => rw [hn] at hq; simp at hq; exact hq.1.symm
            rw [hq, hb] at hpw
            exact absurd hpw hnw
      · intro _
        refine ⟨false, by rw [hr.unlisted x hx]; exact containsFrom_null _ _ _, ?_⟩
        constructor
        · intro h; cases h
        · rintro ⟨y, hw, _⟩; exact absurd hw hnw

end

end Lev
