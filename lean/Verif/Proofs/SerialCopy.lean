import Verif.Proofs.SerialGraph
import Verif.Proofs.AnyGraphMsg

/-!
Copies of graphs, and which graphs are dictionaries.
-/

namespace Lev

open Spec

/-! ### Dictionaries among graphs -/

theorem Spec.AllAlive.get {mem : Mem} {root : Nat} (hl : AllAlive mem root) {a : Nat} (ha : Reaches mem root a) :
    ∃ nd, mem a = some nd ∧ ∀ c b, (c, b) ∈ nd.edges → Reaches mem root b :=
  closed_of_alive hl a ha

/-- A path from `a` and its nodes. -/
theorem leads_nodes {mem : Mem} {a b : Nat} {w : Str} (h : Leads mem a w b) :
    ∃ vs : List Nat, vs.length = w.length ∧ (∀ v ∈ vs, Reaches mem a v) ∧
      (∀ v ∈ vs, ∃ nd c x, mem v = some nd ∧ (c, x) ∈ nd.edges ∧ Reaches mem x b) ∧
      vs.Pairwise (fun x y => ∃ nd c z, mem x = some nd ∧ (c, z) ∈ nd.edges ∧ Reaches mem z y) := by
  induction h with
  | here => exact ⟨[], rfl, by simp, by simp, .nil⟩
  | @snoc w b nd c d hl hm he ih =>
    obtain ⟨vs, h1, h2, h3, h4⟩ := ih
    refine ⟨vs ++ [b], by simp [h1], ?_, ?_, ?_⟩
    · intro v hv
      rcases List.mem_append.1 hv with hv | hv
      · exact h2 v hv
      · rw [List.mem_singleton.1 hv]; exact hl.toReaches
    · intro v hv
      rcases List.mem_append.1 hv with hv | hv
      · obtain ⟨n, c', x, g1, g2, g3⟩ := h3 v hv
        exact ⟨n, c', x, g1, g2, g3.trans (.step hm he .refl)⟩
      · rw [List.mem_singleton.1 hv]; exact ⟨nd, c, d, hm, he, .refl⟩
    · rw [List.pairwise_append]
      refine ⟨h4, by simp, ?_⟩
      intro x hx y hy
      rw [List.mem_singleton.1 hy]
      exact h3 x hx

/-- Without cycle, no path is longer than the number of nodes. -/
theorem leads_bound {mem : Mem} {root : Nat} {U : List Nat} (hU : ∀ a, Reaches mem root a → a ∈ U) (hc : ¬ HasCycle mem root)
    {w : Str} {b : Nat} (h : Leads mem root w b) : w.length ≤ U.length := by
  obtain ⟨vs, h1, h2, _, h4⟩ := leads_nodes h
  have hn : vs.Nodup := by
    refine List.pairwise_iff_forall_sublist.2 fun {x y} hs hxy => ?_
    obtain ⟨nd, c, z, g1, g2, g3⟩ := List.pairwise_iff_forall_sublist.1 h4 hs
    rw [← hxy] at g3
    exact hc ⟨x, nd, c, z, h2 x (hs.subset (by simp)), g1, g2, g3⟩
  have := hn.length_le_of_subset (l₂ := U) fun v hv => hU v (h2 v hv)
  omega

theorem Spec.AllAlive.dictNode {sgn : Bool} {mem : Mem} {root : Nat} (hl : AllAlive mem root) (hs : EdgesSorted sgn mem root)
    {U : List Nat} (hU : ∀ a, Reaches mem root a → a ∈ U) (hc : ¬ HasCycle mem root) : DictNode sgn mem (U.length + 1) root := by
  have key : ∀ n w a, Leads mem root w a → w.length + n = U.length + 1 → DictNode sgn mem n a := by
    intro n
    induction n with
    | zero => intro w a hw hn; have := leads_bound hU hc hw; omega
    | succ n ih =>
      intro w a hw hn
      obtain ⟨nd, h1, _⟩ := hl.get hw.toReaches
      refine .mk h1 (hs a nd hw.toReaches h1) fun c b hb => ?_
      exact ih _ _ (.snoc hw h1 hb) (by simp only [List.length_append, List.length_singleton]; omega)
  exact key _ [] root .here (by simp)

theorem unf_finite {mem : Mem} {es : List (UInt8 × Nat)} {F : Forest} (hu : Unf mem es F) :
    ∃ U : List Nat, ∀ e ∈ es, ∀ a, Reaches mem e.2 a → a ∈ U := by
  induction hu with
  | nil => exact ⟨[], by simp⟩
  | @cons l a nd es kids rest hm _ _ ih1 ih2 =>
    obtain ⟨U1, h1⟩ := ih1
    obtain ⟨U2, h2⟩ := ih2
    refine ⟨a :: U1 ++ U2, ?_⟩
    intro e he x hx
    rcases List.mem_cons.1 he with rfl | he
    · cases hx with
      | refl => simp
      | step hm' hb hr =>
        rw [hm] at hm'; cases hm'
        simp [h1 _ hb x hr]
    · simp [h2 e he x hx]

theorem DictNode.finiteGraph {sgn : Bool} {mem : Mem} {k root : Nat} (hd : DictNode sgn mem k root) : FiniteGraph mem root := by
  obtain ⟨nd, F, hm, hu, _⟩ := DictNode.unf hd
  obtain ⟨U, h⟩ := unf_finite (.cons (l := 0) hm hu .nil)
  exact ⟨U, fun a ha => h (0, root) (by simp) a ha⟩

theorem DictNode.allAlive {sgn : Bool} {mem : Mem} {k root : Nat} (hd : DictNode sgn mem k root) : AllAlive mem root := by
  intro a ha
  obtain ⟨nd, h, _⟩ := DictNode.closed hd a ha
  rw [h]; simp

theorem allNodes_cycle {mem : Mem} {root : Nat} (hl : AllAlive mem root) (hc : HasCycle mem root) (fuel : Nat) :
    allNodes mem fuel root = .error .diverge := by
  obtain ⟨a, nd, c, b, h1, h2, h3, h4⟩ := hc
  refine allNodesLoop_diverges (closed_of_alive hl) (C := fun x => Reaches mem root x ∧ Reaches mem x a) ?_ fuel [root] [] ?_ ?_
  · rintro x ⟨hx, hxa⟩
    cases hxa with
    | refl => exact ⟨nd, c, b, h2, h3, h1.trans (.step h2 h3 .refl), h4⟩
    | step hm hb hr => exact ⟨_, _, _, hm, hb, hx.trans (.step hm hb .refl), hr⟩
  · intro x hx
    rw [List.mem_singleton.1 hx]; exact .refl
  · exact ⟨root, by simp, .refl, h1⟩

theorem DictNode.noCycle {sgn : Bool} {mem : Mem} {k root : Nat} (hd : DictNode sgn mem k root) : ¬ HasCycle mem root := by
  rintro ⟨a, nd, c, b, h1, h2, h3, h4⟩
  have key : ∀ k x, DictNode sgn mem k x → Reaches mem root x → Reaches mem x a → False := by
    intro k
    induction k with
    | zero => intro x hx; cases hx
    | succ k ih =>
      intro x hx hrx hxa
      cases hx with
      | mk hm _ hk =>
        cases hxa with
        | refl =>
          rw [h2] at hm; cases hm
          exact ih b (hk c b h3) (h1.trans (.step h2 h3 .refl)) h4
        | step hm' hb hr =>
          rw [hm'] at hm; cases hm
          exact ih _ (hk _ _ hb) (hrx.trans (.step hm' hb .refl)) hr
  exact key k root hd .refl h1

theorem DictNode.edgesSorted {sgn : Bool} {mem : Mem} {k root : Nat} (hd : DictNode sgn mem k root) :
    EdgesSorted sgn mem root := fun _ _ ha hm => DictNode.edges_sorted hd ha hm

/-! ### Copies -/

section
variable {mem mem' : Mem} {root root' : Nat} {φ : Nat → Nat}

theorem Spec.CopyOf.alive (hc : CopyOf mem root mem' root' φ) (hl : AllAlive mem root) : AllAlive mem' root' := by
  intro a ha
  obtain ⟨x, hx, rfl⟩ := (hc.onto a).1 ha
  obtain ⟨nd, h1, _⟩ := hl.get hx
  obtain ⟨es, h2, _⟩ := hc.node x nd hx h1
  rw [h2]; simp

theorem Spec.CopyOf.finite (hc : CopyOf mem root mem' root' φ) (hf : FiniteGraph mem root) : FiniteGraph mem' root' := by
  obtain ⟨U, hU⟩ := hf
  refine ⟨U.map φ, fun a ha => ?_⟩
  obtain ⟨x, hx, rfl⟩ := (hc.onto a).1 ha
  exact List.mem_map.2 ⟨x, hU x hx, rfl⟩

theorem Spec.CopyOf.reaches (hc : CopyOf mem root mem' root' φ) (hl : AllAlive mem root) {x y : Nat} (hx : Reaches mem root x)
    (hy : Reaches mem root y) : Reaches mem' (φ x) (φ y) ↔ Reaches mem x y := by
  constructor
  · generalize ha : φ x = a
    generalize hb : φ y = b
    intro hab
    induction hab generalizing x with
    | refl => rw [hc.inj x y hx hy (ha.trans hb.symm)]; exact .refl
    | step hm he _ ih =>
      subst ha
      obtain ⟨nd, h1, h2⟩ := hl.get hx
      obtain ⟨es, h3, h4⟩ := hc.node x nd hx h1
      rw [h3] at hm; cases hm
      obtain ⟨b0, h5, rfl⟩ := (h4 _ _).1 he
      exact .step h1 h5 (ih (h2 _ _ h5) rfl hb)
  · intro hxy
    induction hxy with
    | refl => exact .refl
    | @step a nd c b x hm he _ ih =>
      obtain ⟨es, h3, h4⟩ := hc.node _ nd hx hm
      exact .step h3 ((h4 _ _).2 ⟨_, he, rfl⟩) (ih (hx.trans (.step hm he .refl)) hy)

theorem Spec.CopyOf.accepts (hc : CopyOf mem root mem' root' φ) (hl : AllAlive mem root) (t : Str) :
    Accepts mem' root' t ↔ Accepts mem root t := by
  have key : ∀ t x, Reaches mem root x → (Accepts mem' (φ x) t ↔ Accepts mem x t) := by
    intro t
    induction t with
    | nil =>
      intro x hx
      obtain ⟨nd, h1, h2⟩ := hl.get hx
      obtain ⟨es, h3, h4⟩ := hc.node x nd hx h1
      constructor
      · intro h
        cases h with
        | here hm hf => rw [h3] at hm; cases hm; exact .here h1 hf
      · intro h
        cases h with
        | here hm hf => rw [h1] at hm; cases hm; exact .here h3 hf
    | cons c t ih =>
      intro x hx
      obtain ⟨nd, h1, h2⟩ := hl.get hx
      obtain ⟨es, h3, h4⟩ := hc.node x nd hx h1
      constructor
      · intro h
        cases h with
        | step hm hb hr =>
          rw [h3] at hm; cases hm
          obtain ⟨b0, h5, rfl⟩ := (h4 _ _).1 hb
          exact .step h1 h5 ((ih b0 (h2 _ _ h5)).1 hr)
      · intro h
        cases h with
        | step hm hb hr =>
          rw [h1] at hm; cases hm
          exact .step h3 ((h4 _ _).2 ⟨_, hb, rfl⟩) ((ih _ (h2 _ _ hb)).2 hr)
  rw [hc.base]
  exact key t root .refl

theorem Spec.CopyOf.hasCycle (hc : CopyOf mem root mem' root' φ) (hl : AllAlive mem root) :
    HasCycle mem' root' ↔ HasCycle mem root := by
  constructor
  · rintro ⟨a, nd, c, b, h1, h2, h3, h4⟩
    obtain ⟨x, hx, rfl⟩ := (hc.onto a).1 h1
    obtain ⟨n, g1, g2⟩ := hl.get hx
    obtain ⟨es, g3, g4⟩ := hc.node x n hx g1
    rw [g3] at h2; cases h2
    obtain ⟨b0, g5, rfl⟩ := (g4 _ _).1 h3
    exact ⟨x, n, c, b0, hx, g1, g5, (hc.reaches hl (g2 _ _ g5) hx).1 h4⟩
  · rintro ⟨a, nd, c, b, h1, h2, h3, h4⟩
    obtain ⟨es, g3, g4⟩ := hc.node a nd h1 h2
    exact ⟨φ a, _, c, φ b, (hc.onto _).2 ⟨a, h1, rfl⟩, g3, (g4 _ _).2 ⟨b, h3, rfl⟩,
      (hc.reaches hl (h1.trans (.step h2 h3 .refl)) h1).2 h4⟩

end

/-! ### What was written is read as a copy -/

theorem MsgOf.copyOf {sgn sgn' : Bool} {addr : Nat → Nat} {mem : Mem} {h h' : Heap} {root size : Nat} {msg : Msg} {d : SDawg}
    {φ : Nat → Nat} (hm : MsgOf sgn mem root size msg) (hr : Restored sgn' addr h msg h' d φ) (hl : AllAlive mem root) :
    CopyOf mem root h'.mem d.root φ ∧ EdgesSorted sgn' h'.mem d.root := by
  have hcl := closed_of_alive hl
  have hw := hm.wellFormed hcl
  have honto : ∀ a, Reaches h'.mem d.root a ↔ ∃ x, Reaches mem root x ∧ a = φ x := by
    intro a
    rw [hr.root, hr.reaches hw.target hw.root]
    constructor
    · rintro ⟨y, hy, rfl⟩
      refine ⟨y, ?_, rfl⟩
      rw [← hm.mem_ids]
      generalize hroot : msg.rootId = r at hy
      have hr0 : r ∈ msg.nodeIds := by rw [← hroot]; exact hw.root
      clear hroot
      induction hy with
      | refl => exact hr0
      | step he _ ih => exact ih (hw.target _ he)
    · rintro ⟨x, hx, rfl⟩
      refine ⟨x, ?_, rfl⟩
      rw [hm.root_id]
      exact hm.msgReaches .refl hcl hx
  refine ⟨⟨by rw [hr.root, hm.root_id], fun x y hx hy => hr.inj x y ((hm.mem_ids x).2 hx) ((hm.mem_ids y).2 hy), ?_, honto⟩, ?_⟩
  · intro x nd hx hmx
    obtain ⟨es, h1, _, h3⟩ := hm.node_edges hr hx hmx
    exact ⟨es, h1, h3⟩
  · intro a nd ha hma
    obtain ⟨x, hx, rfl⟩ := (honto a).1 ha
    obtain ⟨es, h1, h2, _⟩ := hr.node x ((hm.mem_ids x).2 hx)
    rw [h1] at hma; cases hma
    exact h2

/-! ### What foreign messages make -/

theorem ReadAny.finite {sgn : Bool} {addr : Nat → Nat} {h h' : Heap} {msg : Msg} {d : SDawg} {φ : Nat → Nat}
    (hr : ReadAny sgn addr h msg h' d φ) : FiniteGraph h'.mem d.root := by
  refine ⟨(msg.rootId :: msg.edges.map (·.target)).map φ, fun a ha => ?_⟩
  obtain ⟨w, hl⟩ := Spec.Leads.of_reaches ha
  obtain ⟨y, hw, rfl⟩ := hr.walk_of_leads hl
  refine List.mem_map.2 ⟨y, ?_, rfl⟩
  have key : ∀ {x y : Nat} {t : Str}, Walk msg x t y → y = x ∨ y ∈ msg.edges.map (·.target) := by
    intro x y t hw
    induction hw with
    | here => exact .inl rfl
    | @step e c t y he _ _ ih =>
      rcases ih with rfl | ih
      · exact .inr (List.mem_map.2 ⟨e, he.mem, rfl⟩)
      · exact .inr ih
  rcases key hw with rfl | h
  · simp
  · exact List.mem_cons.2 (.inr h)

theorem ReadAny.allAlive {sgn : Bool} {addr : Nat → Nat} {h h' : Heap} {msg : Msg} {d : SDawg} {φ : Nat → Nat}
    (hr : ReadAny sgn addr h msg h' d φ) : AllAlive h'.mem d.root ↔ ¬ Dangling msg := by
  constructor
  · rintro hl ⟨t, x, hw, hm⟩
    obtain ⟨k, hk⟩ := hr.fallsOff hw hm
    rw [← hr.root] at hk
    have key : ∀ {k a}, FallsOff h'.mem k a → ∃ b, Reaches h'.mem a b ∧ h'.mem b = none := by
      intro k a hf
      induction hf with
      | here h => exact ⟨_, .refl, h⟩
      | step h1 h2 _ ih =>
        obtain ⟨b, h3, h4⟩ := ih
        exact ⟨b, .step h1 h2 h3, h4⟩
    obtain ⟨b, h1, h2⟩ := key hk
    exact hl b h1 h2
  · intro hd a ha
    obtain ⟨t, x, hw, rfl⟩ := (hr.reaches hd a).1 ha
    obtain ⟨es, h1, _⟩ := hr.present fun hx => hd ⟨t, x, hw, hx⟩
    rw [h1]; simp

theorem ReadAny.hasCycle {sgn : Bool} {addr : Nat → Nat} {h h' : Heap} {msg : Msg} {d : SDawg} {φ : Nat → Nat}
    (hr : ReadAny sgn addr h msg h' d φ) (hd : ¬ Dangling msg) : HasCycle h'.mem d.root ↔ Cyclic msg := by
  have hl := hr.allAlive.2 hd
  constructor
  · intro hc
    apply Classical.byContradiction
    intro hn
    exact DictNode.noCycle (hr.dictNode hd hn) hc
  · intro hc
    apply Classical.byContradiction
    intro hn
    obtain ⟨U, hU⟩ := hr.finite
    have hdn := hl.dictNode hr.sorted hU hn
    obtain ⟨nd, F, m, u, _⟩ := DictNode.unf hdn
    obtain ⟨h'', ⟨N, hN⟩, _⟩ := deleteReach_spec m u hr.null (DictNode.closed hdn)
    have h1 := hr.destroy.2.1 hd hc N
    rw [hr.destroy_eq] at h1
    have h2 := hN N (Nat.le_refl _)
    simp only at h2
    rw [h2] at h1; cases h1

end Lev
