import Verif.Model.Serial
import Verif.Proofs.BuilderEnd

/-!
What `to_protobuf` writes.
-/

namespace Lev

open Spec

/-! ### Sets -/

theorem mem_setInsert {x y : Nat} {l : List Nat} : y ∈ setInsert x l ↔ y = x ∨ y ∈ l := by
  induction l with
  | nil => simp [setInsert]
  | cons z l ih =>
    simp only [setInsert]
    split
    · simp
    · split
      · next h => subst h; simp
      · simp only [List.mem_cons, ih]
        constructor
        · rintro (h | h | h) <;> simp [h]
        · rintro (h | h | h) <;> simp [h]

theorem setInsert_sorted {x : Nat} {l : List Nat} (h : l.Pairwise (· < ·)) : (setInsert x l).Pairwise (· < ·) := by
  induction l with
  | nil => simp [setInsert]
  | cons z l ih =>
    have h' := List.pairwise_cons.1 h
    simp only [setInsert]
    split
    · next hlt =>
      refine List.pairwise_cons.2 ⟨fun y hy => ?_, h⟩
      rcases List.mem_cons.1 hy with rfl | hy
      · exact hlt
      · exact Nat.lt_trans hlt (h'.1 y hy)
    · split
      · exact h
      · next h1 h2 =>
        refine List.pairwise_cons.2 ⟨fun y hy => ?_, ih h'.2⟩
        rcases mem_setInsert.1 hy with rfl | hy
        · omega
        · exact h'.1 y hy

/-! ### `collect_nodes` -/

/-- Both sets are in order, the second is the final part of the first, and the first is closed but for the nodes in
progress. -/
structure NodesInv (mem : Mem) (G : Nat → Prop) (ids fins : List Nat) : Prop where
  idsAsc : ids.Pairwise (· < ·)
  finsAsc : fins.Pairwise (· < ·)
  final : ∀ x, x ∈ fins ↔ x ∈ ids ∧ ∃ nd, mem x = some nd ∧ nd.final = true
  closed : ∀ x ∈ ids, ¬ G x → ∃ nd, mem x = some nd ∧ ∀ c b, (c, b) ∈ nd.edges → b ∈ ids

theorem collectNodes_edges {mem : Mem} {es : List (UInt8 × Nat)} {F : Forest} (hu : Unf mem es F) (G : Nat → Prop)
    (ids fins : List Nat) (hi : NodesInv mem G ids fins) :
    ∃ ids' fins', (∀ fuel, F.height ≤ fuel →
        es.foldlM (fun st e => collectNodes mem fuel e.2 st) (ids, fins) = .ok (ids', fins')) ∧
      NodesInv mem G ids' fins' ∧ (∀ x ∈ ids, x ∈ ids') ∧ (∀ c b, (c, b) ∈ es → b ∈ ids') ∧
      ∀ x ∈ ids', x ∈ ids ∨ ∃ c b, (c, b) ∈ es ∧ Reaches mem b x := by
  induction hu generalizing G ids fins with
  | nil => exact ⟨ids, fins, fun _ _ => rfl, hi, fun _ h => h, by simp, fun x h => .inl h⟩
  | @cons l a nd es kids rest hm _ _ ih1 ih2 =>
    by_cases ha : a ∈ ids
    · obtain ⟨ids', fins', h1, h2, h3, h4, h5⟩ := ih2 G ids fins hi
      refine ⟨ids', fins', fun fuel hf => ?_, h2, h3, ?_, fun x hx => ?_⟩
      · obtain ⟨f, rfl⟩ : ∃ f, fuel = f + 1 := ⟨fuel - 1, by simp only [Forest.height] at hf; omega⟩
        rw [List.foldlM_cons, show collectNodes mem (f + 1) a (ids, fins) = .ok (ids, fins) by
          simp [collectNodes, ha]]
        exact h1 (f + 1) (by simp only [Forest.height] at hf; omega)
      · intro c b hb
        rcases List.mem_cons.1 hb with h | h
        · cases h; exact h3 a ha
        · exact h4 c b h
      · rcases h5 x hx with h | ⟨c, b, hb, hr⟩
        · exact .inl h
        · exact .inr ⟨c, b, by simp [hb], hr⟩
    · have hi1 : NodesInv mem (fun x => G x ∨ x = a) (setInsert a ids) (if nd.final then setInsert a fins else fins) := by
        refine ⟨setInsert_sorted hi.idsAsc, ?_, fun x => ?_, fun x hx hG => ?_⟩
        · split
          · exact setInsert_sorted hi.finsAsc
          · exact hi.finsAsc
        · have hx := hi.final x
          by_cases hxa : x = a
          · subst hxa
            have : x ∉ fins := fun h => ha (hx.1 h).1
            cases hfin : nd.final <;> simp [mem_setInsert, hm, hfin, this]
          · cases hfin : nd.final <;> simp [mem_setInsert, hxa, hx]
        · rcases mem_setInsert.1 hx with rfl | hx
          · exact absurd (.inr rfl) hG
          · obtain ⟨n, h1, h2⟩ := hi.closed x hx fun h => hG (.inl h)
            exact ⟨n, h1, fun c b hb => mem_setInsert.2 (.inr (h2 c b hb))⟩
      obtain ⟨ids1, fins1, r1, r2, r3, r4, r5⟩ := ih1 _ _ _ hi1
      have ha1 : a ∈ ids1 := r3 a (mem_setInsert.2 (.inl rfl))
      have hi2 : NodesInv mem G ids1 fins1 := by
        refine ⟨r2.idsAsc, r2.finsAsc, r2.final, fun x hx hG => ?_⟩
        by_cases hxa : x = a
        · subst hxa; exact ⟨nd, hm, r4⟩
        · exact r2.closed x hx fun h => h.elim hG hxa
      obtain ⟨ids2, fins2, s1, s2, s3, s4, s5⟩ := ih2 G ids1 fins1 hi2
      refine ⟨ids2, fins2, fun fuel hf => ?_, s2, fun x hx => s3 x (r3 x (mem_setInsert.2 (.inr hx))), ?_,
        fun x hx => ?_⟩
      · obtain ⟨f, rfl⟩ : ∃ f, fuel = f + 1 := ⟨fuel - 1, by simp only [Forest.height] at hf; omega⟩
        simp only [Forest.height] at hf
        have := r1 f (by omega)
        rw [List.foldlM_cons, show collectNodes mem (f + 1) a (ids, fins) = .ok (ids1, fins1) by
          simp only [collectNodes, ha, if_false, deref, hm, bind, Except.bind]
          exact this]
        exact s1 (f + 1) (by omega)
      · intro c b hb
        rcases List.mem_cons.1 hb with h | h
        · cases h; exact s3 a ha1
        · exact s4 c b h
      · rcases s5 x hx with h | ⟨c, b, hb, hr⟩
        · rcases r5 x h with h | ⟨c, b, hb, hr⟩
          · rcases mem_setInsert.1 h with rfl | h
            · exact .inr ⟨l, x, by simp, .refl⟩
            · exact .inl h
          · exact .inr ⟨l, a, by simp, .step hm hb hr⟩
        · exact .inr ⟨c, b, by simp [hb], hr⟩

theorem collectNodes_spec {mem : Mem} {root : Nat} {nd : DNode} {F : Forest} (hm : mem root = some nd)
    (hu : Unf mem nd.edges F) :
    ∃ ids fins, (∀ fuel, F.height < fuel → collectNodes mem fuel root ([], []) = .ok (ids, fins)) ∧ ids.Pairwise (· < ·) ∧
      fins.Pairwise (· < ·) ∧ (∀ x, x ∈ ids ↔ Reaches mem root x) ∧
      ∀ x, x ∈ fins ↔ Reaches mem root x ∧ ∃ nd, mem x = some nd ∧ nd.final = true := by
  have hroot : Unf mem [(0, root)] (.cons 0 nd.final F .nil) := .cons hm hu .nil
  obtain ⟨ids, fins, h1, h2, h3, h4, h5⟩ := collectNodes_edges hroot (fun _ => False) [] []
    ⟨.nil, .nil, by simp, by simp⟩
  have hids : ∀ x, x ∈ ids ↔ Reaches mem root x := by
    intro x
    constructor
    · intro hx
      rcases h5 x hx with h | ⟨c, b, hb, hr⟩
      · simp at h
      · simp only [List.mem_singleton, Prod.mk.injEq] at hb
        rw [hb.2] at hr; exact hr
    · intro hx
      have key : ∀ a y, Reaches mem a y → a ∈ ids → y ∈ ids := by
        intro a y hy
        induction hy with
        | refl => exact id
        | step hm' hb _ ih =>
          intro ha
          obtain ⟨n, hn, hc⟩ := h2.closed _ ha id
          rw [hm'] at hn; obtain rfl := Option.some.inj hn
          exact ih (hc _ _ hb)
      exact key root x hx (h4 0 root (by simp))
  refine ⟨ids, fins, fun fuel hf => ?_, h2.idsAsc, h2.finsAsc, hids, fun x => by rw [h2.final, hids]⟩
  have := h1 fuel (by simp only [Forest.height]; omega)
  rw [List.foldlM_cons] at this
  cases hc : collectNodes mem fuel root ([], []) with
  | error e => rw [hc] at this; simp [bind, Except.bind] at this
  | ok r =>
    rw [hc] at this
    have hr : r = (ids, fins) := by simpa [bind, Except.bind, pure, Except.pure] using this
    rw [hr]

/-! ### `collect_edges` -/

/-- Order of the keys of the map of edges. -/
def KeyLt (sgn : Bool) (k k' : Nat × UInt8) : Prop :=
  k.1 < k'.1 ∨ (k.1 = k'.1 ∧ charLt sgn k.2 k'.2)

theorem edgeKeyLt_iff (sgn : Bool) (k k' : Nat × UInt8) : edgeKeyLt sgn k k' = true ↔ KeyLt sgn k k' := by
  simp [edgeKeyLt, KeyLt, charLt]

theorem KeyLt.trans {sgn : Bool} {a b c : Nat × UInt8} (h : KeyLt sgn a b) (h' : KeyLt sgn b c) : KeyLt sgn a c := by
  unfold KeyLt charLt at *
  omega

theorem keyLt_total {sgn : Bool} {a b : Nat × UInt8} (h : ¬ KeyLt sgn a b) (hne : a ≠ b) : KeyLt sgn b a := by
  obtain ⟨x, c⟩ := a
  obtain ⟨y, d⟩ := b
  unfold KeyLt charLt at *
  simp only at *
  by_cases hxy : x = y
  · subst hxy
    have : charKey sgn c ≠ charKey sgn d := fun h => hne (by rw [charKey_inj h])
    omega
  · omega

theorem KeyLt.irrefl {sgn : Bool} {a : Nat × UInt8} : ¬ KeyLt sgn a a := by
  unfold KeyLt charLt; omega

theorem mem_edgeInsert {sgn : Bool} {k : Nat × UInt8} {t : Nat} {l : List ((Nat × UInt8) × Nat)}
    {e : (Nat × UInt8) × Nat} : e ∈ edgeInsert sgn k t l ↔ e = (k, t) ∨ e ∈ l := by
  induction l with
  | nil => simp [edgeInsert]
  | cons z l ih =>
    simp only [edgeInsert]
    split
    · simp
    · simp only [List.mem_cons, ih]
      constructor
      · rintro (h | h | h) <;> simp [h]
      · rintro (h | h | h) <;> simp [h]

theorem edgeInsert_sorted {sgn : Bool} {k : Nat × UInt8} {t : Nat} {l : List ((Nat × UInt8) × Nat)}
    (h : l.Pairwise (fun e f => KeyLt sgn e.1 f.1)) (hk : ∀ e ∈ l, e.1 ≠ k) :
    (edgeInsert sgn k t l).Pairwise (fun e f => KeyLt sgn e.1 f.1) := by
  induction l with
  | nil => simp [edgeInsert]
  | cons z l ih =>
    have h' := List.pairwise_cons.1 h
    simp only [edgeInsert]
    split
    · next hlt =>
      rw [edgeKeyLt_iff] at hlt
      refine List.pairwise_cons.2 ⟨fun y hy => ?_, h⟩
      rcases List.mem_cons.1 hy with rfl | hy
      · exact hlt
      · exact hlt.trans (h'.1 y hy)
    · next hlt =>
      rw [edgeKeyLt_iff] at hlt
      refine List.pairwise_cons.2 ⟨fun y hy => ?_, ih h'.2 fun e he => hk e (by simp [he])⟩
      rcases mem_edgeInsert.1 hy with rfl | hy
      · exact keyLt_total hlt fun h => hk z (by simp) h.symm
      · exact h'.1 y hy

theorem sorted_label_unique {sgn : Bool} {es : List (UInt8 × Nat)} (h : es.Pairwise (fun e f => charLt sgn e.1 f.1))
    {c : UInt8} {x y : Nat} (hx : (c, x) ∈ es) (hy : (c, y) ∈ es) : x = y := by
  induction es with
  | nil => simp at hx
  | cons e es ih =>
    have h' := List.pairwise_cons.1 h
    rcases List.mem_cons.1 hx with h1 | h1 <;> rcases List.mem_cons.1 hy with h2 | h2
    · rw [← h1] at h2; exact (Prod.mk.inj h2).2.symm
    · rw [← h1] at h'; exact (charLt_irrefl (h'.1 (c, y) h2)).elim
    · rw [← h2] at h'; exact (charLt_irrefl (h'.1 (c, x) h1)).elim
    · exact ih h'.2 h1 h2

/-- The map is in order, holds edges of the graph only, and all edges of the targets but for those in progress. -/
structure EdgesInv (sgn : Bool) (mem : Mem) (G : Nat → Prop) (E : List ((Nat × UInt8) × Nat)) : Prop where
  sorted : E.Pairwise (fun e f => KeyLt sgn e.1 f.1)
  edge : ∀ s l t, ((s, l), t) ∈ E → ∃ nd, mem s = some nd ∧ (l, t) ∈ nd.edges
  closed : ∀ s l t, ((s, l), t) ∈ E → ¬ G t → ∀ nd, mem t = some nd → ∀ c b, (c, b) ∈ nd.edges → ((t, c), b) ∈ E

theorem collectEdges_edges {sgn : Bool} {mem : Mem} {Z : Nat → Prop} (hZ : Closed mem Z)
    (hs : ∀ a nd, Z a → mem a = some nd → nd.edges.Pairwise (fun e f => charLt sgn e.1 f.1))
    {es : List (UInt8 × Nat)} {F : Forest} (hu : Unf mem es F) (G : Nat → Prop)
    (E : List ((Nat × UInt8) × Nat)) (hi : EdgesInv sgn mem G E) {a : Nat} {na : DNode} (hza : Z a)
    (hma : mem a = some na) (hsub : ∀ e ∈ es, e ∈ na.edges) :
    ∃ E', (∀ fuel, F.height ≤ fuel →
        es.foldlM (fun edges e =>
          if edges.any (fun x => x.1 == (a, e.1)) then .ok edges
          else collectEdges sgn mem fuel e.2 (edgeInsert sgn (a, e.1) e.2 edges)) E = .ok E') ∧
      EdgesInv sgn mem G E' ∧ (∀ x ∈ E, x ∈ E') ∧ (∀ c b, (c, b) ∈ es → ((a, c), b) ∈ E') ∧
      ∀ s l t, ((s, l), t) ∈ E' → ((s, l), t) ∈ E ∨ Reaches mem a s := by
  induction hu generalizing G E a na with
  | nil => exact ⟨E, fun _ _ => rfl, hi, fun _ h => h, by simp, fun s l t h => .inl h⟩
  | @cons l b nd es kids rest hm _ _ ih1 ih2 =>
    have hb : (l, b) ∈ na.edges := hsub _ (by simp)
    have hsub' : ∀ e ∈ es, e ∈ na.edges := fun e he => hsub e (by simp [he])
    have hzb : Z b := by
      obtain ⟨n, h1, h2⟩ := hZ a hza
      rw [hma] at h1; obtain rfl := Option.some.inj h1
      exact h2 l b hb
    by_cases hany : E.any (fun x => x.1 == (a, l)) = true
    · obtain ⟨E', h1, h2, h3, h4, h5⟩ := ih2 G E hi hza hma hsub'
      have hin : ((a, l), b) ∈ E := by
        obtain ⟨⟨k, t⟩, hx, hk⟩ := List.any_eq_true.1 hany
        have hk : k = (a, l) := by simpa using hk
        subst hk
        obtain ⟨n, hn, ht⟩ := hi.edge a l t hx
        rw [hma] at hn; obtain rfl := Option.some.inj hn
        rwa [sorted_label_unique (hs a na hza hma) hb ht]
      refine ⟨E', fun fuel hf => ?_, h2, h3, ?_, h5⟩
      · rw [List.foldlM_cons]
        simp only [hany, if_true]
        exact h1 fuel (by simp only [Forest.height] at hf; omega)
      · intro c b' hb'
        rcases List.mem_cons.1 hb' with h | h
        · cases h; exact h3 _ hin
        · exact h4 c b' h
    · have hkey : ∀ e ∈ E, e.1 ≠ (a, l) := fun e he h => hany (List.any_eq_true.2 ⟨e, he, by simp [h]⟩)
      have hi1 : EdgesInv sgn mem (fun x => G x ∨ x = b) (edgeInsert sgn (a, l) b E) := by
        refine ⟨edgeInsert_sorted hi.sorted hkey, fun s c t h => ?_, fun s c t h hG n hn c' b' hb' => ?_⟩
        · rcases mem_edgeInsert.1 h with h | h
          · simp only [Prod.mk.injEq] at h
            obtain ⟨⟨rfl, rfl⟩, rfl⟩ := h
            exact ⟨na, hma, hb⟩
          · exact hi.edge s c t h
        · rcases mem_edgeInsert.1 h with h | h
          · simp only [Prod.mk.injEq] at h
            exact absurd (.inr h.2) hG
          · exact mem_edgeInsert.2 (.inr (hi.closed s c t h (fun h => hG (.inl h)) n hn c' b' hb'))
      obtain ⟨E1, r1, r2, r3, r4, r5⟩ := ih1 _ _ hi1 hzb hm fun _ h => h
      have hi2 : EdgesInv sgn mem G E1 := by
        refine ⟨r2.sorted, r2.edge, fun s c t h hG n hn c' b' hb' => ?_⟩
        by_cases htb : t = b
        · subst htb
          rw [hm] at hn; obtain rfl := Option.some.inj hn
          exact r4 c' b' hb'
        · exact r2.closed s c t h (fun h => h.elim hG htb) n hn c' b' hb'
      obtain ⟨E2, s1, s2, s3, s4, s5⟩ := ih2 G E1 hi2 hza hma hsub'
      refine ⟨E2, fun fuel hf => ?_, s2, fun x hx => s3 x (r3 x (mem_edgeInsert.2 (.inr hx))), ?_, ?_⟩
      · obtain ⟨f, rfl⟩ : ∃ f, fuel = f + 1 := ⟨fuel - 1, by simp only [Forest.height] at hf; omega⟩
        simp only [Forest.height] at hf
        have := r1 f (by omega)
        rw [List.foldlM_cons]
        simp only [hany, Bool.false_eq_true, if_false]
        rw [show collectEdges sgn mem (f + 1) b (edgeInsert sgn (a, l) b E) = .ok E1 by
          simp only [collectEdges, deref, hm, bind, Except.bind]
          exact this]
        exact s1 (f + 1) (by omega)
      · intro c b' hb'
        rcases List.mem_cons.1 hb' with h | h
        · cases h
          exact s3 _ (r3 _ (mem_edgeInsert.2 (.inl rfl)))
        · exact s4 c b' h
      · intro s c t h
        rcases s5 s c t h with h | h
        · rcases r5 s c t h with h | h
          · rcases mem_edgeInsert.1 h with h | h
            · simp only [Prod.mk.injEq] at h
              rw [h.1.1]; exact .inr .refl
            · exact .inl h
          · exact .inr (.step hma hb h)
        · exact .inr h

theorem collectEdges_spec {sgn : Bool} {mem : Mem} {root : Nat} {nd : DNode} {F : Forest} (hm : mem root = some nd)
    (hu : Unf mem nd.edges F) (hZ : Closed mem (Reaches mem root))
    (hs : ∀ a nd, Reaches mem root a → mem a = some nd → nd.edges.Pairwise (fun e f => charLt sgn e.1 f.1)) :
    ∃ E, (∀ fuel, F.height < fuel → collectEdges sgn mem fuel root [] = .ok E) ∧ E.Pairwise (fun e f => KeyLt sgn e.1 f.1) ∧
      ∀ s l t, ((s, l), t) ∈ E ↔ Reaches mem root s ∧ ∃ nd, mem s = some nd ∧ (l, t) ∈ nd.edges := by
  obtain ⟨E, h1, h2, h3, h4, h5⟩ := collectEdges_edges hZ hs hu (fun _ => False) [] ⟨.nil, by simp, by simp⟩ .refl hm
    fun _ h => h
  have key : ∀ a x, Reaches mem a x → (∀ n, mem a = some n → ∀ c b, (c, b) ∈ n.edges → ((a, c), b) ∈ E) →
      ∀ n, mem x = some n → ∀ c b, (c, b) ∈ n.edges → ((x, c), b) ∈ E := by
    intro a x hx
    induction hx with
    | refl => exact id
    | step hm' hb _ ih =>
      intro ha
      exact ih (h2.closed _ _ _ (ha _ hm' _ _ hb) id)
  refine ⟨E, fun fuel hf => ?_, h2.sorted, fun s l t => ⟨fun h => ?_, ?_⟩⟩
  · obtain ⟨f, rfl⟩ : ∃ f, fuel = f + 1 := ⟨fuel - 1, by omega⟩
    simp only [collectEdges, deref, hm, bind, Except.bind]
    exact h1 f (by omega)
  · rcases h5 s l t h with h' | h'
    · simp at h'
    · exact ⟨h', h2.edge s l t h⟩
  · rintro ⟨hr, n, hn, hl⟩
    refine key root s hr (fun n' hn' c b hb => ?_) n hn l t hl
    rw [hm] at hn'; obtain rfl := Option.some.inj hn'
    exact h4 c b hb

/-! ### `to_protobuf` -/

/-- The message of the graph below `root`. -/
structure MsgOf (sgn : Bool) (mem : Mem) (root size : Nat) (msg : Msg) : Prop where
  ids : msg.nodeIds.Pairwise (· < ·)
  mem_ids : ∀ x, x ∈ msg.nodeIds ↔ Reaches mem root x
  fins : msg.finalIds.Pairwise (· < ·)
  mem_fins : ∀ x, x ∈ msg.finalIds ↔ Reaches mem root x ∧ ∃ nd, mem x = some nd ∧ nd.final = true
  edges : ∃ E : List ((Nat × UInt8) × Nat), E.Pairwise (fun e f => KeyLt sgn e.1 f.1) ∧
    (∀ s l t, ((s, l), t) ∈ E ↔ Reaches mem root s ∧ ∃ nd, mem s = some nd ∧ (l, t) ∈ nd.edges) ∧
    msg.edges = E.map (fun e => ⟨e.1.1, labelOfChar sgn e.1.2, e.2⟩)
  root_id : msg.rootId = root
  size_eq : msg.size = size

theorem DictNode.edges_sorted {sgn : Bool} {mem : Mem} {d a : Nat} (h : DictNode sgn mem d a) {x : Nat}
    (hx : Reaches mem a x) {nd : DNode} (hm : mem x = some nd) :
    nd.edges.Pairwise (fun e f => charLt sgn e.1 f.1) := by
  induction hx generalizing d with
  | refl =>
    cases h with
    | mk hm' hs _ => rw [hm] at hm'; obtain rfl := Option.some.inj hm'; exact hs
  | step hm1 hb _ ih =>
    cases h with
    | mk hm' _ hk =>
      rw [hm1] at hm'; obtain rfl := Option.some.inj hm'
      exact ih (hk _ _ hb) hm

theorem toProto_height {sgn : Bool} {mem : Mem} {d root : Nat} (h : DictNode sgn mem d root) (size : Nat) {nd : DNode}
    {F : Forest} (hm : mem root = some nd) (hu : Unf mem nd.edges F) :
    ∃ msg, (∀ fuel, F.height < fuel → toProto sgn mem fuel root size = .ok msg) ∧ MsgOf sgn mem root size msg := by
  obtain ⟨ids, fins, hN, h1, h2, h3, h4⟩ := collectNodes_spec hm hu
  obtain ⟨E, hM, h5, h6⟩ := collectEdges_spec hm hu (DictNode.closed h) fun a n ha hn => DictNode.edges_sorted h ha hn
  refine ⟨⟨ids, fins, E.map (fun e => ⟨e.1.1, labelOfChar sgn e.1.2, e.2⟩), root, size⟩, fun fuel hf => ?_,
    ⟨h1, h3, h2, h4, ⟨E, h5, h6, rfl⟩, rfl, rfl⟩⟩
  simp only [toProto, hN fuel hf, hM fuel hf, bind, Except.bind]

theorem toProto_spec {sgn : Bool} {mem : Mem} {d root : Nat} (h : DictNode sgn mem d root) (size : Nat) :
    ∃ msg, Ends (fun fuel => toProto sgn mem fuel root size) msg ∧ MsgOf sgn mem root size msg := by
  obtain ⟨nd, F, hm, hu, _⟩ := DictNode.unf h
  obtain ⟨msg, h1, h2⟩ := toProto_height h size hm hu
  exact ⟨msg, ⟨F.height + 1, fun fuel hf => h1 fuel hf⟩, h2⟩

end Lev
