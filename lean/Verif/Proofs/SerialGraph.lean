import Verif.Proofs.SerialTo
import Verif.Spec.Graph

/-!
What `to_protobuf` does with an arbitrary graph.
-/

namespace Lev

open Spec

theorem Spec.Reaches.trans {mem : Mem} {a b c : Nat} (h : Reaches mem a b) (h' : Reaches mem b c) : Reaches mem a c := by
  induction h with
  | refl => exact h'
  | step hm hb _ ih => exact .step hm hb (ih h')

/-! ### Counting what is left -/

theorem filter_length_le_of_imp {α : Type} {p q : α → Bool} {l : List α} (h : ∀ x ∈ l, p x = true → q x = true) :
    (l.filter p).length ≤ (l.filter q).length := by
  induction l with
  | nil => simp
  | cons x l ih =>
    have ih := ih fun y hy => h y (by simp [hy])
    have hx := h x (by simp)
    simp only [List.filter_cons]
    cases hp : p x
    · cases hq : q x <;> simp <;> omega
    · rw [hx hp]; simpa using ih

theorem filter_length_lt_of_imp {α : Type} {p q : α → Bool} {l : List α} (h : ∀ x ∈ l, p x = true → q x = true) {y : α}
    (hy : y ∈ l) (hp : p y = false) (hq : q y = true) : (l.filter p).length < (l.filter q).length := by
  induction l with
  | nil => cases hy
  | cons x l ih =>
    have hle := filter_length_le_of_imp (l := l) fun z hz => h z (by simp [hz])
    simp only [List.filter_cons]
    by_cases hxy : y = x
    · subst hxy
      rw [hp, hq]; simp; omega
    · have := ih (fun z hz => h z (by simp [hz])) ((List.mem_cons.1 hy).resolve_left hxy)
      have hx := h x (by simp)
      cases hp' : p x
      · cases hq' : q x <;> simp <;> omega
      · rw [hx hp']; simpa using this

/-- Nodes of `U` not yet met. -/
def nodesLeft (U ids : List Nat) : Nat := (U.filter (fun x => decide (x ∉ ids))).length

theorem nodesLeft_mono {U ids ids' : List Nat} (h : ∀ x ∈ ids, x ∈ ids') : nodesLeft U ids' ≤ nodesLeft U ids :=
  filter_length_le_of_imp fun x _ hx => by
    simp only [decide_eq_true_eq] at *; exact fun hi => hx (h x hi)

theorem nodesLeft_insert {U ids : List Nat} {a : Nat} (hU : a ∈ U) (ha : a ∉ ids) :
    nodesLeft U (setInsert a ids) < nodesLeft U ids :=
  filter_length_lt_of_imp (fun x _ hx => by
    simp only [decide_eq_true_eq, mem_setInsert] at *; exact fun hi => hx (.inr hi)) hU
    (by simp [mem_setInsert]) (by simpa using ha)

/-- `e` has been met. -/
def keyIn (E : List ((Nat × UInt8) × Nat)) (k : Nat × UInt8) : Bool := E.any (fun x => x.1 == k)

theorem keyIn_iff {E : List ((Nat × UInt8) × Nat)} {k : Nat × UInt8} : keyIn E k = true ↔ ∃ t, (k, t) ∈ E := by
  simp only [keyIn, List.any_eq_true, beq_iff_eq]
  constructor
  · rintro ⟨⟨k', t⟩, h, rfl⟩; exact ⟨t, h⟩
  · rintro ⟨t, h⟩; exact ⟨_, h, rfl⟩

/-- Keys of `K` not yet met. -/
def keysLeft (K : List (Nat × UInt8)) (E : List ((Nat × UInt8) × Nat)) : Nat :=
  (K.filter (fun k => !keyIn E k)).length

theorem keysLeft_mono {K : List (Nat × UInt8)} {E E' : List ((Nat × UInt8) × Nat)} (h : ∀ x ∈ E, x ∈ E') :
    keysLeft K E' ≤ keysLeft K E :=
  filter_length_le_of_imp fun x _ hx => by
    rw [Bool.not_eq_true'] at *
    cases hk : keyIn E x
    · rfl
    · obtain ⟨t, ht⟩ := keyIn_iff.1 hk
      rw [keyIn_iff.2 ⟨t, h _ ht⟩] at hx
      exact hx

theorem keysLeft_insert {sgn : Bool} {K : List (Nat × UInt8)} {E : List ((Nat × UInt8) × Nat)} {k : Nat × UInt8} {t : Nat}
    (hK : k ∈ K) (hk : keyIn E k = false) : keysLeft K (edgeInsert sgn k t E) < keysLeft K E :=
  filter_length_lt_of_imp (fun x _ hx => by
    rw [Bool.not_eq_true'] at *
    cases hk : keyIn E x
    · rfl
    · obtain ⟨t', ht⟩ := keyIn_iff.1 hk
      rw [keyIn_iff.2 ⟨t', mem_edgeInsert.2 (.inr ht)⟩] at hx
      exact hx) hK
    (by rw [keyIn_iff.2 ⟨t, mem_edgeInsert.2 (.inl rfl)⟩]; rfl) (by rw [hk]; rfl)

/-! ### `collect_nodes` -/

/-- What a part of `collect_nodes` that starts at the addresses in `as` does. -/
def NodesOutcome (mem : Mem) (G : Nat → Prop) (as ids : List Nat) (n : Nat)
    (run : Nat → Except Err (List Nat × List Nat)) : Prop :=
  (∃ ids' fins', (∀ fuel, n ≤ fuel → run fuel = .ok (ids', fins')) ∧ NodesInv mem G ids' fins' ∧ (∀ x ∈ ids, x ∈ ids') ∧
    (∀ a ∈ as, a ∈ ids') ∧ ∀ x ∈ ids', x ∈ ids ∨ ∃ a ∈ as, Reaches mem a x) ∨
  ((∀ fuel, n ≤ fuel → run fuel = .error .ub) ∧ ∃ a ∈ as, ∃ x, Reaches mem a x ∧ mem x = none)

theorem collectNodes_graph {mem : Mem} {root : Nat} {U : List Nat} (hU : ∀ a, Reaches mem root a → a ∈ U) (k : Nat) :
    (∀ (G : Nat → Prop) (ids fins : List Nat) (a : Nat), NodesInv mem G ids fins → Reaches mem root a →
      nodesLeft U ids ≤ k → NodesOutcome mem G [a] ids (k + 1) (fun fuel => collectNodes mem fuel a (ids, fins))) ∧
    ∀ (es : List (UInt8 × Nat)) (G : Nat → Prop) (ids fins : List Nat), NodesInv mem G ids fins →
      (∀ e ∈ es, Reaches mem root e.2) → nodesLeft U ids ≤ k →
      NodesOutcome mem G (es.map (·.2)) ids (k + 1)
        (fun fuel => es.foldlM (fun st e => collectNodes mem fuel e.2 st) (ids, fins)) := by
  have fold : ∀ k, (∀ (G : Nat → Prop) (ids fins : List Nat) (a : Nat), NodesInv mem G ids fins → Reaches mem root a →
      nodesLeft U ids ≤ k → NodesOutcome mem G [a] ids (k + 1) (fun fuel => collectNodes mem fuel a (ids, fins))) →
    ∀ (es : List (UInt8 × Nat)) (G : Nat → Prop) (ids fins : List Nat), NodesInv mem G ids fins →
      (∀ e ∈ es, Reaches mem root e.2) → nodesLeft U ids ≤ k →
      NodesOutcome mem G (es.map (·.2)) ids (k + 1)
        (fun fuel => es.foldlM (fun st e => collectNodes mem fuel e.2 st) (ids, fins)) := by
    intro k hone es
    induction es with
    | nil =>
      intro G ids fins hi _ _
      exact .inl ⟨ids, fins, fun _ _ => rfl, hi, fun _ h => h, by simp, fun x h => .inl h⟩
    | cons e es ih =>
      intro G ids fins hi hre hk
      rcases hone G ids fins e.2 hi (hre e (by simp)) hk with ⟨ids1, fins1, h1, h2, h3, h4, h5⟩ | ⟨h1, a, ha, x, h2, h3⟩
      · rcases ih G ids1 fins1 h2 (fun e he => hre e (by simp [he])) (Nat.le_trans (nodesLeft_mono h3) hk) with
          ⟨ids2, fins2, g1, g2, g3, g4, g5⟩ | ⟨g1, a, ha, x, g2, g3⟩
        · refine .inl ⟨ids2, fins2, fun fuel hf => ?_, g2, fun x hx => g3 x (h3 x hx), ?_, fun x hx => ?_⟩
          · have := h1 fuel hf
            simp only at this
            simp only [List.foldlM_cons, this, bind, Except.bind]
            exact g1 fuel hf
          · intro a ha
            rcases List.mem_cons.1 ha with rfl | ha
            · exact g3 _ (h4 _ (by simp))
            · exact g4 a ha
          · rcases g5 x hx with h | ⟨a, ha, h⟩
            · rcases h5 x h with h | ⟨a, ha, h⟩
              · exact .inl h
              · rw [List.mem_singleton.1 ha] at h
                exact .inr ⟨e.2, by simp, h⟩
            · exact .inr ⟨a, by simp only [List.map_cons, List.mem_cons]; exact .inr ha, h⟩
        · refine .inr ⟨fun fuel hf => ?_, a, by simp only [List.map_cons, List.mem_cons]; exact .inr ha, x, g2, g3⟩
          have := h1 fuel hf
          simp only at this
          simp only [List.foldlM_cons, this, bind, Except.bind]
          exact g1 fuel hf
      · rw [List.mem_singleton.1 ha] at h2
        refine .inr ⟨fun fuel hf => ?_, e.2, by simp, x, h2, h3⟩
        have := h1 fuel hf
        simp only at this
        simp only [List.foldlM_cons, this, bind, Except.bind]
  have one : ∀ k (G : Nat → Prop) (ids fins : List Nat) (a : Nat), NodesInv mem G ids fins → Reaches mem root a →
      nodesLeft U ids ≤ k → NodesOutcome mem G [a] ids (k + 1) (fun fuel => collectNodes mem fuel a (ids, fins)) := by
    intro k
    induction k with
    | zero =>
      intro G ids fins a hi hre hk
      have ha : a ∈ ids := by
        apply Classical.byContradiction
        intro hn
        have := nodesLeft_insert (hU a hre) hn
        omega
      refine .inl ⟨ids, fins, fun fuel hf => ?_, hi, fun _ h => h, by simpa using ha, fun x h => .inl h⟩
      obtain ⟨f, rfl⟩ : ∃ f, fuel = f + 1 := ⟨fuel - 1, by omega⟩
      simp [collectNodes, ha]
    | succ k ihk =>
      intro G ids fins a hi hre hk
      by_cases ha : a ∈ ids
      · refine .inl ⟨ids, fins, fun fuel hf => ?_, hi, fun _ h => h, by simpa using ha, fun x h => .inl h⟩
        obtain ⟨f, rfl⟩ : ∃ f, fuel = f + 1 := ⟨fuel - 1, by omega⟩
        simp [collectNodes, ha]
      · cases hm : mem a with
        | none =>
          refine .inr ⟨fun fuel hf => ?_, a, by simp, a, .refl, hm⟩
          obtain ⟨f, rfl⟩ : ∃ f, fuel = f + 1 := ⟨fuel - 1, by omega⟩
          simp [collectNodes, ha, deref, hm, bind, Except.bind]
        | some nd =>
          have hi1 : NodesInv mem (fun x => G x ∨ x = a) (setInsert a ids)
              (if nd.final then setInsert a fins else fins) := by
            refine ⟨setInsert_sorted hi.idsAsc, ?_, fun x => ?_, fun x hx hG => ?_⟩
            · split
              · exact setInsert_sorted hi.finsAsc
              · exact hi.finsAsc
            · have hx := hi.final x
              by_cases hxa : x = a
              · subst hxa
                have : x ∉ fins := fun h => ha (hx.1 h).1
                cases hfin : nd.final <;> simp [mem_setInsert, hm, hfin, this]
              · cases hfin : nd.final <;> simp [mem_setInsert, hxa, hx]
            · rcases mem_setInsert.1 hx with rfl | hx
              · exact absurd (.inr rfl) hG
              · obtain ⟨n, h1, h2⟩ := hi.closed x hx fun h => hG (.inl h)
                exact ⟨n, h1, fun c b hb => mem_setInsert.2 (.inr (h2 c b hb))⟩
          have hlt := nodesLeft_insert (hU a hre) ha
          rcases fold k ihk nd.edges _ _ _ hi1 (fun e he => hre.trans (.step hm (c := e.1) he .refl)) (by omega) with
            ⟨ids1, fins1, r1, r2, r3, r4, r5⟩ | ⟨r1, b, hb, x, r2, r3⟩
          · have ha1 : a ∈ ids1 := r3 a (mem_setInsert.2 (.inl rfl))
            refine .inl ⟨ids1, fins1, fun fuel hf => ?_, ?_, fun x hx => r3 x (mem_setInsert.2 (.inr hx)), by simpa using ha1,
              fun x hx => ?_⟩
            · obtain ⟨f, rfl⟩ : ∃ f, fuel = f + 1 := ⟨fuel - 1, by omega⟩
              simp only [collectNodes, ha, if_false, deref, hm, bind, Except.bind]
              exact r1 f (by omega)
            · refine ⟨r2.idsAsc, r2.finsAsc, r2.final, fun x hx hG => ?_⟩
              by_cases hxa : x = a
              · subst hxa
                exact ⟨nd, hm, fun c b hb => r4 b (List.mem_map.2 ⟨_, hb, rfl⟩)⟩
              · exact r2.closed x hx fun h => h.elim hG hxa
            · rcases r5 x hx with h | ⟨b, hb, h⟩
              · rcases mem_setInsert.1 h with rfl | h
                · exact .inr ⟨x, by simp, .refl⟩
                · exact .inl h
              · obtain ⟨⟨c, b'⟩, he, rfl⟩ := List.mem_map.1 hb
                exact .inr ⟨a, by simp, .step hm he h⟩
          · obtain ⟨⟨c, b'⟩, he, rfl⟩ := List.mem_map.1 hb
            refine .inr ⟨fun fuel hf => ?_, a, by simp, x, .step hm he r2, r3⟩
            obtain ⟨f, rfl⟩ : ∃ f, fuel = f + 1 := ⟨fuel - 1, by omega⟩
            simp only [collectNodes, ha, if_false, deref, hm, bind, Except.bind]
            exact r1 f (by omega)
  exact ⟨one k, fold k (one k)⟩

theorem collectNodes_reach {mem : Mem} {root : Nat} {U : List Nat} (hU : ∀ a, Reaches mem root a → a ∈ U) :
    ((∀ a, Reaches mem root a → mem a ≠ none) → ∃ ids fins, Ends (fun fuel => collectNodes mem fuel root ([], [])) (ids, fins) ∧
      ids.Pairwise (· < ·) ∧ fins.Pairwise (· < ·) ∧ (∀ x, x ∈ ids ↔ Reaches mem root x) ∧
      ∀ x, x ∈ fins ↔ Reaches mem root x ∧ ∃ nd, mem x = some nd ∧ nd.final = true) ∧
    ((∃ a, Reaches mem root a ∧ mem a = none) →
      ∃ N, ∀ fuel, N ≤ fuel → collectNodes mem fuel root ([], []) = .error .ub) := by
  have hone := (collectNodes_graph hU (nodesLeft U [])).1 (fun _ => False) [] [] root ⟨.nil, .nil, by simp, by simp⟩ .refl
    (Nat.le_refl _)
  rcases hone with ⟨ids, fins, h1, h2, h3, h4, h5⟩ | ⟨h1, a, ha, x, h2, h3⟩
  · have key : ∀ a y, Reaches mem a y → a ∈ ids → y ∈ ids := by
      intro a y hy
      induction hy with
      | refl => exact id
      | step hm' hb _ ih =>
        intro ha
        obtain ⟨n, hn, hc⟩ := h2.closed _ ha id
        rw [hm'] at hn; obtain rfl := Option.some.inj hn
        exact ih (hc _ _ hb)
    have hids : ∀ x, x ∈ ids ↔ Reaches mem root x := by
      intro x
      constructor
      · intro hx
        rcases h5 x hx with h | ⟨b, hb, hr⟩
        · simp at h
        · rwa [List.mem_singleton.1 hb] at hr
      · intro hx
        exact key root x hx (h4 root (by simp))
    refine ⟨fun _ => ⟨ids, fins, ⟨_, h1⟩, h2.idsAsc, h2.finsAsc, hids, fun x => by rw [h2.final, hids]⟩, ?_⟩
    rintro ⟨a, ha, hn⟩
    obtain ⟨nd, hnd, _⟩ := h2.closed a ((hids a).2 ha) id
    rw [hn] at hnd; cases hnd
  · rw [List.mem_singleton.1 ha] at h2
    exact ⟨fun hl => absurd h3 (hl x h2), fun _ => ⟨_, h1⟩⟩

/-! ### `collect_edges` -/

theorem collectEdges_graph {sgn : Bool} {mem : Mem} {Z : Nat → Prop} (hZ : Closed mem Z)
    (hs : ∀ a nd, Z a → mem a = some nd → nd.edges.Pairwise (fun e f => charLt sgn e.1 f.1)) {K : List (Nat × UInt8)}
    (hK : ∀ a nd c b, Z a → mem a = some nd → (c, b) ∈ nd.edges → (a, c) ∈ K) (k : Nat) :
    ∀ (es : List (UInt8 × Nat)) (G : Nat → Prop) (E : List ((Nat × UInt8) × Nat)) (a : Nat) (na : DNode),
      EdgesInv sgn mem G E → Z a → mem a = some na → (∀ e ∈ es, e ∈ na.edges) → keysLeft K E ≤ k →
      ∃ E', (∀ fuel, k ≤ fuel →
        es.foldlM (fun edges e =>
          if edges.any (fun x => x.1 == (a, e.1)) then .ok edges
          else collectEdges sgn mem fuel e.2 (edgeInsert sgn (a, e.1) e.2 edges)) E = .ok E') ∧
      EdgesInv sgn mem G E' ∧ (∀ x ∈ E, x ∈ E') ∧ (∀ c b, (c, b) ∈ es → ((a, c), b) ∈ E') ∧
      ∀ s l t, ((s, l), t) ∈ E' → ((s, l), t) ∈ E ∨ Reaches mem a s := by
  induction k with
  | zero =>
    intro es
    induction es with
    | nil => intro G E a na hi _ _ _ _; exact ⟨E, fun _ _ => rfl, hi, fun _ h => h, by simp, fun s l t h => .inl h⟩
    | cons e es ih2 =>
      obtain ⟨l, b⟩ := e
      intro G E a na hi hza hma hsub hk
      have hb : (l, b) ∈ na.edges := hsub _ (by simp)
      have hany : E.any (fun x => x.1 == (a, l)) = true := by
        cases h : E.any (fun x => x.1 == (a, l)) with
        | true => rfl
        | false =>
          have := keysLeft_insert (sgn := sgn) (t := b) (hK a na l b hza hma hb) h
          omega
      obtain ⟨E', h1, h2, h3, h4, h5⟩ := ih2 G E a na hi hza hma (fun e he => hsub e (by simp [he])) hk
      have hin : ((a, l), b) ∈ E := by
        obtain ⟨⟨k, t⟩, hx, hk⟩ := List.any_eq_true.1 hany
        have hk : k = (a, l) := by simpa using hk
        subst hk
        obtain ⟨n, hn, ht⟩ := hi.edge a l t hx
        rw [hma] at hn; obtain rfl := Option.some.inj hn
        rwa [sorted_label_unique (hs a na hza hma) hb ht]
      refine ⟨E', fun fuel hf => ?_, h2, h3, ?_, h5⟩
      · rw [List.foldlM_cons]
        simp only [hany, if_true]
        exact h1 fuel hf
      · intro c b' hb'
        rcases List.mem_cons.1 hb' with h | h
        · cases h; exact h3 _ hin
        · exact h4 c b' h
  | succ k ih1 =>
    intro es
    induction es with
    | nil => intro G E a na hi _ _ _ _; exact ⟨E, fun _ _ => rfl, hi, fun _ h => h, by simp, fun s l t h => .inl h⟩
    | cons e es ih2 =>
      obtain ⟨l, b⟩ := e
      intro G E a na hi hza hma hsub hk
      have hb : (l, b) ∈ na.edges := hsub _ (by simp)
      have hsub' : ∀ e ∈ es, e ∈ na.edges := fun e he => hsub e (by simp [he])
      obtain ⟨hzb, nd, hm⟩ : Z b ∧ ∃ nd, mem b = some nd := by
        obtain ⟨n, h1, h2⟩ := hZ a hza
        rw [hma] at h1; obtain rfl := Option.some.inj h1
        obtain ⟨n', h3, _⟩ := hZ b (h2 l b hb)
        exact ⟨h2 l b hb, n', h3⟩
      by_cases hany : E.any (fun x => x.1 == (a, l)) = true
      · obtain ⟨E', h1, h2, h3, h4, h5⟩ := ih2 G E a na hi hza hma hsub' hk
        have hin : ((a, l), b) ∈ E := by
          obtain ⟨⟨k, t⟩, hx, hk⟩ := List.any_eq_true.1 hany
          have hk : k = (a, l) := by simpa using hk
          subst hk
          obtain ⟨n, hn, ht⟩ := hi.edge a l t hx
          rw [hma] at hn; obtain rfl := Option.some.inj hn
          rwa [sorted_label_unique (hs a na hza hma) hb ht]
        refine ⟨E', fun fuel hf => ?_, h2, h3, ?_, h5⟩
        · rw [List.foldlM_cons]
          simp only [hany, if_true]
          exact h1 fuel hf
        · intro c b' hb'
          rcases List.mem_cons.1 hb' with h | h
          · cases h; exact h3 _ hin
          · exact h4 c b' h
      · have hkey : ∀ e ∈ E, e.1 ≠ (a, l) := fun e he h => hany (List.any_eq_true.2 ⟨e, he, by simp [h]⟩)
        have hi1 : EdgesInv sgn mem (fun x => G x ∨ x = b) (edgeInsert sgn (a, l) b E) := by
          refine ⟨edgeInsert_sorted hi.sorted hkey, fun s c t h => ?_, fun s c t h hG n hn c' b' hb' => ?_⟩
          · rcases mem_edgeInsert.1 h with h | h
            · simp only [Prod.mk.injEq] at h
              obtain ⟨⟨rfl, rfl⟩, rfl⟩ := h
              exact ⟨na, hma, hb⟩
            · exact hi.edge s c t h
          · rcases mem_edgeInsert.1 h with h | h
            · simp only [Prod.mk.injEq] at h
              exact absurd (.inr h.2) hG
            · exact mem_edgeInsert.2 (.inr (hi.closed s c t h (fun h => hG (.inl h)) n hn c' b' hb'))
        have hlt := keysLeft_insert (sgn := sgn) (t := b) (hK a na l b hza hma hb) (Bool.eq_false_iff.2 hany)
        obtain ⟨E1, r1, r2, r3, r4, r5⟩ := ih1 nd.edges _ _ b nd hi1 hzb hm (fun _ h => h) (by omega)
        have hi2 : EdgesInv sgn mem G E1 := by
          refine ⟨r2.sorted, r2.edge, fun s c t h hG n hn c' b' hb' => ?_⟩
          by_cases htb : t = b
          · subst htb
            rw [hm] at hn; obtain rfl := Option.some.inj hn
            exact r4 c' b' hb'
          · exact r2.closed s c t h (fun h => h.elim hG htb) n hn c' b' hb'
        have hsub1 : ∀ x ∈ E, x ∈ E1 := fun x hx => r3 x (mem_edgeInsert.2 (.inr hx))
        obtain ⟨E2, s1, s2, s3, s4, s5⟩ := ih2 G E1 a na hi2 hza hma hsub' (Nat.le_trans (keysLeft_mono hsub1) hk)
        refine ⟨E2, fun fuel hf => ?_, s2, fun x hx => s3 x (hsub1 x hx), ?_, ?_⟩
        · obtain ⟨f, rfl⟩ : ∃ f, fuel = f + 1 := ⟨fuel - 1, by omega⟩
          have := r1 f (by omega)
          rw [List.foldlM_cons]
          simp only [hany, Bool.false_eq_true, if_false]
          rw [show collectEdges sgn mem (f + 1) b (edgeInsert sgn (a, l) b E) = .ok E1 by
            simp only [collectEdges, deref, hm, bind, Except.bind]
            exact this]
          exact s1 (f + 1) (by omega)
        · intro c b' hb'
          rcases List.mem_cons.1 hb' with h | h
          · cases h
            exact s3 _ (r3 _ (mem_edgeInsert.2 (.inl rfl)))
          · exact s4 c b' h
        · intro s c t h
          rcases s5 s c t h with h | h
          · rcases r5 s c t h with h | h
            · rcases mem_edgeInsert.1 h with h | h
              · simp only [Prod.mk.injEq] at h
                rw [h.1.1]; exact .inr .refl
              · exact .inl h
            · exact .inr (.step hma hb h)
          · exact .inr h

/-- The keys of all edges of the nodes in `U`. -/
def keysOf (mem : Mem) (U : List Nat) : List (Nat × UInt8) :=
  U.flatMap fun a => match mem a with
    | some nd => nd.edges.map fun e => (a, e.1)
    | none => []

theorem mem_keysOf {mem : Mem} {U : List Nat} {a : Nat} {nd : DNode} {c : UInt8} {b : Nat} (ha : a ∈ U) (hm : mem a = some nd)
    (hb : (c, b) ∈ nd.edges) : (a, c) ∈ keysOf mem U := by
  refine List.mem_flatMap.2 ⟨a, ha, ?_⟩
  rw [hm]
  exact List.mem_map.2 ⟨_, hb, rfl⟩

theorem closed_of_alive {mem : Mem} {root : Nat} (hl : ∀ a, Reaches mem root a → mem a ≠ none) :
    Closed mem (Reaches mem root) := by
  intro a ha
  cases hm : mem a with
  | none => exact absurd hm (hl a ha)
  | some nd => exact ⟨nd, rfl, fun c b hb => ha.trans (.step hm hb .refl)⟩

theorem collectEdges_reach {sgn : Bool} {mem : Mem} {root : Nat} {U : List Nat} (hU : ∀ a, Reaches mem root a → a ∈ U)
    (hl : ∀ a, Reaches mem root a → mem a ≠ none) (hs : EdgesSorted sgn mem root) :
    ∃ E, Ends (fun fuel => collectEdges sgn mem fuel root []) E ∧ E.Pairwise (fun e f => KeyLt sgn e.1 f.1) ∧
      ∀ s l t, ((s, l), t) ∈ E ↔ Reaches mem root s ∧ ∃ nd, mem s = some nd ∧ (l, t) ∈ nd.edges := by
  obtain ⟨nd, hm, _⟩ := closed_of_alive hl root .refl
  obtain ⟨E, h1, h2, h3, h4, h5⟩ := collectEdges_graph (closed_of_alive hl) hs (K := keysOf mem U)
    (fun a nd c b ha hm hb => mem_keysOf (hU a ha) hm hb) (keysLeft (keysOf mem U) []) nd.edges (fun _ => False) [] root nd
    ⟨.nil, by simp, by simp⟩ .refl hm (fun _ h => h) (Nat.le_refl _)
  have key : ∀ a x, Reaches mem a x → (∀ n, mem a = some n → ∀ c b, (c, b) ∈ n.edges → ((a, c), b) ∈ E) →
      ∀ n, mem x = some n → ∀ c b, (c, b) ∈ n.edges → ((x, c), b) ∈ E := by
    intro a x hx
    induction hx with
    | refl => exact id
    | step hm' hb _ ih =>
      intro ha
      exact ih (h2.closed _ _ _ (ha _ hm' _ _ hb) id)
  refine ⟨E, ⟨keysLeft (keysOf mem U) [] + 1, fun fuel hf => ?_⟩, h2.sorted, fun s l t => ⟨fun h => ?_, ?_⟩⟩
  · obtain ⟨f, rfl⟩ : ∃ f, fuel = f + 1 := ⟨fuel - 1, by omega⟩
    simp only [collectEdges, deref, hm, bind, Except.bind]
    exact h1 f (by omega)
  · rcases h5 s l t h with h' | h'
    · simp at h'
    · exact ⟨h', h2.edge s l t h⟩
  · rintro ⟨hr, n, hn, hl⟩
    refine key root s hr (fun n' hn' c b hb => ?_) n hn l t hl
    rw [hm] at hn'; obtain rfl := Option.some.inj hn'
    exact h4 c b hb

/-! ### `to_protobuf` -/

theorem toProto_graph {sgn : Bool} {mem : Mem} {root : Nat} {U : List Nat} (hU : ∀ a, Reaches mem root a → a ∈ U)
    (hs : EdgesSorted sgn mem root) (size : Nat) :
    ((∀ a, Reaches mem root a → mem a ≠ none) →
      ∃ msg, Ends (fun fuel => toProto sgn mem fuel root size) msg ∧ MsgOf sgn mem root size msg) ∧
    ((∃ a, Reaches mem root a ∧ mem a = none) → ∃ N, ∀ fuel, N ≤ fuel → toProto sgn mem fuel root size = .error .ub) := by
  obtain ⟨g1, g2⟩ := collectNodes_reach hU
  refine ⟨fun hl => ?_, fun hd => ?_⟩
  · obtain ⟨ids, fins, ⟨N, hN⟩, h1, h2, h3, h4⟩ := g1 hl
    obtain ⟨E, ⟨M, hM⟩, h5, h6⟩ := collectEdges_reach hU hl hs
    refine ⟨⟨ids, fins, E.map (fun e => ⟨e.1.1, labelOfChar sgn e.1.2, e.2⟩), root, size⟩,
      ⟨max N M, fun fuel hf => ?_⟩, ⟨h1, h3, h2, h4, ⟨E, h5, h6, rfl⟩, rfl, rfl⟩⟩
    have a1 : collectNodes mem fuel root ([], []) = .ok (ids, fins) := hN fuel (by omega)
    have a2 : collectEdges sgn mem fuel root [] = .ok E := hM fuel (by omega)
    simp only [toProto, a1, a2, bind, Except.bind]
  · obtain ⟨N, hN⟩ := g2 hd
    exact ⟨N, fun fuel hf => by simp only [toProto, hN fuel hf, bind, Except.bind]⟩

end Lev
