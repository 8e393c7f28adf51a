import Verif.Proofs.LifetimeRun
import Verif.Proofs.QueryCost
import Verif.Proofs.DeleteCost
import Verif.Proofs.IterAny
import Verif.Spec.QueryMem

/-!
What a query keeps in memory.
-/

namespace Lev

open Spec

/-! ### The walk meets the strings that can be read -/

theorem Unf.child {mem : Mem} {es : List (UInt8 × Nat)} {F : Forest} (h : Unf mem es F) {c : UInt8} {a : Nat}
    (hm : (c, a) ∈ es) : ∃ nd kids, mem a = some nd ∧ Unf mem nd.edges kids := by
  induction h with
  | nil => cases hm
  | cons h1 h2 _ _ ih =>
    rcases List.mem_cons.1 hm with h | h
    · cases h; exact ⟨_, _, h1, h2⟩
    · exact ih h

theorem pushes_closed (L : List Item) : ∀ x, x ∈ L ∨ x ∈ pushes L → ∀ y ∈ x.children, y ∈ pushes L := by
  induction L using queue_induction with
  | nil => simp [pushes_nil]
  | cons it rest ih =>
    intro x hx y hy
    rw [pushes_cons] at hx ⊢
    rw [List.mem_append]
    by_cases h : x ∈ rest ++ it.children ∨ x ∈ pushes (rest ++ it.children)
    · exact .inr (ih x h y hy)
    · left
      simp only [List.mem_append, List.mem_cons, not_or] at hx h
      rcases hx with (rfl | hx) | hx | hx
      · exact hy
      · exact absurd hx h.1.1
      · exact absurd hx h.1.2
      · exact absurd hx h.2

theorem pushes_leads {mem : Mem} {root : Nat} (L : List Item)
    (hL : ∀ x ∈ L, ∃ b nd, Leads mem root x.path b ∧ mem b = some nd ∧ Unf mem nd.edges x.kids) :
    ∀ x ∈ pushes L, x.path ≠ [] ∧ ∃ b, Leads mem root x.path b := by
  induction L using queue_induction with
  | nil => simp [pushes_nil]
  | cons it rest ih =>
    obtain ⟨b, nd, h1, h2, h3⟩ := hL it (by simp)
    have hch : ∀ x ∈ it.children, x.path ≠ [] ∧ ∃ b nd, Leads mem root x.path b ∧ mem b = some nd ∧
        Unf mem nd.edges x.kids := by
      intro x hx
      obtain ⟨c, a, nda, g1, g2, g3, _, g4⟩ := (h3.mem_items _ _).1 hx
      rw [g3]
      exact ⟨by simp, a, nda, .snoc h1 h2 g1, g2, g4⟩
    intro x hx
    rw [pushes_cons] at hx
    rcases List.mem_append.1 hx with hx | hx
    · obtain ⟨g1, b, _, g2, _⟩ := hch x hx
      exact ⟨g1, b, g2⟩
    · refine ih (fun y hy => ?_) x hx
      rcases List.mem_append.1 hy with hy | hy
      · exact hL y (by simp [hy])
      · exact (hch y hy).2

section
variable {sgn : Bool} {mem : Mem} {root : Nat} {nd : DNode} {F : Forest} {A : Algorithm} {n : Nat} {q : Str}

theorem Tree.mem_pushes (h : Tree sgn mem root nd F) (w : Str) :
    (∃ x ∈ pushes [rootItem nd F], x.path = w) ↔ w ≠ [] ∧ ∃ b, Leads mem root w b := by
  constructor
  · rintro ⟨x, hx, rfl⟩
    exact pushes_leads [rootItem nd F] (by simp only [List.mem_singleton, forall_eq]; exact ⟨root, nd, .here, h.node, h.unf⟩) x hx
  · rintro ⟨hne, b, hl⟩
    have key : ∀ {w b}, Leads mem root w b → ∃ x, (x = rootItem nd F ∨ x ∈ pushes [rootItem nd F]) ∧ x.path = w ∧
        ∃ ndb, mem b = some ndb ∧ Unf mem ndb.edges x.kids := by
      intro w b hl
      induction hl with
      | here => exact ⟨_, .inl rfl, rfl, nd, h.node, h.unf⟩
      | @snoc w b ndb c e _ hm he ih =>
        obtain ⟨x, h1, h2, ndb', h3, h4⟩ := ih
        rw [hm] at h3
        obtain rfl := Option.some.inj h3
        obtain ⟨nde, kids, g1, g2⟩ := h4.child he
        refine ⟨⟨w ++ [c], nde.final, kids⟩, .inr ?_, rfl, nde, g1, g2⟩
        refine pushes_closed _ x (by simpa using h1) _ ?_
        exact (h4.mem_items _ _).2 ⟨c, e, nde, he, g1, by rw [h2], rfl, g2⟩
    obtain ⟨x, h1, h2, _⟩ := key hl
    rcases h1 with rfl | h1
    · exact absurd h2.symm hne
    · exact ⟨x, h1, h2⟩

theorem liveOf_some {it : Item} {w : Str} : liveOf A n q it = some w ↔ it.path = w ∧ Viable A q n w := by
  unfold liveOf
  split
  · next hd =>
    simp only [reduceCtorEq, false_iff]
    rintro ⟨rfl, h⟩
    obtain ⟨u, hu⟩ := viable_iff.1 h
    exact hd u n (Nat.le_refl _) hu
  · next hd =>
    simp only [Option.some.injEq]
    constructor
    · rintro rfl
      refine ⟨rfl, ?_⟩
      unfold Dead at hd
      have : ∃ u c, c ≤ n ∧ AlignLe A q (it.path ++ u) c := by
        apply Classical.byContradiction
        intro hc
        exact hd fun u c hcn hal => hc ⟨u, c, hcn, hal⟩
      obtain ⟨u, c, hcn, hal⟩ := this
      exact viable_iff.2 ⟨u, hal.mono hcn⟩
    · exact fun h => h.1

/-- The prefixes that a query makes intersections for. -/
theorem Tree.mem_ahead (h : Tree sgn mem root nd F) (w : Str) :
    w ∈ aheadOf A n q [rootItem nd F] [] ↔ w ≠ [] ∧ (∃ b, Leads mem root w b) ∧ Viable A q n w := by
  rw [← and_assoc, ← h.mem_pushes]
  simp only [aheadOf, List.nil_append, List.append_nil, List.mem_filterMap, liveOf_some]
  constructor
  · rintro ⟨x, h1, h2, h3⟩; exact ⟨⟨x, h1, h2⟩, h3⟩
  · rintro ⟨⟨x, h1, h2⟩, h3⟩; exact ⟨x, h1, h2, h3⟩

theorem Tree.ahead_order (h : Tree sgn mem root nd F) :
    ([] :: aheadOf A n q [rootItem nd F] []).Pairwise (shortLex sgn) := by
  refine List.pairwise_cons.2 ⟨fun w hw => .inl ?_, ?_⟩
  · exact List.length_pos_iff.2 ((h.mem_ahead w).1 hw).1
  · simp only [aheadOf, List.nil_append, List.append_nil]
    exact pairwise_filterMap_of (fun a b a' b' ha hb hab => by
      rw [← (liveOf_some.1 ha).1, ← (liveOf_some.1 hb).1]; exact hab) (List.pairwise_cons.1 h.walk_order).2

/-- What lies before the last of them. -/
theorem Tree.ahead_split (h : Tree sgn mem root nd F) {ws rest : List Str}
    (he : aheadOf A n q [rootItem nd F] [] = ws ++ rest) {t : Str} (ht : ([] :: ws).getLast? = some t) (w : Str) :
    w ∈ ws ↔ w ∈ aheadOf A n q [rootItem nd F] [] ∧ (w = t ∨ shortLex sgn w t) := by
  have ho := h.ahead_order (A := A) (n := n) (q := q)
  rw [he, ← List.cons_append] at ho
  obtain ⟨ho1, _, ho3⟩ := List.pairwise_append.1 ho
  have htm : t ∈ [] :: ws := List.mem_of_getLast? ht
  rw [he, List.mem_append]
  constructor
  · intro hw
    refine ⟨.inl hw, ?_⟩
    obtain ⟨l, hl⟩ := List.getLast?_eq_some_iff.1 ht
    have hw' : w ∈ l ++ [t] := by rw [← hl]; simp [hw]
    rw [hl] at ho1
    rcases List.mem_append.1 hw' with h1 | h1
    · exact .inr ((List.pairwise_append.1 ho1).2.2 w h1 t (by simp))
    · exact .inl (by simpa using h1)
  · rintro ⟨h1 | h1, h2⟩
    · exact h1
    · have h3 := ho3 t htm w h1
      rcases h2 with rfl | h2
      · exact absurd h3 shortLex_irrefl
      · exact absurd (shortLex_trans h2 h3) shortLex_irrefl

end

/-! ### Counting -/

theorem WAcc.gained {m0 m : SMem} {im0 im : IMem Nat} {O : List Nat} (h : WAcc m0 im0 m im O) :
    Gained im0.cell im.cell O ∧ Gained m0.st m.st (O.map (stateOf im)) := by
  refine ⟨⟨h.nodup, fun a => ⟨fun ha => ?_, fun ⟨h1, h2⟩ => ?_⟩, h.same⟩,
    ⟨h.states.nodup, fun a => ⟨fun ha => ?_, fun ⟨h1, h2⟩ => ?_⟩, h.states.st⟩⟩
  · obtain ⟨_, h1, c, h2⟩ := h.own a ha
    exact ⟨h1, by rw [h2]; simp⟩
  · refine Classical.byContradiction fun hc => h2 ?_
    rw [h.same a hc, h1]
  · obtain ⟨_, h1, l, h2, _⟩ := h.states.states a ha
    exact ⟨h1, by rw [h2.st]; simp⟩
  · refine Classical.byContradiction fun hc => h2 ?_
    rw [h.states.st a hc, h1]

theorem PLinked.some {pos : Nat → Option PCell} {l : Cells} {b : Nat} (h : PLinked pos l b) {a : Nat} (ha : a ∈ addrs l) :
    pos a ≠ none := by
  induction l with
  | nil => simp [addrs] at ha
  | cons x l ih =>
    obtain ⟨x, p⟩ := x
    obtain ⟨_, h1, h2⟩ := h
    simp only [addrs, List.map_cons, List.mem_cons] at ha
    rcases ha with rfl | ha
    · rw [h1]; simp
    · exact ih h2 ha

open Classical in
/-- The number of positions of a state. -/
noncomputable def stateCells (m : SMem) (s : Nat) : Cells := if h : ∃ l, IsState m s l then h.choose else []

theorem IsState.stateCells {m : SMem} {s : Nat} {l : Cells} (h : IsState m s l) : stateCells m s = l := by
  have hex : ∃ l, IsState m s l := ⟨l, h⟩
  rw [Lev.stateCells, dif_pos hex]
  exact hex.choose_spec.unique h

theorem Accounted.positions {m0 m : SMem} {o : List Nat} (h : Accounted m0 m o) :
    Gained m0.pos m.pos (o.flatMap fun s => addrs (stateCells m s)) := by
  have hst : ∀ s ∈ o, IsState m s (stateCells m s) ∧ ∀ a ∈ addrs (stateCells m s), m0.pos a = none := by
    intro s hs
    obtain ⟨_, _, l, h1, h2⟩ := h.states s hs
    rw [h1.stateCells]
    exact ⟨h1, h2⟩
  have hsame : ∀ a, a ∉ o.flatMap (fun s => addrs (stateCells m s)) → m.pos a = m0.pos a := by
    intro a ha
    refine h.pos a fun s hs l hl hc => ha (List.mem_flatMap.2 ⟨s, hs, ?_⟩)
    rw [hl.stateCells]
    exact hc
  refine ⟨?_, fun a => ⟨fun ha => ?_, fun ⟨h1, h2⟩ => ?_⟩, hsame⟩
  · have hnd := h.nodup
    have hd := h.disjoint
    clear h hsame
    induction o with
    | nil => simp
    | cons s o ih =>
      rw [List.flatMap_cons]
      obtain ⟨h1, h2⟩ := List.nodup_cons.1 hnd
      refine List.nodup_append.2 ⟨(hst s (by simp)).1.nodup, ih (fun x hx => hst x (by simp [hx])) h2
        fun x hx y hy => hd x (by simp [hx]) y (by simp [hy]), ?_⟩
      rintro a ha b hb rfl
      obtain ⟨s', hs', hb'⟩ := List.mem_flatMap.1 hb
      exact hd s (by simp) s' (by simp [hs']) (by rintro rfl; exact h1 hs') _ _ (hst s (by simp)).1
        (hst s' (by simp [hs'])).1 a ha hb'
  · obtain ⟨s, hs, ha⟩ := List.mem_flatMap.1 ha
    obtain ⟨h1, h2⟩ := hst s hs
    exact ⟨h2 a ha, h1.linked.some ha⟩
  · refine Classical.byContradiction fun hc => h2 ?_
    rw [hsame a hc, h1]

theorem sum_flatMap {α : Type} (l : List α) (g : α → List Nat) : ((l.flatMap g).sum) = (l.map fun x => (g x).sum).sum := by
  induction l with
  | nil => rfl
  | cons x l ih => simp [ih]

theorem flatMap_indices {α β : Type} (l : List α) (f : α → List β) :
    l.flatMap f = (List.range l.length).flatMap fun i => (l[i]?.map f).getD [] := by
  induction l with
  | nil => rfl
  | cons x l ih =>
    rw [List.length_cons, List.range_succ_eq_map, List.flatMap_cons, List.flatMap_cons, ih, List.flatMap_map]
    rfl

theorem AllPairs.exists_right {α β : Type} {r : α → β → Prop} {l : List α} {l' : List β} (h : AllPairs r l l') {a : α}
    (ha : a ∈ l) : ∃ b ∈ l', r a b := by
  induction h with
  | nil => cases ha
  | cons h1 _ ih =>
    rcases List.mem_cons.1 ha with rfl | ha
    · exact ⟨_, by simp, h1⟩
    · obtain ⟨b, hb, hr⟩ := ih ha
      exact ⟨b, List.mem_cons_of_mem _ hb, hr⟩

/-- What a query owns. -/
theorem QueryAt.held {R : Type} {A : Algorithm} {upd : Str → Nat → R} {sgn : Bool} {mem : Mem} {root s0 : Nat} {nd : DNode}
    {F : Forest} {m : SMem} {q : Str} {n k : Nat} {Q : Query Nat R} (ht : Tree sgn mem root nd F)
    (h : QueryAt A upd mem s0 nd F m q n k Q) :
    ∃ ws : List Str, Q.owned.length = ws.length ∧ ws.Nodup ∧
      (∀ w, w ∈ ws ↔ w ≠ [] ∧ (∃ b, Leads mem root w b) ∧ Viable A q n w ∧
        ∀ t, ((allOut A n q nd F)[k]?).map Prod.fst = some t → w = t ∨ shortLex sgn w t) ∧
      ∀ s ∈ Q.owned, 1 ≤ (stateCells m s).length ∧ (stateCells m s).length ≤ maxPositions A n := by
  obtain ⟨P, ch, _, _, _, _, ⟨ws, ⟨h1, new, h2, h3⟩, _, h4⟩, h5⟩ := h
  simp only [List.nil_append] at h2
  subst h2
  have hnd : ws.Nodup := by
    have ho := ht.ahead_order (A := A) (n := n) (q := q)
    rw [h1, ← List.cons_append] at ho
    have := (List.pairwise_cons.1 (List.pairwise_append.1 ho).1).2
    exact this.imp (S := (· ≠ ·)) fun hab heq => shortLex_irrefl (heq ▸ hab)
  refine ⟨ws, h3.length_eq, hnd, fun w => ?_, fun s hs => ?_⟩
  · rcases h5 with ⟨c1, t, d, c2, _⟩ | ⟨c1, c2, rfl, rfl⟩
    · obtain ⟨t', d', e1, e2, _⟩ := h4 c1
      rw [ht.ahead_split h1 e2, ht.mem_ahead, e1]
      simp only [Option.map_some, Option.some.injEq, forall_eq', and_assoc]
    · have : (allOut A n q nd F)[k]? = none := by
        rw [← List.head?_drop, c2]; rfl
      rw [this]
      rw [aheadOf_nil, List.append_nil] at h1
      rw [← h1, ht.mem_ahead]
      simp
  · obtain ⟨w, _, l, ⟨_, c, hc, hl⟩, hsem⟩ := h3.exists_right hs
    rw [hc.stateCells]
    have e : c.length = l.length := by rw [← hl, poss, List.length_map]
    rw [e]
    have := hsem.length_le
    refine ⟨List.length_pos_iff.2 hsem.inv.ne, ?_⟩
    rw [maxPositions, Nat.pow_two, Nat.pow_two]
    exact this

end Lev
