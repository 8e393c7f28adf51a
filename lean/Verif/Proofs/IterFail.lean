import Verif.Spec.IterFail
import Verif.Proofs.Iter
import Verif.Proofs.Failing
import Batteries.Data.List.Perm

/-!
Iterators that run out of memory.
-/

namespace Lev

open Spec

/-! ### The terms to come -/

theorem finals_sublist {L' L : List Item} (h : L'.Sublist L) : (finals L').Sublist (finals L) := by
  induction L using queue_induction generalizing L' with
  | nil => rw [List.sublist_nil.1 h]; exact List.Sublist.refl _
  | cons x rest ih =>
    rw [finals_cons]
    cases h with
    | cons _ h => exact (ih (h.trans (List.sublist_append_left _ _))).trans (List.sublist_append_right _ _)
    | @cons_cons L'' _ _ h =>
      rw [finals_cons]
      exact (List.Sublist.refl _).append (ih (h.append (List.Sublist.refl _)))

theorem mem_finals {L : List Item} {t : Str} : t ∈ finals L ↔ ∃ y ∈ L, t ∈ finals [y] := by
  constructor
  · induction L using queue_induction with
    | nil => simp [finals_nil]
    | cons x rest ih =>
      intro h
      have hx : finals [x] = (if x.fin then [x.path] else []) ++ finals x.children := by
        rw [finals_cons]; rfl
      rw [finals_cons] at h
      rcases List.mem_append.1 h with h | h
      · exact ⟨x, by simp, by rw [hx]; exact List.mem_append_left _ h⟩
      · obtain ⟨y, hy, ht⟩ := ih h
        rcases List.mem_append.1 hy with hy | hy
        · exact ⟨y, by simp [hy], ht⟩
        · refine ⟨x, by simp, ?_⟩
          rw [hx]
          exact List.mem_append_right _ ((finals_sublist (List.singleton_sublist.2 hy)).subset ht)
  · rintro ⟨y, hy, ht⟩
    exact (finals_sublist (List.singleton_sublist.2 hy)).subset ht

theorem finals_prefix {L : List Item} {t : Str} (h : t ∈ finals L) : ∃ y ∈ L, y.path <+: t := by
  simp only [finals, List.mem_map, List.mem_filter, List.mem_append] at h
  obtain ⟨x, ⟨hx | hx, _⟩, rfl⟩ := h
  · exact ⟨x, hx, List.prefix_refl _⟩
  · obtain ⟨y, hy, hp, _⟩ := mem_pushes_prefix L x hx
    exact ⟨y, hy, hp⟩

theorem filter_eq_of_sublist {α : Type} {l l' : List α} {p : α → Bool} (hs : l'.Sublist l) (hn : l.Nodup)
    (hp : ∀ t ∈ l, p t = true ↔ t ∈ l') : l.filter p = l' := by
  have h1 : l'.Sublist (l.filter p) := by
    have h := hs.filter p
    rwa [List.filter_eq_self.2 fun t ht => (hp t (hs.subset ht)).2 ht] at h
  refine (h1.eq_of_length_le ?_).symm
  refine (List.subperm_of_subset (hn.sublist List.filter_sublist) fun t ht => ?_).length_le
  have ht := List.mem_filter.1 ht
  exact (hp t ht.1).1 ht.2

theorem notGone_append (log : List Gone) (e : Gone) (all : List Str) :
    notGone (log ++ [e]) all = (notGone log all).filter fun t => decide (¬ e.Misses t) := by
  unfold notGone
  rw [List.filter_filter]
  congr 1
  funext t
  rw [Bool.eq_iff_iff]
  simp only [decide_eq_true_eq, Bool.and_eq_true, List.mem_append, List.mem_singleton]
  constructor
  · intro h; exact ⟨h e (.inr rfl), fun x hx => h x (.inl hx)⟩
  · rintro ⟨h1, h2⟩ x (hx | rfl)
    · exact h2 x hx
    · exact h1

theorem notGone_append_list (log log' : List Gone) (all : List Str) :
    notGone (log ++ log') all = (notGone log all).filter fun t => decide (∀ e ∈ log', ¬ e.Misses t) := by
  unfold notGone
  rw [List.filter_filter]
  congr 1
  funext t
  rw [Bool.eq_iff_iff]
  simp only [decide_eq_true_eq, Bool.and_eq_true, List.mem_append]
  constructor
  · intro h; exact ⟨fun x hx => h x (.inr hx), fun x hx => h x (.inl hx)⟩
  · rintro ⟨h1, h2⟩ x (hx | hx)
    · exact h2 x hx
    · exact h1 x hx

/-- What is left to come when the node at hand is given up and the edges to `D` are not followed. -/
theorem finals_gone {sgn : Bool} {x : Item} {rest A D : List Item} {e : Gone} (ha : Apart sgn (x :: rest))
    (hc : x.children = A ++ D) (hn : (finals (x :: rest)).Nodup) (hp : e.path = x.path)
    (hD : D.map (·.path) = e.after.map fun c => x.path ++ [c]) :
    (finals (x :: rest)).filter (fun t => decide (¬ e.Misses t)) = finals (rest ++ A) := by
  have ha' := ha.children
  rw [hc, ← List.append_assoc] at ha'
  have hmiss : ∀ t, e.Misses t ↔ t = x.path ∨ ∃ d ∈ D, d.path <+: t := by
    intro t
    unfold Gone.Misses
    rw [hp]
    refine or_congr Iff.rfl ⟨?_, ?_⟩
    · rintro ⟨c, h1, h2⟩
      have : x.path ++ [c] ∈ D.map (·.path) := by rw [hD]; exact List.mem_map.2 ⟨c, h1, rfl⟩
      obtain ⟨d, h3, h4⟩ := List.mem_map.1 this
      exact ⟨d, h3, by rw [h4]; exact h2⟩
    · rintro ⟨d, h1, h2⟩
      have : d.path ∈ e.after.map fun c => x.path ++ [c] := by rw [← hD]; exact List.mem_map.2 ⟨d, h1, rfl⟩
      obtain ⟨c, h3, h4⟩ := List.mem_map.1 this
      exact ⟨c, h3, by rw [h4]; exact h2⟩
  have hsub : (rest ++ A).Sublist (rest ++ x.children) := by
    rw [hc]; exact (List.Sublist.refl _).append (List.sublist_append_left _ _)
  have hsub' : (finals (rest ++ A)).Sublist (finals (x :: rest)) := by
    rw [finals_cons]; exact (finals_sublist hsub).trans (List.sublist_append_right _ _)
  refine filter_eq_of_sublist hsub' hn fun t ht => ?_
  rw [decide_eq_true_eq, hmiss]
  constructor
  · intro h
    rw [finals_cons] at ht
    rcases List.mem_append.1 ht with ht | ht
    · split at ht
      · simp only [List.mem_singleton] at ht
        exact absurd (.inl ht) h
      · cases ht
    · obtain ⟨y, hy, hty⟩ := mem_finals.1 ht
      rw [hc, ← List.append_assoc] at hy
      rcases List.mem_append.1 hy with hy | hy
      · exact mem_finals.2 ⟨y, hy, hty⟩
      · obtain ⟨z, hz, hzt⟩ := finals_prefix hty
        simp only [List.mem_singleton] at hz
        subst hz
        exact absurd (.inr ⟨z, hy, hzt⟩) h
  · intro h
    obtain ⟨y, hy, hyt⟩ := finals_prefix h
    rintro (rfl | ⟨d, hd, hdt⟩)
    · rcases List.mem_append.1 hy with hy | hy
      · exact ((List.pairwise_cons.1 ha.anti).1 y hy).2 hyt
      · obtain ⟨h1, h2⟩ := child_prefix (it := x) (c := y) (by rw [hc]; exact List.mem_append_left _ hy)
        exact h2 (h1.eq_of_length_le hyt.length_le)
    · obtain ⟨h1, h2⟩ := (List.pairwise_append.1 ha'.anti).2.2 y hy d hd
      rcases List.prefix_or_prefix_of_prefix hyt hdt with h | h
      · exact h1 h
      · exact h2 h

/-! ### The heap with strays -/

/-- As `PHeapOk`, with prefixes that are in no iterator. -/
structure PHeapF (paddr : Nat → Nat) (c0 : Nat) (m0 : PMem) (h : PHeap) (prefixes stray : List Nat) : Prop where
  nonnull : ∀ k, paddr k ≠ 0
  inj : ∀ j k, paddr j = paddr k → j = k
  null : h.mem 0 = none
  fresh : ∀ k, h.count ≤ k → h.mem (paddr k) = none
  base : c0 ≤ h.count
  owned : (prefixes ++ stray).Perm ((List.range' c0 (h.count - c0)).map paddr)
  live : ∀ k, c0 ≤ k → k < h.count → h.mem (paddr k) ≠ none
  old : ∀ a, (∀ k, c0 ≤ k → k < h.count → a ≠ paddr k) → h.mem a = m0 a

theorem PHeapF.start {paddr : Nat → Nat} {h : PHeap} (ha : PAllocator paddr h) : PHeapF paddr h.count h.mem h [] [] :=
  ⟨ha.nonnull, ha.inj, ha.null, ha.fresh, Nat.le_refl _, by simp, fun k h1 h2 => by omega, fun _ _ => rfl⟩

theorem PHeapF.mem {paddr : Nat → Nat} {c0 : Nat} {m0 : PMem} {h : PHeap} {prefixes stray : List Nat}
    (ho : PHeapF paddr c0 m0 h prefixes stray) (a : Nat) :
    a ∈ prefixes ∨ a ∈ stray ↔ ∃ k, c0 ≤ k ∧ k < h.count ∧ a = paddr k := by
  have hb := ho.base
  rw [← List.mem_append, ho.owned.mem_iff, List.mem_map]
  constructor
  · rintro ⟨k, hk, rfl⟩
    rw [List.mem_range'_1] at hk
    exact ⟨k, hk.1, by omega, rfl⟩
  · rintro ⟨k, h1, h2, rfl⟩
    exact ⟨k, by rw [List.mem_range'_1]; omega, rfl⟩

theorem PHeapF.nodup {paddr : Nat → Nat} {c0 : Nat} {m0 : PMem} {h : PHeap} {prefixes stray : List Nat}
    (ho : PHeapF paddr c0 m0 h prefixes stray) : (prefixes ++ stray).Nodup := by
  refine ho.owned.nodup_iff.2 ?_
  exact List.pairwise_map.2 ((List.nodup_range' (s := c0) (n := h.count - c0)).imp fun hne he => hne (ho.inj _ _ he))

theorem PHeapF.add {paddr : Nat → Nat} {c0 : Nat} {m0 : PMem} {h : PHeap} {prefixes stray : List Nat}
    (ho : PHeapF paddr c0 m0 h prefixes stray) (p : Prefix) {prefixes' stray' : List Nat}
    (hp : (prefixes' ++ stray').Perm ((prefixes ++ stray) ++ [(newPrefix paddr p h).1])) :
    PHeapF paddr c0 m0 (newPrefix paddr p h).2 prefixes' stray' := by
  have hb := ho.base
  refine ⟨ho.nonnull, ho.inj, ?_, ?_, ?_, ?_, ?_, ?_⟩
  · simp only [newPrefix]
    rw [if_neg (fun h' => ho.nonnull _ h'.symm)]; exact ho.null
  · intro k hk
    simp only [newPrefix] at hk ⊢
    rw [if_neg (fun h' => by have := ho.inj _ _ h'; omega)]
    exact ho.fresh k (by omega)
  · simp only [newPrefix]; omega
  · refine hp.trans ?_
    simp only [newPrefix]
    rw [show h.count + 1 - c0 = h.count - c0 + 1 by omega, List.range'_concat, List.map_append]
    simp only [List.map_cons, List.map_nil, Nat.one_mul]
    rw [show c0 + (h.count - c0) = h.count by omega]
    exact ho.owned.append_right _
  · intro k h1 h2
    simp only [newPrefix] at h2 ⊢
    by_cases hk : k = h.count
    · subst hk; simp
    · rw [if_neg (fun h' => hk (ho.inj _ _ h'))]
      exact ho.live k h1 (by omega)
  · intro a ha
    simp only [newPrefix] at ha ⊢
    rw [if_neg (ha h.count hb (by omega))]
    exact ho.old a fun k h1 h2 => ha k h1 (by omega)

theorem PHeapF.new {paddr : Nat → Nat} {c0 : Nat} {m0 : PMem} {h : PHeap} {prefixes stray : List Nat}
    (ho : PHeapF paddr c0 m0 h prefixes stray) (p : Prefix) :
    PHeapF paddr c0 m0 (newPrefix paddr p h).2 (prefixes ++ [(newPrefix paddr p h).1]) stray := by
  refine ho.add p ?_
  rw [List.append_assoc, List.append_assoc]
  exact List.Perm.append_left _ List.perm_append_comm

theorem PHeapF.leak {paddr : Nat → Nat} {c0 : Nat} {m0 : PMem} {h : PHeap} {prefixes stray : List Nat}
    (ho : PHeapF paddr c0 m0 h prefixes stray) (p : Prefix) :
    PHeapF paddr c0 m0 (newPrefix paddr p h).2 prefixes (stray ++ [(newPrefix paddr p h).1]) :=
  ho.add p (by rw [List.append_assoc])

/-- After the iterator has been destroyed, the strays are left. -/
theorem PHeapF.destroy {paddr : Nat → Nat} {c0 : Nat} {m0 : PMem} {h : PHeap} {it : DIter} {stray : List Nat}
    (ho : PHeapF paddr c0 m0 h it.prefixes stray) (hm0 : ∀ k, c0 ≤ k → m0 (paddr k) = none) :
    ∃ h', iterDestroy h it = .ok h' ∧ MorePrefixes m0 h'.mem stray.length := by
  have hnd := List.nodup_append.1 ho.nodup
  have hlive : ∀ a, a ∈ it.prefixes ∨ a ∈ stray → h.mem a ≠ none ∧ m0 a = none := by
    intro a ha
    obtain ⟨k, h1, h2, rfl⟩ := (ho.mem a).1 ha
    exact ⟨ho.live k h1 h2, hm0 k h1⟩
  have hold : ∀ a, a ∉ it.prefixes → a ∉ stray → h.mem a = m0 a := fun a h1 h2 =>
    ho.old a fun k h3 h4 h5 => by
      rcases (ho.mem a).2 ⟨k, h3, h4, h5⟩ with h | h
      · exact h1 h
      · exact h2 h
  refine ⟨_, deletePrefixes_spec hnd.1 ho.null (fun a ha => (hlive a (.inl ha)).1), fun a p hp => ?_, stray, hnd.2.1, rfl,
    fun a => ?_⟩
  · simp only
    have h1 : a ∉ it.prefixes := fun h => by rw [(hlive a (.inl h)).2] at hp; cases hp
    have h2 : a ∉ stray := fun h => by rw [(hlive a (.inr h)).2] at hp; cases hp
    rw [if_neg h1, hold a h1 h2]; exact hp
  · simp only
    constructor
    · intro ha
      have h1 : a ∉ it.prefixes := fun h => hnd.2.2 a h a ha rfl
      rw [if_neg h1]
      exact ⟨(hlive a (.inr ha)).2, (hlive a (.inr ha)).1⟩
    · rintro ⟨h1, h2⟩
      by_cases ha : a ∈ it.prefixes
      · rw [if_pos ha] at h2; exact absurd rfl h2
      · rw [if_neg ha] at h2
        by_cases hs : a ∈ stray
        · exact hs
        · rw [hold a ha hs] at h2; exact absurd h1 h2

/-! ### Edges -/

/-- As `PRel`; the string leads from the root to the node. -/
def PRelR (mem : Mem) (root : Nat) (pm : PMem) (a : Nat) (it : Item) : Prop :=
  ∃ p nd, pm a = some p ∧ mem p.node = some nd ∧ nd.final = it.fin ∧ Unf mem nd.edges it.kids ∧ Spells pm a it.path ∧
    Leads mem root it.path p.node

theorem PRelR.mono {mem : Mem} {root : Nat} {m m' : PMem} (hle : ∀ a p, m a = some p → m' a = some p) {a : Nat} {it : Item}
    (h : PRelR mem root m a it) : PRelR mem root m' a it := by
  obtain ⟨p, nd, h1, h2, h3, h4, h5, h6⟩ := h
  exact ⟨p, nd, hle _ _ h1, h2, h3, h4, h5.mono hle, h6⟩

theorem pushEdges_specF {mem : Mem} {root : Nat} {paddr : Nat → Nat} {c0 : Nat} {m0 : PMem} {parent b : Nat} {path : Str}
    {stray : List Nat} {nd0 : DNode} (hlead : Leads mem root path b) (hb : mem b = some nd0)
    {es : List (UInt8 × Nat)} {F : Forest} (hu : Unf mem es F) (hes : ∀ e ∈ es, e ∈ nd0.edges) {h : PHeap} {it : DIter}
    (ho : PHeapF paddr c0 m0 h it.prefixes stray) {L : List Item} (hp : AllPairs (PRelR mem root h.mem) it.pending L)
    (hpar : parent ≠ 0) (hs : Spells h.mem parent path) :
    ∃ h' it', pushEdges paddr parent es h it = (h', it') ∧ PHeapF paddr c0 m0 h' it'.prefixes stray ∧
      (∀ a p, h.mem a = some p → h'.mem a = some p) ∧ it'.value = it.value ∧ it'.index = it.index ∧
      AllPairs (PRelR mem root h'.mem) it'.pending (L ++ F.items path) := by
  induction hu generalizing h it L with
  | nil => exact ⟨h, it, rfl, ho, fun _ _ h => h, rfl, rfl, by simpa [Forest.items] using hp⟩
  | @cons l a nd es kids rest hm h1 _ _ ih =>
    have hle := newPrefix_le (ho.fresh _ (Nat.le_refl _)) ⟨a, parent, l⟩
    have hself : (newPrefix paddr ⟨a, parent, l⟩ h).2.mem (newPrefix paddr ⟨a, parent, l⟩ h).1 = some ⟨a, parent, l⟩ := by
      simp [newPrefix]
    have hnew : PRelR mem root (newPrefix paddr ⟨a, parent, l⟩ h).2.mem (newPrefix paddr ⟨a, parent, l⟩ h).1
        ⟨path ++ [l], nd.final, kids⟩ :=
      ⟨⟨a, parent, l⟩, nd, hself, hm, rfl, h1, .child (p := ⟨a, parent, l⟩) hself hpar (hs.mono hle),
        .snoc hlead hb (hes _ (by simp))⟩
    obtain ⟨h', it', e1, e2, e3, e4, e5, e6⟩ := ih (fun e he => hes e (by simp [he]))
      (h := (newPrefix paddr ⟨a, parent, l⟩ h).2)
      (it := { it with prefixes := it.prefixes ++ [(newPrefix paddr ⟨a, parent, l⟩ h).1],
                       pending := it.pending ++ [(newPrefix paddr ⟨a, parent, l⟩ h).1] })
      (L := L ++ [⟨path ++ [l], nd.final, kids⟩]) (ho.new _)
      ((hp.imp fun _ _ hr => hr.mono hle).append (.cons hnew .nil)) (hs.mono hle)
    refine ⟨h', it', e1, e2, fun x p hx => e3 x p (hle x p hx), e4, e5, ?_⟩
    simpa [Forest.items] using e6

theorem pushEdgesF_none {paddr : Nat → Nat} {parent : Nat} (es : List (UInt8 × Nat)) (h : PHeap) (it : DIter) :
    pushEdgesF paddr parent none es h it =
      ((pushEdges paddr parent es h it).1, (pushEdges paddr parent es h it).2, false) := by
  induction es generalizing h it with
  | nil => rfl
  | cons e es ih => simp only [pushEdgesF, pushEdges, ih]

theorem pushEdgesF_some {paddr : Nat → Nat} {parent : Nat} (j : Nat) (p : IPlace) (es : List (UInt8 × Nat)) (h : PHeap)
    (it : DIter) :
    (es.length ≤ j → pushEdgesF paddr parent (some (j, p)) es h it =
      ((pushEdges paddr parent es h it).1, (pushEdges paddr parent es h it).2, false)) ∧
    (j < es.length → ∃ pr, pushEdgesF paddr parent (some (j, p)) es h it =
      ((failPrefix paddr pr (pushEdges paddr parent (es.take j) h it).1 (pushEdges paddr parent (es.take j) h it).2 p).1,
       (failPrefix paddr pr (pushEdges paddr parent (es.take j) h it).1 (pushEdges paddr parent (es.take j) h it).2 p).2,
       true)) := by
  induction es generalizing h it j with
  | nil => exact ⟨fun _ => rfl, fun h => by simp at h⟩
  | cons e es ih =>
    cases j with
    | zero => exact ⟨fun h => by simp at h, fun _ => ⟨_, rfl⟩⟩
    | succ j =>
      constructor
      · intro hj
        simp only [pushEdgesF, pushEdges]
        exact (ih j _ _).1 (by simpa using hj)
      · intro hj
        simp only [pushEdgesF, List.take_succ_cons, pushEdges]
        exact (ih j _ _).2 (by simpa using hj)

/-! ### The walk -/

/-- An iterator that has found the terms `T` and still has the nodes `L` to look at. -/
structure Walked (sgn : Bool) (mem : Mem) (root : Nat) (paddr : Nat → Nat) (c0 : Nat) (m0 : PMem) (H : Nat) (all : List Str)
    (h : PHeap) (it : DIter) (L : List Item) (T : List Str) (log : List Gone) : Prop where
  heap : ∃ stray, PHeapF paddr c0 m0 h it.prefixes stray ∧ stray.length = strays (log.map (·.fault))
  queue : AllPairs (PRelR mem root h.mem) it.pending L
  apart : Apart sgn L
  high : ∀ x ∈ L, x.path.length + x.kids.height ≤ H
  kept : notGone log all = T ++ finals L
  clear : ∀ t ∈ T, ∀ y ∈ L, ¬ y.path <+: t
  at' : ∀ e ∈ log, e.At mem root
  own : it.prefixes ≠ []

section
variable {sgn : Bool} {mem : Mem} {root : Nat} {paddr : Nat → Nat} {c0 : Nat} {m0 : PMem} {H : Nat} {all : List Str}

theorem strays_append (l l' : List IFault) : strays (l ++ l') = strays l + strays l' := by simp [strays]

theorem itemsWt_sublist {L' L : List Item} (h : L'.Sublist L) : itemsWt L' ≤ itemsWt L := by
  induction h with
  | slnil => exact Nat.le_refl _
  | cons x _ ih => rw [itemsWt_cons]; omega
  | cons_cons x _ ih => rw [itemsWt_cons, itemsWt_cons]; omega

theorem high_children {x : Item} {rest : List Item} (hH : ∀ y ∈ x :: rest, y.path.length + y.kids.height ≤ H) :
    ∀ y ∈ rest ++ x.children, y.path.length + y.kids.height ≤ H := by
  intro y hy
  rcases List.mem_append.1 hy with hy | hy
  · exact hH y (by simp [hy])
  · exact Nat.le_trans (mem_items_height hy) (hH x (by simp))

theorem clear_children {x : Item} {rest : List Item} {T : List Str} (hc : ∀ t ∈ T, ∀ y ∈ x :: rest, ¬ y.path <+: t) :
    ∀ t ∈ T, ∀ y ∈ rest ++ x.children, ¬ y.path <+: t := by
  intro t ht y hy h
  rcases List.mem_append.1 hy with hy | hy
  · exact hc t ht y (by simp [hy]) h
  · exact hc t ht x (by simp) ((child_prefix hy).1.trans h)

/-- The terms when an exception has been thrown at the node `x`. -/
theorem kept_gone {x : Item} {rest A D : List Item} {T : List Str} {log : List Gone} {e : Gone}
    (ha : Apart sgn (x :: rest)) (hall : all.Nodup) (hk : notGone log all = T ++ finals (x :: rest))
    (hcl : ∀ t ∈ T, ∀ y ∈ x :: rest, ¬ y.path <+: t) (hc : x.children = A ++ D) (hp : e.path = x.path)
    (hD : D.map (·.path) = e.after.map fun c => x.path ++ [c]) :
    notGone (log ++ [e]) all = T ++ finals (rest ++ A) := by
  have hn : (T ++ finals (x :: rest)).Nodup := by rw [← hk]; exact hall.sublist List.filter_sublist
  rw [notGone_append, hk, List.filter_append, finals_gone ha hc (List.nodup_append.1 hn).2.1 hp hD]
  congr 1
  refine List.filter_eq_self.2 fun t ht => ?_
  rw [decide_eq_true_eq]
  rintro (h | ⟨c, h1, h2⟩)
  · exact hcl t ht x (by simp) (by rw [h, hp]; exact List.prefix_refl _)
  · refine hcl t ht x (by simp) ?_
    rw [hp] at h2
    exact (List.prefix_append _ _).trans h2

theorem iterLoopF_spec (hall : all.Nodup) (L : List Item) {fs : List (Option IFault)} {h : PHeap} {it : DIter}
    {T : List Str} {log : List Gone} (hw : Walked sgn mem root paddr c0 m0 H all h it L T log) (hne : L ≠ []) :
    ∃ fs' h' it' r L', (∀ fuel, itemsWt L ≤ fuel → iterLoopF mem paddr fuel fs h it = .ok (fs', h', it', r)) ∧
      it'.index = it.index ∧ it'.value = it.value ∧
      ((∃ e, r = .thrown e.fault ∧ Walked sgn mem root paddr c0 m0 H all h' it' L' T (log ++ [e]) ∧ itemsWt L' < itemsWt L) ∨
       (∃ a s, r = .node a true ∧ Spells h'.mem a s ∧ s.length ≤ H ∧ finals L ≠ [] ∧ itemsWt L' ≤ itemsWt L ∧
          Walked sgn mem root paddr c0 m0 H all h' it' L' (T ++ [s]) log) ∨
       (∃ a, r = .node a false ∧ finals L = [] ∧ L' = [] ∧ Walked sgn mem root paddr c0 m0 H all h' it' [] T log)) := by
  induction L using queue_induction generalizing h it fs with
  | nil => exact absurd rfl hne
  | cons x rest ih =>
    obtain ⟨⟨stray, ho, hstray⟩, hp, hap, hH, hk, hcl, hat, hown⟩ := hw
    generalize hpend : it.pending = pend at hp
    cases hp with
    | @cons a _ prest _ hx hrest =>
      obtain ⟨p, nd, h1, h2, h3, h4, h5, h6⟩ := hx
      have ha : a ≠ 0 := by rintro rfl; rw [ho.null] at h1; cases h1
      have hwt := children_wt x rest
      have hown' : ∀ es h' it', pushEdges paddr a es h { it with pending := prest } = (h', it') → it'.prefixes ≠ [] := by
        intro es h' it' e hc
        have := pushEdges_prefixes (paddr := paddr) (parent := a) es h { it with pending := prest }
        rw [e, hc] at this
        exact hown (List.prefix_nil.1 this)
      -- what the body of the loop does
      have hstep : ∀ fuel, itemsWt (x :: rest) ≤ fuel → ∃ f, fuel = f + 1 ∧ itemsWt (rest ++ x.children) ≤ f ∧
          iterLoopF mem paddr fuel fs h it =
            (let r := pushEdgesF paddr a (IFault.atEdge (fs.headD none)) nd.edges h { it with pending := prest }
             if r.2.2 then .ok (fs.tail, r.1, r.2.1, .thrown ((fs.headD none).getD .text))
             else if nd.final = false ∧ r.2.1.pending ≠ [] then iterLoopF mem paddr f fs.tail r.1 r.2.1
             else if nd.final ∧ fs.headD none = some .text then .ok (fs.tail, r.1, r.2.1, .thrown .text)
             else .ok (fs.tail, r.1, r.2.1, .node a nd.final)) := by
        intro fuel hf
        cases fuel with
        | zero => simp [itemsWt_cons, Item.wt] at hf
        | succ f =>
          refine ⟨f, rfl, by omega, ?_⟩
          simp only [iterLoopF, hpend, h1, deref, h2, bind, Except.bind]
      -- is there an exception at an edge?
      have hcase : (∃ j q, fs.headD none = some (.edge j q) ∧ j < nd.edges.length) ∨
          pushEdgesF paddr a (IFault.atEdge (fs.headD none)) nd.edges h { it with pending := prest } =
            ((pushEdges paddr a nd.edges h { it with pending := prest }).1,
             (pushEdges paddr a nd.edges h { it with pending := prest }).2, false) := by
        cases hf : fs.headD none with
        | none => exact .inr (pushEdgesF_none _ _ _)
        | some f =>
          cases f with
          | text => exact .inr (pushEdgesF_none _ _ _)
          | edge j q =>
            by_cases hj : j < nd.edges.length
            · exact .inl ⟨j, q, rfl, hj⟩
            · exact .inr ((pushEdgesF_some j q nd.edges h _).1 (by omega))
      rcases hcase with ⟨j, q, hf, hj⟩ | hno
      · obtain ⟨F', D, u1, u2, u3, u4⟩ := unf_take h4 j x.path
        have hDp : D.map (·.path) = ((nd.edges.drop j).map (·.1)).map fun c => x.path ++ [c] := by
          have := congrArg (List.map Thrown.path) (u4 .text)
          simpa [List.map_map, Function.comp_def] using this.symm
        obtain ⟨h', it', e1, e2, e3, e4, e5, e6⟩ := pushEdges_specF h6 h2 u1 (fun e he => List.mem_of_mem_take he)
          (it := { it with pending := prest }) ho hrest ha h5
        obtain ⟨pr, hpr⟩ := (pushEdgesF_some (paddr := paddr) (parent := a) j q nd.edges h { it with pending := prest }).2 hj
        rw [e1] at hpr
        simp only at hpr
        have hsub : (rest ++ F'.items x.path).Sublist (rest ++ x.children) := by
          rw [show x.children = F'.items x.path ++ D from u2]
          exact (List.Sublist.refl _).append (List.sublist_append_left _ _)
        let e : Gone := ⟨.edge j q, x.path, (nd.edges.drop j).map (·.1)⟩
        have hg := kept_gone (e := e) hap hall hk hcl (A := F'.items x.path) (D := D) u2 rfl hDp
        have hwl := itemsWt_sublist hsub
        refine ⟨fs.tail, (failPrefix paddr pr h' it' q).1, (failPrefix paddr pr h' it' q).2, .thrown (.edge j q),
          rest ++ F'.items x.path, fun fuel hfu => ?_, ?_, ?_, .inl ⟨e, rfl, ?_, by omega⟩⟩
        · obtain ⟨f, _, _, he⟩ := hstep fuel hfu
          rw [he, hf]
          simp only [IFault.atEdge, hpr, if_true, Option.getD_some]
        · cases q <;> exact e5
        · cases q <;> exact e4
        · have hheap : ∃ stray', PHeapF paddr c0 m0 (failPrefix paddr pr h' it' q).1 (failPrefix paddr pr h' it' q).2.prefixes
              stray' ∧ stray'.length = strays ((log ++ [e]).map (·.fault)) := by
            rw [List.map_append, strays_append, ← hstray]
            cases q with
            | make => exact ⟨stray, e2, rfl⟩
            | store => exact ⟨_, e2.leak pr, by simp [strays, e]⟩
            | queue => exact ⟨stray, e2.new pr, rfl⟩
          have hle : ∀ b p, h'.mem b = some p → (failPrefix paddr pr h' it' q).1.mem b = some p := by
            have := newPrefix_le (e2.fresh _ (Nat.le_refl _)) pr
            cases q with
            | make => exact fun _ _ h => h
            | store => exact this
            | queue => exact this
          refine ⟨hheap, ?_, hap.children.sublist hsub, fun y hy => high_children hH y (hsub.subset hy), hg,
            fun t ht y hy => clear_children hcl t ht y (hsub.subset hy), fun e' he' => ?_, ?_⟩
          · have : (failPrefix paddr pr h' it' q).2.pending = it'.pending := by cases q <;> rfl
            rw [this]
            exact e6.imp fun _ _ hr => hr.mono hle
          · rcases List.mem_append.1 he' with he' | he'
            · exact hat e' he'
            · simp only [List.mem_singleton] at he'
              subst he'
              exact ⟨p.node, nd, h6, h2, hj, rfl⟩
          · have := hown' _ _ _ e1
            cases q with
            | make => exact this
            | store => exact this
            | queue => exact fun hc => by simp [failPrefix] at hc
      · obtain ⟨h', it', e1, e2, e3, e4, e5, e6⟩ := pushEdges_specF h6 h2 h4 (fun e he => he)
          (it := { it with pending := prest }) ho hrest ha h5
        rw [e1] at hno
        simp only at hno
        have hH' := high_children hH
        have hcl' := clear_children hcl
        by_cases hc : nd.final = false ∧ it'.pending ≠ []
        · have hnn : rest ++ x.children ≠ [] := fun hn => hc.2 ((AllPairs.nil_iff e6).2 hn)
          have hfin : finals (x :: rest) = finals (rest ++ x.children) := by
            rw [finals_cons, ← h3, hc.1]; simp
          obtain ⟨fs2, h2', it2, r2, L2, s1, s2, s3, s4⟩ := ih (fs := fs.tail) (h := h') (it := it')
            ⟨⟨stray, e2, hstray⟩, e6, hap.children, hH', by rw [hk, hfin], hcl', hat, hown' _ _ _ e1⟩ hnn
          refine ⟨fs2, h2', it2, r2, L2, fun fuel hfu => ?_, s2.trans e5, s3.trans e4, ?_⟩
          · obtain ⟨f, _, hf', he⟩ := hstep fuel hfu
            rw [he]
            simp only [hno, Bool.false_eq_true, if_false, if_pos hc]
            exact s1 f hf'
          · rw [hfin]
            rcases s4 with ⟨e, t1, t2, t3⟩ | ⟨b, s, t1, t2, t3, t4, t5, t6⟩ | ⟨b, t1, t2, t3, t4⟩
            · exact .inl ⟨e, t1, t2, by omega⟩
            · exact .inr (.inl ⟨b, s, t1, t2, t3, t4, by omega, t6⟩)
            · exact .inr (.inr ⟨b, t1, t2, t3, t4⟩)
        · have hrun : ∀ fuel, itemsWt (x :: rest) ≤ fuel → iterLoopF mem paddr fuel fs h it =
              (if nd.final ∧ fs.headD none = some .text then .ok (fs.tail, h', it', .thrown .text)
               else .ok (fs.tail, h', it', .node a nd.final)) := by
            intro fuel hfu
            obtain ⟨f, _, hf', he⟩ := hstep fuel hfu
            rw [he]
            simp only [hno, Bool.false_eq_true, if_false, if_neg hc]
          cases hfin : nd.final with
          | true =>
            by_cases hft : fs.headD none = some .text
            · let e : Gone := ⟨.text, x.path, []⟩
              refine ⟨fs.tail, h', it', .thrown .text, rest ++ x.children, fun fuel hfu => ?_, e5, e4, .inl ⟨e, rfl, ?_, hwt⟩⟩
              · rw [hrun fuel hfu, if_pos ⟨hfin, hft⟩]
              · refine ⟨⟨stray, e2, ?_⟩, e6, hap.children, hH', ?_, hcl', fun e' he' => ?_, hown' _ _ _ e1⟩
                · rw [List.map_append, strays_append, ← hstray]; rfl
                · exact kept_gone (e := e) hap hall hk hcl (A := x.children) (D := []) (by simp) rfl rfl
                · rcases List.mem_append.1 he' with he' | he'
                  · exact hat e' he'
                  · simp only [List.mem_singleton] at he'
                    subst he'
                    exact ⟨p.node, nd, h6, h2, hfin, rfl⟩
            · have hf : finals (x :: rest) = x.path :: finals (rest ++ x.children) := by
                rw [finals_cons, ← h3, hfin]; simp
              refine ⟨fs.tail, h', it', .node a true, rest ++ x.children, fun fuel hfu => ?_, e5, e4, .inr (.inl
                ⟨a, x.path, rfl, h5.mono e3, by have := hH x (by simp); omega, by rw [hf]; simp, by omega, ?_⟩)⟩
              · rw [hrun fuel hfu, if_neg fun hc => hft hc.2, hfin]
              · refine ⟨⟨stray, e2, hstray⟩, e6, hap.children, hH', by rw [hk, hf]; simp, fun t ht y hy => ?_, hat,
                  hown' _ _ _ e1⟩
                rcases List.mem_append.1 ht with ht | ht
                · exact hcl' t ht y hy
                · simp only [List.mem_singleton] at ht
                  subst ht
                  intro hpre
                  rcases List.mem_append.1 hy with hy | hy
                  · exact ((List.pairwise_cons.1 hap.anti).1 y hy).2 hpre
                  · obtain ⟨c1, c2⟩ := child_prefix hy
                    exact c2 (c1.eq_of_length_le hpre.length_le)
          | false =>
            have hemp : it'.pending = [] := Classical.not_not.1 fun hn => hc ⟨hfin, hn⟩
            have hn : rest ++ x.children = [] := (AllPairs.nil_iff e6).1 hemp
            have hf : finals (x :: rest) = [] := by rw [finals_cons, ← h3, hfin, hn, finals_nil]; simp
            refine ⟨fs.tail, h', it', .node a false, [], fun fuel hfu => ?_, e5, e4, .inr (.inr ⟨a, rfl, hf, rfl, ?_⟩)⟩
            · rw [hrun fuel hfu, if_neg fun hc => by rw [hfin] at hc; simp at hc, hfin]
            · change AllPairs _ it'.pending (rest ++ x.children) at e6
              rw [hn] at e6 hH' hcl'
              exact ⟨⟨stray, e2, hstray⟩, e6, ⟨.nil, by simp⟩, hH', by rw [hk, hf, finals_nil], hcl', hat,
                hown' _ _ _ e1⟩

variable {keep : Str → Nat}

theorem iterAdvanceF_spec (keep : Str → Nat) (hall : all.Nodup) (fs : List (Option IFault)) {L : List Item} {h : PHeap}
    {it : DIter} {T : List Str} {log : List Gone} (hw : Walked sgn mem root paddr c0 m0 H all h it L T log) :
    ∃ fs' h' it' x L', (∀ fuel, itemsWt L ≤ fuel → H < fuel →
        iterAdvanceF mem paddr keep fuel fs h it = .ok (fs', h', it', x)) ∧ it'.index = it.index ∧
      ((∃ e, x = some e.fault ∧ Walked sgn mem root paddr c0 m0 H all h' it' L' T (log ++ [e]) ∧ it'.value = it.value ∧
          itemsWt L' < itemsWt L) ∨
       (∃ s, x = none ∧ finals L ≠ [] ∧ it'.value = s.take (keep s) ∧
          Walked sgn mem root paddr c0 m0 H all h' it' L' (T ++ [s]) log ∧ itemsWt L' ≤ itemsWt L) ∨
       (x = none ∧ finals L = [] ∧ L' = [] ∧ it'.value = it.value ∧
          Walked sgn mem root paddr c0 m0 H all h' it' [] T log)) := by
  by_cases hn : L = []
  · subst hn
    have : it.pending = [] := (AllPairs.nil_iff hw.queue).2 rfl
    exact ⟨fs, h, it, none, [], fun _ _ _ => by simp [iterAdvanceF, this], rfl, .inr (.inr ⟨rfl, finals_nil, rfl, rfl, hw⟩)⟩
  · have hpn : it.pending ≠ [] := fun h' => hn ((AllPairs.nil_iff hw.queue).1 h')
    obtain ⟨fs', h', it', r, L', r1, r2, r3, r4⟩ := iterLoopF_spec hall L (fs := fs) hw hn
    rcases r4 with ⟨e, rfl, t2, t3⟩ | ⟨a, s, rfl, t2, t3, t4, t5, t6⟩ | ⟨a, rfl, t2, t3, t4⟩
    · refine ⟨fs', h', it', some e.fault, L', fun fuel hf hfH => ?_, r2, .inl ⟨e, rfl, t2, r3, t3⟩⟩
      simp only [iterAdvanceF, hpn, if_false, r1 fuel hf, bind, Except.bind]
    · refine ⟨fs', h', { it' with value := s.take (keep s) }, none, L', fun fuel hf hfH => ?_, r2,
        .inr (.inl ⟨s, rfl, t4, rfl, ⟨t6.heap, t6.queue, t6.apart, t6.high, t6.kept, t6.clear, t6.at', t6.own⟩, t5⟩)⟩
      simp only [iterAdvanceF, hpn, if_false, r1 fuel hf, bind, Except.bind, t2.str (by omega : s.length < fuel)]
    · refine ⟨fs', h', it', none, L', fun fuel hf hfH => ?_, r2, .inr (.inr ⟨rfl, t2, t3, r3, t4⟩)⟩
      simp only [iterAdvanceF, hpn, if_false, r1 fuel hf, bind, Except.bind]

/-- What the iterator shows when it has found the terms `T`. -/
structure Shown (keep : Str → Nat) (it : DIter) (L : List Item) (T : List Str) : Prop where
  value : it.value = (T.getLast?.getD []).take (keep (T.getLast?.getD []))
  count : T.length ≤ it.index + 1
  more : finals L ≠ [] → T.length = it.index + 1

theorem Shown.atOrLast {it : DIter} {L : List Item} {T : List Str} (h : Shown keep it L T) (l : List Str)
    (hl : l = T ++ finals L) : it.value = (atOrLast l it.index).take (keep (atOrLast l it.index)) := by
  suffices Spec.atOrLast l it.index = T.getLast?.getD [] by rw [this]; exact h.value
  unfold Spec.atOrLast
  by_cases hf : finals L = []
  · rw [hf, List.append_nil] at hl
    subst hl
    cases hi : l[it.index]? with
    | none => rfl
    | some v =>
      have := (List.getElem?_eq_some_iff.1 hi).1
      have hc := h.count
      rw [List.getLast?_eq_getElem?, show l.length - 1 = it.index by omega, hi]; rfl
  · have hm := h.more hf
    rw [hl, List.getElem?_append_left (by omega), List.getLast?_eq_getElem? (l := T), show T.length - 1 = it.index by omega,
      List.getElem?_eq_getElem (by omega)]
    rfl

theorem iterNextF_spec (hall : all.Nodup) (fs : List (Option IFault)) {L : List Item} {h : PHeap}
    {it : DIter} {T : List Str} {log : List Gone} (hw : Walked sgn mem root paddr c0 m0 H all h it L T log)
    (hs : Shown keep it L T) :
    ∃ fs' h' it' x L' T' log', (∀ fuel, itemsWt L ≤ fuel → H < fuel →
        iterNextF mem paddr keep fuel fs h it = .ok (fs', h', it', x)) ∧
      Walked sgn mem root paddr c0 m0 H all h' it' L' T' (log ++ log') ∧ Shown keep it' L' T' ∧ T <+: T' ∧
      itemsWt L' ≤ itemsWt L ∧ log'.map (·.fault) = x.toList ∧
      ((x = none ∧ it'.index = it.index + 1) ∨
       (x ≠ none ∧ it'.index = it.index ∧ it'.value = it.value ∧ itemsWt L' < itemsWt L)) := by
  obtain ⟨fs', h', it', x, L', r1, r2, r3⟩ := iterAdvanceF_spec keep hall fs hw
  rcases r3 with ⟨e, rfl, t2, t3, t4⟩ | ⟨s, rfl, t2, t3, t4, t5⟩ | ⟨rfl, t2, rfl, t4, t5⟩
  · refine ⟨fs', h', it', some e.fault, L', T, [e], fun fuel hf hfH => ?_, t2,
      ⟨by rw [t3]; exact hs.value, by rw [r2]; exact hs.count, fun hf => ?_⟩, List.prefix_refl _, by omega, rfl,
      .inr ⟨by simp, r2, t3, t4⟩⟩
    · simp only [iterNextF, r1 fuel hf hfH, bind, Except.bind]
    · rw [r2]
      refine hs.more fun hc => hf ?_
      have h1 := hw.kept
      have h2 := t2.kept
      rw [notGone_append, h1, hc, List.append_nil] at h2
      have h3 := (List.length_filter_le (fun t => decide (¬ e.Misses t)) T)
      rw [h2, List.length_append] at h3
      exact List.eq_nil_of_length_eq_zero (by omega)
  · have hm := hs.more t2
    refine ⟨fs', h', { it' with index := it'.index + 1 }, none, L', T ++ [s], [], fun fuel hf hfH => ?_, ?_,
      ⟨by simpa using t3, by simp only [List.length_append, List.length_singleton, r2]; omega,
        fun _ => by simp only [List.length_append, List.length_singleton, r2]; omega⟩, List.prefix_append _ _, t5, rfl,
      .inl ⟨rfl, by simp only [r2]⟩⟩
    · simp only [iterNextF, r1 fuel hf hfH, bind, Except.bind]
    · rw [List.append_nil]
      exact ⟨t4.heap, t4.queue, t4.apart, t4.high, t4.kept, t4.clear, t4.at', t4.own⟩
  · refine ⟨fs', h', { it' with index := it'.index + 1 }, none, [], T, [], fun fuel hf hfH => ?_, ?_,
      ⟨by rw [← hs.value]; exact t4, by have := hs.count; simp only [r2]; omega, fun hf => absurd finals_nil hf⟩,
      List.prefix_refl _, by simp [itemsWt], rfl, .inl ⟨rfl, by simp only [r2]⟩⟩
    · simp only [iterNextF, r1 fuel hf hfH, bind, Except.bind]
    · rw [List.append_nil]
      exact ⟨t5.heap, t5.queue, t5.apart, t5.high, t5.kept, t5.clear, t5.at', t5.own⟩

theorem iterCallsF_spec (hall : all.Nodup) (k : Nat) (fs : List (Option IFault)) {L : List Item} {h : PHeap}
    {it : DIter} {T : List Str} {log : List Gone} (hw : Walked sgn mem root paddr c0 m0 H all h it L T log)
    (hs : Shown keep it L T) :
    ∃ fs' h' it' es L' T' log', (∀ fuel, itemsWt L ≤ fuel → H < fuel →
        iterCallsF mem paddr keep fuel k fs h it = .ok (fs', h', it', es)) ∧
      Walked sgn mem root paddr c0 m0 H all h' it' L' T' (log ++ log') ∧ Shown keep it' L' T' ∧
      log'.map (·.fault) = es ∧ it'.index + es.length = it.index + k ∧ es.length + itemsWt L' ≤ itemsWt L := by
  induction k generalizing fs h it L T log with
  | zero => exact ⟨fs, h, it, [], L, T, [], fun _ _ _ => rfl, by rwa [List.append_nil], hs, rfl, rfl, by simp⟩
  | succ k ih =>
    obtain ⟨fs1, h1, it1, x, L1, T1, log1, r1, r2, r3, _, r5, r6, r7⟩ := iterNextF_spec hall fs hw hs
    obtain ⟨fs2, h2, it2, es, L2, T2, log2, s1, s2, s3, s4, s5, s6⟩ := ih fs1 r2 r3
    refine ⟨fs2, h2, it2, x.toList ++ es, L2, T2, log1 ++ log2, fun fuel hf hfH => ?_, by rwa [← List.append_assoc], s3,
      by rw [List.map_append, r6, s4], ?_, ?_⟩
    · simp only [iterCallsF, r1 fuel hf hfH, s1 fuel (by omega) hfH, bind, Except.bind]
    · rcases r7 with ⟨rfl, h⟩ | ⟨hx, h, _, _⟩
      · simp only [Option.toList_none, List.nil_append]; omega
      · obtain ⟨f, rfl⟩ := Option.ne_none_iff_exists'.1 hx
        simp only [Option.toList_some, List.length_append, List.length_singleton]; omega
    · rcases r7 with ⟨rfl, h⟩ | ⟨hx, h, _, hlt⟩
      · simp only [Option.toList_none, List.nil_append]; omega
      · obtain ⟨f, rfl⟩ := Option.ne_none_iff_exists'.1 hx
        simp only [Option.toList_some, List.length_append, List.length_singleton]; omega

theorem iterRetryF_spec (hall : all.Nodup) (n : Nat) (fs : List (Option IFault)) {L : List Item} {h : PHeap}
    {it : DIter} {T : List Str} {log : List Gone} (hn : itemsWt L ≤ n) (hw : Walked sgn mem root paddr c0 m0 H all h it L T log)
    (hs : Shown keep it L T) :
    ∃ fs' h' it' es L' T' log', (∀ inner fuel, itemsWt L ≤ inner → H < inner → n < fuel →
        iterRetryF mem paddr keep inner fuel fs h it = .ok (fs', h', it', es)) ∧
      Walked sgn mem root paddr c0 m0 H all h' it' L' T' (log ++ log') ∧ Shown keep it' L' T' ∧ T <+: T' ∧
      log'.map (·.fault) = es ∧ it'.index = it.index + 1 ∧ itemsWt L' ≤ itemsWt L := by
  induction n generalizing fs h it L T log with
  | zero =>
    obtain ⟨fs1, h1, it1, x, L1, T1, log1, r1, r2, r3, r4, r5, r6, r7⟩ := iterNextF_spec hall fs hw hs
    rcases r7 with ⟨rfl, hi⟩ | ⟨_, _, _, hlt⟩
    · refine ⟨fs1, h1, it1, [], L1, T1, log1, fun inner fuel hf hfH hfu => ?_, r2, r3, r4, r6, hi, r5⟩
      obtain ⟨f, rfl⟩ : ∃ f, fuel = f + 1 := ⟨fuel - 1, by omega⟩
      simp only [iterRetryF, r1 inner hf hfH, bind, Except.bind]
    · omega
  | succ n ih =>
    obtain ⟨fs1, h1, it1, x, L1, T1, log1, r1, r2, r3, r4, r5, r6, r7⟩ := iterNextF_spec hall fs hw hs
    rcases r7 with ⟨rfl, hi⟩ | ⟨hx, hi, _, hlt⟩
    · refine ⟨fs1, h1, it1, [], L1, T1, log1, fun inner fuel hf hfH hfu => ?_, r2, r3, r4, r6, hi, r5⟩
      obtain ⟨f, rfl⟩ : ∃ f, fuel = f + 1 := ⟨fuel - 1, by omega⟩
      simp only [iterRetryF, r1 inner hf hfH, bind, Except.bind]
    · obtain ⟨f, rfl⟩ := Option.ne_none_iff_exists'.1 hx
      obtain ⟨fs2, h2, it2, es, L2, T2, log2, s1, s2, s3, s4, s5, s6, s7⟩ := ih fs1 (by omega) r2 r3
      refine ⟨fs2, h2, it2, f :: es, L2, T2, log1 ++ log2, fun inner fuel hf hfH hfu => ?_, by rwa [← List.append_assoc], s3,
        r4.trans s4, by rw [List.map_append, r6, s5]; rfl, by omega, by omega⟩
      obtain ⟨g, rfl⟩ : ∃ g, fuel = g + 1 := ⟨fuel - 1, by omega⟩
      simp only [iterRetryF, r1 inner hf hfH, s1 inner g (by omega) hfH (by omega), bind, Except.bind]

/-- What is shown does not change when more is found. -/
theorem Shown.later {it : DIter} {L L' : List Item} {T T' : List Str} {log log' : List Gone} {h h' : PHeap} {it' : DIter}
    (hs : Shown keep it L T) (hw : Walked sgn mem root paddr c0 m0 H all h it L T log)
    (hw' : Walked sgn mem root paddr c0 m0 H all h' it' L' T' (log ++ log')) (hT : T <+: T') :
    it.value = (Spec.atOrLast (notGone (log ++ log') all) it.index).take
      (keep (Spec.atOrLast (notGone (log ++ log') all) it.index)) := by
  obtain ⟨M, rfl⟩ := hT
  by_cases hf : finals L = []
  · -- nothing more can be found
    have h1 : (notGone (log ++ log') all).Sublist (notGone log all) := by
      rw [notGone_append_list]
      exact List.filter_sublist
    rw [hw.kept, hw'.kept, hf, List.append_nil, List.append_assoc] at h1
    have h2 := h1.length_le
    rw [List.length_append] at h2
    have h3 : M ++ finals L' = [] := List.eq_nil_of_length_eq_zero (by omega)
    refine Shown.atOrLast (L := []) ⟨hs.value, hs.count, fun h => absurd finals_nil h⟩ _ ?_
    rw [hw'.kept, List.append_assoc, h3, finals_nil]
  · have hm := hs.more hf
    suffices Spec.atOrLast (notGone (log ++ log') all) it.index = T.getLast?.getD [] by rw [this]; exact hs.value
    rw [hw'.kept, List.append_assoc]
    unfold Spec.atOrLast
    rw [List.getElem?_append_left (by omega), List.getLast?_eq_getElem? (l := T), show T.length - 1 = it.index by omega,
      List.getElem?_eq_getElem (by omega)]
    rfl

theorem rangeLoopF_spec (hall : all.Nodup) (k : Nat) (fs : List (Option IFault)) {L : List Item} {h : PHeap}
    {it : DIter} {T : List Str} {log : List Gone} (hw : Walked sgn mem root paddr c0 m0 H all h it L T log)
    (hs : Shown keep it L T) (size : Nat) (hsz : it.index + k = size) :
    ∃ h' it' es L' T' log', (∀ fuel steps, itemsWt L < fuel → H < fuel → k < steps →
        rangeLoopF mem paddr keep fuel steps fs h it (iterEnd size) = .ok ((List.range' it.index k).map fun r =>
          (atOrLast (notGone (log ++ log') all) r).take (keep (atOrLast (notGone (log ++ log') all) r)), h', it', es)) ∧
      Walked sgn mem root paddr c0 m0 H all h' it' L' T' (log ++ log') ∧ T <+: T' ∧ log'.map (·.fault) = es := by
  induction k generalizing fs h it L T log with
  | zero =>
    refine ⟨h, it, [], L, T, [], fun fuel steps _ _ hst => ?_, by rwa [List.append_nil], List.prefix_refl _, rfl⟩
    obtain ⟨g, rfl⟩ : ∃ g, steps = g + 1 := ⟨steps - 1, by omega⟩
    have : iterEq it (iterEnd size) = true := by simp [iterEq, iterEnd]; omega
    simp [rangeLoopF, this]
  | succ k ih =>
    have hne : iterEq it (iterEnd size) = false := by simp [iterEq, iterEnd]; omega
    obtain ⟨fs1, h1, it1, es1, L1, T1, log1, r1, r2, r3, r4, r5, r6, r7⟩ :=
      iterRetryF_spec hall (itemsWt L) fs (Nat.le_refl _) hw hs
    obtain ⟨h2, it2, es2, L2, T2, log2, s1, s2, s3, s4⟩ := ih fs1 r2 r3 (by omega)
    refine ⟨h2, it2, es1 ++ es2, L2, T2, log1 ++ log2, fun fuel steps hf hfH hst => ?_, by rwa [← List.append_assoc],
      r4.trans s3, by rw [List.map_append, r5, s4]⟩
    obtain ⟨g, rfl⟩ : ∃ g, steps = g + 1 := ⟨steps - 1, by omega⟩
    have hv := hs.later hw (log' := log1 ++ log2) (by rw [← List.append_assoc]; exact s2) (r4.trans s3)
    rw [List.range'_succ, List.map_cons, ← hv, ← List.append_assoc, ← r6]
    simp only [rangeLoopF, hne, Bool.false_eq_true, if_false, r1 fuel fuel (by omega) hfH hf,
      s1 fuel g (by omega) hfH (by omega), bind, Except.bind]

end

end Lev
