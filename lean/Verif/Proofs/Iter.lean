import Verif.Model.Iter
import Verif.Proofs.DawgMem
import Verif.Proofs.QueryAll

/-!
Iterating over a dictionary: the terms met on the breadth-first walk.
-/

namespace Lev

open Spec

/-- The labels from the root prefix to the one at `a` are `s`. -/
inductive Spells (mem : PMem) : Nat → Str → Prop
  | root {a : Nat} {p : Prefix} : mem a = some p → p.parent = 0 → Spells mem a []
  | child {a : Nat} {p : Prefix} {s : Str} : mem a = some p → p.parent ≠ 0 → Spells mem p.parent s →
      Spells mem a (s ++ [p.label])

theorem Spells.mono {m m' : PMem} (hle : ∀ a p, m a = some p → m' a = some p) {a : Nat} {s : Str} (h : Spells m a s) :
    Spells m' a s := by
  induction h with
  | root h1 h2 => exact .root (hle _ _ h1) h2
  | child h1 h2 _ ih => exact .child (hle _ _ h1) h2 ih

theorem Spells.str {m : PMem} {a : Nat} {s : Str} (h : Spells m a s) {fuel : Nat} (hf : s.length < fuel) :
    prefixStr m fuel a = .ok s := by
  induction h generalizing fuel with
  | root h1 h2 =>
    cases fuel with
    | zero => omega
    | succ fuel => simp [prefixStr, h1, h2]
  | @child a p s h1 h2 _ ih =>
    cases fuel with
    | zero => omega
    | succ fuel =>
      simp only [List.length_append, List.length_singleton] at hf
      simp only [prefixStr, h1, h2, if_false, bind, Except.bind, ih (fuel := fuel) (by omega)]

/-- The prefix at `a` stands for the item. -/
def PRel (mem : Mem) (pm : PMem) (a : Nat) (it : Item) : Prop :=
  ∃ p nd, pm a = some p ∧ mem p.node = some nd ∧ nd.final = it.fin ∧ Unf mem nd.edges it.kids ∧ Spells pm a it.path

theorem PRel.mono {mem : Mem} {m m' : PMem} (hle : ∀ a p, m a = some p → m' a = some p) {a : Nat} {it : Item}
    (h : PRel mem m a it) : PRel mem m' a it := by
  obtain ⟨p, nd, h1, h2, h3, h4, h5⟩ := h
  exact ⟨p, nd, hle _ _ h1, h2, h3, h4, h5.mono hle⟩

theorem AllPairs.imp {α β : Type} {r r' : α → β → Prop} (h : ∀ a b, r a b → r' a b) {l : List α} {l' : List β}
    (hl : AllPairs r l l') : AllPairs r' l l' := by
  induction hl with
  | nil => exact .nil
  | cons h1 _ ih => exact .cons (h _ _ h1) ih

/-- The heap of an iterator that began with `c0` prefixes ever allocated and memory `m0`. -/
structure PHeapOk (paddr : Nat → Nat) (c0 : Nat) (m0 : PMem) (h : PHeap) (prefixes : List Nat) : Prop where
  nonnull : ∀ k, paddr k ≠ 0
  inj : ∀ j k, paddr j = paddr k → j = k
  null : h.mem 0 = none
  fresh : ∀ k, h.count ≤ k → h.mem (paddr k) = none
  base : c0 ≤ h.count
  owned : prefixes = (List.range' c0 (h.count - c0)).map paddr
  live : ∀ k, c0 ≤ k → k < h.count → h.mem (paddr k) ≠ none
  old : ∀ a, (∀ k, c0 ≤ k → k < h.count → a ≠ paddr k) → h.mem a = m0 a

theorem newPrefix_le {paddr : Nat → Nat} {h : PHeap} (hf : h.mem (paddr h.count) = none) (p : Prefix) :
    ∀ a q, h.mem a = some q → (newPrefix paddr p h).2.mem a = some q := by
  intro a q hq
  simp only [newPrefix]
  split
  · next he => rw [he, hf] at hq; cases hq
  · exact hq

theorem PHeapOk.new {paddr : Nat → Nat} {c0 : Nat} {m0 : PMem} {h : PHeap} {prefixes : List Nat}
    (ho : PHeapOk paddr c0 m0 h prefixes) (p : Prefix) :
    PHeapOk paddr c0 m0 (newPrefix paddr p h).2 (prefixes ++ [(newPrefix paddr p h).1]) := by
  have hb := ho.base
  refine ⟨ho.nonnull, ho.inj, ?_, ?_, ?_, ?_, ?_, ?_⟩
  · simp only [newPrefix]
    rw [if_neg (fun h' => ho.nonnull _ h'.symm)]; exact ho.null
  · intro k hk
    simp only [newPrefix] at hk ⊢
    rw [if_neg (fun h' => by have := ho.inj _ _ h'; omega)]
    exact ho.fresh k (by omega)
  · simp only [newPrefix]; omega
  · simp only [newPrefix]
    rw [show h.count + 1 - c0 = h.count - c0 + 1 by omega, List.range'_concat, List.map_append, ← ho.owned]
    simp only [List.map_cons, List.map_nil, Nat.one_mul]
    rw [show c0 + (h.count - c0) = h.count by omega]
  · intro k h1 h2
    simp only [newPrefix] at h2 ⊢
    by_cases hk : k = h.count
    · subst hk; simp
    · rw [if_neg (fun h' => hk (ho.inj _ _ h'))]
      exact ho.live k h1 (by omega)
  · intro a ha
    simp only [newPrefix] at ha ⊢
    rw [if_neg (ha h.count hb (by omega))]
    exact ho.old a fun k h1 h2 => ha k h1 (by omega)

theorem pushEdges_spec {mem : Mem} {paddr : Nat → Nat} {c0 : Nat} {m0 : PMem} {parent : Nat} {path : Str}
    {es : List (UInt8 × Nat)} {F : Forest} (hu : Unf mem es F) {h : PHeap} {it : DIter}
    (ho : PHeapOk paddr c0 m0 h it.prefixes) {L : List Item} (hp : AllPairs (PRel mem h.mem) it.pending L)
    (hpar : parent ≠ 0) (hs : Spells h.mem parent path) :
    ∃ h' it', pushEdges paddr parent es h it = (h', it') ∧ PHeapOk paddr c0 m0 h' it'.prefixes ∧
      (∀ a p, h.mem a = some p → h'.mem a = some p) ∧ it'.value = it.value ∧ it'.index = it.index ∧
      AllPairs (PRel mem h'.mem) it'.pending (L ++ F.items path) := by
  induction hu generalizing h it L with
  | nil => exact ⟨h, it, rfl, ho, fun _ _ h => h, rfl, rfl, by simpa [Forest.items] using hp⟩
  | @cons l a nd es kids rest hm h1 _ _ ih =>
    have hle := newPrefix_le (ho.fresh _ (Nat.le_refl _)) ⟨a, parent, l⟩
    have hself : (newPrefix paddr ⟨a, parent, l⟩ h).2.mem (newPrefix paddr ⟨a, parent, l⟩ h).1 = some ⟨a, parent, l⟩ := by
      simp [newPrefix]
    have hnew : PRel mem (newPrefix paddr ⟨a, parent, l⟩ h).2.mem (newPrefix paddr ⟨a, parent, l⟩ h).1
        ⟨path ++ [l], nd.final, kids⟩ :=
      ⟨⟨a, parent, l⟩, nd, hself, hm, rfl, h1, .child (p := ⟨a, parent, l⟩) hself hpar (hs.mono hle)⟩
    obtain ⟨h', it', e1, e2, e3, e4, e5, e6⟩ := ih
      (h := (newPrefix paddr ⟨a, parent, l⟩ h).2)
      (it := { it with prefixes := it.prefixes ++ [(newPrefix paddr ⟨a, parent, l⟩ h).1],
                       pending := it.pending ++ [(newPrefix paddr ⟨a, parent, l⟩ h).1] })
      (L := L ++ [⟨path ++ [l], nd.final, kids⟩]) (ho.new _)
      ((hp.imp fun _ _ hr => hr.mono hle).append (.cons hnew .nil)) (hs.mono hle)
    refine ⟨h', it', e1, e2, fun x p hx => e3 x p (hle x p hx), e4, e5, ?_⟩
    simpa [Forest.items] using e6

/-- The terms still to come when the queue holds the items `L`. -/
def finals (L : List Item) : List Str := ((L ++ pushes L).filter (·.fin)).map (·.path)

theorem finals_nil : finals [] = [] := by simp [finals, pushes_nil]

theorem finals_cons (it : Item) (rest : List Item) :
    finals (it :: rest) = (if it.fin then [it.path] else []) ++ finals (rest ++ it.children) := by
  unfold finals
  rw [pushes_cons, List.cons_append, ← List.append_assoc, List.filter_cons]
  split <;> simp

theorem AllPairs.nil_iff {α β : Type} {r : α → β → Prop} {l : List α} {l' : List β} (h : AllPairs r l l') :
    l = [] ↔ l' = [] := by
  cases h <;> simp

theorem iterLoop_spec {mem : Mem} {paddr : Nat → Nat} {c0 : Nat} {m0 : PMem} (H : Nat) (L : List Item) {h : PHeap}
    {it : DIter} (ho : PHeapOk paddr c0 m0 h it.prefixes) (hp : AllPairs (PRel mem h.mem) it.pending L) (hne : L ≠ [])
    (hH : ∀ x ∈ L, x.path.length + x.kids.height ≤ H) :
    ∃ h' it' a fin L', (∀ fuel, itemsWt L ≤ fuel → iterLoop mem paddr fuel h it = .ok (h', it', a, fin)) ∧
      PHeapOk paddr c0 m0 h' it'.prefixes ∧
      AllPairs (PRel mem h'.mem) it'.pending L' ∧ it'.index = it.index ∧ it'.value = it.value ∧
      (∀ x ∈ L', x.path.length + x.kids.height ≤ H) ∧ itemsWt L' ≤ itemsWt L ∧
      ((fin = true ∧ ∃ s, Spells h'.mem a s ∧ s.length ≤ H ∧ finals L = s :: finals L') ∨
       (fin = false ∧ L' = [] ∧ finals L = [])) := by
  induction L using queue_induction generalizing h it with
  | nil => exact absurd rfl hne
  | cons x rest ih =>
    generalize hpend : it.pending = pend at hp
    cases hp with
    | @cons a _ prest _ hx hrest =>
      obtain ⟨p, nd, h1, h2, h3, h4, h5⟩ := hx
      have ha : a ≠ 0 := by rintro rfl; rw [ho.null] at h1; cases h1
      obtain ⟨h', it', e1, e2, e3, e4, e5, e6⟩ := pushEdges_spec h4 (it := { it with pending := prest }) ho hrest ha h5
      have hH' : ∀ y ∈ rest ++ x.children, y.path.length + y.kids.height ≤ H := by
        intro y hy
        rcases List.mem_append.1 hy with hy | hy
        · exact hH y (by simp [hy])
        · exact Nat.le_trans (mem_items_height hy) (hH x (by simp))
      have hwt := children_wt x rest
      have hstep : ∀ fuel, itemsWt (x :: rest) ≤ fuel → ∃ f, fuel = f + 1 ∧ itemsWt (rest ++ x.children) ≤ f ∧
          iterLoop mem paddr fuel h it =
            if nd.final = false ∧ it'.pending ≠ [] then iterLoop mem paddr f h' it'
            else .ok (h', it', a, nd.final) := by
        intro fuel hf
        cases fuel with
        | zero => simp [itemsWt_cons, Item.wt] at hf
        | succ f =>
          refine ⟨f, rfl, by omega, ?_⟩
          simp only [iterLoop, hpend, h1, deref, h2, bind, Except.bind, e1]
      by_cases hc : nd.final = false ∧ it'.pending ≠ []
      · have hnn : rest ++ x.children ≠ [] := fun hn => hc.2 ((AllPairs.nil_iff e6).2 hn)
        obtain ⟨h2', it2, a2, fin2, L2, r1, r2, r3, r4, r5, r6, r7, r8⟩ := ih e2 e6 hnn hH'
        have hfin : finals (x :: rest) = finals (rest ++ x.children) := by
          rw [finals_cons, ← h3, hc.1]; simp
        rw [hfin]
        refine ⟨h2', it2, a2, fin2, L2, fun fuel hf => ?_, r2, r3, r4.trans e5, r5.trans e4, r6, by omega, r8⟩
        obtain ⟨f, _, hf', he⟩ := hstep fuel hf
        rw [he, if_pos hc]; exact r1 f hf'
      · refine ⟨h', it', a, nd.final, rest ++ x.children, fun fuel hf => ?_, e2, e6, e5, e4, hH', by omega, ?_⟩
        · obtain ⟨f, _, hf', he⟩ := hstep fuel hf
          rw [he, if_neg hc]
        cases hfin : nd.final with
        | true =>
          refine .inl ⟨rfl, x.path, h5.mono e3, by have := hH x (by simp); omega, ?_⟩
          rw [finals_cons, ← h3, hfin]; simp
        | false =>
          have hemp : it'.pending = [] := Classical.not_not.1 fun hn => hc ⟨hfin, hn⟩
          have hn : rest ++ x.children = [] := (AllPairs.nil_iff e6).1 hemp
          refine .inr ⟨rfl, hn, ?_⟩
          rw [finals_cons, ← h3, hfin, hn, finals_nil]; simp

theorem iterAdvance_spec {mem : Mem} {paddr : Nat → Nat} {c0 : Nat} {m0 : PMem} {H : Nat} {L : List Item} {h : PHeap}
    {it : DIter} (ho : PHeapOk paddr c0 m0 h it.prefixes) (hp : AllPairs (PRel mem h.mem) it.pending L)
    (hH : ∀ x ∈ L, x.path.length + x.kids.height ≤ H) :
    ∃ h' it' L', (∀ fuel, itemsWt L ≤ fuel → H < fuel → iterAdvance mem paddr fuel h it = .ok (h', it')) ∧
      PHeapOk paddr c0 m0 h' it'.prefixes ∧
      AllPairs (PRel mem h'.mem) it'.pending L' ∧ it'.index = it.index ∧
      (∀ x ∈ L', x.path.length + x.kids.height ≤ H) ∧ itemsWt L' ≤ itemsWt L ∧
      finals L' = (finals L).tail ∧ it'.value = (finals L).head?.getD it.value := by
  by_cases hn : L = []
  · subst hn
    have : it.pending = [] := (AllPairs.nil_iff hp).2 rfl
    exact ⟨h, it, [], fun _ _ _ => by simp [iterAdvance, this], ho, hp, rfl, by simp, by simp, by simp [finals_nil],
      by simp [finals_nil]⟩
  · have hpn : it.pending ≠ [] := fun h' => hn ((AllPairs.nil_iff hp).1 h')
    obtain ⟨h', it', a, fin, L', r1, r2, r3, r4, r5, r6, r7, r8⟩ := iterLoop_spec H L ho hp hn hH
    rcases r8 with ⟨rfl, s, hs, hlen, hfin⟩ | ⟨rfl, hL', hfin⟩
    · refine ⟨h', { it' with value := s }, L', fun fuel hf hfH => ?_, r2, r3, r4, r6, r7, by rw [hfin]; rfl,
        by rw [hfin]; rfl⟩
      simp only [iterAdvance, hpn, if_false, r1 fuel hf, bind, Except.bind, if_true,
        hs.str (by omega : s.length < fuel)]
    · refine ⟨h', it', L', fun fuel hf hfH => ?_, r2, r3, r4, r6, r7, by rw [hfin, hL', finals_nil]; rfl,
        by rw [hfin]; exact r5⟩
      simp only [iterAdvance, hpn, if_false, r1 fuel hf, bind, Except.bind, Bool.false_eq_true]

/-- What a range-for yields if `k` more increments are due, the current value is `v` and `todo` follow. -/
def yielded : Nat → Str → List Str → List Str
  | 0, _, _ => []
  | k + 1, v, todo => v :: yielded k (todo.head?.getD v) todo.tail

theorem rangeLoop_spec {mem : Mem} {paddr : Nat → Nat} {c0 : Nat} {m0 : PMem} {H : Nat} (k : Nat) {L : List Item}
    {h : PHeap} {it : DIter} (ho : PHeapOk paddr c0 m0 h it.prefixes) (hp : AllPairs (PRel mem h.mem) it.pending L)
    (hH : ∀ x ∈ L, x.path.length + x.kids.height ≤ H) (size : Nat) (hsz : it.index + k = size) :
    ∃ h' it', (∀ fuel steps, itemsWt L ≤ fuel → H < fuel → k < steps →
        rangeLoop mem paddr fuel steps h it (iterEnd size) = .ok (yielded k it.value (finals L), h', it')) ∧
      PHeapOk paddr c0 m0 h' it'.prefixes := by
  induction k generalizing L h it with
  | zero =>
    refine ⟨h, it, fun fuel steps _ _ hst => ?_, ho⟩
    cases steps with
    | zero => omega
    | succ steps =>
      have : iterEq it (iterEnd size) = true := by simp [iterEq, iterEnd]; omega
      simp [rangeLoop, this, yielded]
  | succ k ih =>
    have hne : iterEq it (iterEnd size) = false := by simp [iterEq, iterEnd]; omega
    obtain ⟨h1, it1, L1, r1, r2, r3, r4, r5, r6, r7, r8⟩ := iterAdvance_spec ho hp hH
    obtain ⟨h2, it2, e1, e2⟩ := ih (L := L1) (h := h1) (it := { it1 with index := it1.index + 1 }) r2 r3 r5
      (by simp only; omega)
    refine ⟨h2, it2, fun fuel steps hf hfH hst => ?_, e2⟩
    cases steps with
    | zero => omega
    | succ steps =>
      simp only [rangeLoop, hne, Bool.false_eq_true, if_false, iterNext, r1 fuel hf hfH, bind, Except.bind,
        e1 fuel steps (by omega) hfH (by omega), yielded]
      rw [r7, r8]

theorem deletePrefixes_spec {l : List Nat} (hnd : l.Nodup) {h : PHeap} (h0 : h.mem 0 = none)
    (hlive : ∀ a ∈ l, h.mem a ≠ none) :
    deletePrefixes l h = .ok ⟨fun a => if a ∈ l then none else h.mem a, h.count⟩ := by
  induction l generalizing h with
  | nil => simp [deletePrefixes]
  | cons a l ih =>
    have hnd' := List.nodup_cons.1 hnd
    have hl := hlive a (by simp)
    have ha : a ≠ 0 := by rintro rfl; exact hl h0
    obtain ⟨p, hp⟩ := Option.ne_none_iff_exists'.1 hl
    simp only [deletePrefixes, deletePrefix, ha, if_false, hp, bind, Except.bind]
    rw [ih hnd'.2]
    · congr 2
      funext b
      by_cases hb : b = a
      · simp [hb, hnd'.1]
      · simp [hb]
    · simp [Ne.symm ha, h0]
    · intro b hb
      have : b ≠ a := by rintro rfl; exact hnd'.1 hb
      simp only [this, if_false]
      exact hlive b (by simp [hb])

theorem PHeapOk.destroy {paddr : Nat → Nat} {c0 : Nat} {m0 : PMem} {h : PHeap} {it : DIter}
    (ho : PHeapOk paddr c0 m0 h it.prefixes) (hm0 : ∀ k, c0 ≤ k → m0 (paddr k) = none) :
    ∃ h', iterDestroy h it = .ok h' ∧ ∀ a, h'.mem a = m0 a := by
  have hmem : ∀ a, a ∈ it.prefixes ↔ ∃ k, c0 ≤ k ∧ k < h.count ∧ a = paddr k := by
    intro a
    have := ho.base
    rw [ho.owned, List.mem_map]
    constructor
    · rintro ⟨k, hk, rfl⟩
      rw [List.mem_range'_1] at hk
      exact ⟨k, hk.1, by omega, rfl⟩
    · rintro ⟨k, h1, h2, rfl⟩
      exact ⟨k, by rw [List.mem_range'_1]; omega, rfl⟩
  have hnd : it.prefixes.Nodup := by
    rw [ho.owned]
    refine List.pairwise_map.2 ((List.nodup_range' (s := c0) (n := h.count - c0)).imp fun hne he => hne (ho.inj _ _ he))
  refine ⟨_, deletePrefixes_spec hnd ho.null (fun a ha => ?_), fun a => ?_⟩
  · obtain ⟨k, h1, h2, rfl⟩ := (hmem a).1 ha
    exact ho.live k h1 h2
  · simp only
    split
    · next ha =>
      obtain ⟨k, h1, h2, rfl⟩ := (hmem a).1 ha
      exact (hm0 k h1).symm
    · next ha => exact ho.old a fun k h1 h2 h3 => ha ((hmem a).2 ⟨k, h1, h2, h3⟩)

theorem pushEdges_prefixes {paddr : Nat → Nat} {parent : Nat} (es : List (UInt8 × Nat)) (h : PHeap) (it : DIter) :
    it.prefixes <+: (pushEdges paddr parent es h it).2.prefixes := by
  induction es generalizing h it with
  | nil => exact List.prefix_refl _
  | cons e es ih =>
    simp only [pushEdges]
    refine (List.prefix_append _ [_]).trans (ih _ { it with prefixes := it.prefixes ++ [_], pending := it.pending ++ [_] })

theorem iterLoop_prefixes {mem : Mem} {paddr : Nat → Nat} {fuel : Nat} {h h' : PHeap} {it it' : DIter} {a : Nat} {fin : Bool}
    (e : iterLoop mem paddr fuel h it = .ok (h', it', a, fin)) : it.prefixes <+: it'.prefixes := by
  induction fuel generalizing h it with
  | zero => cases e
  | succ fuel ih =>
    simp only [iterLoop] at e
    split at e
    · cases e
    · next b rest hp =>
      split at e
      · cases e
      · next p hb =>
        cases hd : deref mem p.node with
        | error x => rw [hd] at e; cases e
        | ok nd =>
          simp only [hd, bind, Except.bind] at e
          have h1 := pushEdges_prefixes (paddr := paddr) (parent := b) nd.edges h { it with pending := rest }
          split at e
          · exact h1.trans (ih e)
          · cases e; exact h1

theorem iterAdvance_prefixes {mem : Mem} {paddr : Nat → Nat} {fuel : Nat} {h h' : PHeap} {it it' : DIter}
    (e : iterAdvance mem paddr fuel h it = .ok (h', it')) : it.prefixes <+: it'.prefixes := by
  unfold iterAdvance at e
  split at e
  · cases e; exact List.prefix_refl _
  · cases hl : iterLoop mem paddr fuel h it with
    | error x => rw [hl] at e; cases e
    | ok r =>
      obtain ⟨h1, it1, a, fin⟩ := r
      simp only [hl, bind, Except.bind] at e
      have h2 := iterLoop_prefixes hl
      split at e
      · split at e
        · cases e
        · cases e; exact h2
      · cases e; exact h2

/-- An iterator after `k` increments. -/
theorem dictIterAt_spec {mem : Mem} {paddr : Nat → Nat} {h : PHeap} {root : Nat} {nd : DNode} {F : Forest}
    (ha : PAllocator paddr h) (hm : mem root = some nd) (hu : Unf mem nd.edges F) (k : Nat) :
    ∃ h' it L, (∀ fuel, itemsWt [rootItem nd F] + F.height < fuel → dictIterAt mem paddr fuel root k h = .ok (h', it)) ∧
      PHeapOk paddr h.count h.mem h' it.prefixes ∧ AllPairs (PRel mem h'.mem) it.pending L ∧ it.index = k ∧
      (∀ x ∈ L, x.path.length + x.kids.height ≤ F.height) ∧ itemsWt L ≤ itemsWt [rootItem nd F] ∧ it.prefixes ≠ [] ∧
      finals L = (finals [rootItem nd F]).drop (k + 1) ∧
      it.value = (finals [rootItem nd F])[k]?.getD ((finals [rootItem nd F]).getLast?.getD []) := by
  induction k with
  | zero =>
    let p0 : Prefix := ⟨root, 0, 0⟩
    have ho0 : PHeapOk paddr h.count h.mem h [] :=
      ⟨ha.nonnull, ha.inj, ha.null, ha.fresh, Nat.le_refl _, by simp, fun k h1 h2 => by omega, fun _ _ => rfl⟩
    have ho := ho0.new p0
    have hself : (newPrefix paddr p0 h).2.mem (newPrefix paddr p0 h).1 = some p0 := by simp [newPrefix]
    have hrel : PRel mem (newPrefix paddr p0 h).2.mem (newPrefix paddr p0 h).1 (rootItem nd F) :=
      ⟨p0, nd, hself, hm, rfl, hu, .root hself rfl⟩
    have hbound : ∀ x ∈ [rootItem nd F], x.path.length + x.kids.height ≤ F.height := by simp [rootItem]
    obtain ⟨h1, it1, L1, r1, r2, r3, r4, r5, r6, r7, r8⟩ := iterAdvance_spec
      (it := { prefixes := [(newPrefix paddr p0 h).1], pending := [(newPrefix paddr p0 h).1], value := [], index := 0 })
      ho (.cons hrel .nil) hbound
    refine ⟨h1, it1, L1, fun fuel hf => r1 fuel (by omega) (by omega), r2, r3, r4, r5, r6,
      fun he => ?_, by rw [r7]; simp, ?_⟩
    · have := iterAdvance_prefixes (r1 _ (Nat.le_max_left _ (F.height + 1)) (by omega))
      rw [he] at this
      simp at this
    rw [r8, ← List.head?_eq_getElem?]
    cases finals [rootItem nd F] <;> simp
  | succ k ih =>
    obtain ⟨h1, it1, L1, r1, r2, r3, r4, r5, r6, r7, r8, r9⟩ := ih
    obtain ⟨h2, it2, L2, s1, s2, s3, s4, s5, s6, s7, s8⟩ := iterAdvance_spec r2 r3 r5
    refine ⟨h2, { it2 with index := it2.index + 1 }, L2, fun fuel hf => ?_, s2, s3, by simp only; omega, s5, by omega,
      fun he => ?_, by rw [s7, r8, List.tail_drop], ?_⟩
    · simp only [dictIterAt, r1 fuel hf, iterNext, s1 fuel (by omega) (by omega), bind, Except.bind]
    · have := iterAdvance_prefixes (s1 _ (Nat.le_max_left _ (F.height + 1)) (by omega))
      simp only at he
      rw [he] at this
      exact r7 (by simpa using this)
    · simp only
      rw [s8, r8, r9, List.head?_drop]
      cases hk : (finals [rootItem nd F])[k + 1]? with
      | some v => simp
      | none =>
        simp only [Option.getD_none]
        cases hk' : (finals [rootItem nd F])[k]? with
        | none => simp
        | some v =>
          have h1 := (List.getElem?_eq_some_iff.1 hk').1
          have h2 := List.getElem?_eq_none_iff.1 hk
          rw [List.getLast?_eq_getElem?, show (finals [rootItem nd F]).length - 1 = k by omega, hk']
          rfl

/-- A range-for over any acyclic graph and any claimed size. -/
theorem rangeFor_spec {mem : Mem} {paddr : Nat → Nat} {h : PHeap} {root size : Nat} {nd : DNode} {F : Forest}
    (ha : PAllocator paddr h) (hm : mem root = some nd) (hu : Unf mem nd.edges F) :
    ∃ h', Ends (fun fuel => rangeFor mem paddr fuel root size h)
        (yielded size ((finals [rootItem nd F]).head?.getD []) (finals [rootItem nd F]).tail, h') ∧
      ∀ a, h'.mem a = h.mem a := by
  let p0 : Prefix := ⟨root, 0, 0⟩
  have ho0 : PHeapOk paddr h.count h.mem h [] :=
    ⟨ha.nonnull, ha.inj, ha.null, ha.fresh, Nat.le_refl _, by simp, fun k h1 h2 => by omega, fun _ _ => rfl⟩
  have ho := ho0.new p0
  have hself : (newPrefix paddr p0 h).2.mem (newPrefix paddr p0 h).1 = some p0 := by simp [newPrefix]
  have hrel : PRel mem (newPrefix paddr p0 h).2.mem (newPrefix paddr p0 h).1 (rootItem nd F) :=
    ⟨p0, nd, hself, hm, rfl, hu, .root hself rfl⟩
  have hbound : ∀ x ∈ [rootItem nd F], x.path.length + x.kids.height ≤ F.height := by simp [rootItem]
  obtain ⟨h1, it1, L1, r1, r2, r3, r4, r5, r6, r7, r8⟩ := iterAdvance_spec
    (it := { prefixes := [(newPrefix paddr p0 h).1], pending := [(newPrefix paddr p0 h).1], value := [], index := 0 })
    ho (.cons hrel .nil) hbound
  obtain ⟨h2, it2, e1, e2⟩ := rangeLoop_spec size r2 r3 r5 size (by rw [r4]; simp)
  obtain ⟨h3, e3, e4⟩ := e2.destroy ha.fresh
  refine ⟨h3, ⟨itemsWt [rootItem nd F] + F.height + size + 1, fun fuel hf => ?_⟩, e4⟩
  have b1 := r1 fuel (by omega) (by omega)
  have b2 := e1 fuel fuel (by omega) (by omega) (by omega)
  simp only [rangeFor, iterBegin, bind, Except.bind]
  rw [b1]
  have b3 : iterDestroy h2 (iterEnd size) = .ok h2 := rfl
  simp only [b2, b3, e3]
  rw [r7, r8]

end Lev
