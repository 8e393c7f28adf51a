import Verif.Spec.BuildMem
import Verif.Proofs.WordNodes
import Verif.Proofs.AnyGraph

/-!
How many nodes there are while a dictionary is built.
-/

namespace Lev

open Spec

/-! ### Beginnings of sorted terms -/

theorem prefix_commonPrefix {q a b : Str} (ha : q <+: a) (hb : q <+: b) : q.length ≤ commonPrefix a b := by
  induction q generalizing a b with
  | nil => simp
  | cons c q ih =>
    cases a with
    | nil => simp at ha
    | cons x a =>
      cases b with
      | nil => simp at hb
      | cons y b =>
        obtain ⟨rfl, ha'⟩ := List.cons_prefix_cons.1 ha
        obtain ⟨rfl, hb'⟩ := List.cons_prefix_cons.1 hb
        simpa [commonPrefix] using ih ha' hb'

theorem take_commonPrefix (a b : Str) : a.take (commonPrefix a b) <+: b := by
  induction a generalizing b with
  | nil => simp
  | cons x a ih =>
    cases b with
    | nil => simp [commonPrefix]
    | cons y b =>
      rw [commonPrefix]
      split
      · next h => subst h; simpa using ih b
      · simp

theorem commonPrefix_le (a b : Str) : commonPrefix a b ≤ a.length := by
  induction a generalizing b with
  | nil => simp [commonPrefix]
  | cons x a ih =>
    cases b with
    | nil => simp [commonPrefix]
    | cons y b =>
      rw [commonPrefix]
      split
      · have := ih b; simp; omega
      · simp

/-- What lies between two strings that begin with `q` begins with `q`. -/
theorem prefix_between {q s p t : Str} (hs : q <+: s) (ht : q <+: t) (h1 : ¬ strLess p s) (h2 : ¬ strLess t p) : q <+: p := by
  induction q generalizing s p t with
  | nil => simp
  | cons c q ih =>
    cases s with
    | nil => simp at hs
    | cons x s =>
      cases t with
      | nil => simp at ht
      | cons y t =>
        obtain ⟨rfl, hs'⟩ := List.cons_prefix_cons.1 hs
        obtain ⟨rfl, ht'⟩ := List.cons_prefix_cons.1 ht
        cases p with
        | nil => exact absurd .nil h1
        | cons z p =>
          have hz : c = z := by
            rcases Nat.lt_trichotomy c.toNat z.toNat with h | h | h
            · exact absurd (.rel h) h2
            · exact UInt8.toNat_inj.1 h
            · exact absurd (.rel h) h1
          subst hz
          exact List.cons_prefix_cons.2 ⟨rfl, ih hs' ht' (fun h => h1 (.cons h)) (fun h => h2 (.cons h))⟩

/-- The beginnings of `t` that are longer than what it shares with `prev`. -/
def newBeginnings (prev t : Str) : List Str :=
  (List.range' (commonPrefix t prev) (t.length - commonPrefix t prev)).map fun i => t.take (i + 1)

theorem newBeginnings_length (prev t : Str) : (newBeginnings prev t).length = t.length - commonPrefix t prev := by
  simp [newBeginnings]

theorem Spec.Beginnings.snoc {xs qs : List Str} {t : Str} (h : Beginnings xs qs) (hs : SortedTerms (xs ++ [t])) :
    Beginnings (xs ++ [t]) (qs ++ newBeginnings (xs.getLast?.getD []) t) := by
  obtain ⟨hn, hm⟩ := h
  have hnew : ∀ q, q ∈ newBeginnings (xs.getLast?.getD []) t ↔
      q <+: t ∧ commonPrefix t (xs.getLast?.getD []) < q.length := by
    intro q
    have hle := commonPrefix_le t (xs.getLast?.getD [])
    simp only [newBeginnings, List.mem_map, List.mem_range'_1]
    constructor
    · rintro ⟨i, ⟨h1, h2⟩, rfl⟩
      exact ⟨List.take_prefix _ _, by rw [List.length_take]; omega⟩
    · rintro ⟨h1, h2⟩
      have := h1.length_le
      exact ⟨q.length - 1, by omega, by
        rw [show q.length - 1 + 1 = q.length by omega]; exact (List.prefix_iff_eq_take.1 h1).symm⟩
  refine ⟨List.nodup_append.2 ⟨hn, ?_, ?_⟩, fun q => ?_⟩
  · rw [newBeginnings, List.Nodup, List.pairwise_map]
    refine List.Pairwise.imp_of_mem ?_ (List.nodup_range' (step := 1) (h := by omega))
    intro i j hi hj hij he
    rw [List.mem_range'_1] at hi hj
    have := congrArg List.length he
    simp only [List.length_take] at this
    omega
  · rintro q hq _ hq' rfl
    obtain ⟨h1, h2⟩ := (hnew q).1 hq'
    obtain ⟨h3, s, h4, h5⟩ := (hm q).1 hq
    have hlast : q <+: xs.getLast?.getD [] := by
      rcases List.eq_nil_or_concat xs with rfl | ⟨ys, p, rfl⟩
      · simp at h4
      · rw [List.concat_eq_append] at h4 hs ⊢
        rw [List.getLast?_append, List.getLast?_singleton]
        have hs' := List.pairwise_append.1 hs
        have hs'' := List.pairwise_append.1 hs'.1
        refine prefix_between h5 h1 ?_ (hs'.2.2 p (by simp) t (by simp))
        rcases List.mem_append.1 h4 with h | h
        · exact hs''.2.2 s h p (by simp)
        · simp only [List.mem_singleton] at h
          subst h; exact strLess_irrefl _
    have := prefix_commonPrefix h1 hlast
    omega
  · rw [List.mem_append, hm, hnew]
    constructor
    · rintro (⟨h1, s, h2, h3⟩ | ⟨h1, h2⟩)
      · exact ⟨h1, s, by simp [h2], h3⟩
      · exact ⟨by rintro rfl; simp at h2, t, by simp, h1⟩
    · rintro ⟨h1, s, h2, h3⟩
      rcases List.mem_append.1 h2 with h2 | h2
      · exact .inl ⟨h1, s, h2, h3⟩
      · simp only [List.mem_singleton] at h2
        subst h2
        by_cases hlt : commonPrefix s (xs.getLast?.getD []) < q.length
        · exact .inr ⟨h3, hlt⟩
        · have hq : q <+: xs.getLast?.getD [] := by
            have := take_commonPrefix s (xs.getLast?.getD [])
            refine List.IsPrefix.trans ?_ this
            rw [List.prefix_iff_eq_take.1 h3]
            exact List.take_prefix_take_left (by omega)
          refine .inl ⟨h1, _, ?_, hq⟩
          cases hl : xs.getLast? with
          | none => rw [hl] at hq; simp at hq; exact absurd hq h1
          | some p => exact List.mem_of_getLast? hl

theorem Spec.Beginnings.length_eq {xs qs qs' : List Str} (h : Beginnings xs qs) (h' : Beginnings xs qs') :
    qs.length = qs'.length :=
  ((List.perm_ext_iff_of_nodup h.1 h'.1).2 fun q => by rw [h.2, h'.2]).length_eq

/-! ### Counting allocations -/

/-- `add` allocates a node for each beginning that is new. -/
theorem addTerm_count_eq {sgn : Bool} {addr : Nat → Nat} {fuel : Nat} {t : Str} {h h' : Heap} {d d' : SDawg}
    (e : addTerm sgn addr fuel t h d = .ok (true, h', d')) :
    h'.count = h.count + (newBeginnings d.prev t).length ∧ d'.prev = t := by
  rw [newBeginnings_length]
  unfold addTerm at e
  split at e
  · cases e
  split at e
  · next ht =>
    subst ht
    simp only [bind, Except.bind] at e
    split at e
    · cases e
    · next e1 => cases e; rw [setFinal_count e1]; simp
  · simp only [bind, Except.bind] at e
    split at e
    · cases e
    next v e1 =>
    obtain ⟨h1, d1⟩ := v
    split at e
    · cases e
    split at e
    · cases e
    next w e2 =>
    obtain ⟨b2, h2, d2⟩ := w
    split at e
    · cases e
    next h3 e3 =>
    cases e
    have := minimize_count e1
    have := pushSuffix_count e2
    have := setFinal_count e3
    have := List.length_drop (i := commonPrefix t d.prev) (l := t)
    simp only at *
    exact ⟨by omega, trivial⟩

theorem buildLoop_count_eq {sgn : Bool} {addr : Nat → Nat} {fuel : Nat} {xs rest qs : List Str} {h h' : Heap} {d d' : SDawg}
    (e : buildLoop sgn addr fuel rest h d = .ok (h', some d')) (hq : Beginnings xs qs) (hs : SortedTerms (xs ++ rest))
    (hp : d.prev = xs.getLast?.getD []) :
    ∃ qs', Beginnings (xs ++ rest) qs' ∧ h'.count + qs.length = h.count + qs'.length := by
  induction rest generalizing h d xs qs with
  | nil => cases e; exact ⟨qs, by simpa using hq, rfl⟩
  | cons t rest ih =>
    simp only [buildLoop, bind, Except.bind] at e
    split at e
    · cases e
    next v e1 =>
    obtain ⟨b, h1, d1⟩ := v
    simp only at e
    split at e
    · next hb =>
      subst hb
      obtain ⟨h2, h3⟩ := addTerm_count_eq e1
      have hs' : SortedTerms (xs ++ [t] ++ rest) := by simpa using hs
      have hq1 := hq.snoc (t := t) (List.Pairwise.sublist (List.sublist_append_left _ _) hs')
      obtain ⟨qs', h4, h5⟩ := ih e hq1 hs' (by rw [h3]; simp)
      refine ⟨qs', by simpa using h4, ?_⟩
      rw [hp] at h2
      simp only [List.length_append] at h5
      omega
    · split at e
      · cases e
      · cases e

/-! ### The nodes -/

theorem HeapOk.gained {addr : Nat → Nat} {c0 : Nat} {m0 : Mem} {h : Heap} (haddr : AddrOk addr)
    (hfresh : ∀ j, c0 ≤ j → m0 (addr j) = none) (hh : HeapOk addr c0 m0 h) :
    Gained m0 h.mem ((List.range' c0 (h.count - c0)).map addr) := by
  have hmem : ∀ a, a ∈ (List.range' c0 (h.count - c0)).map addr ↔ InRange addr c0 h a := by
    intro a
    have := hh.base
    simp only [List.mem_map, List.mem_range'_1, InRange]
    constructor
    · rintro ⟨j, h1, rfl⟩; exact ⟨j, by omega, by omega, rfl⟩
    · rintro ⟨j, h1, h2, rfl⟩; exact ⟨j, by omega, rfl⟩
  refine ⟨?_, fun a => ?_, fun a ha => ?_⟩
  · rw [List.Nodup, List.pairwise_map]
    exact List.Pairwise.imp (fun hij he => hij (haddr.2 _ _ he)) (List.nodup_range' (step := 1) (h := by omega))
  · rw [hmem]
    constructor
    · rintro ⟨j, h1, h2, rfl⟩; exact ⟨hfresh j h1, hh.live j h1 h2⟩
    · rintro ⟨h1, h2⟩
      refine Classical.byContradiction fun hn => h2 ?_
      rw [hh.old a fun j h3 h4 h5 => hn ⟨j, h3, h4, h5⟩]; exact h1
  · rw [hmem] at ha
    exact hh.old a fun j h3 h4 h5 => ha ⟨j, h3, h4, h5⟩

section
variable {sgn : Bool} {addr : Nat → Nat} {c0 : Nat} {m0 : Mem} {terms : List Str} {h : Heap} {d : SDawg}

theorem Finished.gained (haddr : AddrOk addr) (hfresh : ∀ j, c0 ≤ j → m0 (addr j) = none)
    (hf : Finished sgn addr c0 m0 terms h d) :
    ∃ L, Gained m0 h.mem L ∧ ∀ a, a ∈ L ↔ Reaches h.mem d.root a := by
  have hmem : ∀ a, a ∈ ((List.range' c0 (h.count - c0)).map addr).filter (fun a => (h.mem a).isSome) ↔
      Reaches h.mem d.root a := by
    intro a
    have := hf.count
    simp only [List.mem_filter, List.mem_map, List.mem_range'_1, Option.isSome_iff_ne_none]
    constructor
    · rintro ⟨⟨j, h1, rfl⟩, h2⟩; exact (hf.alive _ ⟨j, by omega, by omega, rfl⟩).1 h2
    · intro hr
      obtain ⟨j, h1, h2, rfl⟩ := hf.range a hr
      exact ⟨⟨j, by omega, rfl⟩, (hf.alive _ ⟨j, h1, h2, rfl⟩).2 hr⟩
  refine ⟨_, ⟨?_, fun a => ?_, fun a ha => ?_⟩, hmem⟩
  · refine List.Pairwise.filter _ ?_
    rw [List.pairwise_map]
    exact List.Pairwise.imp (fun hij he => hij (haddr.2 _ _ he)) (List.nodup_range' (step := 1) (h := by omega))
  · rw [hmem]
    constructor
    · intro hr
      have hi := hf.range a hr
      refine ⟨?_, (hf.alive a hi).2 hr⟩
      obtain ⟨j, h1, _, rfl⟩ := hi
      exact hfresh j h1
    · rintro ⟨h1, h2⟩
      by_cases hi : InRange addr c0 h a
      · exact (hf.alive a hi).1 h2
      · exact absurd ((hf.old a hi).trans h1) h2
  · rw [hmem] at ha
    by_cases hi : InRange addr c0 h a
    · obtain ⟨j, h1, h2, rfl⟩ := hi
      rw [hfresh j h1]
      exact Classical.byContradiction fun hn => ha ((hf.alive _ ⟨j, h1, h2, rfl⟩).1 hn)
    · exact hf.old a hi

/-- What makes terms of `p` is what the node accepts to which `p` leads. -/
theorem Finished.rest_iff (hf : Finished sgn addr c0 m0 terms h d) {p : Str} {b : Nat} (hl : Leads h.mem d.root p b) (u : Str) :
    Accepts h.mem b u ↔ p ++ u ∈ terms := by
  obtain ⟨_, _, _, _, _, _, hdn⟩ := hf.dict
  rw [← hf.accepts]
  constructor
  · exact fun ha => hl.accepts ha
  · intro ha
    obtain ⟨b', h1, h2⟩ := accepts_split ha
    rw [hl.unique hdn h1]; exact h2

/-- One node for each class of beginnings. -/
theorem Finished.classes (hf : Finished sgn addr c0 m0 terms h d) {L : List Nat} (hL : L.Nodup)
    (hm : ∀ a, a ∈ L ↔ Reaches h.mem d.root a) {R : List Str} (hR : Classes terms R) : L.length = R.length := by
  obtain ⟨h1, h2, h3⟩ := hR
  obtain ⟨_, _, _, _, _, _, hdn⟩ := hf.dict
  have hex : ∀ p, ∃ b, p ∈ R → Leads h.mem d.root p b := fun p => by
    by_cases hp : p ∈ R
    · obtain ⟨b, hb⟩ := (hf.leads_iff p).2 (h2 p hp)
      exact ⟨b, fun _ => hb⟩
    · exact ⟨0, fun h => absurd h hp⟩
  obtain ⟨v, hv⟩ := Classical.axiomOfChoice hex
  have hsame : ∀ {p q x y}, Leads h.mem d.root p x → Leads h.mem d.root q y → (SameRest terms p q ↔ x = y) := by
    intro p q x y hp hq
    constructor
    · intro hs
      refine hf.minimal x y hp.toReaches hq.toReaches fun u => ?_
      rw [hf.rest_iff hp, hf.rest_iff hq]; exact hs u
    · rintro rfl u
      rw [← hf.rest_iff hp, ← hf.rest_iff hq]
  have hn : (R.map v).Nodup := by
    rw [List.Nodup, List.pairwise_map]
    refine List.Pairwise.imp_of_mem ?_ h1
    intro p q hp hq hns he
    exact hns ((hsame (hv p hp) (hv q hq)).2 he)
  have hperm : L.Perm (R.map v) := (List.perm_ext_iff_of_nodup hL hn).2 fun a => by
    rw [hm, List.mem_map]
    constructor
    · intro hr
      obtain ⟨w, hw⟩ := Spec.Leads.of_reaches hr
      obtain ⟨q, hq, hs⟩ := h3 w ((hf.leads_iff w).1 ⟨a, hw⟩)
      exact ⟨q, hq, ((hsame hw (hv q hq)).1 hs).symm⟩
    · rintro ⟨p, hp, rfl⟩
      exact (hv p hp).toReaches
  rw [hperm.length_eq, List.length_map]

end

end Lev
