import Verif.Proofs.BuildMem
import Verif.Props.Dawg

/-!
# C95: memory while a dictionary is built
-/

namespace Lev.Props

open Spec

/-! ### Nodes -/

/-- C95: the calls of `sorted_dawg` on sorted terms, one after the other.  When the terms have been added, and when `finish`
has been called, there is one node for each non-empty beginning of a term, and the root; as many were allocated, so none
has been deleted.  The nodes that `minimize` found to be superfluous are deleted by `clean_up` only, which leaves one node
for each class of beginnings that the same strings make terms of.  (Each list of terms that begins a sorted list is
sorted, so this also says how many nodes there are after each `add`.) -/
theorem c95_nodes (sgn : Bool) {addr : Nat → Nat} {h : Heap} (ha : Allocator addr h) {terms : List Str}
    (hs : SortedTerms terms) :
    ∃ h1 d1 h2 d2 h3 d3 L1 L2 L3,
      Ends (fun fuel => buildLoop sgn addr fuel terms (newDawg addr h).1 (initDawg (newDawg addr h).2)) (h1, some d1) ∧
      Ends (fun fuel => finishDawg sgn fuel h1 d1) (h2, d2) ∧
      Ends (fun fuel => cleanUp fuel h2 d2) (h3, d3) ∧
      Ends (fun fuel => sortedDawg sgn addr fuel terms h) (h3, some d3) ∧
      Gained h.mem h1.mem L1 ∧ Gained h.mem h2.mem L2 ∧ Gained h.mem h3.mem L3 ∧
      (∀ qs, Beginnings terms qs → L1.length = qs.length + 1 ∧ L2.length = qs.length + 1 ∧
        h3.count = h.count + (qs.length + 1)) ∧
      ∀ R, Classes terms R → L3.length = R.length := by
  have haddr : AddrOk addr := ⟨ha.nonnull, ha.inj⟩
  have hnew := newDawg_built (sgn := sgn) haddr ha.null ha.fresh
  obtain ⟨h1, d1, hrun1, hb1⟩ := buildLoop_asc haddr terms hnew ((asc_nil_iff _).2 hs)
  obtain ⟨h2, d2, h3, d3, hrun2, hrun3, hfin⟩ := finish_spec haddr hb1
  simp only [List.nil_append] at hfin hb1
  obtain ⟨L3, hg3, hm3⟩ := hfin.gained haddr ha.fresh
  have hcount2 : h2.count = h1.count := by
    obtain ⟨N, hN⟩ := hrun2
    exact minimize_count (hN N (Nat.le_refl _))
  have hcount3 : h3.count = h2.count := by
    obtain ⟨N, hN⟩ := hrun3
    exact cleanUp_count (hN N (Nat.le_refl _))
  have hheap1 : HeapOk addr h.count h.mem h1 := by
    obtain ⟨⟨_, _, _, _, _, hc, _⟩, _⟩ := hb1
    exact hc.heap
  have hheap2 : HeapOk addr h.count h.mem h2 := by
    obtain ⟨⟨reg, st, fl, fs, rf, hc, hpath, hnil, hfin, hlang⟩, _⟩ := hb1
    have hlen := hc.stack.length
    obtain ⟨h2', d2', _, _, _, _, hr, hc2, _⟩ :=
      minimizeLoop_spec haddr st.length hc (by omega) (fun hpos => .inl (hfin (by
        rintro rfl
        simp at hlen
        omega)))
    have hr' : Ends (fun fuel => finishDawg sgn fuel h1 d1) (h2', d2') := hr.congr fun n => by
      simp only [finishDawg, minimize, hc.unchecked, Nat.sub_zero]
    cases hrun2.unique hr'
    exact hc2.heap
  have hcount1 : ∀ qs, Beginnings terms qs → h1.count = h.count + (qs.length + 1) := by
    intro qs hq
    obtain ⟨N, hN⟩ := hrun1
    obtain ⟨qs', h4, h5⟩ := buildLoop_count_eq (xs := []) (qs := []) (hN N (Nat.le_refl _)) ⟨List.nodup_nil, by simp⟩
      (by simpa using hs) rfl
    have := hq.length_eq (by simpa using h4)
    simp only [newDawg, newNode, List.length_nil] at h5
    omega
  refine ⟨h1, d1, h2, d2, h3, d3, _, _, L3, hrun1, hrun2, hrun3, ?_, hheap1.gained haddr ha.fresh,
    hheap2.gained haddr ha.fresh, hg3, fun qs hq => ?_, fun R hR => hfin.classes hg3.1 hm3 hR⟩
  · obtain ⟨N1, hN1⟩ := hrun1
    obtain ⟨N2, hN2⟩ := hrun2
    obtain ⟨N3, hN3⟩ := hrun3
    refine ⟨max N1 (max N2 N3), fun fuel hf => ?_⟩
    simp only [sortedDawg, bind, Except.bind, hN1 fuel (by omega), hN2 fuel (by omega), hN3 fuel (by omega)]
  · have := hcount1 qs hq
    simp only [List.length_map, List.length_range']
    omega

/-- The beginnings of the terms can be listed, and so can their classes: what C95 says about such lists is not empty. -/
theorem beginnings_exist {terms : List Str} (hs : SortedTerms terms) : ∃ qs, Beginnings terms qs := by
  obtain ⟨h1, d1, h2, d2, h3, d3, L1, L2, L3, ⟨N, hN⟩, _⟩ := c95_nodes true exAllocator hs
  obtain ⟨qs, h4, _⟩ := buildLoop_count_eq (xs := []) (qs := []) (hN N (Nat.le_refl _)) ⟨List.nodup_nil, by simp⟩
    (by simpa using hs) rfl
  exact ⟨qs, by simpa using h4⟩

theorem classes_exist {terms : List Str} (hs : SortedTerms terms) : ∃ R, Classes terms R := by
  obtain ⟨qs, hq⟩ := beginnings_exist hs
  have key : ∀ l : List Str, ∃ R : List Str, R.Pairwise (fun p q => ¬ SameRest terms p q) ∧ (∀ p ∈ R, p ∈ l) ∧
      ∀ p ∈ l, ∃ q ∈ R, SameRest terms p q := by
    intro l
    induction l with
    | nil => exact ⟨[], by simp⟩
    | cons p l ih =>
      obtain ⟨R, h1, h2, h3⟩ := ih
      by_cases hp : ∃ q ∈ R, SameRest terms p q
      · refine ⟨R, h1, fun x hx => by simp [h2 x hx], fun x hx => ?_⟩
        rcases List.mem_cons.1 hx with rfl | hx
        · exact hp
        · exact h3 x hx
      · refine ⟨p :: R, List.pairwise_cons.2 ⟨fun q hq hs => hp ⟨q, hq, hs⟩, h1⟩, ?_, ?_⟩
        · intro x hx
          rcases List.mem_cons.1 hx with rfl | hx
          · simp
          · simp [h2 x hx]
        · intro x hx
          rcases List.mem_cons.1 hx with rfl | hx
          · exact ⟨x, by simp, fun _ => Iff.rfl⟩
          · obtain ⟨q, hq, h4⟩ := h3 x hx
            exact ⟨q, by simp [hq], h4⟩
  obtain ⟨R, h1, h2, h3⟩ := key ([] :: qs)
  refine ⟨R, h1, fun p hp => ?_, fun p hp => h3 p ?_⟩
  · rcases List.mem_cons.1 (h2 p hp) with rfl | h
    · exact .inl rfl
    · exact .inr ((hq.2 p).1 h).2
  · by_cases hpe : p = []
    · simp [hpe]
    · exact List.mem_cons.2 (.inr ((hq.2 p).2 ⟨hpe, hp.resolve_left hpe⟩))

/-! ### How much is wasted -/

/-- All strings of `n` letters `a` and `b`. -/
def abWords : Nat → List Str
  | 0 => [[]]
  | n + 1 => (abWords n).map (97 :: ·) ++ (abWords n).map (98 :: ·)

theorem mem_abWords (n : Nat) (t : Str) : t ∈ abWords n ↔ t.length = n ∧ ∀ c ∈ t, c = 97 ∨ c = 98 := by
  induction n generalizing t with
  | zero =>
    simp only [abWords, List.mem_singleton, List.length_eq_zero_iff]
    constructor
    · rintro rfl; simp
    · exact fun h => h.1
  | succ n ih =>
    simp only [abWords, List.mem_append, List.mem_map, ih]
    constructor
    · rintro (⟨u, ⟨h1, h2⟩, rfl⟩ | ⟨u, ⟨h1, h2⟩, rfl⟩)
      · exact ⟨by simp [h1], by simpa using h2⟩
      · exact ⟨by simp [h1], by simpa using h2⟩
    · rintro ⟨h1, h2⟩
      cases t with
      | nil => simp at h1
      | cons c u =>
        simp only [List.length_cons, Nat.add_right_cancel_iff] at h1
        simp only [List.forall_mem_cons] at h2
        rcases h2.1 with rfl | rfl
        · exact .inl ⟨u, ⟨h1, h2.2⟩, rfl⟩
        · exact .inr ⟨u, ⟨h1, h2.2⟩, rfl⟩

theorem abWords_length (n : Nat) : (abWords n).length = 2 ^ n := by
  induction n with
  | zero => rfl
  | succ n ih => simp [abWords, ih, Nat.pow_succ]; omega

theorem abWords_nodup (n : Nat) : (abWords n).Nodup := by
  induction n with
  | zero => simp [abWords]
  | succ n ih =>
    have hm : ∀ c : UInt8, ((abWords n).map (c :: ·)).Nodup := fun c => by
      rw [List.Nodup, List.pairwise_map]
      exact List.Pairwise.imp (fun h he => h (List.cons.inj he).2) ih
    refine List.nodup_append.2 ⟨hm 97, hm 98, ?_⟩
    rintro _ h1 _ h2 rfl
    obtain ⟨u, _, rfl⟩ := List.mem_map.1 h1
    obtain ⟨v, _, h⟩ := List.mem_map.1 h2
    cases h

theorem abWords_sorted (n : Nat) : SortedTerms (abWords n) := by
  induction n with
  | zero => simp [abWords, SortedTerms]
  | succ n ih =>
    have hm : ∀ c : UInt8, SortedTerms ((abWords n).map (c :: ·)) := fun c => by
      rw [SortedTerms, List.pairwise_map]
      refine List.Pairwise.imp (fun h he => h ?_) ih
      cases he with
      | cons h => exact h
      | rel h => exact absurd h (Nat.lt_irrefl _)
    refine List.pairwise_append.2 ⟨hm 97, hm 98, ?_⟩
    intro x hx y hy hlt
    obtain ⟨u, _, rfl⟩ := List.mem_map.1 hx
    obtain ⟨v, _, rfl⟩ := List.mem_map.1 hy
    cases hlt with
    | rel h => simp at h

/-- The strings of 1 to `n` letters. -/
def abUpTo : Nat → List Str
  | 0 => []
  | n + 1 => abUpTo n ++ abWords (n + 1)

theorem mem_abUpTo (n : Nat) (t : Str) : t ∈ abUpTo n ↔ (0 < t.length ∧ t.length ≤ n) ∧ ∀ c ∈ t, c = 97 ∨ c = 98 := by
  induction n with
  | zero => simp only [abUpTo, List.not_mem_nil, false_iff]; rintro ⟨h, _⟩; omega
  | succ n ih =>
    simp only [abUpTo, List.mem_append, ih, mem_abWords]
    constructor
    · rintro (⟨h1, h2⟩ | ⟨h1, h2⟩)
      · exact ⟨by omega, h2⟩
      · exact ⟨by omega, h2⟩
    · rintro ⟨h1, h2⟩
      by_cases h : t.length = n + 1
      · exact .inr ⟨h, h2⟩
      · exact .inl ⟨by omega, h2⟩

theorem abUpTo_length (n : Nat) : (abUpTo n).length + 2 = 2 ^ (n + 1) := by
  induction n with
  | zero => rfl
  | succ n ih => rw [abUpTo, List.length_append, abWords_length, Nat.pow_succ 2 (n + 1)]; omega

theorem abUpTo_beginnings (n : Nat) : Beginnings (abWords n) (abUpTo n) := by
  refine ⟨?_, fun q => ?_⟩
  · have : ∀ m, (abUpTo m).Nodup := by
      intro m
      induction m with
      | zero => simp [abUpTo]
      | succ m ih =>
        refine List.nodup_append.2 ⟨ih, abWords_nodup _, ?_⟩
        rintro x hx _ hy rfl
        have h1 := ((mem_abUpTo _ _).1 hx).1
        have h2 := ((mem_abWords _ _).1 hy).1
        omega
    exact this n
  · rw [mem_abUpTo]
    constructor
    · rintro ⟨h1, h2⟩
      refine ⟨by rintro rfl; simp at h1, q ++ List.replicate (n - q.length) 97, (mem_abWords _ _).2 ⟨by simp; omega, ?_⟩,
        List.prefix_append _ _⟩
      intro c hc
      rcases List.mem_append.1 hc with h | h
      · exact h2 c h
      · exact .inl (List.eq_of_mem_replicate h)
    · rintro ⟨h1, t, ht, hp⟩
      obtain ⟨h3, h4⟩ := (mem_abWords _ _).1 ht
      have := hp.length_le
      exact ⟨⟨List.length_pos_iff.2 h1, by omega⟩, fun c hc => h4 c (hp.subset hc)⟩

theorem ab_classes (n : Nat) : Classes (abWords n) ((List.range (n + 1)).map fun i => List.replicate i 97) := by
  have hrep : ∀ i, ∀ c ∈ List.replicate i (97 : UInt8), c = 97 ∨ c = 98 := fun i c hc => .inl (List.eq_of_mem_replicate hc)
  refine ⟨?_, ?_, ?_⟩
  · rw [List.pairwise_map]
    refine List.Pairwise.imp_of_mem ?_ List.pairwise_lt_range
    intro i j hi hj hij hs
    rw [List.mem_range] at hi hj
    have := (hs (List.replicate (n - i) 97)).1 ((mem_abWords _ _).2 ⟨by simp; omega, by
      intro c hc
      rcases List.mem_append.1 hc with h | h
      · exact hrep _ c h
      · exact hrep _ c h⟩)
    have := ((mem_abWords _ _).1 this).1
    simp at this
    omega
  · intro p hp
    obtain ⟨i, hi, rfl⟩ := List.mem_map.1 hp
    rw [List.mem_range] at hi
    refine .inr ⟨List.replicate n 97, (mem_abWords _ _).2 ⟨by simp, hrep n⟩, ?_⟩
    exact ⟨List.replicate (n - i) 97, by rw [List.replicate_append_replicate]; congr 1; omega⟩
  · intro p hp
    have hp' : p.length ≤ n ∧ ∀ c ∈ p, c = 97 ∨ c = 98 := by
      rcases hp with rfl | ⟨t, ht, hpt⟩
      · simp
      · obtain ⟨h3, h4⟩ := (mem_abWords _ _).1 ht
        have := hpt.length_le
        exact ⟨by omega, fun c hc => h4 c (hpt.subset hc)⟩
    refine ⟨List.replicate p.length 97, List.mem_map.2 ⟨p.length, List.mem_range.2 (by omega), rfl⟩, fun u => ?_⟩
    rw [mem_abWords, mem_abWords]
    simp only [List.length_append, List.length_replicate, List.forall_mem_append]
    constructor
    · rintro ⟨h1, _, h2⟩; exact ⟨h1, hrep _, h2⟩
    · rintro ⟨h1, _, h2⟩; exact ⟨h1, hp'.2, h2⟩

/-- C95: to make the dictionary of all strings of `n` letters `a` and `b`, which has `n + 1` nodes, `2 ^ (n + 1) - 1` nodes
are in memory at the same time. -/
theorem c95_waste (sgn : Bool) {addr : Nat → Nat} {h : Heap} (ha : Allocator addr h) (n : Nat) :
    ∃ h2 d2 h3 d3 L2 L3,
      Ends (fun fuel => do
        let (h, r) ← buildLoop sgn addr fuel (abWords n) (newDawg addr h).1 (initDawg (newDawg addr h).2)
        match r with
        | some d => finishDawg sgn fuel h d
        | none => .error .ub) (h2, d2) ∧
      Ends (fun fuel => cleanUp fuel h2 d2) (h3, d3) ∧ Ends (fun fuel => sortedDawg sgn addr fuel (abWords n) h) (h3, some d3) ∧
      Gained h.mem h2.mem L2 ∧ Gained h.mem h3.mem L3 ∧ L2.length + 1 = 2 ^ (n + 1) ∧ L3.length = n + 1 := by
  obtain ⟨h1, d1, h2, d2, h3, d3, L1, L2, L3, ⟨N1, hN1⟩, ⟨N2, hN2⟩, g3, g4, _, g6, g7, g8, g9⟩ :=
    c95_nodes sgn ha (abWords_sorted n)
  refine ⟨h2, d2, h3, d3, L2, L3, ⟨max N1 N2, fun fuel hf => ?_⟩, g3, g4, g6, g7, ?_, ?_⟩
  · simp only [bind, Except.bind, hN1 fuel (by omega), hN2 fuel (by omega)]
  · have := (g8 _ (abUpTo_beginnings n)).2.1
    have := abUpTo_length n
    omega
  · simpa using g9 _ (ab_classes n)

/-- How many of the first 40 addresses are alive before `clean_up` and after it. -/
def exAlive (terms : List Str) : Except Err (Nat × Nat) := do
  let (h, r) ← buildLoop true (fun k => k + 1) 100 terms (newDawg (fun k => k + 1) exHeap).1
    (initDawg (newDawg (fun k => k + 1) exHeap).2)
  match r with
  | none => .error .ub
  | some d => do
      let (h, d) ← finishDawg true 100 h d
      let (h', _) ← cleanUp 100 h d
      .ok (((List.range 40).filter (fun a => (h.mem a).isSome)).length, ((List.range 40).filter (fun a => (h'.mem a).isSome)).length)

example : exAlive (abWords 4) = .ok (31, 5) := by decide +kernel

example : exAlive [[97, 98], [98], [99, 98]] = .ok (6, 3) := by decide +kernel

end Lev.Props
