import Verif.Props.IterMem

/-!
# Property C110: iterators when their dictionary has been deleted

(src/liblevenshtein/collection/dawg_iterator.cpp 17-60, dawg.cpp 22-26, 59-65).  An iterator holds pointers to nodes of the dictionary, in
the prefixes that are pending.
-/

namespace Lev.Props

open Lev Spec

section
variable {sgn : Bool} {addr paddr : Nat → Nat} {h h' h'' : Heap} {ph : PHeap} {terms : List Str} {d : SDawg}

/-- The iterator after `k` increments: what is pending. -/
theorem iter_pending (ha : Allocator addr h) (hr : Ends (fun fuel => sortedDawg sgn addr fuel terms h) (h', some d))
    (hp : PAllocator paddr ph) (k : Nat) :
    ∃ ph1 it, Ends (fun fuel => dictIterAt h'.mem paddr fuel d.root k ph) (ph1, it) ∧
      PHeapOk paddr ph.count ph.mem ph1 it.prefixes ∧ it.index = k ∧
      (∀ x ∈ it.pending, ∃ p, ph1.mem x = some p ∧ Reaches h'.mem d.root p.node) ∧
      (it.pending = [] ↔ AtMost (k + 1) (· ∈ terms)) := by
  obtain ⟨_, hf⟩ := finished_of_run ha hr
  obtain ⟨nd, F, m, u, _, _, hd⟩ := hf.dict
  obtain ⟨_, hs, hal, hc⟩ := c81_dictionaries.1 ⟨_, hd⟩
  obtain ⟨ph1, it, _, h1, h2, _, h3, _⟩ := dictIterAt_spec hp m u k
  have hout := dictIterAt_any hs hp (itemsWt [rootItem nd F] + F.height + 1) k
  rw [h1 _ (by omega)] at hout
  have hnil : ∀ {V T : List Str}, Bfs sgn h'.mem d.root V T [] → T.length ≤ k + 1 → AtMost (k + 1) (· ∈ terms) := by
    intro V T g hT L hL hin
    refine Nat.le_trans (hL.length_le_of_subset fun t ht => ?_) hT
    obtain ⟨b, hl⟩ := accepts_leads ((hf.accepts t).2 (hin t ht))
    rcases g.cover t b hl with hv | ⟨x, hx, _⟩
    · exact (g.final t hv).2 ((hf.accepts t).2 (hin t ht))
    · cases hx
  refine ⟨ph1, it, ⟨itemsWt [rootItem nd F] + F.height + 1, fun fuel hf => h1 fuel (by omega)⟩, h2, h3, ?_⟩
  cases hout with
  | @found V T p Q _ _ g1 g2 g3 g4 =>
    constructor
    · intro x hx
      have : ∀ {l : List Nat} {Q : List (Str × Nat)}, AllPairs (WRel ph1.mem) l Q → (∀ y ∈ Q, Leads h'.mem d.root y.1 y.2) → x ∈ l →
          ∃ p, ph1.mem x = some p ∧ Reaches h'.mem d.root p.node := by
        intro l Q hl hQ hx
        induction hl with
        | nil => cases hx
        | cons hw _ ih =>
          rcases List.mem_cons.1 hx with rfl | hx
          · obtain ⟨p, h4, h5, _⟩ := hw
            exact ⟨p, h4, by rw [h5]; exact (hQ _ (by simp)).toReaches⟩
          · exact ih (fun y hy => hQ y (by simp [hy])) hx
      exact this g4 g1.leads hx
    · rw [AllPairs.nil_iff g4]
      constructor
      · rintro rfl
        exact hnil g1 (by simp [g2])
      · intro hk
        cases Q with
        | nil => rfl
        | cons x Q =>
          exfalso
          have hafter : ∀ v ∈ V ++ [p], shortLex sgn v x.1 := fun v hv =>
            (List.pairwise_append.1 g1.sorted).2.2 v hv x.1 (by simp)
          obtain ⟨t, ht, hx⟩ : ∃ t ∈ terms, x.1 <+: t := by
            rcases (hf.leads_iff x.1).1 ⟨_, g1.leads x (by simp)⟩ with h4 | h4
            · have h5 := hafter p (by simp)
              rw [h4] at h5
              rcases shortLex_prefix (sgn := sgn) (List.nil_prefix (l := p)) with h6 | h6
              · rw [← h6] at h5; exact absurd h5 shortLex_irrefl
              · exact absurd h5 (shortLex_asymm h6)
            · exact h4
          have hnot : t ∉ T ++ [p] := by
            intro hin
            have h5 := hafter t (g1.terms.subset hin)
            rcases shortLex_prefix (sgn := sgn) hx with h6 | h6
            · rw [h6] at h5; exact shortLex_irrefl h5
            · exact shortLex_asymm h6 h5
          have := hk (t :: (T ++ [p])) (List.nodup_cons.2 ⟨hnot, nodup_of_shortLex g1.firstTerms.1⟩) fun v hv => by
            rcases List.mem_cons.1 hv with rfl | hv
            · exact ht
            · exact (hf.accepts v).1 (g1.firstTerms.2.1 v hv)
          simp at this
          omega
  | none g1 g2 g3 g4 =>
    exact ⟨fun x hx => (by rw [g4] at hx; cases hx), ⟨fun _ => hnil g1 (by omega), fun _ => g4⟩⟩

/-- C110: a dictionary was built from `terms` and deleted while there is an iterator over it that was incremented `k` times.
Incrementing it once more is undefined behaviour if there are more than `k + 1` different terms, and else changes its index only,
whatever the memory holds.  It can be destroyed either way. -/
theorem c110_increment (ha : Allocator addr h) (hr : Ends (fun fuel => sortedDawg sgn addr fuel terms h) (h', some d))
    (hp : PAllocator paddr ph) (hdel : Ends (fun fuel => destroyDawg fuel h' d) h'') (k : Nat) :
    ∃ ph1 it, Ends (fun fuel => dictIterAt h'.mem paddr fuel d.root k ph) (ph1, it) ∧ it.index = k ∧
      (¬ AtMost (k + 1) (· ∈ terms) → ∀ fuel, iterNext h''.mem paddr (fuel + 1) ph1 it = .error .ub) ∧
      (AtMost (k + 1) (· ∈ terms) → ∀ mem fuel, iterNext mem paddr fuel ph1 it = .ok (ph1, { it with index := k + 1 })) ∧
      ∃ ph2, iterDestroy ph1 it = .ok ph2 ∧ ∀ a, ph2.mem a = ph.mem a := by
  obtain ⟨ph1, it, h1, h2, h3, h4, h5⟩ := iter_pending ha hr hp k
  refine ⟨ph1, it, h1, h3, fun hk fuel => ?_, fun hk mem fuel => ?_, h2.destroy hp.fresh⟩
  · rw [← h5] at hk
    obtain ⟨_, hf⟩ := finished_of_run ha hr
    obtain ⟨h2', g1, g2⟩ := hf.destroy ha.fresh
    obtain rfl := g1.unique hdel
    cases hpend : it.pending with
    | nil => exact absurd hpend hk
    | cons x rest =>
      obtain ⟨p, h6, h7⟩ := h4 x (by simp [hpend])
      obtain ⟨j, h8, _, h9⟩ := hf.range _ h7
      have hgone : h2'.mem p.node = none := by rw [g2, h9]; exact ha.fresh j h8
      simp [iterNext, iterAdvance, hpend, iterLoop, h6, deref, hgone, bind, Except.bind]
  · rw [← h5] at hk
    simp only [iterNext, iterAdvance, hk, if_true, bind, Except.bind, h3]

/-- What an iterator shows when no terms are left. -/
theorem iter_last (ha : Allocator addr h) (hr : Ends (fun fuel => sortedDawg sgn addr fuel terms h) (h', some d))
    (hp : PAllocator paddr ph) {k : Nat} (hne : terms ≠ []) (hk : AtMost (k + 1) (· ∈ terms)) {ph1 : PHeap} {it : DIter}
    (hi : Ends (fun fuel => dictIterAt h'.mem paddr fuel d.root k ph) (ph1, it)) :
    it.value ∈ terms ∧ ∀ t ∈ terms, t = it.value ∨ shortLex sgn t it.value := by
  obtain ⟨_, hf⟩ := finished_of_run ha hr
  obtain ⟨nd, F, m, u, _, hs, _⟩ := hf.dict
  obtain ⟨ph2, it2, _, h1, _, _, _, _, _, _, _, hv⟩ := dictIterAt_spec hp m u k
  have he : Ends (fun fuel => dictIterAt h'.mem paddr fuel d.root k ph) (ph2, it2) :=
    ⟨itemsWt [rootItem nd F] + F.height + 1, fun fuel hf => h1 fuel (by omega)⟩
  cases he.unique hi
  have hmem : ∀ t, t ∈ finals [rootItem nd F] ↔ t ∈ terms := fun t => by rw [finals_mem m u, hf.accepts]
  have hord : (finals [rootItem nd F]).Pairwise (shortLex sgn) := finals_order hs
  have hlen := hk _ (nodup_of_shortLex hord) fun t ht => (hmem t).1 ht
  revert hv hmem hord hlen
  generalize finals [rootItem nd F] = l
  intro hv hmem hord hlen
  have hl : l ≠ [] := by
    rintro rfl
    cases terms with
    | nil => exact hne rfl
    | cons t _ => exact absurd ((hmem t).2 (by simp)) (by simp)
  have hlast : it.value = l.getLast hl := by
    rw [hv]
    by_cases hkl : k < l.length
    · have : k = l.length - 1 := by omega
      subst this
      rw [← List.getLast?_eq_getElem?, List.getLast?_eq_some_getLast hl]; rfl
    · rw [List.getElem?_eq_none (by omega), List.getLast?_eq_some_getLast hl]; rfl
  refine ⟨(hmem _).1 (by rw [hlast]; exact List.getLast_mem hl), fun t ht => ?_⟩
  have ht := (hmem t).2 ht
  rw [hlast]
  have hsplit := (List.dropLast_concat_getLast hl).symm
  rw [hsplit] at ht hord
  rcases List.mem_append.1 ht with ht | ht
  · exact .inr ((List.pairwise_append.1 hord).2.2 t ht _ (by simp))
  · exact .inl (List.mem_singleton.1 ht)

/-- C110: a range-for over a dictionary whose body deletes it when the iterator has been incremented `k` times: what follows is
undefined behaviour if there are more than `k + 1` different terms, and else shows the last one as often as is due. -/
theorem c110_range (ha : Allocator addr h) (hr : Ends (fun fuel => sortedDawg sgn addr fuel terms h) (h', some d))
    (hp : PAllocator paddr ph) (hdel : Ends (fun fuel => destroyDawg fuel h' d) h'') {k : Nat} (hk : k < terms.length) :
    ∃ ph1 it, Ends (fun fuel => dictIterAt h'.mem paddr fuel d.root k ph) (ph1, it) ∧
      (¬ AtMost (k + 1) (· ∈ terms) → ∀ fuel, rangeLoop h''.mem paddr (fuel + 1) (fuel + 1) ph1 it (iterEnd d.size) = .error .ub) ∧
      (AtMost (k + 1) (· ∈ terms) → Ends (fun fuel => rangeLoop h''.mem paddr fuel fuel ph1 it (iterEnd d.size))
        (List.replicate (terms.length - k) it.value, ph1, { it with index := terms.length }) ∧
        it.value ∈ terms ∧ ∀ t ∈ terms, t = it.value ∨ shortLex sgn t it.value) := by
  obtain ⟨_, hf⟩ := finished_of_run ha hr
  obtain ⟨ph1, it, h1, h2, h3, h4, _⟩ := c110_increment ha hr hp hdel k
  refine ⟨ph1, it, h1, fun hm fuel => ?_, fun hm => ⟨?_, iter_last ha hr hp (fun h => by simp [h] at hk) hm h1⟩⟩
  · have hne : (k == terms.length) = false := by simp; omega
    simp [rangeLoop, iterEq, iterEnd, hf.size, h2, hne, h3 hm fuel, bind, Except.bind]
  · obtain ⟨ph1', it', g1, _, _, _, g5⟩ := iter_pending ha hr hp k
    cases g1.unique h1
    have hpe := g5.2 hm
    have : ∀ n j steps fuel, n ≤ steps → j + n = terms.length → n < steps →
        rangeLoop h''.mem paddr fuel steps ph1 { it with index := j } (iterEnd d.size) =
          .ok (List.replicate n it.value, ph1, { it with index := terms.length }) := by
      intro n
      induction n with
      | zero =>
        intro j steps fuel _ hj hs
        obtain ⟨s, rfl⟩ : ∃ s, steps = s + 1 := ⟨steps - 1, by omega⟩
        obtain rfl : j = terms.length := by omega
        simp [rangeLoop, iterEq, iterEnd, hf.size]
      | succ n ih =>
        intro j steps fuel _ hj hs
        obtain ⟨s, rfl⟩ : ∃ s, steps = s + 1 := ⟨steps - 1, by omega⟩
        have hne : (j == terms.length) = false := by simp; omega
        have hnext : iterNext h''.mem paddr fuel ph1 { it with index := j } = .ok (ph1, { it with index := j + 1 }) := by
          simp only [iterNext, iterAdvance, hpe, if_true, bind, Except.bind]
        simp only [rangeLoop, iterEq, iterEnd, hf.size, hne, Bool.false_eq_true, if_false, bind, Except.bind, hnext]
        have := ih (j + 1) s fuel (by omega) (by omega) (by omega)
        simp only [iterEnd, hf.size] at this
        rw [this]
        rfl
    refine ⟨terms.length - k + 1, fun fuel hf' => ?_⟩
    have := this (terms.length - k) k fuel fuel (by omega) (by omega) (by omega)
    rwa [show ({ it with index := k } : DIter) = it by rw [← h2]] at this

end

/-! ### Addresses handed out again -/

/-- An iterator over `a`, `b`, at `a`; the dictionary is deleted and one with `xy` is built where it was.  The next `++` gives the
string it arrives at. -/
def exReused (again : List Str) : Except Err (Str × Str) := do
  let (h, r) ← sortedDawg true (fun k => k + 1) 100 [[97], [98]] exHeap
  match r with
  | none => .error .ub
  | some d => do
    let (ph, it) ← dictIterAt h.mem (fun k => k + 1) 100 d.root 0 ⟨fun _ => none, 0⟩
    let h ← destroyDawg 100 h d
    let (h, _) ← sortedDawg true (fun k => k + 1 - h.count) 100 again h
    let (_, it') ← iterNext h.mem (fun k => k + 1) 100 ph it
    .ok (it.value, it'.value)

/-- C110, FALSE: an iterator whose dictionary is gone shows a term or is undefined.  It shows `by`, which no dictionary ever had. -/
theorem c110_reused : exReused [[120, 121]] = .ok ([97], [98, 121]) := by decide +kernel

/-! ### Examples -/

/-- Two terms, one increment left: undefined; one term: harmless. -/
example : ¬ AtMost (0 + 1) (· ∈ ([[97], [98]] : List Str)) ∧ AtMost (1 + 1) (· ∈ ([[97], [98]] : List Str)) := by
  constructor
  · intro h
    have := h [[97], [98]] (by decide) (fun t ht => ht)
    simp at this
  · intro L hL h
    exact hL.length_le_of_subset (l₂ := [[97], [98]]) h

end Lev.Props
