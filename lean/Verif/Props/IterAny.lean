import Verif.Proofs.IterAny

/-!
# Property C86: iterating over any graph

C18 is about dictionaries.  Here the graph may have cycles, and edges to places where there is no node, as graphs from foreign
files may (C75).  `dictIterAt … k` is `dawg.begin()` followed by `k` times `++`; `rangeFor … size` is the range-for over a
dictionary that claims to have `size` terms.  The last increment of a range-for looks for one more term than it yields.
-/

namespace Lev.Props

open Lev Spec

section
variable {sgn : Bool} {mem : Mem} {root : Nat} {paddr : Nat → Nat} {ph : PHeap}

/-! ### The iterator -/

/-- C86: after `k` increments the iterator is at the `k`-th term, counted from 0, if no string before it leads to a missing
node; it does not matter whether there are cycles. -/
theorem c86_reached (hs : EdgesSorted sgn mem root) (ha : PAllocator paddr ph) {L : List Str} {w : Str}
    (hF : FirstTerms sgn mem root (L ++ [w])) (hn : ∀ v, LeadsNowhere mem root v → ¬ shortLex sgn v w) :
    ∃ ph' it, Ends (fun fuel => dictIterAt mem paddr fuel root L.length ph) (ph', it) ∧ it.value = w ∧
      it.index = L.length ∧ ∃ ph'', iterDestroy ph' it = .ok ph'' ∧ ∀ a, ph''.mem a = ph.mem a := by
  obtain ⟨h', it, h1, h2, h3, h4⟩ := (dictIterAt_any hs ha ((allWords w.length).length + 1) L.length).reached hs hF rfl hn
    (by omega)
  exact ⟨h', it, ⟨_, fun fuel hf => dictIterAt_more hf h1⟩, h3, h2, h4.destroy ha.fresh⟩

/-- C86: if a string leads to a missing node and at most `k` terms come before it, then the first `k` increments contain
undefined behaviour. -/
theorem c86_undefined (hs : EdgesSorted sgn mem root) (ha : PAllocator paddr ph) {k : Nat} {v : Str}
    (hv : LeadsNowhere mem root v) (hk : AtMost k fun t => Accepts mem root t ∧ shortLex sgn t v) :
    ∃ N, ∀ fuel, N ≤ fuel → dictIterAt mem paddr fuel root k ph = .error .ub :=
  ⟨(allWords v.length).length + 1, fun fuel hf => (dictIterAt_any hs ha fuel k).fallen hs hv hk (by omega)⟩

/-- C86: with a cycle, no missing node and at most `k` terms, the first `k` increments never come to an end. -/
theorem c86_endless (hs : EdgesSorted sgn mem root) (ha : PAllocator paddr ph) {k : Nat} (hl : AllAlive mem root)
    (hc : HasCycle mem root) (hk : AtMost k (Accepts mem root)) (fuel : Nat) :
    dictIterAt mem paddr fuel root k ph = .error .diverge :=
  (dictIterAt_any hs ha fuel k).lost hl hc hk

/-- C86: which of these happens.  The fourth case is that of dictionaries. -/
theorem c86_cases (hs : EdgesSorted sgn mem root) (k : Nat) :
    (∃ L w, L.length = k ∧ FirstTerms sgn mem root (L ++ [w]) ∧ ∀ v, LeadsNowhere mem root v → ¬ shortLex sgn v w) ∨
    (∃ v, LeadsNowhere mem root v ∧ AtMost k fun t => Accepts mem root t ∧ shortLex sgn t v) ∨
    (AllAlive mem root ∧ HasCycle mem root ∧ AtMost k (Accepts mem root)) ∨
    (AllAlive mem root ∧ ¬ HasCycle mem root ∧ AtMost k (Accepts mem root)) := by
  have ha : PAllocator (fun k => k + 1) { mem := fun _ => none, count := 0 } := ⟨by simp, by simp, rfl, fun _ _ => rfl⟩
  have hout := fun fuel => dictIterAt_any hs ha fuel k
  by_cases hd : ∀ fuel, dictIterAt mem (fun k => k + 1) fuel root k { mem := fun _ => none, count := 0 } = .error .diverge
  · have hstate : ∀ fuel, ∃ V T Q, Bfs sgn mem root V T Q ∧ T.length ≤ k ∧ fuel ≤ V.length := by
      intro fuel
      have := hout fuel
      rw [hd fuel] at this
      cases this with
      | loops g1 g2 g3 g4 => exact ⟨_, _, _, g1, g2, g4⟩
    have hl : AllAlive mem root := by
      intro a hra hm
      obtain ⟨v, hv⟩ := Spec.Leads.of_reaches hra
      obtain ⟨V, T, Q, g1, _, g3⟩ := hstate ((allWords v.length).length + 1)
      by_cases hvV : v ∈ V
      · obtain ⟨b, nd, h1, h2⟩ := g1.seen v hvV
        rw [← leads_one hs hv h1, hm] at h2
        cases h2
      · exact absurd (g1.bounded hv hvV) (by omega)
    have hk : AtMost k (Accepts mem root) := by
      intro L hL hacc
      obtain ⟨V, T, Q, g1, g2, g3⟩ := hstate ((L.map fun t => (allWords t.length).length).sum + 1)
      have hsum : ∀ {L : List Str} {t : Str}, t ∈ L → (allWords t.length).length ≤ (L.map fun t => (allWords t.length).length).sum := by
        intro L t ht
        induction L with
        | nil => cases ht
        | cons u L ih =>
          simp only [List.map_cons, List.sum_cons]
          rcases List.mem_cons.1 ht with rfl | ht
          · omega
          · have := ih ht; omega
      have := hL.length_le_of_subset (l₂ := T) fun t ht => by
        refine (g1.final t ?_).2 (hacc t ht)
        obtain ⟨b, hb⟩ := accepts_leads (hacc t ht)
        apply Classical.byContradiction
        intro htV
        have := g1.bounded hb htV
        have := hsum ht
        omega
      omega
    by_cases hc : HasCycle mem root
    · exact .inr (.inr (.inl ⟨hl, hc, hk⟩))
    · exact .inr (.inr (.inr ⟨hl, hc, hk⟩))
  · rw [Classical.not_forall] at hd
    obtain ⟨fuel, hd⟩ := hd
    have := hout fuel
    generalize dictIterAt mem (fun k => k + 1) fuel root k { mem := fun _ => none, count := 0 } = r at this hd
    cases this with
    | loops => exact absurd rfl hd
    | @missing V T p a rest g1 g2 g3 =>
      have hp := g1.leads _ (List.mem_cons_self ..)
      refine .inr (.inl ⟨p, ⟨a, hp, g3⟩, fun L hL hacc => ?_⟩)
      have := hL.length_le_of_subset (l₂ := T) fun t ht => by
        obtain ⟨b, hb⟩ := accepts_leads (hacc t ht).1
        refine (g1.final t ?_).2 (hacc t ht).1
        apply Classical.byContradiction
        intro htV
        rcases g1.next hb htV with rfl | h
        · exact shortLex_irrefl (hacc _ ht).2
        · exact shortLex_asymm h (hacc t ht).2
      omega
    | @found V T p Q h' it' g1 g2 g3 g4 g5 g6 =>
      refine .inl ⟨T, p, g2, g1.firstTerms, ?_⟩
      rintro v ⟨b, hb, hm⟩ hlt
      obtain ⟨a, nd, h1, h2⟩ := g1.seen v (g1.closed (w := p) (by simp) hb hlt)
      rw [← leads_one hs hb h1, hm] at h2
      cases h2
    | @none V T h' it' g1 g2 g3 g4 g5 g6 =>
      have hV : ∀ w b, Leads mem root w b → w ∈ V := by
        intro w b hw
        rcases g1.cover w b hw with h | ⟨x, hx, _⟩
        · exact h
        · cases hx
      have hl : AllAlive mem root := by
        intro a hra hm
        obtain ⟨v, hv⟩ := Spec.Leads.of_reaches hra
        obtain ⟨b, nd, h1, h2⟩ := g1.seen v (hV v a hv)
        rw [← leads_one hs hv h1, hm] at h2
        cases h2
      have hk : AtMost k (Accepts mem root) := by
        intro L hL hacc
        have := hL.length_le_of_subset (l₂ := T) fun t ht => by
          obtain ⟨b, hb⟩ := accepts_leads (hacc t ht)
          exact (g1.final t (hV t b hb)).2 (hacc t ht)
        omega
      by_cases hc : HasCycle mem root
      · exact .inr (.inr (.inl ⟨hl, hc, hk⟩))
      · exact .inr (.inr (.inr ⟨hl, hc, hk⟩))

/-! ### Range-for -/

/-- C86: the range-for yields the first `size` terms, and frees what it allocated, if there is one term more and no string
before that leads to a missing node. -/
theorem c86_range (hs : EdgesSorted sgn mem root) (ha : PAllocator paddr ph) {L : List Str} {w : Str}
    (hF : FirstTerms sgn mem root (L ++ [w])) (hn : ∀ v, LeadsNowhere mem root v → ¬ shortLex sgn v w) :
    ∃ ph', Ends (fun fuel => rangeFor mem paddr fuel root L.length ph) (L, ph') ∧ ∀ a, ph'.mem a = ph.mem a := by
  obtain ⟨h', it, ⟨N, hN⟩, _, _, ph', hd, hmem⟩ := c86_reached hs ha hF hn
  refine ⟨ph', ⟨N + L.length + (allWords w.length).length + 1, fun fuel hf => ?_⟩, hmem⟩
  obtain ⟨h'', e1, e2, _⟩ := (rangeFor_at hs ha fuel L.length).2.2 h' it (by omega) (hN fuel (by omega))
  rw [hd] at e1
  cases e1
  simp only [e2]
  congr 2
  refine List.ext_getElem (by simp) fun i h1 h2 => ?_
  have hw : shortLex sgn L[i] w := (List.pairwise_append.1 hF.1).2.2 _ (List.getElem_mem h2) w (by simp)
  have hF' : FirstTerms sgn mem root (L.take i ++ [L[i]]) := by
    have : L ++ [w] = (L.take i ++ [L[i]]) ++ (L.drop (i + 1) ++ [w]) := by
      rw [List.take_append_getElem, ← List.append_assoc, List.take_append_drop]
    rw [this] at hF
    exact hF.start
  obtain ⟨h3, it3, f1, _, f2, _⟩ := (dictIterAt_any hs ha fuel i).reached hs hF' (by simp; omega)
    (fun v hv hlt => hn v hv (shortLex_trans hlt hw))
    (by have := allWords_mono (shortLex_length hw); omega)
  simp [valueAt, f1, f2]

/-- C86: if a string leads to a missing node and at most `size` terms come before it, the range-for is undefined behaviour,
even if `size` is right. -/
theorem c86_range_undefined (hs : EdgesSorted sgn mem root) (ha : PAllocator paddr ph) {size : Nat} {v : Str}
    (hv : LeadsNowhere mem root v) (hk : AtMost size fun t => Accepts mem root t ∧ shortLex sgn t v) :
    ∃ N, ∀ fuel, N ≤ fuel → rangeFor mem paddr fuel root size ph = .error .ub := by
  obtain ⟨N, hN⟩ := c86_undefined hs ha hv hk
  exact ⟨N + size + 1, fun fuel hf => (rangeFor_at hs ha fuel size).2.1 _ (by omega) (hN fuel (by omega))⟩

/-- C86: with a cycle, no missing node and at most `size` terms, the range-for never ends, even if `size` is right. -/
theorem c86_range_endless (hs : EdgesSorted sgn mem root) (ha : PAllocator paddr ph) {size : Nat} (hl : AllAlive mem root)
    (hc : HasCycle mem root) (hk : AtMost size (Accepts mem root)) (fuel : Nat) :
    rangeFor mem paddr fuel root size ph = .error .diverge := by
  rcases (rangeFor_at hs ha fuel size).1 _ (c86_endless hs ha hl hc hk fuel) with h | h <;> exact h

/-- C86: with neither cycle nor missing node, and at most `size` terms, the range-for yields all of them in order, then the
last one again until there are `size`. -/
theorem c86_range_dictionary (hf : FiniteGraph mem root) (hs : EdgesSorted sgn mem root) (ha : PAllocator paddr ph) {size : Nat}
    (hl : AllAlive mem root) (hc : ¬ HasCycle mem root) (hk : AtMost size (Accepts mem root)) :
    ∃ all ph', all.Pairwise (shortLex sgn) ∧ (∀ t, t ∈ all ↔ Accepts mem root t) ∧
      Ends (fun fuel => rangeFor mem paddr fuel root size ph)
        (all ++ List.replicate (size - all.length) (all.getLast?.getD []), ph') ∧ ∀ a, ph'.mem a = ph.mem a := by
  obtain ⟨k, hd⟩ := c81_dictionaries.2 ⟨hf, hs, hl, hc⟩
  obtain ⟨nd, F, m, u, _⟩ := DictNode.unf hd
  have s := DictNode.sorted hd m u
  obtain ⟨ph', h1, h2⟩ := rangeFor_spec (size := size) ha m u
  have hord := finals_order (nd := nd) s
  have hle := hk _ (nodup_of_shortLex hord) fun t ht => (finals_mem m u t).1 ht
  refine ⟨_, ph', hord, finals_mem m u, ?_, h2⟩
  rw [← yielded_list, show (finals [rootItem nd F]).length + (size - (finals [rootItem nd F]).length) = size by omega]
  exact h1

/-- C86: with neither cycle nor missing node, and at most `k` terms, the iterator stays at the last term. -/
theorem c86_past_the_end (hf : FiniteGraph mem root) (hs : EdgesSorted sgn mem root) (ha : PAllocator paddr ph) {k : Nat}
    (hl : AllAlive mem root) (hc : ¬ HasCycle mem root) (hk : AtMost k (Accepts mem root)) :
    ∃ (all : List Str) (ph' : PHeap) (it : DIter), all.Pairwise (shortLex sgn) ∧ (∀ t, t ∈ all ↔ Accepts mem root t) ∧
      Ends (fun fuel => dictIterAt mem paddr fuel root k ph) (ph', it) ∧ it.value = all.getLast?.getD [] ∧ it.index = k := by
  obtain ⟨j, hd⟩ := c81_dictionaries.2 ⟨hf, hs, hl, hc⟩
  obtain ⟨nd, F, m, u, _⟩ := DictNode.unf hd
  have s := DictNode.sorted hd m u
  obtain ⟨ph', it, L, h1, _, _, h2, _, _, _, _, h3⟩ := dictIterAt_spec ha m u k
  have hord := finals_order (nd := nd) s
  have hle := hk _ (nodup_of_shortLex hord) fun t ht => (finals_mem m u t).1 ht
  refine ⟨_, ph', it, hord, finals_mem m u, ⟨_, fun fuel hf => h1 fuel hf⟩, ?_, h2⟩
  rw [h3, List.getElem?_eq_none hle]; rfl

end

/-- C86, foreign messages: how a range-for over what was read comes out.  There are four cases, and no others: enough terms
before any missing node; a missing node; a cycle; neither. -/
theorem c86_messages {sgn : Bool} {addr paddr : Nat → Nat} {h h' : Heap} {ph : PHeap} {msg : Msg} {d : SDawg}
    (ha : Allocator addr h) (hok : fromProto sgn addr msg h = .ok (h', d)) (hp : PAllocator paddr ph) :
    (∃ L w ph', L.length = msg.size ∧ FirstTerms sgn h'.mem d.root (L ++ [w]) ∧
      Ends (fun fuel => rangeFor h'.mem paddr fuel d.root d.size ph) (L, ph') ∧ ∀ a, ph'.mem a = ph.mem a) ∨
    ((∃ v y, Walk msg msg.rootId v y ∧ Missing msg y) ∧
      ∃ N, ∀ fuel, N ≤ fuel → rangeFor h'.mem paddr fuel d.root d.size ph = .error .ub) ∨
    (¬ Dangling msg ∧ Cyclic msg ∧ ∀ fuel, rangeFor h'.mem paddr fuel d.root d.size ph = .error .diverge) ∨
    (¬ Dangling msg ∧ ¬ Cyclic msg ∧ ∃ all ph', all.Pairwise (shortLex sgn) ∧
      (∀ t, t ∈ all ↔ ∃ y, Walk msg msg.rootId t y ∧ y ∈ msg.finalIds) ∧
      Ends (fun fuel => rangeFor h'.mem paddr fuel d.root d.size ph)
        (all ++ List.replicate (msg.size - all.length) (all.getLast?.getD []), ph') ∧ ∀ a, ph'.mem a = ph.mem a) := by
  obtain ⟨φ, hr⟩ := readAny_of_ok ha hok
  have hs := hr.sorted
  rcases c86_cases hs d.size with ⟨L, w, h1, h2, h3⟩ | ⟨v, h1, h2⟩ | ⟨h1, h2, h3⟩ | ⟨h1, h2, h3⟩
  · obtain ⟨ph', g1, g2⟩ := c86_range hs hp h2 h3
    rw [h1] at g1
    exact .inl ⟨L, w, ph', by rw [h1, hr.size], h2, g1, g2⟩
  · refine .inr (.inl ⟨?_, c86_range_undefined hs hp h1 h2⟩)
    obtain ⟨b, hl, hb⟩ := h1
    obtain ⟨y, hw, rfl⟩ := hr.walk_of_leads hl
    refine ⟨v, y, hw, Classical.byContradiction fun hm => ?_⟩
    simp only [Missing, not_or, Classical.not_not] at hm
    obtain ⟨es, g, _⟩ := hr.node y hm.1 hm.2
    rw [g] at hb
    cases hb
  · have hd := hr.allAlive.1 h1
    exact .inr (.inr (.inl ⟨hd, (hr.hasCycle hd).1 h2, c86_range_endless hs hp h1 h2 h3⟩))
  · have hd := hr.allAlive.1 h1
    obtain ⟨all, ph', g1, g2, g3, g4⟩ := c86_range_dictionary hr.finite hs hp h1 h2 h3
    exact .inr (.inr (.inr ⟨hd, fun hc => h2 ((hr.hasCycle hd).2 hc), all, ph', g1, fun t => by rw [g2, hr.accepts hd],
      by rw [← hr.size]; exact g3, g4⟩))

/-! ### Cases -/

theorem exDamaged_accepts {t : Str} (h : Accepts exDamaged 1 t) : ∃ n, t = 97 :: List.replicate n 98 := by
  have two : ∀ {t : Str}, Accepts exDamaged 2 t → ∃ n, t = List.replicate n 98 := by
    intro t h
    generalize ha : 2 = a at h
    induction h with
    | here => exact ⟨0, rfl⟩
    | step hm he _ ih =>
      subst ha
      cases hm
      simp only [List.mem_cons, Prod.mk.injEq, List.not_mem_nil, or_false] at he
      obtain ⟨n, hn⟩ := ih he.2.symm
      exact ⟨n + 1, by rw [he.1, hn, List.replicate_succ]⟩
  cases h with
  | here hm hf => cases hm; cases hf
  | step hm he h =>
    cases hm
    simp only [List.mem_cons, Prod.mk.injEq, List.not_mem_nil, or_false] at he
    rcases he with ⟨rfl, rfl⟩ | ⟨rfl, rfl⟩
    · obtain ⟨n, rfl⟩ := two h
      exact ⟨n, rfl⟩
    · cases h with
      | here hm hf => cases hm; cases hf
      | step hm he h =>
        cases hm
        simp only [List.mem_cons, Prod.mk.injEq, List.not_mem_nil, or_false] at he
        obtain ⟨_, rfl⟩ := he
        cases h with
        | here hm => cases hm
        | step hm => cases hm

theorem exDamaged_nowhere {v : Str} (h : LeadsNowhere exDamaged 1 v) : v = [122, 122] := by
  obtain ⟨b, hl, hb⟩ := h
  rcases exDamaged_leads hl with ⟨rfl, _⟩ | rfl | ⟨rfl, _⟩ | ⟨rfl, h⟩
  · cases hb
  · cases hb
  · cases hb
  · exact h

-- `a` and `ab` come before `zz`, which leads nowhere: a size of 1 is harmless, a size of 2 is not
example (sgn : Bool) : FirstTerms sgn exDamaged 1 ([[97]] ++ [[97, 98]]) ∧
    ∀ v, LeadsNowhere exDamaged 1 v → ¬ shortLex sgn v [97, 98] := by
  have h2 : Accepts exDamaged 2 [] := .here (nd := ⟨true, [(98, 2)]⟩) rfl rfl
  refine ⟨⟨by simp [shortLex], fun t ht => ?_, fun t ht => ?_⟩, fun v hv => ?_⟩
  · simp only [List.cons_append, List.nil_append, List.mem_cons, List.not_mem_nil, or_false] at ht
    rcases ht with rfl | rfl
    · exact .step (nd := ⟨false, [(97, 2), (122, 3)]⟩) (b := 2) rfl (by simp) h2
    · exact .step (nd := ⟨false, [(97, 2), (122, 3)]⟩) (b := 2) rfl (by simp)
        (.step (nd := ⟨true, [(98, 2)]⟩) (b := 2) rfl (by simp) h2)
  · obtain ⟨n, rfl⟩ := exDamaged_accepts ht
    match n with
    | 0 => simp
    | 1 => simp
    | n + 2 => exact .inr fun u hu => .inl (by simp at hu; rcases hu with rfl | rfl <;> simp)
  · rw [exDamaged_nowhere hv]
    rintro (h | ⟨_, h⟩)
    · simp at h
    · cases h with
      | rel h => cases sgn <;> simp [charLt, charKey] at h

example (sgn : Bool) : LeadsNowhere exDamaged 1 [122, 122] ∧
    AtMost 2 fun t => Accepts exDamaged 1 t ∧ shortLex sgn t [122, 122] := by
  refine ⟨⟨0, .snoc (w := [122]) (b := 3) (.snoc (w := []) .here (nd := ⟨false, [(97, 2), (122, 3)]⟩) rfl (by simp))
      (nd := ⟨false, [(122, 0)]⟩) rfl (by simp), rfl⟩, fun L hL hacc => ?_⟩
  refine hL.length_le_of_subset (l₂ := [[97], [97, 98]]) fun t ht => ?_
  obtain ⟨h1, h2⟩ := hacc t ht
  obtain ⟨n, rfl⟩ := exDamaged_accepts h1
  have := shortLex_length h2
  simp only [List.length_cons, List.length_replicate, List.length_nil] at this
  match n, this with
  | 0, _ => simp
  | 1, _ => simp

/-- A range-for in an empty memory of prefixes. -/
def exRange (mem : Mem) (size : Nat) : Except Err (List Str) :=
  (rangeFor mem (fun k => k + 1) 60 1 size { mem := fun _ => none, count := 0 }).map (·.1)

example : exRange exDamaged 1 = .ok [[97]] ∧ exRange exDamaged 2 = .error .ub := by decide +kernel

/-- One term, `a`; after `b` nothing but more of `b`. -/
def exMaze : Mem := fun a => match a with
  | 1 => some ⟨false, [(97, 2), (98, 3)]⟩
  | 2 => some ⟨true, []⟩
  | 3 => some ⟨false, [(98, 3)]⟩
  | _ => none

theorem exMaze_reaches {a : Nat} (h : Reaches exMaze 1 a) : a = 1 ∨ a = 2 ∨ a = 3 := by
  suffices ∀ x, x = 1 ∨ x = 2 ∨ x = 3 → Reaches exMaze x a → a = 1 ∨ a = 2 ∨ a = 3 from this 1 (.inl rfl) h
  intro x hx h
  induction h with
  | refl => exact hx
  | step hm he _ ih =>
    refine ih (by assumption) ?_
    rcases hx with rfl | rfl | rfl <;> cases hm <;> simp at he <;> omega

-- a graph whose size is right, and the range-for never ends
example (sgn : Bool) : EdgesSorted sgn exMaze 1 ∧ AllAlive exMaze 1 ∧ HasCycle exMaze 1 ∧ AtMost 1 (Accepts exMaze 1) := by
  refine ⟨fun a nd ha hm => ?_, fun a ha hm => ?_, ?_, fun L hL hacc => ?_⟩
  · rcases exMaze_reaches ha with rfl | rfl | rfl <;> cases hm <;> cases sgn <;> simp [charLt, charKey]
  · rcases exMaze_reaches ha with rfl | rfl | rfl <;> cases hm
  · exact ⟨3, ⟨false, [(98, 3)]⟩, 98, 3, .step (nd := ⟨false, [(97, 2), (98, 3)]⟩) (c := 98) rfl (by simp) .refl, rfl, by simp,
      .refl⟩
  · have three : ∀ {t : Str}, ¬ Accepts exMaze 3 t := by
      intro t h
      generalize ha : 3 = a at h
      induction h with
      | here hm hf => subst ha; cases hm; cases hf
      | step hm he _ ih =>
        subst ha
        cases hm
        simp only [List.mem_cons, Prod.mk.injEq, List.not_mem_nil, or_false] at he
        exact ih he.2.symm
    refine hL.length_le_of_subset (l₂ := [[97]]) fun t ht => ?_
    cases hacc t ht with
    | here hm hf => cases hm; cases hf
    | step hm he h =>
      cases hm
      simp only [List.mem_cons, Prod.mk.injEq, List.not_mem_nil, or_false] at he
      rcases he with ⟨rfl, rfl⟩ | ⟨rfl, rfl⟩
      · cases h with
        | here => simp
        | step hm he => cases hm; cases he
      · exact absurd h three

example : exRange exMaze 0 = .ok [] ∧ exRange exMaze 1 = .error .diverge := by decide +kernel

-- a cycle with enough terms does no harm
example : exRange exRing 3 = .ok [[97], [97, 98, 97], [97, 98, 97, 98, 97]] := by decide +kernel

end Lev.Props
