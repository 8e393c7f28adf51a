import Verif.Props.Life
import Verif.Props.LongWords
import Verif.Props.Iter

/-!
C105: a dictionary while it is built, and `clean_up` without `finish` (src/liblevenshtein/collection/sorted_dawg.cpp 14-165):
`contains`, queries and iterators may be used between two calls of `add`.
-/

namespace Lev.Props

open Lev Spec

/-- `contains` for words of any length, on anything that can be unfolded. -/
theorem contains_unfolded {sgn : Bool} {mem : Mem} (h0 : mem 0 = none) {root : Nat} {nd : DNode} {F : Forest}
    (h1 : mem root = some nd) (h2 : Unf mem nd.edges F) (h3 : F.Trim) (h4 : F.Sorted sgn) {ts : List Str}
    (hacc : ∀ t, Accepts mem root t ↔ t ∈ ts) (t : Str) :
    (LongProbe ts t → containsTerm mem root t = .error .ub) ∧
    (¬ LongProbe ts t → containsTerm mem root t = .ok (decide (t ∈ ts))) := by
  have e : (2 : Nat) ^ 31 - 1 = 2147483647 := by decide
  have e' : (2 : Nat) ^ 31 = 2147483647 + 1 := by decide
  simp only [LongProbe, e, e', Nat.succ_le_iff]
  have hacc : ∀ u, AccT nd.final F u ↔ u ∈ ts := fun u => by rw [← accepts_iff h1 h2, hacc]
  have hex : (∃ v, AccT nd.final F (t.take 2147483647 ++ v)) ↔ ∃ s ∈ ts, t.take 2147483647 <+: s := by
    constructor
    · rintro ⟨v, hv⟩; exact ⟨_, (hacc _).1 hv, v, rfl⟩
    · rintro ⟨_, hs, v, rfl⟩; exact ⟨v, (hacc _).2 hs⟩
  obtain ⟨hA, hB⟩ := containsLoop_exact h0 t (i := 0) h1 h2 h4 h3 (by omega) (fun h => by cases h)
  simp only [Nat.sub_zero, hex] at hA hB
  simp only [hacc] at hB
  constructor
  · rintro ⟨a, b⟩
    simp only [containsTerm, hA a b, bind, Except.bind]
  · intro hn
    obtain ⟨b, h6, h7⟩ := hB hn
    simp only [containsTerm, h6, bind, Except.bind]
    rcases h7 with ⟨rfl, h7⟩ | ⟨nb, h8, h9, h7⟩
    · simp [h7]
    · simp only [h8, if_false, deref, h9, Except.ok.injEq]
      by_cases hm : t ∈ ts
      · simp [hm, h7.1 hm]
      · have : nb.final ≠ true := fun h => hm (h7.2 h)
        simp [hm, this]

/-- What can be seen of a dictionary whose root is at `root`, if it accepts the terms `ts` and its size is `n`: `contains`, an
iterator from `begin()` to `end()`, which repeats the last term if there are fewer than `n`, and whether it is fit for queries. -/
structure Shows (sgn : Bool) (mem : Mem) (root n : Nat) (ts : List Str) : Prop where
  accepts : ∀ t, Accepts mem root t ↔ t ∈ ts
  contains : ∀ t, (LongProbe ts t → containsTerm mem root t = .error .ub) ∧
    (¬ LongProbe ts t → containsTerm mem root t = .ok (decide (t ∈ ts)))
  iterates : ∀ paddr ph, PAllocator paddr ph → ∃ all ph', all.Pairwise (shortLex sgn) ∧ (∀ t, t ∈ all ↔ t ∈ ts) ∧
    Ends (fun fuel => rangeFor mem paddr fuel root n ph) (all ++ List.replicate (n - all.length) (all.getLast?.getD []), ph') ∧
    ∀ a, ph'.mem a = ph.mem a
  dictionary : (∀ t ∈ ts, t.length < 2 ^ 62) → Dictionary sgn mem root

theorem shows_unfolded {sgn : Bool} {mem : Mem} (h0 : mem 0 = none) {root : Nat} {nd : DNode} {F : Forest}
    (h1 : mem root = some nd) (h2 : Unf mem nd.edges F) (h3 : F.Trim) (h4 : F.Sorted sgn)
    (h5 : DictNode sgn mem (F.height + 1) root) {ts : List Str} {n : Nat} (hn : ts.length ≤ n)
    (hacc : ∀ t, Accepts mem root t ↔ t ∈ ts) : Shows sgn mem root n ts := by
  refine ⟨hacc, contains_unfolded h0 h1 h2 h3 h4 hacc, fun paddr ph hp => ?_, fun hb => ⟨_, ?_, h5⟩⟩
  · obtain ⟨ph', g1, g2⟩ := rangeFor_spec (size := n) hp h1 h2
    have hnd := nodup_of_shortLex (finals_order (nd := nd) h4)
    have hmem : ∀ t, t ∈ finals [rootItem nd F] ↔ t ∈ ts := fun t => by rw [finals_mem h1 h2, hacc]
    have hle : (finals [rootItem nd F]).length ≤ ts.length :=
      (List.subperm_of_subset hnd fun t ht => (hmem t).1 ht).length_le
    refine ⟨_, ph', finals_order h4, hmem, ?_, g2⟩
    rw [← yielded_list, show (finals [rootItem nd F]).length + (n - (finals [rootItem nd F]).length) = n by omega]
    exact g1
  · by_cases hne : F = .nil
    · subst hne; simp [Forest.height]
    · obtain ⟨t, h6, h7⟩ := h3.long hne
      have := hb t ((hacc t).1 ((accepts_iff h1 h2 t).2 (.inr h6)))
      omega

/-- C105: after any calls of `add` and `remove` on a new dictionary, `finish` not having been called: the calls have returned what
they should and `size` is the number of terms taken.  Those that begin with the same letter as the last one cannot be seen, all
others can; no two nodes that can be reached have the same language; and destroying the dictionary leaves memory as it was. -/
theorem c105_under_construction (sgn : Bool) {addr : Nat → Nat} {h : Heap} (ha : Allocator addr h) (calls : List Call) :
    ∃ h' d', Ends (fun fuel => runCalls sgn addr fuel calls (newDawg addr h).1 (initDawg (newDawg addr h).2))
        ((verdicts [] calls).1, h', d') ∧
      d'.size = (verdicts [] calls).2.length ∧
      Shows sgn h'.mem d'.root d'.size (unfinished (verdicts [] calls).2) ∧
      (∀ a b, Reaches h'.mem d'.root a → Reaches h'.mem d'.root b → (∀ t, Accepts h'.mem a t ↔ Accepts h'.mem b t) → a = b) ∧
      ∃ h'', Ends (fun fuel => destroyDawg fuel h' d') h'' ∧ ∀ a, h''.mem a = h.mem a := by
  have haddr : AddrOk addr := ⟨ha.nonnull, ha.inj⟩
  obtain ⟨h1, d1, e1, hb⟩ := runCalls_spec haddr calls (newDawg_built (sgn := sgn) haddr ha.null ha.fresh)
  have hp : (initDawg (newDawg addr h).2).prev = [] := rfl
  rw [hp] at e1 hb
  simp only [List.nil_append] at hb
  obtain ⟨⟨reg, st, fl, fs, rf, hc, hpath, hnil, hfin, hlang⟩, hprev, hsize⟩ := hb
  have hacc : ∀ t, Accepts h1.mem d1.root t ↔ t ∈ unfinished (verdicts [] calls).2 := fun t => by
    rw [hc.root_accepts, root_lang hc.fits, hlang, mem_unfinished, hpath, hprev]
  have hD := hc.stack.rootNode.dictNode hc.regOk
  have hS := hc.stack.rootNode.sorted hc.regOk
  obtain ⟨nd, hm, _, hF, _⟩ := hc.stack.rootNode
  obtain ⟨h2, e2, _, hmem⟩ := destroy_spec hc haddr ha.fresh
  refine ⟨h1, d1, e1, hsize, ?_, fun a b hra hrb => hc.minimal hra hrb, h2, e2, hmem⟩
  exact shows_unfolded hc.heap.null hm hF hc.trim.1 hS hD (by rw [hsize]; exact List.length_filter_le _ _) hacc

/-- C105: `clean_up` called then frees all nodes but those that can be reached, and what can be seen does not change; what memory
has besides is what it had before the dictionary was made, and destroying the dictionary leaves it that way. -/
theorem c105_clean_up (sgn : Bool) {addr : Nat → Nat} {h : Heap} (ha : Allocator addr h) (calls : List Call) :
    ∃ h' d', Ends (fun fuel => abandonRun sgn addr fuel calls (newDawg addr h).1 (newDawg addr h).2)
        ((verdicts [] calls).1, h', d') ∧
      d'.size = (verdicts [] calls).2.length ∧
      Shows sgn h'.mem d'.root d'.size (unfinished (verdicts [] calls).2) ∧
      (∀ a b, Reaches h'.mem d'.root a → Reaches h'.mem d'.root b → (∀ t, Accepts h'.mem a t ↔ Accepts h'.mem b t) → a = b) ∧
      (∀ a, ¬ Reaches h'.mem d'.root a → h'.mem a = h.mem a) ∧
      ∃ h'', Ends (fun fuel => destroyDawg fuel h' d') h'' ∧ ∀ a, h''.mem a = h.mem a := by
  have haddr : AddrOk addr := ⟨ha.nonnull, ha.inj⟩
  obtain ⟨h1, d1, ⟨N1, e1⟩, hb⟩ := runCalls_spec haddr calls (newDawg_built (sgn := sgn) haddr ha.null ha.fresh)
  have hp : (initDawg (newDawg addr h).2).prev = [] := rfl
  rw [hp] at e1 hb
  simp only [List.nil_append] at hb
  obtain ⟨⟨reg, st, fl, fs, rf, hc, hpath, hnil, hfin, hlang⟩, hprev, hsize⟩ := hb
  obtain ⟨N2, e2⟩ := cleanUp_spec hc
  have hs := (hc.abandoned haddr).settled haddr ha.fresh
  have hacc : ∀ t, AccT rf.fin rf.kids t ↔ t ∈ unfinished (verdicts [] calls).2 := fun t => by
    rw [root_lang hc.fits, hlang, mem_unfinished, hpath, hprev]
  obtain ⟨nd, F, g1, g2, g3, g4, g5⟩ := hs.dict
  refine ⟨_, { d1 with unchecked := none, minimized := none, floating := none }, ⟨N1 + N2, fun fuel hfu => ?_⟩, hsize, ?_,
    fun a b hra hrb heq => ?_, hs.other, hs.destroy⟩
  · have e1 := e1 fuel (by omega)
    have e2 := e2 fuel (by omega)
    simp only at e1 e2
    simp only [abandonRun, bind, Except.bind, e1, e2]
  · exact shows_unfolded hs.null g1 g2 g3 g4 g5 (by show _ ≤ d1.size; rw [hsize]; exact List.length_filter_le _ _)
      fun t => (hs.accepts t).trans (hacc t)
  · have hmm : ∀ a, Reaches h1.mem d1.root a → cleaned addr h.count h1 d1.root a = h1.mem a := fun a ha => cleaned_reach ha
    have hri := reaches_frame_iff hc.rootClosed hmm (a := d1.root) .refl
    have hra := (hri a).1 hra
    have hrb := (hri b).1 hrb
    exact hc.minimal hra hrb fun t => by
      rw [← accepts_frame_iff hc.rootClosed hmm hra, ← accepts_frame_iff hc.rootClosed hmm hrb]
      exact heq t

theorem mem_verdicts {t : Str} {calls : List Call} {last : Str} (h : t ∈ (verdicts last calls).2) : .add t ∈ calls := by
  induction calls generalizing last with
  | nil => simp [verdicts] at h
  | cons c cs ih =>
    cases c with
    | add s =>
      simp only [verdicts] at h
      split at h
      · exact .tail _ (ih h)
      · rcases List.mem_cons.1 h with rfl | h
        · exact .head _
        · exact .tail _ (ih h)
    | remove s =>
      simp only [verdicts] at h
      exact .tail _ (ih h)

/-- C105: queries between two calls of `add` find the terms within the distance among those that can be seen,
in the usual order. -/
theorem c105_query (sgn : Bool) {addr : Nat → Nat} {h : Heap} (ha : Allocator addr h) (calls : List Call) (A : Algorithm)
    {q : Str} {n : Nat} (hlen : ∀ t, .add t ∈ calls → t.length < 2 ^ 62) (hq : QueryFits n q) (hn : n < 2 ^ 64) {h' : Heap}
    {d' : SDawg} {rs : List Bool}
    (hr : Ends (fun fuel => runCalls sgn addr fuel calls (newDawg addr h).1 (initDawg (newDawg addr h).2)) (rs, h', d')) :
    ∃ out, Yields A updCandidate h'.mem d'.root q n out ∧
      (∀ t k, (t, k) ∈ out ↔ t ∈ unfinished (verdicts [] calls).2 ∧ IsMinCost A q t k ∧ k ≤ n) ∧
      out.Pairwise (fun a b => shortLex sgn a.1 b.1) := by
  obtain ⟨h1, d1, e1, _, hs, _⟩ := c105_under_construction sgn ha calls
  cases e1.unique hr
  have hd := hs.dictionary fun t ht => hlen t (mem_verdicts (mem_unfinished.1 ht).1)
  obtain ⟨out, g1, g2⟩ := query_exact A hd hq hn
  exact ⟨out, g1, fun t k => by rw [g2, hs.accepts], c37_order hd hq hn g1⟩

/-- C105: and so do queries after `clean_up`. -/
theorem c105_query_cleaned (sgn : Bool) {addr : Nat → Nat} {h : Heap} (ha : Allocator addr h) (calls : List Call) (A : Algorithm)
    {q : Str} {n : Nat} (hlen : ∀ t, .add t ∈ calls → t.length < 2 ^ 62) (hq : QueryFits n q) (hn : n < 2 ^ 64) {h' : Heap}
    {d' : SDawg} {rs : List Bool}
    (hr : Ends (fun fuel => abandonRun sgn addr fuel calls (newDawg addr h).1 (newDawg addr h).2) (rs, h', d')) :
    ∃ out, Yields A updCandidate h'.mem d'.root q n out ∧
      (∀ t k, (t, k) ∈ out ↔ t ∈ unfinished (verdicts [] calls).2 ∧ IsMinCost A q t k ∧ k ≤ n) ∧
      out.Pairwise (fun a b => shortLex sgn a.1 b.1) := by
  obtain ⟨h1, d1, e1, _, hs, _⟩ := c105_clean_up sgn ha calls
  cases e1.unique hr
  have hd := hs.dictionary fun t ht => hlen t (mem_verdicts (mem_unfinished.1 ht).1)
  obtain ⟨out, g1, g2⟩ := query_exact A hd hq hn
  exact ⟨out, g1, fun t k => by rw [g2, hs.accepts], c37_order hd hq hn g1⟩

/-- "a", "b", "b" again, "a", which is refused, and "bb": only "a" can be seen, and an iterator yields it three times more. -/
example : (runCalls true (fun k => k + 1) 100 [.add [97], .add [98], .add [98], .add [97], .add [98, 98]]
      (newDawg (fun k => k + 1) exHeap).1 (initDawg (newDawg (fun k => k + 1) exHeap).2)).map
      (fun r => (r.1, r.2.2.size, (r.2.1.mem 1).map (·.edges))) = .ok ([true, true, true, false, true], 4, some [(97, 2)]) ∧
    unfinished (verdicts [] [.add [97], .add [98], .add [98], .add [97], .add [98, 98]]).2 = [[97]] := by
  constructor
  · rfl
  · decide

/-- C105: the claim that `contains` says yes to a term once `add` has taken it is false. -/
theorem c105_added_not_contained :
    ¬ (∀ (sgn : Bool) (addr : Nat → Nat) (h : Heap) (t : Str), Allocator addr h → ∀ fuel h' d',
      addTerm sgn addr fuel t (newDawg addr h).1 (initDawg (newDawg addr h).2) = .ok (true, h', d') →
      containsTerm h'.mem d'.root t = .ok true) := by
  intro hall
  have h := hall true (fun k => k + 1) exHeap [97] exAllocator 100 _ _ rfl
  exact absurd h (by decide)

/-- C105: the claim that an iterator over a dictionary that was cleaned up yields its terms only is false: "ab" was added, and the
iterator yields the empty string. -/
theorem c105_iterates_others :
    ¬ (∀ (sgn : Bool) (addr paddr : Nat → Nat) (h : Heap) (ph : PHeap) (t : Str), Allocator addr h → PAllocator paddr ph →
      ∀ fuel rs h' d' out ph', abandonRun sgn addr fuel [.add t] (newDawg addr h).1 (newDawg addr h).2 = .ok (rs, h', d') →
      rangeFor h'.mem paddr fuel d'.root d'.size ph = .ok (out, ph') → ∀ s ∈ out, Accepts h'.mem d'.root s) := by
  intro hall
  have h := hall true (fun k => k + 1) (fun k => k + 1) exHeap { mem := fun _ => none, count := 0 } [97, 98] exAllocator
    ⟨by simp, by simp, rfl, fun _ _ => rfl⟩ 100 _ _ _ _ _ rfl rfl [] (.head _)
  cases h with
  | here hm hf => exact absurd hf (by cases hm; decide)

end Lev.Props
