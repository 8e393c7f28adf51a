import Verif.Proofs.DictThreads
import Verif.Spec.DictThreads
import Verif.Props.Dawg

/-!
# Property C99: dictionaries in several threads

Threads build dictionaries, look words up in their own and in shared ones, and destroy their own, interrupted by each other
between any two accesses to nodes.  The nodes come from one allocator, which hands out again what was given back.
-/

namespace Lev.Props

open Lev Spec NThr

/-- C99: run alone, the programs of the threads do what the functions that the other properties are about do. -/
theorem c99_alone (sgn : Bool) (addr : Nat → Nat) (fuel : Nat) (h : Heap) :
    (∀ terms, (NThr.sortedDawg sgn fuel terms).run addr h =
      (Lev.sortedDawg sgn addr fuel terms h).bind fun x => .ok (x.2, x.1)) ∧
    (∀ root t, (NThr.containsTerm root t).run addr h = (Lev.containsTerm h.mem root t).bind fun b => .ok (b, h)) ∧
    (∀ d, (NThr.destroyDawg fuel d).run addr h = (Lev.destroyDawg fuel h d).bind fun h' => .ok ((), h')) :=
  ⟨fun _ => run_sortedDawg .., fun _ _ => run_containsTerm .., fun _ => run_destroyDawg ..⟩

/-- C99: in no execution is there undefined behaviour or a data race, the shared dictionaries stay as they are, no thread
waits for another, and each thread shows what it would show alone.  When all have finished, no node is left but those of the
shared dictionaries and of the dictionaries that were not destroyed. -/
theorem c99_threads (sgn : Bool) {S : Mem} {roots : List Nat} {tss : List (List Str)} {opss : List (List DOp)}
    {outs : Nat → List DOut} {own : Nat → List (Option (List Str))} (h0 : S 0 = none)
    (hS : ∃ M, ∀ a, M ≤ a → S a = none) (hsh : SharedOk sgn S roots tss)
    (hr : ∀ (i : Nat) (ops : List DOp), opss[i]? = some ops → DRun tss [] ops (outs i) (own i)) :
    ∃ N, ∀ fuel, N ≤ fuel → ∀ s, NSteps ⟨S, opss.map (NThr.thread sgn fuel roots [])⟩ s →
      ¬ s.Fault ∧ ¬ s.Race ∧
      (∀ a nd, S a = some nd → s.mem a = some nd) ∧
      (∀ (i : Nat) p, s.threads[i]? = some p →
        (∃ x, p = .ret x) ∨ ∃ s', NStep s s' ∧ ∀ j, j ≠ i → s'.threads[j]? = s.threads[j]?) ∧
      (∀ (i : Nat) out ds, s.threads[i]? = some (.ret (out, ds)) → out = outs i ∧ Left sgn s.mem (own i) ds) ∧
      (s.Done → ∀ a, s.mem a ≠ none → S a ≠ none ∨
        ∃ (i : Nat) (out : List DOut) (ds : List (Option SDawg)) (d : SDawg),
          s.threads[i]? = some (.ret (out, ds)) ∧ some d ∈ ds ∧ Reaches s.mem d.root a) := by
  refine ⟨(opss.map opsFuel).sum, fun fuel hfuel s hst => ?_⟩
  obtain ⟨V, hI⟩ := (Inv.start h0 hsh hr hfuel).steps hst
  have hb := bounded_steps (s := ⟨S, opss.map (NThr.thread sgn fuel roots [])⟩) hS hst
  refine ⟨hI.no_fault, hI.no_race, hI.shared, fun i p hi => hI.progress hb hi, fun i out ds hi => ?_, fun hd a ha => ?_⟩
  · have hlt := (List.getElem?_eq_some_iff.1 hi).1
    obtain ⟨h1, h2⟩ := hI.safe i _ hi
    exact ⟨h1, h2.left fun a nd => hI.own i a nd hlt⟩
  · rcases hI.all a ha with h | ⟨i, hlt, h⟩
    · exact .inl h
    · refine .inr ?_
      have hi : s.threads[i]? = some s.threads[i] := List.getElem?_eq_getElem hlt
      obtain ⟨⟨out, ds⟩, hx⟩ := hd _ (List.getElem_mem hlt)
      rw [hx] at hi
      obtain ⟨_, h2⟩ := hI.safe i _ hi
      obtain ⟨d, hd, hreach⟩ := h2.reaches (fun a nd => hI.own i a nd hlt) h
      exact ⟨i, out, ds, d, hi, hd, hreach⟩

/-- C99: no execution goes on for ever, and each can be continued until all threads have finished. -/
theorem c99_ends (sgn : Bool) {S : Mem} {roots : List Nat} {tss : List (List Str)} {opss : List (List DOp)}
    {outs : Nat → List DOut} {own : Nat → List (Option (List Str))} (h0 : S 0 = none)
    (hS : ∃ M, ∀ a, M ≤ a → S a = none) (hsh : SharedOk sgn S roots tss)
    (hr : ∀ (i : Nat) (ops : List DOp), opss[i]? = some ops → DRun tss [] ops (outs i) (own i)) :
    ∃ N, ∀ fuel, N ≤ fuel → ∀ s, NSteps ⟨S, opss.map (NThr.thread sgn fuel roots [])⟩ s →
      ¬ Endless s ∧ ∃ s', NSteps s s' ∧ s'.Done ∧ s'.threads.length = opss.length := by
  refine ⟨(opss.map opsFuel).sum, fun fuel hfuel s hst => ⟨not_endless s, ?_⟩⟩
  obtain ⟨V, hI⟩ := (Inv.start h0 hsh hr hfuel).steps hst
  have hb := bounded_steps (s := ⟨S, opss.map (NThr.thread sgn fuel roots [])⟩) hS hst
  obtain ⟨s', h1, h2⟩ := hI.finish hb
  exact ⟨s', h1, h2, by rw [length_steps h1, length_steps hst]; simp⟩

/-- C99: if every thread destroys what it has built, memory is in the end as it was. -/
theorem c99_clean (sgn : Bool) {S : Mem} {roots : List Nat} {tss : List (List Str)} {opss : List (List DOp)}
    {outs : Nat → List DOut} {own : Nat → List (Option (List Str))} (h0 : S 0 = none)
    (hS : ∃ M, ∀ a, M ≤ a → S a = none) (hsh : SharedOk sgn S roots tss)
    (hr : ∀ (i : Nat) (ops : List DOp), opss[i]? = some ops → DRun tss [] ops (outs i) (own i))
    (hown : ∀ (i : Nat), i < opss.length → ∀ o ∈ own i, o = none) :
    ∃ N, ∀ fuel, N ≤ fuel → ∀ s, NSteps ⟨S, opss.map (NThr.thread sgn fuel roots [])⟩ s → s.Done → s.mem = S := by
  obtain ⟨N, hN⟩ := c99_threads sgn h0 hS hsh hr
  refine ⟨N, fun fuel hfuel s hst hd => funext fun a => ?_⟩
  obtain ⟨_, _, hshared, _, hleft, hall⟩ := hN fuel hfuel s hst
  cases hv : S a with
  | some nd => exact hshared a nd hv
  | none =>
    cases hm : s.mem a with
    | none => rfl
    | some nd =>
      rcases hall hd a (by rw [hm]; simp) with h | ⟨i, out, ds, d, hi, hd, _⟩
      · exact absurd hv h
      · have hlt := (List.getElem?_eq_some_iff.1 hi).1
        rw [length_steps hst, List.length_map] at hlt
        obtain ⟨_, hl, hn, _⟩ := hleft i out ds hi
        obtain ⟨k, hk⟩ := List.mem_iff_getElem?.1 hd
        have hko : k < (own i).length := by rw [hl]; exact (List.getElem?_eq_some_iff.1 hk).1
        have ho : (own i)[k]? = some none := by
          rw [List.getElem?_eq_getElem hko, hown i hlt _ (List.getElem_mem hko)]
        rw [hn k ho] at hk
        cases hk

/-- C99: a dictionary that was built before the threads were started can be shared. -/
theorem c99_shared (sgn : Bool) {addr : Nat → Nat} {h : Heap} {terms : List Str} (ha : Allocator addr h)
    (hs : SortedTerms terms) (hb : ∃ M, ∀ a, M ≤ a → h.mem a = none) :
    ∃ h' d, Ends (fun fuel => Lev.sortedDawg sgn addr fuel terms h) (h', some d) ∧ h'.mem 0 = none ∧
      (∃ M, ∀ a, M ≤ a → h'.mem a = none) ∧ SharedOk sgn h'.mem [d.root] [terms] := by
  obtain ⟨h', d, h1, hf⟩ := sortedDawg_asc (sgn := sgn) ⟨ha.nonnull, ha.inj⟩ ha.null ha.fresh ((asc_nil_iff _).2 hs)
  obtain ⟨nd, F, _, _, _, _, hd⟩ := hf.dict
  refine ⟨h', d, h1, hf.null, Finished.bounded hf hb, rfl, fun j root ts hj ht => ?_⟩
  obtain rfl : j = 0 := by
    have := (List.getElem?_eq_some_iff.1 hj).1
    simp at this; omega
  simp only [List.getElem?_cons_zero, Option.some.injEq] at hj ht
  subst hj ht
  exact ⟨⟨_, hd⟩, hf.accepts⟩

/-! ### The hypotheses can be met

Two threads share a dictionary of "a" and "ab".  Each builds one of its own; one is refused a list that is out of order and
destroys its dictionary; they look up words here and there. -/

/-- The statements of the two threads. -/
def twoThreads : List (List DOp) :=
  [[.build [[97], [98, 99]], .hasShared 0 [97], .has 0 [98, 99], .build [[98], [97]], .drop 0],
   [.hasShared 0 [98], .build [[97], [98, 99]], .has 0 [99], .hasShared 0 [97, 98]]]

/-- What they show. -/
def twoOuts : Nat → List DOut
  | 0 => [.built true, .answer true, .answer true, .built false, .dropped]
  | _ => [.answer false, .built true, .answer false, .answer true]

/-- What they are left with. -/
def twoOwn : Nat → List (Option (List Str))
  | 0 => [none, none]
  | _ => [some [[97], [98, 99]]]

/-- The shared dictionary: the root at 3, then 5 and 4. -/
def sharedMem : Mem := fun a =>
  if a = 3 then some { final := false, edges := [(97, 5)] }
  else if a = 5 then some { final := true, edges := [(98, 4)] }
  else if a = 4 then some { final := true, edges := [] }
  else none

example : ∃ N, ∀ fuel, N ≤ fuel → ∀ s, NSteps ⟨sharedMem, twoThreads.map (NThr.thread true fuel [3] [])⟩ s →
    ¬ s.Fault ∧ ¬ s.Race := by
  have h := c99_threads true (S := sharedMem) (roots := [3]) (tss := [[[97], [97, 98]]]) (opss := twoThreads)
    (outs := twoOuts) (own := twoOwn) rfl ⟨6, fun a ha => by simp only [sharedMem]; rw [if_neg, if_neg, if_neg] <;> omega⟩
    ⟨rfl, fun j root ts hj ht => by
      obtain rfl : j = 0 := by
        have := (List.getElem?_eq_some_iff.1 hj).1
        simp at this; omega
      simp only [List.getElem?_cons_zero, Option.some.injEq] at hj ht
      subst hj ht
      refine ⟨⟨3, .mk rfl (by simp) ?_⟩, fun t => ?_⟩
      · intro c b hb
        simp only [List.mem_singleton, Prod.mk.injEq] at hb
        obtain ⟨rfl, rfl⟩ := hb
        refine .mk rfl (by simp) ?_
        intro c b hb
        simp only [List.mem_singleton, Prod.mk.injEq] at hb
        obtain ⟨rfl, rfl⟩ := hb
        exact .mk rfl (by simp) (by simp)
      · have e3 : sharedMem 3 = some { final := false, edges := [(97, 5)] } := rfl
        have e5 : sharedMem 5 = some { final := true, edges := [(98, 4)] } := rfl
        have e4 : sharedMem 4 = some { final := true, edges := [] } := rfl
        constructor
        · intro h
          cases h with
          | here hm hf => rw [e3] at hm; cases hm; cases hf
          | step hm hb h =>
            rw [e3] at hm; cases hm
            simp only [List.mem_singleton, Prod.mk.injEq] at hb
            obtain ⟨rfl, rfl⟩ := hb
            cases h with
            | here hm hf => simp
            | step hm hb h =>
              rw [e5] at hm; cases hm
              simp only [List.mem_singleton, Prod.mk.injEq] at hb
              obtain ⟨rfl, rfl⟩ := hb
              cases h with
              | here hm hf => simp
              | step hm hb h => rw [e4] at hm; cases hm; cases hb
        · intro h
          simp only [List.mem_cons, List.not_mem_nil, or_false] at h
          rcases h with rfl | rfl
          · exact .step e3 (by simp) (.here e5 rfl)
          · exact .step e3 (by simp) (.step e5 (by simp) (.here e4 rfl))⟩
    (fun i ops hi => by
      match i, hi with
      | 0, hi =>
        cases hi
        exact .build (by unfold SortedTerms; decide) (.hasShared (ts := [[97], [97, 98]]) rfl (by decide)
          (.has (ts := [[97], [98, 99]]) rfl (by decide) (.refuse (by unfold SortedTerms; decide) (.drop (ts := [[97], [98, 99]]) rfl .nil))))
      | 1, hi =>
        cases hi
        exact .hasShared (ts := [[97], [97, 98]]) rfl (by decide) (.build (by unfold SortedTerms; decide)
          (.has (ts := [[97], [98, 99]]) rfl (by decide) (.hasShared (ts := [[97], [97, 98]]) rfl (by decide) .nil)))
      | i + 2, hi => simp [twoThreads] at hi)
  obtain ⟨N, hN⟩ := h
  exact ⟨N, fun fuel hfuel s hs => ⟨(hN fuel hfuel s hs).1, (hN fuel hfuel s hs).2.1⟩⟩

/-! ### What the threads must not do

`DRun` lets a thread change and destroy nothing but its own dictionaries.  Without that there are data races and
accesses to nodes that are gone. -/

/-- A dictionary that is being built: a root at 1. -/
def beingBuilt : SDawg := { root := 1, size := 0, unchecked := some [], minimized := some [], floating := some [], prev := [] }

/-- Its memory. -/
def beingBuiltMem : Mem := fun a => if a = 1 then some { final := false, edges := [] } else none

/-- C99: a look-up while another thread adds the empty word to the same dictionary is a data race. -/
theorem c99_reader_and_writer : ∃ s, NSteps ⟨beingBuiltMem, [(NThr.containsTerm 1 []).bind fun _ => .ret (),
    (NThr.addTerm true 1 [] beingBuilt).bind fun _ => .ret ()]⟩ s ∧ s.Race := by
  refine ⟨_, .tail .refl (NStep.read (pre := [_]) (post := []) (a := 1) rfl), 0, 1, _, _, 1, false, by decide, rfl, rfl, rfl,
    rfl⟩

/-- C99: so is adding words to one dictionary in two threads. -/
theorem c99_two_writers : ∃ s, NSteps ⟨beingBuiltMem, [(NThr.addTerm true 1 [] beingBuilt).bind fun _ => .ret (),
    (NThr.addTerm true 1 [] beingBuilt).bind fun _ => .ret ()]⟩ s ∧ s.Race := by
  refine ⟨_, .tail .refl (NStep.read (pre := [_]) (post := []) (a := 1) rfl), 0, 1, _, _, 1, false, by decide, rfl, rfl, rfl,
    rfl⟩

/-- C99: a look-up while another thread destroys the dictionary can read a node that is gone. -/
theorem c99_reader_and_destroyer : ∃ s, NSteps ⟨beingBuiltMem, [(NThr.containsTerm 1 []).bind fun _ => .ret (),
    (NThr.destroyDawg 2 { beingBuilt with unchecked := none, minimized := none, floating := none }).bind fun _ => .ret ()]⟩ s ∧
    s.Fault := by
  refine ⟨_, .tail (.tail .refl (NStep.read (pre := [_]) (post := []) (a := 1) rfl))
    (NStep.free (pre := [_]) (post := []) (a := 1) (by simp [beingBuiltMem])), _, List.mem_cons_self,
    .inr ⟨1, false, rfl, by simp [Mem.set]⟩⟩

end Lev.Props
