import Verif.Proofs.LateAdd
import Verif.Props.Dawg

/-!
C59, what holds: terms added between `finish` and `clean_up`.
-/

namespace Lev.Props

open Lev Spec

/-- The terms taken are sorted, and none is smaller than the one before. -/
theorem verdicts_sorted (last : Str) (calls : List Call) : SortedTerms (last :: (verdicts last calls).2) := by
  induction calls generalizing last with
  | nil => simp [verdicts, SortedTerms]
  | cons c cs ih =>
    cases c with
    | add t =>
      simp only [verdicts]
      split
      · exact ih last
      · next hlt => exact (asc_iff _ _).1 ⟨(strLt_false_iff _ _).2 hlt, (asc_iff _ _).2 (ih t)⟩
    | remove t => exact ih last

/-- Calls after `finish`. -/
theorem lateCalls_spec {sgn : Bool} {addr : Nat → Nat} {c0 : Nat} {m0 : Mem} (haddr : AddrOk addr) {terms : List Str}
    {h : Heap} {d : SDawg} {reg : List RegEntry} {fl : List Nat} {rf : Frame} (hc : Core sgn addr c0 m0 h d reg [] fl [] rf)
    (hlang : ∀ t, Lang [] rf t ↔ t ∈ terms) (hprev : d.prev = terms.getLast?.getD []) (hsize : d.size = terms.length)
    (hsort : SortedTerms terms) (late : List Call)
    (hshare : ∀ t c, (verdicts d.prev late).2.head? = some t → t.head? = some c → d.prev.head? ≠ some c) :
    ∃ h' d', Ends (fun fuel => runCalls sgn addr fuel late h d) ((verdicts d.prev late).1, h', d') ∧
      (((verdicts d.prev late).2 = [] ∧ h' = h ∧ d' = d) ∨ Built sgn addr c0 m0 (terms ++ (verdicts d.prev late).2) h' d') := by
  induction late with
  | nil => exact ⟨h, d, .of_eq fun _ => rfl, .inl ⟨rfl, rfl, rfl⟩⟩
  | cons c cs ih =>
    cases c with
    | remove t =>
      obtain ⟨h', d', ⟨N, hN⟩, h2⟩ := ih hshare
      refine ⟨h', d', ⟨N, fun fuel hf => ?_⟩, by simpa [verdicts] using h2⟩
      simp only [runCalls, removeTerm, bind, Except.bind, hN fuel hf, verdicts]
    | add t =>
      by_cases hlt : strLess t d.prev
      · obtain ⟨h', d', ⟨N, hN⟩, h2⟩ := ih (by simpa [verdicts, hlt] using hshare)
        refine ⟨h', d', ⟨N, fun fuel hf => ?_⟩, by simpa [verdicts, hlt] using h2⟩
        simp only [runCalls, addTerm, (strLt_iff _ _).2 hlt, if_true, bind, Except.bind, hN fuel hf, verdicts, hlt]
      · have hlt' := (strLt_false_iff _ _).2 hlt
        have hsh : ∀ c, t.head? = some c → d.prev.head? ≠ some c := fun c => hshare t c (by simp [verdicts, hlt])
        have hk : commonPrefix t d.prev = 0 := by
          cases t with
          | nil => rfl
          | cons x t =>
            generalize d.prev = p at hsh
            cases p with
            | nil => rfl
            | cons y p =>
              have : x ≠ y := fun h => hsh x rfl (by simp [h])
              simp [commonPrefix, this]
        have hle : ∀ s ∈ terms, ¬ strLess d.prev s := by
          intro s hs
          rw [hprev]
          cases hg : terms.getLast? with
          | none => rw [List.getLast?_eq_none_iff.1 hg] at hs; simp at hs
          | some x =>
            obtain ⟨l, rfl⟩ := List.getLast?_eq_some_iff.1 hg
            simp only [Option.getD_some]
            rcases List.mem_append.1 hs with h | h
            · exact (List.pairwise_append.1 hsort).2.2 s h x (by simp)
            · rw [List.mem_singleton.1 h]; exact strLess_irrefl x
        have hlow : ∀ e ∈ rf.kids.toList, d.prev ≠ [] ∧ ∀ v y, d.prev = v :: y → ¬ v.toNat < e.1.toNat := by
          intro e he
          obtain ⟨u, hu⟩ := hc.first_letter he
          have h1 := hle _ ((hlang _).1 hu)
          exact ⟨fun h => h1 (by rw [h]; exact .nil), fun v y h hv => h1 (by rw [h]; exact .rel hv)⟩
        obtain ⟨h1, d1, ⟨N1, hN1⟩, hb1⟩ := addTerm_fresh haddr hc hlang hsize t hlt' hk
          (by
            intro c hcx e he
            obtain ⟨h1, h2⟩ := hlow e he
            rcases commonPrefix_zero hk hlt' with h | ⟨u, x, v, y, rfl, h, hvu⟩
            · exact absurd h h1
            · simp only [List.head?_cons, Option.some.injEq] at hcx
              subst hcx
              have := h2 v y h
              omega)
          (by
            rintro rfl
            have hp0 := strLt_nil hlt' rfl
            cases hk : rf.kids with
            | nil => rfl
            | cons l f k r =>
              exact absurd hp0 (hlow (l, f, k) (by rw [hk]; simp [Forest.toList])).1)
        have hprev1 : d1.prev = t := by rw [hb1.prev]; simp
        obtain ⟨h', d', ⟨N, hN⟩, h2⟩ := runCalls_spec haddr cs hb1
        rw [hprev1] at hN h2
        refine ⟨h', d', ⟨max N N1, fun fuel hf => ?_⟩, .inr (by simpa [verdicts, hlt] using h2)⟩
        simp only [runCalls, hN1 fuel (by omega), bind, Except.bind, hN fuel (by omega), verdicts, hlt, if_false]

/-- C59, what holds: when the first term taken after `finish` does not begin with the same letter as the last one taken before,
all terms taken are in the dictionary and no others; the calls return what they should, the dictionary is minimal and its
destruction leaves memory as it was. -/
theorem c59_add_after_finish_partial (sgn : Bool) {addr : Nat → Nat} {h : Heap} (ha : Allocator addr h)
    (calls late : List Call)
    (hshare : ∀ t c, (verdicts ((verdicts [] calls).2.getLast?.getD []) late).2.head? = some t → t.head? = some c →
      ((verdicts [] calls).2.getLast?.getD []).head? ≠ some c) :
    ∃ h' d', Ends (fun fuel => lateRun sgn addr fuel calls late h)
        ((verdicts ((verdicts [] calls).2.getLast?.getD []) late).1, h', d') ∧
      d'.size = (verdicts [] calls).2.length + (verdicts ((verdicts [] calls).2.getLast?.getD []) late).2.length ∧
      (∀ t, Accepts h'.mem d'.root t ↔
        t ∈ (verdicts [] calls).2 ∨ t ∈ (verdicts ((verdicts [] calls).2.getLast?.getD []) late).2) ∧
      (∀ a b, Reaches h'.mem d'.root a → Reaches h'.mem d'.root b →
        (∀ t, Accepts h'.mem a t ↔ Accepts h'.mem b t) → a = b) ∧
      ∃ h'', Ends (fun fuel => destroyDawg fuel h' d') h'' ∧ ∀ a, h''.mem a = h.mem a := by
  have haddr : AddrOk addr := ⟨ha.nonnull, ha.inj⟩
  obtain ⟨h1, d1, ⟨N1, hN1⟩, hb⟩ := runCalls_spec haddr calls (newDawg_built (sgn := sgn) haddr ha.null ha.fresh)
  have hp : (initDawg (newDawg addr h).2).prev = [] := rfl
  rw [hp] at hN1 hb
  simp only [List.nil_append] at hb
  obtain ⟨h2, d2, reg, fl, rf, hfin, hc, hlang, hprev, hsize⟩ := finishDawg_spec haddr hb
  rw [← hprev] at hshare ⊢
  have hsort : SortedTerms (verdicts [] calls).2 := (List.pairwise_cons.1 (verdicts_sorted [] calls)).2
  obtain ⟨h3, d3, ⟨N3, hN3⟩, hcase⟩ := lateCalls_spec haddr hc hlang hprev hsize hsort late hshare
  obtain ⟨N2, hN2⟩ := hfin
  have key : ∃ h4 d4 h5 d5, Ends (fun fuel => finishDawg sgn fuel h3 d3) (h4, d4) ∧ Ends (fun fuel => cleanUp fuel h4 d4) (h5, d5) ∧
      Finished sgn addr h.count h.mem ((verdicts [] calls).2 ++ (verdicts d2.prev late).2) h5 d5 := by
    rcases hcase with ⟨h4, rfl, rfl⟩ | hb3
    · obtain ⟨h4', d4, h5, d5, e1, e2, e3⟩ := finish_spec haddr hb
      cases e1.unique ⟨N2, hN2⟩
      exact ⟨_, _, h5, d5, .of_eq (finishDawg_again hc), e2, by rw [h4]; simpa using e3⟩
    · exact finish_spec haddr hb3
  obtain ⟨h4, d4, h5, d5, ⟨N4, hN4⟩, ⟨N5, hN5⟩, hf⟩ := key
  refine ⟨h5, d5, ⟨N1 + N2 + N3 + N4 + N5, fun fuel hfu => ?_⟩, by rw [hf.size]; simp, fun t => by rw [hf.accepts]; simp,
    hf.minimal, hf.destroy ha.fresh⟩
  have e1 := hN1 fuel (by omega)
  have e2 := hN2 fuel (by omega)
  have e3 := hN3 fuel (by omega)
  have e4 := hN4 fuel (by omega)
  have e5 := hN5 fuel (by omega)
  simp only at e1 e2 e3 e4 e5
  simp only [lateRun, bind, Except.bind, e1, e2, e3, e4, e5]

/-- Calls for which the theorem speaks: "ab", `finish`, then "a" (rejected), "b", a removal and "bb". -/
example : (verdicts [] [.add [97, 98]]).2 = [[97, 98]] ∧
    verdicts [97, 98] [.add [97], .add [98], .remove [97], .add [98, 98]] = ([false, true, false, true], [[98], [98, 98]]) := by
  decide

end Lev.Props
