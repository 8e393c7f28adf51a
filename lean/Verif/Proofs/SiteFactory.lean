import Verif.Proofs.SiteEnd

/-!
`sorted_dawg` when allocations fail.
-/

namespace Lev

open Spec

section
variable {sgn : Bool} {addr : Nat → Nat} {c0 : Nat} {m0 : Mem} {L : Nat}

theorem InWorkE.heap {s : Progress} {h : Heap} {d : SDawg} (hw : InWorkE sgn addr c0 m0 L s h d) : HeapOk addr c0 m0 h := by
  obtain ⟨_, _, _, _, _, _, _, hw⟩ := hw
  exact hw.site.heap

theorem ClosingE.heap {s : Progress} {h : Heap} {d : SDawg} (hw : ClosingE sgn addr c0 m0 L s h d) : HeapOk addr c0 m0 h := by
  obtain ⟨_, _, _, _, _, _, _, hw⟩ := hw
  exact hw.site.heap

theorem HeapOk.nothingFreed {h : Heap} (hh : HeapOk addr c0 m0 h) : NothingFreed addr c0 m0 h := ⟨hh.live, hh.old⟩

/-- Nothing has been thrown so far. -/
structure Spec.Progress.Tight (s : Progress) (terms : List Str) : Prop where
  last : s.last = s.prev
  path : s.path = s.prev
  words : s.words = terms
  size : s.size = terms.length
  stray : s.stray = 0

theorem Spec.Progress.Tight.safe {s : Progress} {terms : List Str} (h : s.Tight terms) (t : Str) : Safe s t := by
  by_cases hlt : strLess t s.prev
  · exact .inl hlt
  · exact .inr ⟨by rw [h.last]; exact hlt, by rw [h.path]; exact Nat.le_refl _⟩

/-- How the loop of the factory ends. -/
inductive LoopEnd (sgn : Bool) (addr : Nat → Nat) (c0 : Nat) (m0 : Mem) (L : Nat) (f : FactoryFault) (s : Progress) (terms rest : List Str) :
    Heap → FactoryEnd → Prop
  | dawg {s' : Progress} {h : Heap} {d : SDawg} : InWorkE sgn addr c0 m0 L s' h d → s'.Tight (terms ++ rest) → Asc s.prev rest →
      LoopEnd sgn addr c0 m0 L f s terms rest h (.dawg d)
  | null {h : Heap} : (∀ a, h.mem a = m0 a) → ¬ Asc s.prev rest → c0 < h.count → LoopEnd sgn addr c0 m0 L f s terms rest h .null
  | threw {h : Heap} : HeapOk addr c0 m0 h → LoopEnd sgn addr c0 m0 L f s terms rest h .threw
  | terminated {h : Heap} : f.destroy = true → ¬ Asc s.prev rest → LoopEnd sgn addr c0 m0 L f s terms rest h .terminated

theorem strayNodes_zero {m m' : Mem} (h : StrayNodes m m' 0) (a : Nat) : m' a = m a := by
  obtain ⟨l, _, h2, _, h4⟩ := h
  have : l = [] := List.length_eq_zero_iff.1 h2
  subst this
  exact h4 a (by simp)

theorem deleteAll_count {l : List Nat} {h h' : Heap} (hr : deleteAll l h = .ok h') : h'.count = h.count := by
  induction l generalizing h with
  | nil => simp only [deleteAll, Except.ok.injEq] at hr; rw [← hr]
  | cons a l ih =>
    rw [deleteAll] at hr
    unfold deleteNode at hr
    split at hr
    · exact ih hr
    · split at hr
      · exact ih (h := { mem := h.mem.set a none, count := h.count }) hr
      · simp [bind, Except.bind] at hr

theorem destroyDawg_count {fuel : Nat} {h h' : Heap} {d : SDawg} (hr : destroyDawg fuel h d = .ok h') : h'.count = h.count := by
  unfold destroyDawg cleanUp at hr
  cases hfl : d.floating with
  | none =>
    simp only [hfl, bind, Except.bind] at hr
    split at hr
    · cases hr
    · exact deleteAll_count hr
  | some fl =>
    simp only [hfl, bind, Except.bind] at hr
    cases h1 : allNodes h.mem fuel d.root with
    | error => simp [h1] at hr
    | ok r =>
      simp only [h1] at hr
      cases h2 : deleteAll (fl.filter (fun a => decide (a ∉ r))) h with
      | error => simp only [h2] at hr; cases hr
      | ok h1' =>
        simp only [h2] at hr
        split at hr
        · cases hr
        · rw [deleteAll_count hr, deleteAll_count h2]

theorem buildLoopF_spec (haddr : AddrOk addr) (hm0 : ∀ j, c0 ≤ j → m0 (addr j) = none) (f : FactoryFault) (rest : List Str)
    (k : Nat) {s : Progress} {terms : List Str} {h : Heap} {d : SDawg} (hw : InWorkE sgn addr c0 m0 L s h d) (ht : s.Tight terms)
    (hL : ∀ t ∈ rest, t.length ≤ L) :
    ∃ h' r, Ends (fun fuel => buildLoopF sgn addr fuel f k rest h d) (h', r) ∧ LoopEnd sgn addr c0 m0 L f s terms rest h' r := by
  induction rest generalizing k s terms h d with
  | nil => exact ⟨h, .dawg d, .of_eq fun _ => rfl, .dawg hw (by simpa using ht) trivial⟩
  | cons t rest ih =>
    obtain ⟨reg, st, fl, lk, fs, rf, Z, hw⟩ := hw
    obtain ⟨fate, s1, h1, d1, ⟨N, hN⟩, ho, hw1⟩ := addTermF_spec haddr hw (f.add k) t (ht.safe t) (hL t (by simp))
    simp only at hN
    cases fate with
    | threw =>
      refine ⟨h1, .threw, ⟨N, fun fuel hf => ?_⟩, .threw hw1.heap⟩
      simp only [buildLoopF, hN fuel hf, bind, Except.bind, pure, Except.pure]
    | refused =>
      have hlt : strLess t s.prev ∧ s1 = s := by
        generalize hfa : f.add k = fa at ho
        cases ho
        exact ⟨by assumption, rfl⟩
      obtain ⟨hlt, rfl⟩ := hlt
      have hasc : ¬ Asc s1.prev (t :: rest) := fun h' => by
        have := (strLt_false_iff _ _).1 h'.1
        exact this hlt
      by_cases hd : f.destroy = true
      · refine ⟨h1, .terminated, ⟨N, fun fuel hf => ?_⟩, .terminated hd hasc⟩
        simp [buildLoopF, hN fuel hf, bind, Except.bind, pure, Except.pure, destroyDawgF, hd]
      · have hd : f.destroy = false := by simpa using hd
        have hbase := hw1.heap.base
        obtain ⟨reg1, st1, fl1, lk1, fs1, rf1, Z1, hw1⟩ := hw1
        obtain ⟨h2, ⟨N2, hN2⟩, hs⟩ := hw1.site.destroy haddr hm0
        simp only at hN2
        rw [hw1.stray, ht.stray] at hs
        refine ⟨h2, .null, ⟨max N N2, fun fuel hf => ?_⟩, .null (strayNodes_zero hs) hasc ?_⟩
        · simp [buildLoopF, hN fuel (by omega), bind, Except.bind, pure, Except.pure, destroyDawgF, hd, hN2 fuel (by omega)]
        · rw [destroyDawg_count (hN2 N2 (Nat.le_refl _))]; exact hbase
    | added =>
      have hs1 : ¬ strLess t s.prev ∧
          s1 = { s with prev := t, last := t, path := t, words := s.words ++ [t], size := s.size + 1 } := by
        generalize hfa : f.add k = fa at ho
        cases ho
        exact ⟨by assumption, rfl⟩
      obtain ⟨hlt, rfl⟩ := hs1
      obtain ⟨h2, r, ⟨N2, hN2⟩, hend⟩ := ih (k + 1) (terms := terms ++ [t]) hw1
        ⟨rfl, rfl, by simp [ht.words], by simp [ht.size], ht.stray⟩ fun t ht => hL t (by simp [ht])
      simp only at hN2
      have hltF := (strLt_false_iff _ _).2 hlt
      refine ⟨h2, r, ⟨max N N2, fun fuel hf => ?_⟩, ?_⟩
      · simp only [buildLoopF, hN fuel (by omega), bind, Except.bind, hN2 fuel (by omega)]
      · cases hend with
        | dawg a b c => exact .dawg a (by simpa using b) ⟨hltF, c⟩
        | null a b c => exact .null a (fun h' => b h'.2) c
        | threw a => exact .threw a
        | terminated a b => exact .terminated a fun h' => b h'.2

/-- How the factory ends. -/
inductive MakeEnd (sgn : Bool) (addr : Nat → Nat) (h : Heap) (L : Nat) (f : FactoryFault) (terms : List Str) : Heap → FactoryEnd → Prop
  | dawg {h' : Heap} {d : SDawg} {rf : Frame} : Cleaned sgn addr h.count h.mem rf 0 h' d.root → rf.kids.height ≤ L →
      (∀ t, AccT rf.fin rf.kids t ↔ t ∈ terms) → d.size = terms.length → d.floating = none → Asc [] terms →
      MakeEnd sgn addr h L f terms h' (.dawg d)
  | null {h' : Heap} : (∀ a, h'.mem a = h.mem a) → ¬ Asc [] terms → MakeEnd sgn addr h L f terms h' .null
  | threw {h' : Heap} : NothingFreed addr h.count h.mem h' → (h'.count = h.count ↔ f.object = true) → h.count ≤ h'.count →
      MakeEnd sgn addr h L f terms h' .threw
  | terminated {h' : Heap} : f.destroy = true → ¬ Asc [] terms → MakeEnd sgn addr h L f terms h' .terminated

theorem sortedDawgF_spec (haddr : AddrOk addr) {h : Heap} (h0 : h.mem 0 = none)
    (hfresh : ∀ j, h.count ≤ j → h.mem (addr j) = none) (f : FactoryFault) (terms : List Str) (hL : ∀ t ∈ terms, t.length ≤ L) :
    ∃ h' r, Ends (fun fuel => sortedDawgF sgn addr fuel f terms h) (h', r) ∧ MakeEnd sgn addr h L f terms h' r := by
  by_cases hobj : f.object = true
  · refine ⟨h, .threw, .of_eq fun n => by simp [sortedDawgF, hobj], .threw ⟨?_, fun _ _ => rfl⟩ (by simp [hobj]) (Nat.le_refl _)⟩
    intro j h1 h2; omega
  · have hobj : f.object = false := by simpa using hobj
    have hnew := newDawg_inWork (sgn := sgn) haddr L h0 hfresh
    have hthrew : ∀ h' : Heap, HeapOk addr h.count h.mem h' → MakeEnd sgn addr h L f terms h' .threw := fun h' hh =>
      .threw hh.nothingFreed ⟨fun h1 => by have := hh.base; omega, fun h1 => by rw [hobj] at h1; cases h1⟩ (by have := hh.base; omega)
    by_cases hinit : f.init = true
    · refine ⟨(newDawg addr h).1, .threw, .of_eq fun n => by simp [sortedDawgF, hobj, hinit], hthrew _ hnew.heap⟩
    · have hinit : f.init = false := by simpa using hinit
      obtain ⟨h1, r, ⟨N1, hN1⟩, hend⟩ := buildLoopF_spec haddr hfresh f terms 0 hnew (terms := [])
        ⟨rfl, rfl, rfl, rfl, rfl⟩ hL
      simp only at hN1
      cases hend with
      | null a b c =>
        refine ⟨h1, .null, ⟨N1, fun fuel hf => ?_⟩, .null a b⟩
        simp [sortedDawgF, hobj, hinit, hN1 fuel hf, bind, Except.bind, pure, Except.pure]
      | threw a =>
        refine ⟨h1, .threw, ⟨N1, fun fuel hf => ?_⟩, hthrew _ a⟩
        simp [sortedDawgF, hobj, hinit, hN1 fuel hf, bind, Except.bind, pure, Except.pure]
      | terminated a b =>
        refine ⟨h1, .terminated, ⟨N1, fun fuel hf => ?_⟩, .terminated a b⟩
        simp [sortedDawgF, hobj, hinit, hN1 fuel hf, bind, Except.bind, pure, Except.pure]
      | @dawg s1 _ d1 hw1 ht1 hasc =>
        obtain ⟨h2, d2, threw, s2, ⟨N2, hN2⟩, hw2, hcase⟩ := finishF_spec haddr hw1.closing f.finish
        simp only at hN2
        rcases hcase with ⟨rfl, _⟩ | ⟨rfl, rfl, _⟩
        · refine ⟨h2, .threw, ⟨max N1 N2, fun fuel hf => ?_⟩, hthrew _ hw2.heap⟩
          simp [sortedDawgF, hobj, hinit, hN1 fuel (by omega), hN2 fuel (by omega), bind, Except.bind, pure, Except.pure]
        · have hheap := hw2.heap
          obtain ⟨reg, st, fl, lk, fs, rf, Z, hw2⟩ := hw2
          by_cases hcl : f.clean = true
          · refine ⟨h2, .threw, ⟨max N1 N2, fun fuel hf => ?_⟩, hthrew _ hheap⟩
            simp [sortedDawgF, hobj, hinit, hN1 fuel (by omega), hN2 fuel (by omega), bind, Except.bind, pure, Except.pure, cleanUpF, hcl,
              hw2.site.floating]
          · have hcl : f.clean = false := by simpa using hcl
            obtain ⟨N3, hN3⟩ := hw2.site.cleanUp rfl hw2.site.floating
            simp only at hN3
            have hfs : fs = [] := by
              have : path fs = [] := hw2.path
              simpa [path] using this
            subst hfs
            have hlk : lk.length = 0 := hw2.stray.trans ht1.stray
            have hC := hw2.site.cleaned haddr hfresh
            rw [hlk] at hC
            refine ⟨_, .dawg { d2 with unchecked := none, minimized := none, floating := none },
              ⟨max N1 (max N2 N3), fun fuel hf => ?_⟩, .dawg hC hw2.low (fun t => ?_) ?_ rfl hasc⟩
            · simp [sortedDawgF, hobj, hinit, hN1 fuel (by omega), hN2 fuel (by omega), bind, Except.bind, pure, Except.pure, cleanUpF, hcl,
                hN3 fuel (by omega)]
            · have := hw2.lang t
              simp only [ht1.words, List.nil_append] at this
              exact this
            · show d2.size = _
              rw [hw2.size]
              simpa using ht1.size

end

end Lev
