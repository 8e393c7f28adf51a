import Verif.Proofs.DictSem

/-!
Adding terms after `finish`, before `clean_up`.
-/

namespace Lev

open Spec

section
variable {sgn : Bool} {addr : Nat → Nat} {c0 : Nat} {m0 : Mem}

theorem commonPrefix_zero {a b : Str} (h : commonPrefix a b = 0) (hlt : strLt a b = false) :
    b = [] ∨ ∃ u x v y, a = u :: x ∧ b = v :: y ∧ v.toNat < u.toNat := by
  obtain ⟨p, x, y, h1, h2, h3, h4⟩ := commonPrefix_spec a b hlt
  rw [h] at h3
  have hp : p = [] := List.length_eq_zero_iff.1 h3
  subst hp
  simp only [List.nil_append] at h1 h2
  subst h1 h2
  rcases h4 with h | ⟨u, x', v, y', h⟩
  · exact .inl h
  · exact .inr ⟨u, x', v, y', h⟩

/-- After `finish` the stack is empty; a term that has no letter in common with the beginning of the last one is added as
during the construction. -/
theorem addTerm_fresh (haddr : AddrOk addr) {terms : List Str} {h : Heap} {d : SDawg} {reg : List RegEntry} {fl : List Nat}
    {rf : Frame} (hc : Core sgn addr c0 m0 h d reg [] fl [] rf) (hlang : ∀ t, Lang [] rf t ↔ t ∈ terms)
    (hsize : d.size = terms.length) (term : Str) (hlt : strLt term d.prev = false) (hk : commonPrefix term d.prev = 0)
    (hlab : ∀ c, term.head? = some c → ∀ e ∈ rf.kids.toList, e.1.toNat < c.toNat)
    (hnil : term = [] → rf.kids = .nil) :
    ∃ h' d', Ends (fun fuel => addTerm sgn addr fuel term h d) (true, h', d') ∧
      Built sgn addr c0 m0 (terms ++ [term]) h' d' := by
  by_cases hterm : term = []
  · subst hterm
    obtain ⟨h', hrun, hc', hl'⟩ := setFinal_spec haddr hc
    refine ⟨h', { d with prev := [], size := d.size + 1 }, .of_eq fun n => ?_, ⟨⟨reg, [], fl, [], _, { hc' with }, ?_, ?_, ?_, ?_⟩, ?_, ?_⟩⟩
    · have hrun' : setFinal d.root h = .ok h' := hrun
      simp only [addTerm, hlt, if_true, hrun', bind, Except.bind, Bool.false_eq_true, if_false]
    · simp [path]
    · exact hnil rfl
    · simp
    · intro t
      have := hl' t
      simp only [setTopS] at this
      rw [this, hlang]
      simp [path]
    · simp
    · simp [hsize]
  · obtain ⟨h2, d2, st2, fl2, fs2, hrun2, hc2, hpath2, hlang2, hp2, hs2, hnil2, _⟩ :=
      pushSuffix_spec haddr term hc (fun c hcx e he => hlab c hcx e he)
    obtain ⟨h3, hrun3, hc3, hlang3⟩ := setFinal_spec haddr hc2
    have hpath3 : path fs2 = term := by rw [hpath2]; simp [path]
    refine ⟨h3, { d2 with prev := term, size := d2.size + 1 }, .of_eq fun fuel => ?_,
      ⟨⟨reg, st2, fl2, _, _, { hc3 with }, ?_, ?_, ?_, ?_⟩, ?_, ?_⟩⟩
    · have hmin : minimize sgn fuel 0 h d = .ok (h, d) := by
        rw [minimize, hc.unchecked]; rfl
      have hsrc : suffixSource d = .ok (topNode d.root []) := by
        rw [suffixSource, hc.unchecked]; rfl
      simp only [addTerm, hlt, hterm, Bool.false_eq_true, if_false, hk, hmin, bind, Except.bind, List.drop_zero, hsrc,
        hrun2, hrun3]
    · rw [path_setTop, hpath3]
    · rw [topFrame_set]; exact hnil2 hterm
    · intro _; rw [topFrame_set]
    · intro t
      rw [hlang3, hlang2, hlang, hpath3]
      simp
    · simp
    · simp [hs2, hsize]

/-- `finish` on a dictionary under construction. -/
theorem finishDawg_spec (haddr : AddrOk addr) {terms : List Str} {h : Heap} {d : SDawg}
    (hb : Built sgn addr c0 m0 terms h d) :
    ∃ h1 d1 reg fl rf, Ends (fun fuel => finishDawg sgn fuel h d) (h1, d1) ∧ Core sgn addr c0 m0 h1 d1 reg [] fl [] rf ∧
      (∀ t, Lang [] rf t ↔ t ∈ terms) ∧ d1.prev = terms.getLast?.getD [] ∧ d1.size = terms.length := by
  obtain ⟨⟨reg, st, fl, fs, rf, hc, hpath, hnil, hfin, hlang⟩, hprev, hsize⟩ := hb
  have hlen := hc.stack.length
  obtain ⟨h1, d1, reg1, st1, fs1, rf1, hrun1, hc1, hpath1, hlang1, hp1, hs1, _⟩ :=
      minimizeLoop_spec haddr st.length hc (by omega) (fun hpos => .inl (hfin (by
        rintro rfl
        simp at hlen
        omega)))
  have hfs1 : fs1 = [] := by
    simp only [Nat.sub_self, List.take_zero] at hpath1
    simpa [path] using hpath1
  subst hfs1
  have hst1 : st1 = [] := by
    have := hc1.stack.length
    cases st1 with | nil => rfl | cons => simp at this
  subst hst1
  refine ⟨h1, d1, reg1, fl, rf1, ?_, hc1, fun t => (hlang1 t).trans (hlang t), hp1.trans hprev, hs1.trans hsize⟩
  refine hrun1.congr fun n => ?_
  simp only [finishDawg, minimize, hc.unchecked, Nat.sub_zero]

/-- `finish` a second time, when nothing was added, changes nothing. -/
theorem finishDawg_again {h : Heap} {d : SDawg} {reg : List RegEntry} {fl : List Nat} {rf : Frame}
    (hc : Core sgn addr c0 m0 h d reg [] fl [] rf) (fuel : Nat) : finishDawg sgn fuel h d = .ok (h, d) := by
  simp [finishDawg, minimize, hc.unchecked, minimizeLoop]

end

/-- The first letters of the words below a trim root. -/
theorem Core.first_letter {sgn : Bool} {addr : Nat → Nat} {c0 : Nat} {m0 : Mem} {h : Heap} {d : SDawg} {reg : List RegEntry}
    {fl : List Nat} {rf : Frame} (hc : Core sgn addr c0 m0 h d reg [] fl [] rf) {e : UInt8 × Bool × Forest}
    (he : e ∈ rf.kids.toList) : ∃ u, Lang [] rf (e.1 :: u) := by
  have ht := Forest.trim_iff.1 hc.trim.1 e he
  obtain ⟨c, f, k⟩ := e
  have hu : ∃ u, AccT f k u := by
    rcases ht.1 with h | h
    · exact ⟨[], .inl ⟨rfl, h⟩⟩
    · obtain ⟨u, hu⟩ := ht.2.exists_acc h
      exact ⟨u, .inr hu⟩
  obtain ⟨u, hu⟩ := hu
  exact ⟨u, .inr (Forest.acc_cons.2 ⟨f, k, he, hu⟩)⟩

end Lev
