import Verif.Proofs.DictSem

/-!
How much fuel the functions on dictionaries need: bounds by the lengths of the terms alone, whatever addresses the allocator
hands out.
-/

namespace Lev

open Spec

/-- With fuel `B` or more `f` ends with `r`. -/
theorem Ends.det {α : Type} {f : Nat → Except Err α} {r s : α} {B : Nat} (h : Ends f r) (hB : ∀ n, B ≤ n → f n = .ok s) :
    r = s := h.unique ⟨B, hB⟩

/-- Splitting a run that ends. -/
theorem Ends.tail {α β : Type} {f : Nat → Except Err α} {g : Nat → α → Except Err β} {r : α} {s : β} {B : Nat}
    (h : Ends (fun n => f n >>= g n) s) (hB : ∀ n, B ≤ n → f n = .ok r) : Ends (fun n => g n r) s := by
  obtain ⟨N, hN⟩ := h
  refine ⟨max N B, fun n hn => ?_⟩
  have := hN n (by omega)
  simp only [hB n (by omega), bind, Except.bind] at this
  exact this

section
variable {sgn : Bool} {addr : Nat → Nat} {c0 : Nat} {m0 : Mem} {h : Heap} {d : SDawg} {reg : List RegEntry}
  {st : List Trans} {fl : List Nat} {fs : List (UInt8 × Frame)} {rf : Frame}

theorem minimizeLoop_by (haddr : AddrOk addr) (k : Nat) {B : Nat} (hB : 0 < B) {h : Heap} {d : SDawg} {reg : List RegEntry}
    {st : List Trans} {fl : List Nat} {fs : List (UInt8 × Frame)} {rf : Frame}
    (hc : Core sgn addr c0 m0 h d reg st fl fs rf) (hk : k ≤ st.length)
    (hne : 0 < k → (topFrame fs rf).fin = true ∨ (topFrame fs rf).kids ≠ .nil)
    (hL : ∀ t, Lang fs rf t → t.length < B) {r : Heap × SDawg}
    (hr : Ends (fun fuel => minimizeLoop sgn fuel k h d) r) :
    ∀ fuel, B ≤ fuel → minimizeLoop sgn fuel k h d = .ok r := by
  induction k generalizing h d reg st fs rf with
  | zero =>
    obtain ⟨N, hN⟩ := hr
    intro fuel _
    exact hN N (Nat.le_refl _)
  | succ k ih =>
    have hlen := hc.stack.length
    cases st with
    | nil => simp at hk
    | cons t st =>
      cases fs with
      | nil => simp at hlen
      | cons e fs =>
        obtain ⟨c, f⟩ := e
        have hlab := hc.fits.1
        have hlabne : ∀ e ∈ (topFrame fs rf).kids.toList, e.1 ≠ c := fun e he h' => by
          have := hlab e he; rw [h'] at this; omega
        have hft : f.kids.Trim := hc.trim.2 (c, f) (by simp)
        have hheight : f.kids.height + 1 ≤ B := by
          by_cases hn : f.kids = .nil
          · rw [hn]; simp only [Forest.height]; omega
          · obtain ⟨t, ht, hl⟩ := hft.long hn
            have := hL (path fs ++ c :: t) (.inl ⟨t, rfl, .inr ht⟩)
            simp at this
            omega
        obtain ⟨h1, d1, reg1, hrun, hc1, _⟩ := minimizeStep_by hc haddr (hne (by omega))
        have hrun' : ∀ fuel, B ≤ fuel → minimizeStep sgn fuel h d = .ok (h1, d1) := fun fuel hf => hrun fuel (by omega)
        have hr2 : Ends (fun fuel => minimizeLoop sgn fuel k h1 d1) r :=
          Ends.tail (f := fun fuel => minimizeStep sgn fuel h d) (g := fun fuel r => minimizeLoop sgn fuel k r.1 r.2) hr hrun'
        have := ih hc1 (by simpa using hk) (fun _ => .inr (by rw [topFrame_set]; exact Forest.ins_ne_nil))
          (fun x hx => hL x ((lang_down hlabne x).1 hx)) hr2
        intro fuel hf
        simp only [minimizeLoop, hrun' fuel hf, bind, Except.bind]
        exact this fuel hf

theorem addTerm_by (haddr : AddrOk addr) {terms : List Str} (hb : Built sgn addr c0 m0 terms h d)
    (term : Str) {B : Nat} (hB : 0 < B) (hL : ∀ t ∈ terms, t.length < B) {r : Bool × Heap × SDawg}
    (hr : Ends (fun fuel => addTerm sgn addr fuel term h d) r) :
    ∀ fuel, B ≤ fuel → addTerm sgn addr fuel term h d = .ok r := by
  obtain ⟨⟨reg, st, fl, fs, rf, hc, hpath, hnil, hfin, hlang⟩, hprev, hsize⟩ := hb
  have hlen := hc.stack.length
  by_cases hlt : strLt term d.prev = true
  · obtain ⟨N, hN⟩ := hr
    intro fuel _
    rw [← hN N (Nat.le_refl _)]
    simp only [addTerm, hlt, if_true]
  · by_cases hterm : term = []
    · obtain ⟨N, hN⟩ := hr
      intro fuel _
      rw [← hN N (Nat.le_refl _)]
      simp only [addTerm, hterm, if_true]
    · have hne : 0 < st.length - commonPrefix term d.prev → (topFrame fs rf).fin = true ∨ (topFrame fs rf).kids ≠ .nil :=
        fun hpos => .inl (hfin (by
          rintro rfl
          simp at hlen
          rw [← hlen] at hpos
          simp at hpos))
      obtain ⟨h1, d1, _, _, _, _, hrun1, _⟩ :=
        minimizeLoop_spec haddr (st.length - commonPrefix term d.prev) hc (by omega) hne
      have hrun := minimizeLoop_by haddr _ hB hc (by omega) hne (fun t ht => hL t ((hlang t).1 ht)) hrun1
      have hmin : ∀ fuel, B ≤ fuel → minimize sgn fuel (commonPrefix term d.prev) h d = .ok (h1, d1) := by
        intro fuel hf
        rw [minimize, hc.unchecked]; exact hrun fuel hf
      obtain ⟨N, hN⟩ := hr
      intro fuel hf
      rw [← hN (max N B) (by omega)]
      simp only [addTerm, hlt, hterm, if_false, hmin fuel hf, hmin (max N B) (by omega)]

/-! ### The number of edges of the tree -/

/-- Together the terms have this many characters. -/
def totalLen (terms : List Str) : Nat := (terms.map List.length).sum

/-- The terms that begin with `c`, without it. -/
def tailsOf (c : UInt8) : List Str → List Str
  | [] => []
  | [] :: ts => tailsOf c ts
  | (x :: t) :: ts => if x = c then t :: tailsOf c ts else tailsOf c ts

/-- The terms that begin with another character. -/
def othersOf (c : UInt8) : List Str → List Str
  | [] => []
  | [] :: ts => othersOf c ts
  | (x :: t) :: ts => if x = c then othersOf c ts else (x :: t) :: othersOf c ts

theorem mem_tailsOf {c : UInt8} {t : Str} {ts : List Str} : c :: t ∈ ts → t ∈ tailsOf c ts := by
  induction ts with
  | nil => simp
  | cons u ts ih =>
    intro h
    cases u with
    | nil => exact ih (by simpa using h)
    | cons x u =>
      simp only [tailsOf]
      rcases List.mem_cons.1 h with h | h
      · cases h; simp
      · split
        · exact List.mem_cons_of_mem _ (ih h)
        · exact ih h

theorem mem_othersOf {c x : UInt8} {t : Str} {ts : List Str} (hx : x ≠ c) : x :: t ∈ ts → x :: t ∈ othersOf c ts := by
  induction ts with
  | nil => simp
  | cons u ts ih =>
    intro h
    cases u with
    | nil => exact ih (by simpa using h)
    | cons y u =>
      simp only [othersOf]
      rcases List.mem_cons.1 h with h | h
      · cases h; simp [hx]
      · split
        · exact ih h
        · exact List.mem_cons_of_mem _ (ih h)

theorem totalLen_split (c : UInt8) (ts : List Str) :
    totalLen (tailsOf c ts) + (tailsOf c ts).length + totalLen (othersOf c ts) ≤ totalLen ts := by
  induction ts with
  | nil => simp [tailsOf, othersOf, totalLen]
  | cons u ts ih =>
    cases u with
    | nil => simpa [tailsOf, othersOf, totalLen] using ih
    | cons x u =>
      simp only [tailsOf, othersOf]
      split <;> simp only [totalLen, List.map_cons, List.sum_cons, List.length_cons] at ih ⊢ <;> omega

/-- The tree of a dictionary has at most as many edges as its terms have characters. -/
theorem Forest.size_le {F : Forest} (ht : F.Trim) (hs : F.Sorted sgn) {ts : List Str} (ha : ∀ t, F.Acc t → t ∈ ts) :
    F.size ≤ totalLen ts := by
  induction F generalizing ts with
  | nil => simp [Forest.size]
  | cons l f k r ihk ihr =>
    obtain ⟨h1, h2, h3⟩ := ht
    cases hs with
    | cons hsk hsr hlt =>
      have hne : ∀ t, ¬ r.Acc (l :: t) := by
        intro t hacc
        obtain ⟨f', k', hmem, _⟩ := Forest.acc_cons.1 hacc
        have : charLt sgn l l := by
          have hp := Forest.Sorted.toList (F := .cons l f k r) (.cons hsk hsr hlt)
          simp only [Forest.toList, List.pairwise_cons] at hp
          exact hp.1.1 _ hmem
        simp [charLt] at this
      have hk := ihk h2 hsk (ts := tailsOf l ts) fun t hacc => mem_tailsOf (ha _ (.inl ⟨t, rfl, .inr hacc⟩))
      have hr := ihr h3 hsr (ts := othersOf l ts) fun t hacc => by
        cases t with
        | nil => exact absurd hacc Forest.acc_nil
        | cons c t =>
          refine mem_othersOf ?_ (ha _ (.inr hacc))
          rintro rfl
          exact hne t hacc
      have hpos : 0 < (tailsOf l ts).length := by
        rcases h1 with h1 | h1
        · exact List.length_pos_of_mem (mem_tailsOf (ha [l] (.inl ⟨[], rfl, .inl ⟨rfl, h1⟩⟩)))
        · obtain ⟨t, hacc⟩ := h2.exists_acc h1
          exact List.length_pos_of_mem (mem_tailsOf (ha _ (.inl ⟨t, rfl, .inr hacc⟩)))
      have := totalLen_split l ts
      simp only [Forest.size]
      omega

theorem length_le_totalLen {ts : List Str} {t : Str} (h : t ∈ ts) : t.length ≤ totalLen ts := by
  induction ts with
  | nil => simp at h
  | cons u ts ih =>
    simp only [totalLen, List.map_cons, List.sum_cons] at ih ⊢
    rcases List.mem_cons.1 h with rfl | h
    · omega
    · have := ih h; omega

theorem totalLen_append (a b : List Str) : totalLen (a ++ b) = totalLen a + totalLen b := by simp [totalLen]

/-- The strings of the root alone are among those of the whole. -/
theorem lang_root {fs : List (UInt8 × Frame)} {rf : Frame} {t : Str} (h : rf.kids.Acc t) : Lang fs rf t := by
  induction fs with
  | nil => exact .inr h
  | cons e fs ih => exact .inr ih

theorem Core.size_le (hc : Core sgn addr c0 m0 h d reg st fl fs rf) {ts : List Str} (hl : ∀ t, Lang fs rf t → t ∈ ts) :
    rf.kids.size ≤ totalLen ts :=
  Forest.size_le hc.trim.1 (hc.stack.rootNode.sorted hc.regOk) fun t ht => hl t (lang_root ht)

theorem cleanUp_by (hc : Core sgn addr c0 m0 h d reg st fl fs rf) {B : Nat} (hB : rf.kids.size < B) {r : Heap × SDawg}
    (hr : Ends (fun fuel => cleanUp fuel h d) r) : ∀ fuel, B ≤ fuel → cleanUp fuel h d = .ok r := by
  obtain ⟨nd, hm, _, hF, _, _⟩ := hc.stack.rootNode
  obtain ⟨l, hl, _, _⟩ := allNodes_by hm hF
  obtain ⟨N, hN⟩ := hr
  intro fuel hf
  rw [← hN (max N B) (by omega)]
  simp only [cleanUp, hc.floating, hl fuel (by omega), hl (max N B) (by omega)]

theorem destroy_by (hc : Core sgn addr c0 m0 h d reg st fl fs rf) {B : Nat} (hB : rf.kids.size < B) {r : Heap}
    (hr : Ends (fun fuel => destroyDawg fuel h d) r) : ∀ fuel, B ≤ fuel → destroyDawg fuel h d = .ok r := by
  have hclean := cleanUp_by hc hB (cleanUp_spec hc)
  obtain ⟨nd, hm, _, hF, _, _⟩ := hc.stack.rootNode
  have hcl := hc.rootClosed
  have hmm : ∀ a, Reaches h.mem d.root a → cleaned addr c0 h d.root a = h.mem a := fun a ha => cleaned_reach ha
  obtain ⟨l, hl, _, _⟩ := allNodes_by (mem := cleaned addr c0 h d.root) (root := d.root) (nd := nd) (F := rf.kids)
    (by rw [hmm _ .refl]; exact hm) (hF.frame hcl hmm (fun c b hb => .step hm hb .refl))
  obtain ⟨N, hN⟩ := hr
  intro fuel hf
  rw [← hN (max N B) (by omega)]
  simp only [destroyDawg, bind, Except.bind, hclean fuel hf, hclean (max N B) (by omega), hl fuel (by omega),
    hl (max N B) (by omega)]

/-! ### The functions of the interface -/

/-- The fuel that is enough for a dictionary with these terms. -/
def fuelFor (terms : List Str) : Nat := totalLen terms + 2

theorem fuelFor_le {ts us : List Str} (h : totalLen ts ≤ totalLen us) : fuelFor ts ≤ fuelFor us := by
  simp only [fuelFor]; omega

theorem addTerm_ok (haddr : AddrOk addr) {terms : List Str} (hb : Built sgn addr c0 m0 terms h d)
    (term : Str) (hlt : strLt term d.prev = false) :
    ∃ h' d', (∀ fuel, fuelFor terms ≤ fuel → addTerm sgn addr fuel term h d = .ok (true, h', d')) ∧
      Built sgn addr c0 m0 (terms ++ [term]) h' d' := by
  obtain ⟨h', d', hrun, hb'⟩ := addTerm_spec haddr hb term hlt
  refine ⟨h', d', addTerm_by haddr hb term (by simp [fuelFor]) (fun t ht => ?_) hrun, hb'⟩
  have := length_le_totalLen ht
  simp only [fuelFor]; omega

theorem buildLoop_ok (haddr : AddrOk addr) (rest : List Str) {terms : List Str} {h : Heap} {d : SDawg}
    (hb : Built sgn addr c0 m0 terms h d) (hasc : Asc d.prev rest) :
    ∃ h' d', (∀ fuel, fuelFor (terms ++ rest) ≤ fuel → buildLoop sgn addr fuel rest h d = .ok (h', some d')) ∧
      Built sgn addr c0 m0 (terms ++ rest) h' d' := by
  induction rest generalizing terms h d with
  | nil => exact ⟨h, d, fun _ _ => rfl, by simpa using hb⟩
  | cons t rest ih =>
    obtain ⟨h1, d1, hrun, hb1⟩ := addTerm_ok haddr hb t hasc.1
    have hprev : d1.prev = t := by rw [hb1.prev]; simp
    obtain ⟨h2, d2, hrun2, hb2⟩ := ih hb1 (by rw [hprev]; exact hasc.2)
    refine ⟨h2, d2, fun fuel hf => ?_, by simpa using hb2⟩
    have h1 : fuelFor terms ≤ fuel := Nat.le_trans (fuelFor_le (by rw [totalLen_append]; omega)) hf
    simp only [buildLoop, hrun fuel h1, bind, Except.bind, if_true]
    exact hrun2 fuel (by simpa using hf)

theorem finish_ok (haddr : AddrOk addr) {terms : List Str} (hb : Built sgn addr c0 m0 terms h d) :
    ∃ h1 d1 h2 d2, (∀ fuel, fuelFor terms ≤ fuel → finishDawg sgn fuel h d = .ok (h1, d1)) ∧
      (∀ fuel, fuelFor terms ≤ fuel → cleanUp fuel h1 d1 = .ok (h2, d2)) ∧ Finished sgn addr c0 m0 terms h2 d2 := by
  obtain ⟨h1, d1, h2, d2, hrun, hclean, hf⟩ := finish_spec haddr hb
  obtain ⟨⟨reg, st, fl, fs, rf, hc, hpath, hnil, hfin, hlang⟩, hprev, hsize⟩ := hb
  have hlen := hc.stack.length
  have hne : 0 < st.length → (topFrame fs rf).fin = true ∨ (topFrame fs rf).kids ≠ .nil := fun hpos => .inl (hfin (by
    rintro rfl
    simp at hlen
    omega))
  have hrun' : Ends (fun fuel => minimizeLoop sgn fuel st.length h d) (h1, d1) := hrun.congr fun n => by
    simp only [finishDawg, minimize, hc.unchecked, Nat.sub_zero]
  have hL : ∀ t, Lang fs rf t → t.length < fuelFor terms := fun t ht => by
    have := length_le_totalLen ((hlang t).1 ht)
    simp only [fuelFor]; omega
  have hb1 := minimizeLoop_by haddr _ (by simp [fuelFor]) hc (Nat.le_refl _) hne hL hrun'
  obtain ⟨h1', d1', reg1, st1, fs1, rf1, hrun1, hc1, _, hlang1, _⟩ :=
    minimizeLoop_spec haddr st.length hc (Nat.le_refl _) hne
  obtain ⟨rfl, rfl⟩ := Prod.mk.injEq .. ▸ hrun1.unique hrun'
  refine ⟨h1', d1', h2, d2, fun fuel hf => ?_, cleanUp_by hc1 ?_ hclean, hf⟩
  · simp only [finishDawg, minimize, hc.unchecked, Nat.sub_zero]; exact hb1 fuel hf
  · have := hc1.size_le (ts := terms) fun t ht => (hlang t).1 ((hlang1 t).1 ht)
    simp only [fuelFor]; omega

theorem destroy_ok (haddr : AddrOk addr) {terms : List Str} (hb : Built sgn addr c0 m0 terms h d)
    (hm0 : ∀ j, c0 ≤ j → m0 (addr j) = none) :
    ∃ h', (∀ fuel, fuelFor terms ≤ fuel → destroyDawg fuel h d = .ok h') ∧ h'.count = h.count ∧ ∀ a, h'.mem a = m0 a := by
  obtain ⟨⟨reg, st, fl, fs, rf, hc, hpath, hnil, hfin, hlang⟩, hprev, hsize⟩ := hb
  obtain ⟨h', hrun, hcnt, hmem⟩ := destroy_spec hc haddr hm0
  refine ⟨h', destroy_by hc ?_ hrun, hcnt, hmem⟩
  have := hc.size_le (ts := terms) fun t ht => (hlang t).1 ht
  simp only [fuelFor]; omega

theorem Finished.destroy_ok {terms : List Str} (hf : Finished sgn addr c0 m0 terms h d)
    (hfresh : ∀ j, c0 ≤ j → m0 (addr j) = none) :
    ∃ h', (∀ fuel, fuelFor terms ≤ fuel → destroyDawg fuel h d = .ok h') ∧ h'.count = h.count ∧ ∀ a, h'.mem a = m0 a := by
  obtain ⟨h', hrun, hmem⟩ := hf.destroy hfresh
  obtain ⟨nd, F, h1, h2, h3, h4, h5⟩ := hf.dict
  obtain ⟨h'', hrun2, hcnt, _⟩ := deleteReach_spec h1 h2 hf.null hf.closed
  have hrun3 : Ends (fun fuel => destroyDawg fuel h d) h'' := hrun2.congr fun n => by
    simp only [destroyDawg, cleanUp, hf.ptrs.2.2, bind, Except.bind]
  obtain rfl := hrun.unique hrun3
  have hsz : F.size ≤ totalLen terms := Forest.size_le h3 h4 fun t ht => by
    rw [← hf.accepts, accepts_iff h1 h2]
    exact .inr ht
  obtain ⟨l, hl, _⟩ := allNodes_by h1 h2
  obtain ⟨N, hN⟩ := hrun3
  refine ⟨h', fun fuel hfu => ?_, hcnt, hmem⟩
  have e1 : allNodes h.mem fuel d.root = .ok l := hl fuel (by simp only [fuelFor] at hfu; omega)
  have e2 : allNodes h.mem (N + F.size + 1) d.root = .ok l := hl _ (by omega)
  rw [← hN (N + F.size + 1) (by omega)]
  simp only [destroyDawg, cleanUp, hf.ptrs.2.2, bind, Except.bind, e1, e2]

end

end Lev
