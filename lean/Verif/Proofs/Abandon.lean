import Verif.Proofs.Reuse

/-!
Dictionaries under construction: what hangs on the root already, and `clean_up` without `finish`.
-/

namespace Lev

open Spec

theorem topFrame_root {e : UInt8 × Frame} {fs : List (UInt8 × Frame)} {rf : Frame} (h : Fits (fs ++ [e]) rf) :
    ∀ x ∈ rf.kids.toList, x.1.toNat < e.1.toNat := by
  induction fs with
  | nil =>
    obtain ⟨c, f⟩ := e
    exact h.1
  | cons g fs ih =>
    obtain ⟨c, f⟩ := g
    exact ih h.2

/-- What is on the stack begins with the first label. -/
theorem lang_stack {c : UInt8} {f : Frame} {fs : List (UInt8 × Frame)} {rf : Frame} (t : Str) (h : Lang (fs ++ [(c, f)]) rf t) :
    AccT rf.fin rf.kids t ∨ t.head? = some c := by
  induction fs with
  | nil =>
    rcases h with ⟨u, rfl, _⟩ | h
    · right; simp [path]
    · exact .inl h
  | cons g fs ih =>
    obtain ⟨c', f'⟩ := g
    rcases h with ⟨u, rfl, _⟩ | h
    · right
      simp [path]
    · exact ih h

theorem lang_of_root {fs : List (UInt8 × Frame)} {rf : Frame} {t : Str} (h : AccT rf.fin rf.kids t) : Lang fs rf t := by
  induction fs with
  | nil => exact h
  | cons g fs ih => exact .inr ih

theorem head_acc {F : Forest} {t : Str} (h : F.Acc t) : ∃ x ∈ F.toList, t.head? = some x.1 := by
  cases t with
  | nil => exact absurd h (by simp [Forest.acc_nil])
  | cons c u =>
    obtain ⟨f, K, h1, _⟩ := Forest.acc_cons.1 h
    exact ⟨_, h1, rfl⟩

/-- What hangs on the root: the terms that do not begin like the last one. -/
theorem root_lang {fs : List (UInt8 × Frame)} {rf : Frame} (hfit : Fits fs rf) (t : Str) :
    AccT rf.fin rf.kids t ↔ Lang fs rf t ∧ ∀ c, (path fs).head? = some c → t.head? ≠ some c := by
  rcases List.eq_nil_or_concat fs with rfl | ⟨gs, ⟨c, f⟩, rfl⟩
  · simp [Lang, path]
  · rw [List.concat_eq_append] at *
    have hp : (path (gs ++ [(c, f)])).head? = some c := by simp [path]
    rw [hp]
    constructor
    · intro h
      refine ⟨lang_of_root h, ?_⟩
      rintro c' hc' ht
      cases hc'
      rcases h with ⟨rfl, _⟩ | h
      · simp at ht
      · obtain ⟨x, h1, h2⟩ := head_acc h
        have := topFrame_root hfit x h1
        rw [ht] at h2
        cases h2
        exact Nat.lt_irrefl _ this
    · rintro ⟨h1, h2⟩
      exact (lang_stack t h1).resolve_right (h2 c rfl)

section
variable {sgn : Bool} {addr : Nat → Nat} {c0 : Nat} {m0 : Mem} {h : Heap} {d : SDawg} {reg : List RegEntry}
  {st : List Trans} {fl : List Nat} {fs : List (UInt8 × Frame)} {rf : Frame}

theorem Core.root_accepts (hc : Core sgn addr c0 m0 h d reg st fl fs rf) (t : Str) :
    Accepts h.mem d.root t ↔ AccT rf.fin rf.kids t := by
  obtain ⟨nd, hm, hfin, hF, _⟩ := hc.stack.rootNode
  rw [accepts_iff hm hF, hfin]

/-- Two nodes that can be reached do not have the same language. -/
theorem Core.minimal (hc : Core sgn addr c0 m0 h d reg st fl fs rf) {a b : Nat} (ha : Reaches h.mem d.root a)
    (hb : Reaches h.mem d.root b) (heq : ∀ t, Accepts h.mem a t ↔ Accepts h.mem b t) : a = b := by
  obtain ⟨na, Fa, ha1, ha2, ha3, ha4⟩ := hc.node_tree ha
  obtain ⟨nb, Fb, hb1, hb2, hb3, hb4⟩ := hc.node_tree hb
  simp only [accepts_iff ha1 ha2, accepts_iff hb1 hb2] at heq
  have hfin : na.final = nb.final := by
    have := heq []
    simp only [AccT, true_and, Forest.acc_nil, or_false] at this
    exact Bool.eq_iff_iff.2 this
  have hFab : Fa = Fb := forest_ext ha4 hb4 ha3 hb3 fun t => by
    cases t with
    | nil => simp [Forest.acc_nil]
    | cons c u => simpa [AccT] using heq (c :: u)
  subst hFab
  rcases hc.reach ha with rfl | hra <;> rcases hc.reach hb with rfl | hrb
  · rfl
  · rcases reach_height hb ha1 ha2 hb1 hb2 with h | h
    · exact h.symm
    · omega
  · rcases reach_height ha hb1 hb2 ha1 ha2 with h | h
    · exact h
    · omega
  · exact hc.regOk.eq_of_tree hra hrb ha1 hb1 ha2 hb2 hfin

/-- After `clean_up`, finished or not. -/
theorem Core.abandoned (hc : Core sgn addr c0 m0 h d reg st fl fs rf) (haddr : AddrOk addr) :
    Whole sgn addr c0 c0 m0 (AccT rf.fin rf.kids) ⟨cleaned addr c0 h d.root, h.count⟩
      { d with unchecked := none, minimized := none, floating := none } := by
  have hcl := hc.rootClosed
  have hmm : ∀ a, Reaches h.mem d.root a → cleaned addr c0 h d.root a = h.mem a := fun a ha => cleaned_reach ha
  have hri := reaches_frame_iff hcl hmm (a := d.root) .refl
  have hrootD := hc.stack.rootNode.dictNode hc.regOk
  have hrootS := hc.stack.rootNode.sorted hc.regOk
  obtain ⟨nd, hm, hfinr, hF, hsr, hZ⟩ := hc.stack.rootNode
  refine ⟨hc.root, Nat.le_refl _, hc.heap.base, ⟨rfl, rfl, rfl⟩, ?_, ?_, ?_, ?_, ?_, ?_, ?_⟩
  · have : ¬ InRange addr c0 h 0 := by
      rintro ⟨j, _, _, hj⟩; exact haddr.1 j hj.symm
    simp only [cleaned, this, false_and, if_false]
    exact hc.heap.null
  · intro j hj
    simp only [cleaned]
    split
    · rfl
    · exact hc.heap.fresh j hj
  · intro a ha
    have ha' : ¬ InRange addr c0 h a := ha
    simp only [cleaned, ha', false_and, if_false]
    exact hc.heap.old a fun j h1 h2 h3 => ha' ⟨j, h1, h2, h3⟩
  · intro a ha
    have ha' : InRange addr c0 h a := ha
    simp only [hri]
    by_cases hr : Reaches h.mem d.root a
    · simp only [hr, iff_true]
      rw [cleaned_reach hr]
      obtain ⟨j, h2, h3, rfl⟩ := ha'
      exact hc.heap.live j h2 h3
    · simp [cleaned, ha', hr]
  · intro a ha
    exact hc.reachRange ((hri a).1 ha)
  · refine ⟨nd, rf.kids, by simp only; rw [hmm _ .refl]; exact hm, ?_, hc.trim.1, hrootS, ?_⟩
    · exact hF.frame hcl hmm (fun c b hb => .step hm hb .refl)
    · exact DictNode.frame hcl hmm hrootD .refl
  · intro t
    exact (accepts_frame_iff hcl hmm .refl t).trans (hc.root_accepts t)

end

section
variable {sgn : Bool} {addr : Nat → Nat} {c0 r : Nat} {m0 : Mem} {L : Str → Prop} {h : Heap} {d : SDawg}

/-- `clean_up` of a resumed dictionary that was not finished. -/
theorem Whole.abandon_lift (haddr : AddrOk addr) (hf : Whole sgn addr c0 r m0 L h d) {o : DNode} (ho : h.mem d.root = some o)
    {vs : List Str} {gh : Heap} {gd : SDawg} (hb : Built sgn (rootLast addr r h) (h.count - 1) (emptied h d.root).mem vs gh gd)
    (hnew : ∀ c u, c :: u ∈ vs → NewLetter o c) (s : Nat) (q : Str) :
    ∃ gh2 gd2, Ends (fun fuel => cleanUp fuel (liftH sgn d.root o gh) (liftD s q gd)) (liftH sgn d.root o gh2, liftD s q gd2) ∧
      gd2.size = gd.size ∧
      Whole sgn (rootLast addr r h) (h.count - 1) (h.count - 1) (emptied h d.root).mem
        (fun t => t ∈ vs ∧ ∀ c, gd.prev.head? = some c → t.head? ≠ some c) gh2 gd2 := by
  have hok : AddrOk (rootLast addr r h) := swapAddr_ok haddr _ _
  obtain ⟨⟨reg, st, fl, fs, rf, hc, hpath, hnil, hfin, hlang⟩, hprev, hsize⟩ := hb
  obtain ⟨_, _, _, hso, _, _, ⟨F0, hF0⟩, _⟩ := hf.below ho
  have hrr := hf.rootLast_root
  obtain ⟨hbes, hbiff, hbmm⟩ := hf.beside ho (gm := gh.mem) (fun a h1 h2 => by
    rw [hc.heap.old a (fun j h3 h4 h5 => hf.not_rootLast h1 h2 ⟨j, h3, h4, h5⟩)]; exact emptied_ne h2)
  have hclo := (hf.below ho).1
  have hnro := (hf.below ho).2.2.1
  have hcl := cleanUp_lift (o := o) hc hok (fun c t ht => hnew c t ((hlang _).1 ht)) (by rw [hrr]; exact hbes)
    (hF0.frame hclo hbmm (fun c b hb => .edge hb)) (fun a ha => by
      have ha' := (hbiff a).1 ha
      obtain ⟨n, h1, _⟩ := hclo a ha'
      exact hf.not_rootLast (by rw [h1]; simp) (fun h' => hnro (h' ▸ ha'))) s q (cleanUp_spec hc)
  rw [hrr] at hcl
  refine ⟨_, _, hcl, rfl, ?_⟩
  have := hc.abandoned hok
  have he : AccT rf.fin rf.kids = fun t => t ∈ vs ∧ ∀ c, gd.prev.head? = some c → t.head? ≠ some c := by
    funext t
    refine propext ((root_lang hc.fits t).trans ?_)
    rw [hlang, hpath]
  rw [he] at this
  exact this

end

end Lev
