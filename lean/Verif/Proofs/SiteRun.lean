import Verif.Proofs.Site

/-!
Running `minimize` and the loop of `add` when allocations fail.
-/

namespace Lev

open Spec

/-! ### Words -/

theorem accT_head {b : Bool} {F : Forest} {c : UInt8} {u : Str} (h : AccT b F (c :: u)) : ∃ e ∈ F.toList, e.1 = c := by
  rcases h with ⟨h, _⟩ | h
  · cases h
  · obtain ⟨c', f, k, u', h1, h2, _⟩ := Forest.acc_iff_toList.1 h
    cases h1
    exact ⟨_, h2, rfl⟩

/-- No word of the lower frames goes along the topmost transition. -/
theorem lang_below {c : UInt8} {f : Frame} {fs : List (UInt8 × Frame)} {rf : Frame} (h : Fits ((c, f) :: fs) rf) {t : Str}
    (ht : Lang fs rf t) : ¬ (path fs ++ [c]) <+: t := by
  induction fs generalizing c f with
  | nil =>
    rintro ⟨u, rfl⟩
    obtain ⟨e, he, rfl⟩ := accT_head (c := c) (u := u) (by simpa [Lang, path] using ht)
    exact Nat.lt_irrefl _ (h.1 e he)
  | cons x fs ih =>
    obtain ⟨c1, f1⟩ := x
    rintro ⟨u, rfl⟩
    rcases ht with ⟨v, hv, hacc⟩ | ht
    · rw [path_cons] at hv
      have hv : v = c :: u := by simpa using hv.symm
      subst hv
      obtain ⟨e, he, rfl⟩ := accT_head hacc
      exact Nat.lt_irrefl _ (h.1 e he)
    · exact ih h.2 ht ⟨[c] ++ u, by rw [path_cons]; simp⟩

theorem lang_pop {c : UInt8} {f : Frame} {fs : List (UInt8 × Frame)} {rf : Frame} (h : Fits ((c, f) :: fs) rf) (t : Str) :
    Lang fs rf t ↔ Lang ((c, f) :: fs) rf t ∧ ¬ (path fs ++ [c]) <+: t := by
  constructor
  · intro ht; exact ⟨.inr ht, lang_below h ht⟩
  · rintro ⟨⟨u, rfl, _⟩ | ht, hn⟩
    · exact absurd ⟨u, by simp⟩ hn
    · exact ht

/-! ### Height -/

/-- No node is more than `L` edges away from the root. -/
def Low (L : Nat) : List (UInt8 × Frame) → Frame → Prop
  | [], rf => rf.kids.height ≤ L
  | (c, f) :: fs, rf => ((c, f) :: fs).length + f.kids.height ≤ L ∧ Low L fs rf

theorem Low.top {L : Nat} {fs : List (UInt8 × Frame)} {rf : Frame} (h : Low L fs rf) :
    fs.length + (topFrame fs rf).kids.height ≤ L := by
  cases fs with
  | nil => simpa [topFrame, Low] using h
  | cons x fs => exact h.1

theorem Low.setTop {L : Nat} {fs : List (UInt8 × Frame)} {rf g : Frame} (h : Low L fs rf) (hg : fs.length + g.kids.height ≤ L) :
    Low L (setTopS g fs) (setTopR g fs rf) := by
  cases fs with
  | nil => simpa [Low, setTopS, setTopR] using hg
  | cons x fs => exact ⟨by simpa using hg, h.2⟩

theorem Forest.ins_height {sgn : Bool} {c : UInt8} {b : Bool} {k F : Forest} :
    (insF sgn c b k F).height ≤ max F.height (1 + k.height) := by
  induction F with
  | nil => simp [insF, Forest.height]
  | cons l f kids rest _ ih =>
    rw [insF]
    split
    · simp only [Forest.height]; omega
    · split
      · simp only [Forest.height]; omega
      · simp only [Forest.height]; omega

/-! ### `add_edge` -/

theorem unf_any {mem : Mem} {es : List (UInt8 × Nat)} {F : Forest} (h : Unf mem es F) {c : UInt8}
    (hc : ∀ e ∈ F.toList, e.1 ≠ c) : (es.any fun e => e.1 == c) = false := by
  induction h with
  | nil => rfl
  | cons _ _ _ _ ih =>
    simp only [Forest.toList, List.forall_mem_cons] at hc
    simp only [List.any_cons, Bool.or_eq_false_iff]
    exact ⟨by simpa using hc.1, ih hc.2⟩

theorem unf_transition {mem : Mem} {nd : DNode} {F : Forest} (h : Unf mem nd.edges F) {c : UInt8}
    (hc : ∀ e ∈ F.toList, e.1 ≠ c) : nodeTransition nd c = 0 := by
  have := unf_any h hc
  unfold nodeTransition
  cases hf : nd.edges.find? (fun e => e.1 == c) with
  | none => rfl
  | some e =>
    have h1 := List.mem_of_find?_eq_some hf
    have h2 := List.find?_some hf
    rw [List.any_eq_false] at this
    exact absurd h2 (this e h1)

theorem addEdgeF_fresh {sgn fail : Bool} {h : Heap} {a : Nat} {nd : DNode} {F : Forest} {c : UInt8} {b : Nat}
    (hm : h.mem a = some nd) (hF : Unf h.mem nd.edges F) (hc : ∀ e ∈ F.toList, e.1 ≠ c) :
    addEdgeF sgn fail a c b h = .ok (if fail then (h, true) else (withEdge sgn h a nd c b, false)) := by
  have h1 := unf_any hF hc
  have h2 := unf_transition hF hc
  simp only [addEdgeF, deref, hm, h2, deleteNode, bind, Except.bind, if_true, h1, Bool.not_false, Bool.and_true]
  cases fail <;> simp [withEdge, pure, Except.pure]

/-! ### `minimize` -/

section
variable {sgn : Bool} {addr : Nat → Nat} {c0 : Nat} {m0 : Mem}

/-- The kind of exception that iteration `k` of `minimize` ends with: an edge is lost, or a node is not registered. -/
inductive Kind where
  | none
  | lost
  | unregistered
deriving DecidableEq

def Kind.threw : Kind → Bool
  | .none => false
  | _ => true

/-- The fault belongs to this kind of end of iteration `k`. -/
def Kind.Of (k : Nat) (f : Option BFault) : Kind → Prop
  | .none => f ≠ some (.find k) ∧ f ≠ some (.edge k)
  | .lost => f = some (.find k) ∨ f = some (.edge k)
  | .unregistered => f = some (.register k)

/-- One step of `minimize`. -/
theorem minimizeStepF_spec (haddr : AddrOk addr) (f : Option BFault) (k : Nat) {h : Heap} {d : SDawg} {reg : List RegEntry}
    {t : Trans} {st : List Trans} {fl lk : List Nat} {c : UInt8} {g : Frame} {fs : List (UInt8 × Frame)} {rf : Frame}
    {Z : Nat → Prop} (hc : Site sgn addr c0 m0 h d reg (t :: st) fl lk ((c, g) :: fs) rf Z) (hfit : Fits ((c, g) :: fs) rf) :
    ∃ (h' : Heap) (d' : SDawg) (reg' : List RegEntry) (fs' : List (UInt8 × Frame)) (rf' : Frame) (Z' : Nat → Prop)
      (kind : Kind), Ends (fun fuel => minimizeStepF sgn fuel f k h d) (h', d', kind.threw) ∧
      Site sgn addr c0 m0 h' d' reg' st fl lk fs' rf' Z' ∧ Fits fs' rf' ∧ d'.prev = d.prev ∧ d'.size = d.size ∧
      h'.count = h.count ∧ path fs' = path fs ∧ (∀ e ∈ (topFrame fs' rf').kids.toList, e.1.toNat ≤ c.toNat) ∧
      kind.Of k f ∧ (kind = .none → ∃ e ∈ (topFrame fs' rf').kids.toList, e.1 = c) ∧
      (∀ w, Lang fs' rf' w ↔ Lang ((c, g) :: fs) rf w ∧ (kind = .lost → ¬ (path fs ++ [c]) <+: w)) ∧
      ∀ L, Low L ((c, g) :: fs) rf → Low L fs' rf' := by
  have hlab := hfit.1
  have hlabne : ∀ e ∈ (topFrame fs rf).kids.toList, e.1 ≠ c := fun e he h' => by
    have := hlab e he; rw [h'] at this; omega
  obtain ⟨hsrc, hlabel, nds, hms, hFs, hcase⟩ := hc.step haddr
  have hkids : ∀ e ∈ (topFrame (setTopS (putEdge sgn c g (topFrame fs rf)) fs)
      (setTopR (putEdge sgn c g (topFrame fs rf)) fs rf)).kids.toList, e.1.toNat ≤ c.toNat := by
    rw [topFrame_set]
    intro e he
    rcases (Forest.mem_ins hlabne e).1 he with rfl | he
    · exact Nat.le_refl _
    · exact Nat.le_of_lt (hlab e he)
  have hhas : ∃ e ∈ (topFrame (setTopS (putEdge sgn c g (topFrame fs rf)) fs)
      (setTopR (putEdge sgn c g (topFrame fs rf)) fs rf)).kids.toList, e.1 = c := by
    rw [topFrame_set]
    exact ⟨(c, g.fin, g.kids), (Forest.mem_ins hlabne _).2 (.inl rfl), rfl⟩
  have hlang := lang_down (sgn := sgn) (f := g) hlabne
  have hlow : ∀ L, Low L ((c, g) :: fs) rf → Low L (setTopS (putEdge sgn c g (topFrame fs rf)) fs)
      (setTopR (putEdge sgn c g (topFrame fs rf)) fs rf) := by
    rintro L ⟨h1, h2⟩
    refine h2.setTop ?_
    have h3 := h2.top
    have h4 := Forest.ins_height (sgn := sgn) (c := c) (b := g.fin) (k := g.kids) (F := (topFrame fs rf).kids)
    simp only [putEdge]
    simp only [List.length_cons] at h1
    omega
  have hlost : ∀ (b : BFault), b = .find k ∨ b = .edge k → f = some b →
      (Ends (fun fuel => minimizeStepF sgn fuel f k h d) (h, { d with unchecked := some st }, true)) := by
    intro b hb hfb
    refine ⟨g.kids.height + 1, fun fuel hf => ?_⟩
    rcases hb with rfl | rfl
    · simp [minimizeStepF, hc.unchecked, hfb, pure, Except.pure]
    · have hne : f ≠ some (.find k) := by rw [hfb]; simp
      have hadd := fun b => addEdgeF_fresh (sgn := sgn) (fail := true) (b := b) hms hFs hlabne
      rcases hcase with ⟨e, _, hmn, _⟩ | ⟨hmn, _, _⟩
      · simp only [minimizeStepF, hc.unchecked, hne, if_false, bind, Except.bind, hmn fuel (by omega), hsrc, hlabel]
        simp [hfb, hadd, pure, Except.pure]
      · simp only [minimizeStepF, hc.unchecked, hne, if_false, bind, Except.bind, hmn fuel (by omega), hsrc, hlabel]
        simp [hfb, hadd, pure, Except.pure]
  by_cases hb : f = some (.find k) ∨ f = some (.edge k)
  · refine ⟨h, { d with unchecked := some st }, reg, fs, rf, Z, .lost, ?_, hc.pop, hfit.2, rfl, rfl, rfl, rfl,
      fun e he => Nat.le_of_lt (hlab e he), hb, by simp, fun w => ?_, fun _ h => h.2⟩
    · rcases hb with hb | hb
      · exact hlost _ (.inl rfl) hb
      · exact hlost _ (.inr rfl) hb
    · rw [lang_pop hfit]; simp
  · have hb1 : f ≠ some (.find k) := fun h' => hb (.inl h')
    have hb2 : f ≠ some (.edge k) := fun h' => hb (.inr h')
    have hadd := fun b => addEdgeF_fresh (sgn := sgn) (fail := false) (b := b) hms hFs hlabne
    rcases hcase with ⟨e, _, hmn, hsite⟩ | ⟨hmn, hsite, e, hreg, hsite', _⟩
    · refine ⟨_, _, _, _, _, _, .none, ⟨g.kids.height + 1, fun fuel hf => ?_⟩, hsite, hfit.2.setTop _, rfl, rfl, rfl,
        path_setTop _ _, hkids, ⟨hb1, hb2⟩, fun _ => hhas, fun w => by rw [show putEdge sgn c g (topFrame fs rf) = ⟨_, _⟩ from rfl, hlang]; simp, hlow⟩
      simp only [minimizeStepF, hc.unchecked, hb1, if_false, bind, Except.bind, hmn fuel (by omega), hsrc, hlabel]
      simp [hb2, hadd, pure, Except.pure, Kind.threw]
    · by_cases hr : f = some (.register k)
      · refine ⟨_, _, _, _, _, _, .unregistered, ⟨g.kids.height + 1, fun fuel hf => ?_⟩, hsite, hfit.2.setTop _, rfl, rfl, rfl,
          path_setTop _ _, hkids, hr, by simp, fun w => by rw [show putEdge sgn c g (topFrame fs rf) = ⟨_, _⟩ from rfl, hlang]; simp, hlow⟩
        simp only [minimizeStepF, hc.unchecked, hb1, if_false, bind, Except.bind, hmn fuel (by omega), hsrc, hlabel]
        simp [hr, hadd, pure, Except.pure, Kind.threw]
      · refine ⟨_, _, _, _, _, _, .none, ⟨g.kids.height + 1, fun fuel hf => ?_⟩, hsite', hfit.2.setTop _, rfl, rfl, rfl,
          path_setTop _ _, hkids, ⟨hb1, hb2⟩, fun _ => hhas, fun w => by rw [show putEdge sgn c g (topFrame fs rf) = ⟨_, _⟩ from rfl, hlang]; simp, hlow⟩
        simp only [minimizeStepF, hc.unchecked, hb1, if_false, bind, Except.bind, hmn fuel (by omega), hsrc, hlabel]
        simp [hb2, hr, hadd, pure, Except.pure, Kind.threw, hreg fuel (by omega)]

/-- What is left of the path when `minimize` has taken `q` steps off it, and ended in the given way. -/
structure Minimized (sgn : Bool) (addr : Nat → Nat) (c0 : Nat) (m0 : Mem) (f : Option BFault) (k n : Nat) (kind : Kind) (q : Nat)
    (h : Heap) (d : SDawg) (fs : List (UInt8 × Frame)) (rf : Frame) (fl lk : List Nat)
    (h' : Heap) (d' : SDawg) (reg' : List RegEntry) (st' : List Trans) (fs' : List (UInt8 × Frame)) (rf' : Frame)
    (Z' : Nat → Prop) : Prop where
  site : Site sgn addr c0 m0 h' d' reg' st' fl lk fs' rf' Z'
  fits : Fits fs' rf'
  prev : d'.prev = d.prev
  size : d'.size = d.size
  count : h'.count = h.count
  path : Lev.path fs' = (Lev.path fs).take ((Lev.path fs).length - q)
  kids : 0 < q → ∀ c, (Lev.path fs)[(Lev.path fs).length - q]? = some c →
    ∀ e ∈ (topFrame fs' rf').kids.toList, e.1.toNat ≤ c.toNat
  has : kind = .none → 0 < q → ∀ c, (Lev.path fs)[(Lev.path fs).length - q]? = some c →
    ∃ e ∈ (topFrame fs' rf').kids.toList, e.1 = c
  same : q = 0 → topFrame fs' rf' = topFrame fs rf
  all : kind = .none → q = n
  stop : kind ≠ .none → 0 < q ∧ q ≤ n ∧ kind.Of (k + q - 1) f
  unmet : kind = .none → ∀ j, j < n → Kind.none.Of (k + j) f
  lang : ∀ w, Lang fs' rf' w ↔ Lang fs rf w ∧
    (kind = .lost → ¬ ((Lev.path fs).take ((Lev.path fs).length - (q - 1))) <+: w)
  low : ∀ L, Low L fs rf → Low L fs' rf'

theorem minimizeLoopF_spec (haddr : AddrOk addr) (f : Option BFault) (n k : Nat) {h : Heap} {d : SDawg} {reg : List RegEntry}
    {st : List Trans} {fl lk : List Nat} {fs : List (UInt8 × Frame)} {rf : Frame} {Z : Nat → Prop}
    (hc : Site sgn addr c0 m0 h d reg st fl lk fs rf Z) (hfit : Fits fs rf) (hn : n ≤ st.length) :
    ∃ (kind : Kind) (q : Nat) (h' : Heap) (d' : SDawg) (reg' : List RegEntry) (st' : List Trans)
      (fs' : List (UInt8 × Frame)) (rf' : Frame) (Z' : Nat → Prop), Ends (fun fuel => minimizeLoopF sgn fuel f n k h d) (h', d', kind.threw) ∧
      Minimized sgn addr c0 m0 f k n kind q h d fs rf fl lk h' d' reg' st' fs' rf' Z' := by
  induction n generalizing k h d reg st fs rf Z with
  | zero =>
    refine ⟨.none, 0, h, d, reg, st, fs, rf, Z, .of_eq fun _ => rfl, hc, hfit, rfl, rfl, rfl, by simp, by simp, by simp,
      fun _ => rfl, fun _ => rfl, by simp, by simp, fun w => by simp, fun _ h => h⟩
  | succ n ih =>
    have hlen := hc.stack.length
    cases st with
    | nil => simp at hn
    | cons t st =>
      cases fs with
      | nil => simp at hlen
      | cons e fs =>
        obtain ⟨c, g⟩ := e
        obtain ⟨h1, d1, reg1, fs1, rf1, Z1, kind, hrun, hc1, hfit1, hp, hs, hcnt, hpath, hkids, hof, hhas, hlang, hlow⟩ :=
          minimizeStepF_spec haddr f k hc hfit
        have hpl : (path ((c, g) :: fs)).length = (path fs).length + 1 := by rw [path_cons]; simp
        by_cases hk : kind = .none
        · subst hk
          obtain ⟨kind2, q, h2, d2, reg2, st2, fs2, rf2, Z2, hrun2, hM⟩ := ih (k + 1) hc1 hfit1 (by simpa using hn)
          have hM' := hM
          obtain ⟨m1, m2, m3, m4, m5, m6, m7, m8, m9, m10, m11, m12, m13, m14⟩ := hM
          have hqn : q ≤ (path fs).length := by
            have hpf : (path fs).length = st.length := by simp only [path, List.length_reverse, List.length_map]; simpa using hlen
            simp only [List.length_cons] at hn
            by_cases hk2 : kind2 = .none
            · rw [m10 hk2]; omega
            · have := (m11 hk2).2.1; omega
          refine ⟨kind2, q + 1, h2, d2, reg2, st2, fs2, rf2, Z2, ?_, m1, m2, m3.trans hp, m4.trans hs, m5.trans hcnt, ?_, ?_, ?_,
            by simp, fun h' => by rw [m10 h'], ?_, ?_, ?_, fun L hL => m14 L (hlow L hL)⟩
          · exact (hrun.bind (g := fun fuel r => if r.2.2 then pure (r.1, r.2.1, true)
              else minimizeLoopF sgn fuel f n (k + 1) r.1 r.2.1) (by simpa [Kind.threw] using hrun2)).congr fun n => rfl
          · rw [m6, hpath, hpl, path_cons, List.take_append_of_le_length (by omega)]
            congr 1; omega
          · intro _ c' hc' e he
            rw [hpl, path_cons] at hc'
            by_cases hq : q = 0
            · subst hq
              rw [m9 rfl] at he
              have : c' = c := by simpa using hc'.symm
              subst this
              exact hkids e he
            · refine m7 (by omega) c' ?_ e he
              rw [hpath]
              rw [List.getElem?_append_left (by omega)] at hc'
              rw [← hc']; congr 1; omega
          · intro hk2 _ c' hc'
            rw [hpl, path_cons] at hc'
            by_cases hq : q = 0
            · subst hq
              rw [m9 rfl]
              have : c' = c := by simpa using hc'.symm
              subst this
              exact hhas rfl
            · refine m8 hk2 (by omega) c' ?_
              rw [hpath]
              rw [List.getElem?_append_left (by omega)] at hc'
              rw [← hc']; congr 1; omega
          · intro h'
            obtain ⟨x1, x2, x3⟩ := m11 h'
            exact ⟨by omega, by omega, by rw [show k + (q + 1) - 1 = k + 1 + q - 1 by omega]; exact x3⟩
          · intro h' j hj
            cases j with
            | zero => exact hof
            | succ j => have := m12 h' j (by omega); rwa [show k + 1 + j = k + (j + 1) by omega] at this
          · intro w
            rw [m13, hlang]
            simp only [reduceCtorEq, false_implies, and_true, Nat.add_sub_cancel]
            refine and_congr_right fun _ => ?_
            constructor
            · intro hx h'
              have hx' := hx h'
              have hq := (m11 (by rw [h']; simp)).1
              rw [hpl, path_cons, List.take_append_of_le_length (by omega)]
              rw [hpath] at hx'
              rwa [show (path fs).length + 1 - q = (path fs).length - (q - 1) by omega]
            · intro hx h'
              have hx' := hx h'
              have hq := (m11 (by rw [h']; simp)).1
              rw [hpl, path_cons, List.take_append_of_le_length (by omega)] at hx'
              rw [hpath]
              rwa [show (path fs).length + 1 - q = (path fs).length - (q - 1) by omega] at hx'
        · have hthr : kind.threw = true := by cases kind <;> simp_all [Kind.threw]
          refine ⟨kind, 1, h1, d1, reg1, st, fs1, rf1, Z1, ?_, hc1, hfit1, hp, hs, hcnt, ?_, ?_, fun h' => absurd h' hk, by simp,
            fun h' => absurd h' hk, fun _ => ⟨by omega, by omega, by simpa using hof⟩, fun h' => absurd h' hk, ?_, hlow⟩
          · rw [hthr] at hrun ⊢
            exact (hrun.bind (g := fun fuel r => if r.2.2 then pure (r.1, r.2.1, true)
              else minimizeLoopF sgn fuel f n (k + 1) r.1 r.2.1) (s := (h1, d1, true)) (.of_eq fun n => by simp [pure, Except.pure])).congr
                fun n => rfl
          · rw [hpath, hpl, path_cons]; simp
          · intro _ c' hc' e he
            rw [hpl, path_cons] at hc'
            have : c' = c := by simpa using hc'.symm
            subst this
            exact hkids e he
          · intro w
            rw [hlang]
            simp only [Nat.sub_self, Nat.sub_zero, List.take_length, path_cons]

end

end Lev
