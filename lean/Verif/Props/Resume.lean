import Verif.Proofs.Abandon
import Verif.Proofs.BuildMem
import Verif.Props.LateAdd

/-!
C102: `init` is called on a finished dictionary, further terms are added and it is finished again.
-/

namespace Lev.Props

open Lev Spec

/-- The calls `init(); add(…)…; finish(); clean_up()` of public functions (`sorted_dawg.cpp` lines 15–121) on any dictionary,
with the results of the calls of `add` and `remove`. -/
def constructRun (sgn : Bool) (addr : Nat → Nat) (fuel : Nat) (calls : List Call) (h : Heap) (d : SDawg) :
    Except Err (List Bool × Heap × SDawg) := do
  let (rs, h, d) ← runCalls sgn addr fuel calls h (initDawg d)
  let (h, d) ← finishDawg sgn fuel h d
  let (h, d) ← cleanUp fuel h d
  .ok (rs, h, d)

/-- The calls `init(); add(…)…; clean_up()`: `finish` is not called. -/
def abandonRun (sgn : Bool) (addr : Nat → Nat) (fuel : Nat) (calls : List Call) (h : Heap) (d : SDawg) :
    Except Err (List Bool × Heap × SDawg) := do
  let (rs, h, d) ← runCalls sgn addr fuel calls h (initDawg d)
  let (h, d) ← cleanUp fuel h d
  .ok (rs, h, d)

/-- Of the terms `ts` those that do not begin with the same letter as the last one. -/
def unfinished (ts : List Str) : List Str :=
  ts.filter fun t => decide (t = [] ∨ t.head? ≠ (ts.getLast?.getD []).head?)

/-- `constructRun` is called on a new dictionary and then again, with the results of the later calls of `add`.  Between the two the
allocator may have changed: what `clean_up` has freed may be handed out again. -/
def resumeRun (sgn : Bool) (addr addr' : Nat → Nat) (fuel : Nat) (calls late : List Call) (h : Heap) :
    Except Err (List Bool × Heap × SDawg) := do
  let (h, d) := newDawg addr h
  let (_, h, d) ← constructRun sgn addr fuel calls h d
  constructRun sgn addr' fuel late h d

/-- The addresses to be handed out in the second construction are free when it begins. -/
def FreeLater (sgn : Bool) (addr addr' : Nat → Nat) (calls : List Call) (h : Heap) : Prop :=
  ∀ rs h' d', Ends (fun fuel => constructRun sgn addr fuel calls (newDawg addr h).1 (newDawg addr h).2) (rs, h', d') →
    Allocator addr' h'

/-- Calls of which none takes a term. -/
theorem runCalls_rejected {sgn : Bool} {addr : Nat → Nat} {h : Heap} {d : SDawg} (calls : List Call)
    (hv : (verdicts d.prev calls).2 = []) (fuel : Nat) :
    runCalls sgn addr fuel calls h d = .ok ((verdicts d.prev calls).1, h, d) := by
  induction calls with
  | nil => rfl
  | cons c cs ih =>
    cases c with
    | add t =>
      by_cases hlt : strLess t d.prev
      · simp only [verdicts, hlt, if_true] at hv ⊢
        simp only [runCalls, addTerm, (strLt_iff _ _).2 hlt, if_true, bind, Except.bind, ih hv]
      · simp [verdicts, hlt] at hv
    | remove t =>
      simp only [verdicts] at hv ⊢
      simp only [runCalls, removeTerm, bind, Except.bind, ih hv]

section
variable {sgn : Bool} {addr : Nat → Nat} {c0 r : Nat} {m0 : Mem} {L : Str → Prop} {h : Heap} {d : SDawg}

theorem built_count {addr : Nat → Nat} {c0 : Nat} {m0 : Mem} {ts : List Str} {h : Heap} {d : SDawg}
    (hb : Built sgn addr c0 m0 ts h d) : c0 < h.count := by
  obtain ⟨⟨_, _, _, _, _, hc, _⟩, _⟩ := hb
  exact hc.heap.base

/-- Calls on the resumed dictionary once the last term taken is one of the new ones. -/
theorem runCalls_lift (haddr : AddrOk addr) (hf : Whole sgn addr c0 r m0 L h d) {o : DNode} (ho : h.mem d.root = some o)
    (calls : List Call) {vs : List Str} {gh : Heap} {gd : SDawg}
    (hb : Built sgn (rootLast addr r h) (h.count - 1) (emptied h d.root).mem vs gh gd)
    (hnew : ∀ c u, c :: u ∈ vs ++ (verdicts gd.prev calls).2 → NewLetter o c) (s : Nat) :
    ∃ gh' gd', Ends (fun fuel => runCalls sgn addr fuel calls (liftH sgn d.root o gh) (liftD s gd.prev gd))
        ((verdicts gd.prev calls).1, liftH sgn d.root o gh', liftD s gd'.prev gd') ∧
      Built sgn (rootLast addr r h) (h.count - 1) (emptied h d.root).mem (vs ++ (verdicts gd.prev calls).2) gh' gd' := by
  have hok : AddrOk (rootLast addr r h) := swapAddr_ok haddr _ _
  have hcnt := hf.count
  have hso := (hf.below ho).2.2.2.1
  induction calls generalizing vs gh gd with
  | nil => exact ⟨gh, gd, .of_eq fun _ => rfl, by simpa [verdicts] using hb⟩
  | cons c cs ih =>
    cases c with
    | add t =>
      by_cases hlt : strLess t gd.prev
      · simp only [verdicts, hlt, if_true] at hnew ⊢
        obtain ⟨h', d', ⟨N, hN⟩, h2⟩ := ih hb hnew
        refine ⟨h', d', ⟨N, fun fuel hfu => ?_⟩, h2⟩
        have e := hN fuel hfu
        simp only at e
        simp only [runCalls, addTerm, show (liftD s gd.prev gd).prev = gd.prev from rfl, (strLt_iff _ _).2 hlt, if_true, bind,
          Except.bind, e]
      · have hlt' := (strLt_false_iff _ _).2 hlt
        obtain ⟨h1, d1, hr1, hb1⟩ := addTerm_spec hok hb t hlt'
        have hprev : d1.prev = t := by rw [hb1.prev]; simp
        have hb0 := built_count hb
        have hl := addTerm_lift (addr := addr) (n := h.count) (o := o) hok hso s (fun j hj => (hf.rootLast_ge hj).symm)
          (fun j hj h' => by have := hok.2 _ _ h'; omega) hb (by omega) t hlt'
          (fun c u hu => hnew c u (List.mem_append.2 (.inl hu))) hr1
        rw [hf.rootLast_root] at hl
        simp only [verdicts, hlt, if_false] at hnew ⊢
        obtain ⟨h', d', hN, h2⟩ := ih hb1 (by rw [hprev]; simpa using hnew)
        rw [hprev] at hN h2
        rw [hprev] at hl
        obtain ⟨N, hN⟩ := hN
        obtain ⟨N1, hN1⟩ := hl
        refine ⟨h', d', ⟨max N N1, fun fuel hfu => ?_⟩, by simpa using h2⟩
        have e := hN fuel (by omega)
        have e1 := hN1 fuel (by omega)
        simp only at e e1
        simp only [runCalls, e1, bind, Except.bind, e]
    | remove t =>
      simp only [verdicts] at hnew ⊢
      obtain ⟨h', d', ⟨N, hN⟩, h2⟩ := ih hb hnew
      refine ⟨h', d', ⟨N, fun fuel hfu => ?_⟩, h2⟩
      have e := hN fuel hfu
      simp only at e
      simp only [runCalls, removeTerm, bind, Except.bind, e]

/-- What the resumed dictionary makes of the terms it takes: of the first only what follows the prefix it has in common with the
last term before. -/
def attached (q : Str) : List Str → List Str
  | [] => []
  | t :: rest => t.drop (commonPrefix t q) :: rest

/-- Calls on the resumed dictionary. -/
theorem resumeCalls_spec (haddr : AddrOk addr) (hf : Whole sgn addr c0 r m0 L h d) {o : DNode} (ho : h.mem d.root = some o)
    (late : List Call) (hone : ∀ t rest, (verdicts d.prev late).2 = t :: rest → rest = [] ∨ commonPrefix t d.prev = 0)
    (hnew : ∀ c u, c :: u ∈ attached d.prev (verdicts d.prev late).2 → NewLetter o c) :
    ∃ gh gd q, Ends (fun fuel => runCalls sgn addr fuel late h (initDawg d))
        ((verdicts d.prev late).1, liftH sgn d.root o gh, liftD d.size q gd) ∧
      Built sgn (rootLast addr r h) (h.count - 1) (emptied h d.root).mem (attached d.prev (verdicts d.prev late).2) gh gd ∧
      q = (verdicts d.prev late).2.getLast?.getD d.prev := by
  have hok : AddrOk (rootLast addr r h) := swapAddr_ok haddr _ _
  have hcnt := hf.count
  have hb := hf.emptied_built haddr
  obtain ⟨hl1, hl2⟩ := hf.emptied_lift ho
  induction late with
  | nil =>
    refine ⟨_, _, d.prev, .of_eq fun _ => ?_, hb, rfl⟩
    rw [hl1, hl2]; rfl
  | cons c cs ih =>
    cases c with
    | add t =>
      by_cases hlt : strLess t d.prev
      · simp only [verdicts, hlt, if_true] at hnew hone ⊢
        obtain ⟨gh, gd, q, ⟨N, hN⟩, h2⟩ := ih hone hnew
        refine ⟨gh, gd, q, ⟨N, fun fuel hfu => ?_⟩, h2⟩
        have e := hN fuel hfu
        simp only at e
        simp only [runCalls, addTerm, show (initDawg d).prev = d.prev from rfl, (strLt_iff _ _).2 hlt, if_true, bind,
          Except.bind, e]
      · have hlt' := (strLt_false_iff _ _).2 hlt
        simp only [verdicts, hlt, if_false, attached] at hnew hone ⊢
        have hp0 : (initDawg (newDawg (rootLast addr r h) (emptied h d.root)).2).prev = [] := rfl
        obtain ⟨h1, d1, hr1, hb1⟩ := addTerm_spec hok hb (t.drop (commonPrefix t d.prev)) (by
          rw [hp0]; cases t.drop (commonPrefix t d.prev) <;> rfl)
        have hb0 := built_count hb
        have hl := addTerm_first (addr := addr) (n := h.count) (o := o) (c0 := h.count - 1) d.size
          (fun j hj => (hf.rootLast_ge hj).symm) (fun j hj h' => by have := hok.2 _ _ h'; omega) (by rfl) hp0
          (by omega) d.prev t hlt' hr1
        rw [hf.rootLast_root, hl1, hl2] at hl
        have hprev : d1.prev = t.drop (commonPrefix t d.prev) := by rw [hb1.prev]; simp
        obtain ⟨N1, hN1⟩ := hl
        rcases hone t _ rfl with hr | hk
        · refine ⟨h1, d1, t, ⟨N1, fun fuel hfu => ?_⟩, by rw [hr]; simpa using hb1, by rw [hr]; rfl⟩
          have e1 := hN1 fuel hfu
          simp only at e1
          simp only [runCalls, e1, bind, Except.bind]
          rw [runCalls_rejected cs (d := liftD d.size t d1) hr]
          rfl
        · rw [hk, List.drop_zero] at hprev hb1 hnew ⊢
          obtain ⟨h', d', hN, h2⟩ := runCalls_lift haddr hf ho cs hb1 (by rw [hprev]; simpa using hnew) d.size
          rw [hprev] at hN h2
          obtain ⟨N, hN⟩ := hN
          refine ⟨h', d', d'.prev, ⟨max N N1, fun fuel hfu => ?_⟩, by simpa using h2, by rw [h2.prev]; simp [List.getLast?_cons]⟩
          have e := hN fuel (by omega)
          have e1 := hN1 fuel (by omega)
          simp only at e e1
          simp only [runCalls, e1, bind, Except.bind, e]
    | remove t =>
      simp only [verdicts] at hnew hone ⊢
      obtain ⟨gh, gd, q, ⟨N, hN⟩, h2⟩ := ih hone hnew
      refine ⟨gh, gd, q, ⟨N, fun fuel hfu => ?_⟩, h2⟩
      have e := hN fuel hfu
      simp only at e
      simp only [runCalls, removeTerm, bind, Except.bind, e]

end

theorem attached_length (q : Str) (l : List Str) : (attached q l).length = l.length := by
  cases l <;> rfl

/-- A dictionary that is whole, and what has been resumed. -/
theorem whole_resume {sgn : Bool} {addr : Nat → Nat} {c0 r : Nat} {m0 : Mem} {L : Str → Prop} {h : Heap} {d : SDawg}
    (haddr : AddrOk addr) (hf : Whole sgn addr c0 r m0 L h d) (late : List Call)
    (hone : ∀ t rest, (verdicts d.prev late).2 = t :: rest → rest = [] ∨ commonPrefix t d.prev = 0)
    (hnew : ∀ c u, c :: u ∈ attached d.prev (verdicts d.prev late).2 → ∀ u', ¬ L (c :: u')) :
    ∃ h1 d1 h2 d2 h' d', Ends (fun fuel => runCalls sgn addr fuel late h (initDawg d)) ((verdicts d.prev late).1, h1, d1) ∧
      Ends (fun fuel => finishDawg sgn fuel h1 d1) (h2, d2) ∧ Ends (fun fuel => cleanUp fuel h2 d2) (h', d') ∧
      d'.size = d.size + (verdicts d.prev late).2.length ∧
      d'.prev = (verdicts d.prev late).2.getLast?.getD d.prev ∧
      Whole sgn addr c0 r m0 (fun t => L t ∨ t ∈ attached d.prev (verdicts d.prev late).2) h' d' ∧
      ((∃ c u, L (c :: u)) → (∃ c u, c :: u ∈ attached d.prev (verdicts d.prev late).2) →
        ∃ a b, Reaches h'.mem d'.root a ∧ Reaches h'.mem d'.root b ∧ a ≠ b ∧ ∀ t, Accepts h'.mem a t ↔ Accepts h'.mem b t) := by
  obtain ⟨o, F, ho, _⟩ := hf.dict
  have hnew' : ∀ c u, c :: u ∈ attached d.prev (verdicts d.prev late).2 → NewLetter o c := by
    rintro c u hu ⟨c', b⟩ he rfl
    obtain ⟨u', hu'⟩ := (hf.below ho).2.2.2.2.2.2.2 _ b he
    exact hnew _ u hu u' hu'
  obtain ⟨gh, gd, q, e4, hg, hq⟩ := resumeCalls_spec haddr hf ho late hone hnew'
  obtain ⟨h5, d5, gh2, gd2, e5, e6, hgf⟩ := hf.finish_lift haddr ho hg hnew' (fun c hc => by
    rw [hg.prev] at hc
    cases hl : (attached d.prev (verdicts d.prev late).2).getLast? with
    | none => rw [hl] at hc; simp at hc
    | some x =>
      rw [hl] at hc
      cases x with
      | nil => simp at hc
      | cons c' u =>
        simp only [Option.getD_some, List.head?_cons, Option.some.injEq] at hc
        subst hc
        exact hnew' _ u (List.mem_of_getLast? hl)) d.size q
  refine ⟨_, _, _, _, _, _, e4, e5, e6, ?_, hq, hf.grown haddr ho hgf.whole hnew' d.size q, ?_⟩
  · show gd2.size + d.size = _
    rw [hgf.size, attached_length]; omega
  · rintro ⟨c, u, hu⟩ ⟨c', u', hu'⟩
    obtain ⟨a, b, h7, h8, h9, h10, h11⟩ := hf.two_leaves ho hgf hnew' hu hu'
    have hgr : (liftD d.size q gd2).root = d.root := hgf.root.trans hf.rootLast_root
    rw [hgr]
    refine ⟨a, b, h7, h8, h9, fun t => ?_⟩
    rw [accepts_node h10, accepts_node h11]

theorem addTerm_grows {sgn : Bool} {addr : Nat → Nat} {fuel : Nat} {t : Str} {h h' : Heap} {d d' : SDawg} {b : Bool}
    (e : addTerm sgn addr fuel t h d = .ok (b, h', d')) : h.count ≤ h'.count := by
  cases b with
  | true => have := (addTerm_count_eq e).1; omega
  | false =>
    unfold addTerm at e
    split at e
    · cases e; exact Nat.le_refl _
    · exfalso
      split at e
      · cases hm : setFinal d.root h <;> simp [hm, bind, Except.bind] at e
      · simp only [bind, Except.bind] at e
        repeat (split at e; · cases e)
        simp at e

/-- Calls depend only on the addresses to come. -/
theorem runCalls_congr {sgn : Bool} {addr addr' : Nat → Nat} {fuel : Nat} (calls : List Call) {h : Heap} {d : SDawg}
    (ha : ∀ j, h.count ≤ j → addr j = addr' j) : runCalls sgn addr fuel calls h d = runCalls sgn addr' fuel calls h d := by
  induction calls generalizing h d with
  | nil => rfl
  | cons c cs ih =>
    cases c with
    | add t =>
      simp only [runCalls]
      rw [addTerm_congr ha]
      cases hm : addTerm sgn addr' fuel t h d with
      | error => rfl
      | ok x =>
        obtain ⟨b, h1, d1⟩ := x
        have := addTerm_grows hm
        simp only [bind, Except.bind]
        rw [ih fun j hj => ha j (by omega)]
    | remove t =>
      simp only [runCalls, removeTerm]
      rw [ih ha]

theorem runCalls_grows {sgn : Bool} {addr : Nat → Nat} {fuel : Nat} (calls : List Call) {h h' : Heap} {d d' : SDawg} {rs : List Bool}
    (e : runCalls sgn addr fuel calls h d = .ok (rs, h', d')) : h.count ≤ h'.count := by
  induction calls generalizing h d rs with
  | nil => cases e; exact Nat.le_refl _
  | cons c cs ih =>
    cases c with
    | add t =>
      simp only [runCalls, bind, Except.bind] at e
      split at e
      · cases e
      · next x hm =>
        split at e
        · cases e
        · next y hy =>
          obtain ⟨b, h1, d1⟩ := x
          obtain ⟨rs1, h2, d2⟩ := y
          cases e
          exact Nat.le_trans (addTerm_grows hm) (ih hy)
    | remove t =>
      simp only [runCalls, removeTerm, bind, Except.bind] at e
      split at e
      · cases e
      · next y hy =>
        obtain ⟨rs1, h2, d2⟩ := y
        cases e
        exact ih hy

/-- A dictionary that is whole, and what has been resumed, whatever the allocator. -/
theorem settled_resume {sgn : Bool} {addr : Nat → Nat} {m0 : Mem} {L : Str → Prop} {h : Heap} {d : SDawg}
    (hf : Settled sgn m0 L h d) (ha : Allocator addr h) (late : List Call)
    (hone : ∀ t rest, (verdicts d.prev late).2 = t :: rest → rest = [] ∨ commonPrefix t d.prev = 0)
    (hnew : ∀ c u, c :: u ∈ attached d.prev (verdicts d.prev late).2 → ∀ u', ¬ L (c :: u')) :
    ∃ h' d', Ends (fun fuel => constructRun sgn addr fuel late h d) ((verdicts d.prev late).1, h', d') ∧
      d'.size = d.size + (verdicts d.prev late).2.length ∧
      d'.prev = (verdicts d.prev late).2.getLast?.getD d.prev ∧
      Settled sgn m0 (fun t => L t ∨ t ∈ attached d.prev (verdicts d.prev late).2) h' d' ∧ Allocator addr h' ∧
      ((∃ c u, L (c :: u)) → (∃ c u, c :: u ∈ attached d.prev (verdicts d.prev late).2) →
        ∃ a b, Reaches h'.mem d'.root a ∧ Reaches h'.mem d'.root b ∧ a ≠ b ∧ ∀ t, Accepts h'.mem a t ↔ Accepts h'.mem b t) := by
  obtain ⟨addr', c0, r, g1, g2, g3, g4⟩ := hf.whole ha
  obtain ⟨h4, d4, h5, d5, h6, d6, ⟨N4, hN4⟩, ⟨N5, hN5⟩, ⟨N6, hN6⟩, hsz, hpv, hw, hmin⟩ := whole_resume g1 g3 late hone hnew
  refine ⟨h6, d6, ⟨N4 + N5 + N6, fun fuel hfu => ?_⟩, hsz, hpv, hw.settled g1 g4,
    ⟨ha.nonnull, ha.inj, hw.null, fun j hj => ?_⟩, hmin⟩
  rotate_left
  · have hg := runCalls_grows late (hN4 N4 (Nat.le_refl _))
    have hg2 := minimize_count (hN5 N5 (Nat.le_refl _))
    have hg3 := cleanUp_count (hN6 N6 (Nat.le_refl _))
    rw [g2 j (by omega)]
    exact hw.fresh j hj
  have e4 := hN4 fuel (by omega)
  have e5 := hN5 fuel (by omega)
  have e6 := hN6 fuel (by omega)
  simp only at e4 e5 e6
  rw [← runCalls_congr late g2] at e4
  simp only [constructRun, bind, Except.bind, e4, e5, e6]

theorem mem_unfinished {ts : List Str} {t : Str} :
    t ∈ unfinished ts ↔ t ∈ ts ∧ ∀ c, (ts.getLast?.getD []).head? = some c → t.head? ≠ some c := by
  simp only [unfinished, List.mem_filter, decide_eq_true_eq]
  refine and_congr_right fun _ => ?_
  cases t with
  | nil => simp
  | cons x t =>
    cases (ts.getLast?.getD []).head? with
    | none => simp
    | some c => simp

/-- A dictionary that is whole is resumed and cleaned up without having been finished. -/
theorem settled_abandon {sgn : Bool} {addr : Nat → Nat} {m0 : Mem} {L : Str → Prop} {h : Heap} {d : SDawg}
    (hf : Settled sgn m0 L h d) (ha : Allocator addr h) (late : List Call)
    (hone : ∀ t rest, (verdicts d.prev late).2 = t :: rest → rest = [] ∨ commonPrefix t d.prev = 0)
    (hnew : ∀ c u, c :: u ∈ attached d.prev (verdicts d.prev late).2 → ∀ u', ¬ L (c :: u')) :
    ∃ h' d', Ends (fun fuel => abandonRun sgn addr fuel late h d) ((verdicts d.prev late).1, h', d') ∧
      d'.size = d.size + (verdicts d.prev late).2.length ∧
      d'.prev = (verdicts d.prev late).2.getLast?.getD d.prev ∧
      Settled sgn m0 (fun t => L t ∨ t ∈ unfinished (attached d.prev (verdicts d.prev late).2)) h' d' ∧ Allocator addr h' := by
  obtain ⟨addr', c0, r, g1, g2, g3, g4⟩ := hf.whole ha
  obtain ⟨o, F, ho, _⟩ := g3.dict
  have hnew' : ∀ c u, c :: u ∈ attached d.prev (verdicts d.prev late).2 → NewLetter o c := by
    rintro c u hu ⟨c', b⟩ he rfl
    obtain ⟨u', hu'⟩ := (g3.below ho).2.2.2.2.2.2.2 _ b he
    exact hnew _ u hu u' hu'
  obtain ⟨gh, gd, q, ⟨N4, e4⟩, hg, hq⟩ := resumeCalls_spec g1 g3 ho late hone hnew'
  obtain ⟨gh2, gd2, ⟨N6, e6⟩, hsz, hgw⟩ := g3.abandon_lift g1 ho hg hnew' d.size q
  have hw := g3.grown g1 ho hgw (fun c u hu => hnew' c u hu.1) d.size q
  have he : (fun t => L t ∨ t ∈ attached d.prev (verdicts d.prev late).2 ∧ ∀ c, gd.prev.head? = some c → t.head? ≠ some c) =
      fun t => L t ∨ t ∈ unfinished (attached d.prev (verdicts d.prev late).2) := by
    funext t
    rw [mem_unfinished, hg.prev]
  rw [he] at hw
  refine ⟨_, _, ⟨N4 + N6, fun fuel hfu => ?_⟩, ?_, hq, hw.settled g1 g4, ha.nonnull, ha.inj, hw.null, fun j hj => ?_⟩
  · have e4 := e4 fuel (by omega)
    have e6 := e6 fuel (by omega)
    simp only at e4 e6
    rw [← runCalls_congr late g2] at e4
    simp only [abandonRun, bind, Except.bind, e4, e6]
  · show gd2.size + d.size = _
    rw [hsz, hg.size, attached_length]; omega
  · have hg1 := runCalls_grows late (e4 N4 (Nat.le_refl _))
    have hg3 := cleanUp_count (e6 N6 (Nat.le_refl _))
    rw [g2 j (by omega)]
    exact hw.fresh j hj

/-- A dictionary that was built. -/
theorem built_settled (sgn : Bool) {addr : Nat → Nat} {h : Heap} (ha : Allocator addr h) (calls : List Call) :
    ∃ h' d', Ends (fun fuel => constructRun sgn addr fuel calls (newDawg addr h).1 (newDawg addr h).2)
        ((verdicts [] calls).1, h', d') ∧
      d'.size = (verdicts [] calls).2.length ∧ d'.prev = (verdicts [] calls).2.getLast?.getD [] ∧
      Settled sgn h.mem (· ∈ (verdicts [] calls).2) h' d' ∧ Allocator addr h' := by
  have haddr : AddrOk addr := ⟨ha.nonnull, ha.inj⟩
  obtain ⟨h1, d1, ⟨N1, hN1⟩, hb⟩ := runCalls_spec haddr calls (newDawg_built (sgn := sgn) haddr ha.null ha.fresh)
  have hp : (initDawg (newDawg addr h).2).prev = [] := rfl
  rw [hp] at hN1 hb
  simp only [List.nil_append] at hb
  obtain ⟨h2, d2, h3, d3, ⟨N2, hN2⟩, ⟨N3, hN3⟩, hf⟩ := finish_spec haddr hb
  refine ⟨h3, d3, ⟨N1 + N2 + N3, fun fuel hfu => ?_⟩, hf.size, hf.prev, hf.whole.settled haddr ha.fresh,
    ha.nonnull, ha.inj, hf.null, hf.fresh⟩
  have e1 := hN1 fuel (by omega)
  have e2 := hN2 fuel (by omega)
  have e3 := hN3 fuel (by omega)
  simp only at e1 e2 e3
  simp only [constructRun, bind, Except.bind, e1, e2, e3]

/-- An allocator that never hands out an address twice. -/
theorem FreeLater.same {sgn : Bool} {addr : Nat → Nat} {calls : List Call} {h : Heap} (ha : Allocator addr h) :
    FreeLater sgn addr addr calls h := by
  intro rs h' d' e
  obtain ⟨h1, d1, e1, _, _, _, h2⟩ := built_settled sgn ha calls
  cases e.unique e1
  exact h2

/-- The whole run. -/
theorem resume_spec (sgn : Bool) {addr addr' : Nat → Nat} {h : Heap} (ha : Allocator addr h) (calls late : List Call)
    (ha' : FreeLater sgn addr addr' calls h)
    (hone : ∀ t rest, (verdicts ((verdicts [] calls).2.getLast?.getD []) late).2 = t :: rest →
      rest = [] ∨ commonPrefix t ((verdicts [] calls).2.getLast?.getD []) = 0)
    (hnew : ∀ c u, c :: u ∈ attached ((verdicts [] calls).2.getLast?.getD [])
      (verdicts ((verdicts [] calls).2.getLast?.getD []) late).2 → ∀ u', c :: u' ∉ (verdicts [] calls).2) :
    ∃ h' d', Ends (fun fuel => resumeRun sgn addr addr' fuel calls late h)
        ((verdicts ((verdicts [] calls).2.getLast?.getD []) late).1, h', d') ∧
      d'.size = (verdicts [] calls).2.length + (verdicts ((verdicts [] calls).2.getLast?.getD []) late).2.length ∧
      Settled sgn h.mem (fun t => t ∈ (verdicts [] calls).2 ∨
        t ∈ attached ((verdicts [] calls).2.getLast?.getD []) (verdicts ((verdicts [] calls).2.getLast?.getD []) late).2) h' d' ∧
      ((∃ c u, c :: u ∈ (verdicts [] calls).2) → (∃ c u, c :: u ∈ attached ((verdicts [] calls).2.getLast?.getD [])
        (verdicts ((verdicts [] calls).2.getLast?.getD []) late).2) →
        ∃ a b, Reaches h'.mem d'.root a ∧ Reaches h'.mem d'.root b ∧ a ≠ b ∧ ∀ t, Accepts h'.mem a t ↔ Accepts h'.mem b t) := by
  obtain ⟨h3, d3, hN3, hsz3, hprev, hf, _⟩ := built_settled sgn ha calls
  rw [← hprev] at hone hnew ⊢
  obtain ⟨h6, d6, ⟨N6, hN6⟩, hsz, _, hw, _, hmin⟩ := settled_resume hf (ha' _ _ _ hN3) late hone hnew
  obtain ⟨N3, hN3⟩ := hN3
  refine ⟨_, _, ⟨N3 + N6, fun fuel hfu => ?_⟩, by rw [hsz, hsz3], hw, hmin⟩
  have e3 := hN3 fuel (by omega)
  have e6 := hN6 fuel (by omega)
  simp only at e3 e6
  simp only [resumeRun, bind, Except.bind, e3, e6]

theorem commonPrefix_append {p w y : Str} (h : ∀ c, w.head? = some c → y.head? ≠ some c) :
    commonPrefix (p ++ w) (p ++ y) = p.length := by
  induction p with
  | nil =>
    cases w with
    | nil => rfl
    | cons c w =>
      cases y with
      | nil => rfl
      | cons c' y =>
        have : c ≠ c' := fun h' => h c rfl (by simp [h'])
        simp [commonPrefix, this]
  | cons a p ih => simp [commonPrefix, ih]

theorem not_less_head {x : UInt8} {a b : Str} (h : ¬ strLess b (x :: a)) : ∃ y u, b = y :: u ∧ x.toNat ≤ y.toNat := by
  cases b with
  | nil => exact absurd .nil h
  | cons y u =>
    refine ⟨y, u, rfl, ?_⟩
    by_cases hxy : x.toNat ≤ y.toNat
    · exact hxy
    · exact absurd (.rel (by omega)) h

/-- No term is above the last. -/
theorem le_last {ts : List Str} (hs : SortedTerms ts) {t : Str} (ht : t ∈ ts) : ¬ strLess (ts.getLast?.getD []) t := by
  cases hg : ts.getLast? with
  | none => rw [List.getLast?_eq_none_iff.1 hg] at ht; simp at ht
  | some x =>
    obtain ⟨l, rfl⟩ := List.getLast?_eq_some_iff.1 hg
    simp only [Option.getD_some]
    rcases List.mem_append.1 ht with h | h
    · exact (List.pairwise_append.1 hs).2.2 t h x (by simp)
    · rw [List.mem_singleton.1 h]; exact strLess_irrefl x

/-- C102: `init` on a finished dictionary, any calls, `finish` and `clean_up`.  The second
construction may be handed any addresses that are free then.  When the first term taken does not begin with the same letter as the last one of the finished dictionary, all calls return what they should, exactly the terms of both parts
are accepted, their number is the size, and deleting the dictionary leaves memory as it was; but it is not minimal as soon as
both parts have a term that is not empty. -/
theorem c102_resume (sgn : Bool) {addr addr' : Nat → Nat} {h : Heap} (ha : Allocator addr h) (calls late : List Call)
    (ha' : FreeLater sgn addr addr' calls h)
    (hshare : ∀ t c, (verdicts ((verdicts [] calls).2.getLast?.getD []) late).2.head? = some t → t.head? = some c →
      ((verdicts [] calls).2.getLast?.getD []).head? ≠ some c) :
    ∃ h' d', Ends (fun fuel => resumeRun sgn addr addr' fuel calls late h)
        ((verdicts ((verdicts [] calls).2.getLast?.getD []) late).1, h', d') ∧
      d'.size = (verdicts [] calls).2.length + (verdicts ((verdicts [] calls).2.getLast?.getD []) late).2.length ∧
      (∀ t, Accepts h'.mem d'.root t ↔
        t ∈ (verdicts [] calls).2 ∨ t ∈ (verdicts ((verdicts [] calls).2.getLast?.getD []) late).2) ∧
      ((∃ c u, c :: u ∈ (verdicts [] calls).2) →
        (∃ c u, c :: u ∈ (verdicts ((verdicts [] calls).2.getLast?.getD []) late).2) →
        ∃ a b, Reaches h'.mem d'.root a ∧ Reaches h'.mem d'.root b ∧ a ≠ b ∧ ∀ t, Accepts h'.mem a t ↔ Accepts h'.mem b t) ∧
      ((∀ t, Accepts h'.mem d'.root t → t.length < 2 ^ 62) → Dictionary sgn h'.mem d'.root) ∧
      ∃ h'', Ends (fun fuel => destroyDawg fuel h' d') h'' ∧ ∀ a, h''.mem a = h.mem a := by
  have hs1 : SortedTerms (verdicts [] calls).2 := (List.pairwise_cons.1 (verdicts_sorted [] calls)).2
  have hs2 := verdicts_sorted ((verdicts [] calls).2.getLast?.getD []) late
  have hle := fun t (ht : t ∈ (verdicts [] calls).2) => le_last hs1 ht
  revert hshare hs2 hle
  generalize hq : (verdicts [] calls).2.getLast?.getD [] = q
  generalize hv : verdicts q late = v
  intro hshare hs2 hle
  have hk : ∀ t rest, v.2 = t :: rest → commonPrefix t q = 0 := by
    intro t rest hr
    exact commonPrefix_append (p := []) (w := t) (y := q) fun c hc => hshare t c (by rw [hr]; rfl) hc
  have hatt : attached q v.2 = v.2 := by
    cases hr : v.2 with
    | nil => rfl
    | cons t rest => simp only [attached, hk t rest hr, List.drop_zero]
  obtain ⟨h', d', e1, e2, hg, hmin⟩ := resume_spec sgn ha calls late ha'
    (by rw [hq, hv]; exact fun t rest hr => .inr (hk t rest hr))
    (by
      rw [hq, hv, hatt]
      intro c u hu u' hu'
      cases hr : v.2 with
      | nil => rw [hr] at hu; simp at hu
      | cons t rest =>
        rw [hr] at hu hs2
        obtain ⟨hq1, hq2⟩ := List.pairwise_cons.1 hs2
        obtain ⟨x, y, hqx, hxc⟩ := not_less_head (hle _ hu')
        have ht := hq1 t (by simp)
        rw [hqx] at ht
        obtain ⟨x2, y2, rfl, hx2⟩ := not_less_head ht
        have hne : x2 ≠ x := fun h' => hshare _ x2 (by rw [hr]; rfl) rfl (by rw [hqx, h']; rfl)
        have hlt : x.toNat < x2.toNat := by
          rcases Nat.lt_or_eq_of_le hx2 with h | h
          · exact h
          · exact absurd (UInt8.toNat_inj.1 h.symm) hne
        have : x2.toNat ≤ c.toNat := by
          rcases List.mem_cons.1 hu with h | h
          · cases h; exact Nat.le_refl _
          · obtain ⟨z, w, hz, hz2⟩ := not_less_head ((List.pairwise_cons.1 hq2).1 _ h)
            cases hz; exact hz2
        omega)
  rw [hq, hv] at e1 e2 hg hmin
  rw [hatt] at hg hmin
  exact ⟨h', d', e1, e2, hg.accepts, hmin, fun hb => hg.dictionary fun t ht => hb t ((hg.accepts t).2 ht), hg.destroy⟩

/-- Calls for which the theorem speaks: "ab", finished; then "a" (rejected), "b", a removal and "bb". -/
example : (verdicts [] [.add [97, 98]]).2 = [[97, 98]] ∧
    verdicts [97, 98] [.add [97], .add [98], .remove [97], .add [98, 98]] = ([false, true, false, true], [[98], [98, 98]]) := by
  decide

/-- An allocator that hands out what was freed: after "aa" and "ba" the nodes at 4 and 5 are gone. -/
def exReuse (k : Nat) : Nat := if k = 3 then 6 else if k = 4 then 7 else if k = 5 then 4 else if k = 6 then 5 else k + 1

theorem exReuse_free : FreeLater true (fun k => k + 1) exReuse [.add [97, 97], .add [98, 97]] exHeap := by
  intro rs h' d' hN
  have hs := FreeLater.same exAllocator rs h' d' hN
  obtain ⟨N, hN⟩ := hN
  have e := hN (N + 100) (by omega)
  have h4 : h'.mem 4 = none := by cases e; rfl
  have h5 : h'.mem 5 = none := by cases e; rfl
  have hc : h'.count = 5 := by cases e; rfl
  refine ⟨fun k => ?_, fun j k h => ?_, hs.null, fun k hk => ?_⟩
  · unfold exReuse; repeat' split
    all_goals omega
  · unfold exReuse at h; repeat' split at h
    all_goals omega
  · by_cases h6 : k = 5
    · subst h6; exact h4
    · by_cases h7 : k = 6
      · subst h7; exact h5
      · have : exReuse k = k + 1 := by
          unfold exReuse
          rw [if_neg (by omega), if_neg (by omega), if_neg h6, if_neg h7]
        rw [this]; exact hs.fresh k hk

/-- The theorem speaks of this allocator: "ca" is put where "ba" was. -/
example : (resumeRun true (fun k => k + 1) exReuse 100 [.add [97, 97], .add [98, 97]] [.add [99, 97]] exHeap).map
    (fun r => (r.1, r.2.2.size, (r.2.1.mem 1).map (·.edges))) = .ok ([true], 3, some [(97, 2), (98, 2), (99, 4)]) := rfl

/-- C102, one term that shares a prefix `p` with the last one of the finished dictionary: `add` returns true, but not the term
is added but what follows the prefix (nothing: the empty term), provided no term begins with the letter after the prefix; the
size grows by one all the same. -/
theorem c102_resume_shared (sgn : Bool) {addr addr' : Nat → Nat} {h : Heap} (ha : Allocator addr h) (calls late : List Call)
    (ha' : FreeLater sgn addr addr' calls h)
    (p w y : Str) (hlast : (verdicts [] calls).2.getLast? = some (p ++ y)) (hlate : (verdicts (p ++ y) late).2 = [p ++ w])
    (hdiff : ∀ c, w.head? = some c → y.head? ≠ some c) (hnew : ∀ c u, w.head? = some c → c :: u ∉ (verdicts [] calls).2) :
    ∃ h' d', Ends (fun fuel => resumeRun sgn addr addr' fuel calls late h) ((verdicts (p ++ y) late).1, h', d') ∧
      d'.size = (verdicts [] calls).2.length + 1 ∧
      (∀ t, Accepts h'.mem d'.root t ↔ t ∈ (verdicts [] calls).2 ∨ t = w) ∧
      ((∀ t, Accepts h'.mem d'.root t → t.length < 2 ^ 62) → Dictionary sgn h'.mem d'.root) ∧
      ∃ h'', Ends (fun fuel => destroyDawg fuel h' d') h'' ∧ ∀ a, h''.mem a = h.mem a := by
  have hatt : attached (p ++ y) [p ++ w] = [w] := by
    simp only [attached, commonPrefix_append hdiff, List.drop_left]
  obtain ⟨h', d', e1, e2, hg, hmin⟩ := resume_spec sgn ha calls late ha'
    (by
      rw [hlast, Option.getD_some, hlate]
      intro t rest hr
      exact .inl (List.cons.inj hr).2.symm)
    (by
      rw [hlast, Option.getD_some, hlate, hatt]
      intro c u hu u'
      rw [List.mem_singleton] at hu
      exact hnew c u' (by rw [← hu]; rfl))
  rw [hlast, Option.getD_some] at e1 e2 hg
  rw [hlate] at e2 hg
  rw [hatt] at hg
  have hacc : ∀ t, Accepts h'.mem d'.root t ↔ t ∈ (verdicts [] calls).2 ∨ t = w := by
    intro t; rw [hg.accepts t, List.mem_singleton]
  exact ⟨h', d', e1, e2, hacc, fun hb => hg.dictionary fun t ht => hb t ((hg.accepts t).2 ht), hg.destroy⟩

/-- Calls for which the theorem speaks: "ab", finished; then "ac" adds "c"; and "ab" again adds the empty term. -/
example : (verdicts [] [.add [97, 98]]).2.getLast? = some ([97] ++ [98]) ∧
    verdicts ([97] ++ [98]) [.add [97, 99]] = ([true], [[97] ++ [99]]) ∧
    verdicts ([97, 98] ++ []) [.add [97, 98]] = ([true], [[97, 98] ++ []]) := by
  decide

/-- C102: the claim that a term which `add` takes is in the resumed dictionary is false. -/
theorem c102_resume_loses_term :
    ¬ (∀ (sgn : Bool) (addr : Nat → Nat) (h : Heap) (s t : Str), Allocator addr h → ∀ fuel h' d',
      resumeRun sgn addr addr fuel [.add s] [.add t] h = .ok ([true], h', d') → Accepts h'.mem d'.root t) := by
  intro hall
  obtain ⟨h', d', ⟨N, hN⟩, _, hacc, _⟩ := c102_resume_shared true exAllocator [.add [97, 98]] [.add [97, 99]] (.same exAllocator)
    [97] [99] [98] (by decide) (by decide) (by decide) (by
      intro c u hc
      simp only [List.head?_cons, Option.some.injEq] at hc
      subst hc
      have : (verdicts [] [.add [97, 98]]).2 = [[97, 98]] := by decide
      rw [this]
      simp)
  have := (hacc _).1 (hall true _ _ [97, 98] [97, 99] exAllocator N h' d' (by
    have e := hN N (Nat.le_refl _)
    simp only at e
    rw [e]; rfl))
  have hv : (verdicts [] [.add [97, 98]]).2 = [[97, 98]] := by decide
  rw [hv] at this
  simp at this

/-- C102: the letter after the prefix begins a term already: the edge of the root is replaced, its target deleted although another
edge leads there, and `clean_up` walks over it. -/
theorem c102_resume_undefined :
    ∃ (calls late : List Call), ∀ n, resumeRun true (fun k => k + 1) (fun k => k + 1) (n + 100) calls late exHeap = .error .ub := by
  exact ⟨[.add [97, 97], .add [98, 97]], [.add [98, 98]], fun n => rfl⟩

end Lev.Props
