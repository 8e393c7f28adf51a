import Verif.Proofs.SerialRound
import Verif.Props.Resume

/-!
C103: dictionaries resumed with `init`, finished or not, and written and read back, any number of times.
-/

namespace Lev.Props

open Lev Spec

/-- What is done with a finished dictionary: `init(); add(…)…; finish(); clean_up()`, the same without `finish()`, or it is written by
`to_protobuf`, deleted, and read back by `from_protobuf`.  Each step has an allocator of its own: what was freed before may be handed out again. -/
inductive LifeStep
  | resume (addr : Nat → Nat) (late : List Call)
  | abandon (addr : Nat → Nat) (late : List Call)
  | saveLoad (addr : Nat → Nat)

/-- One step, with the results of the calls of `add` and `remove` (`sorted_dawg.cpp` lines 15–121, `serializer.cpp` lines 68–158). -/
def lifeStep (sgn : Bool) (fuel : Nat) : LifeStep → Heap → SDawg → Except Err (List Bool × Heap × SDawg)
  | .resume addr late, h, d => constructRun sgn addr fuel late h d
  | .abandon addr late, h, d => abandonRun sgn addr fuel late h d
  | .saveLoad addr, h, d => do
    let msg ← toProto sgn h.mem fuel d.root d.size
    let h ← destroyDawg fuel h d
    let (h, d) ← fromProto sgn addr msg h
    .ok ([], h, d)

/-- The steps one after the other. -/
def lifeSteps (sgn : Bool) (fuel : Nat) : List LifeStep → Heap → SDawg → Except Err (List (List Bool) × Heap × SDawg)
  | [], h, d => .ok ([], h, d)
  | s :: steps, h, d => do
    let (rs, h, d) ← lifeStep sgn fuel s h d
    let (rss, h, d) ← lifeSteps sgn fuel steps h d
    .ok (rs :: rss, h, d)

/-- A dictionary is built and the steps are taken. -/
def lifeRun (sgn : Bool) (addr : Nat → Nat) (fuel : Nat) (calls : List Call) (steps : List LifeStep) (h : Heap) :
    Except Err (List (List Bool) × Heap × SDawg) := do
  let (h, d) := newDawg addr h
  let (rs, h, d) ← constructRun sgn addr fuel calls h d
  let (rss, h, d) ← lifeSteps sgn fuel steps h d
  .ok (rs :: rss, h, d)

/-- When a step allocates, the addresses to come are free. -/
def FreeThen : LifeStep → Heap → SDawg → Prop
  | .resume addr _, h, _ => Allocator addr h
  | .abandon addr _, h, _ => Allocator addr h
  | .saveLoad addr, h, d => ∀ h', Ends (fun fuel => destroyDawg fuel h d) h' → Allocator addr h'

/-- In each of the steps. -/
def FreeAlways (sgn : Bool) : List LifeStep → Heap → SDawg → Prop
  | [], _, _ => True
  | s :: steps, h, d => FreeThen s h d ∧
      ∀ rs h' d', Ends (fun fuel => lifeStep sgn fuel s h d) (rs, h', d') → FreeAlways sgn steps h' d'

/-- What one should see when the dictionary has the terms `ts`, its size is `n`, and `last` is the term with which `add` compares:
the results of the calls, and the terms and the size at the end.  When `finish` is not called the terms that begin like the last one
are lost; the size counts them. -/
def lifeSpec (ts : List Str) (n : Nat) (last : Str) : List LifeStep → List (List Bool) × List Str × Nat
  | [] => ([], ts, n)
  | .resume _ late :: steps =>
    let v := verdicts last late
    let r := lifeSpec (ts ++ v.2) (n + v.2.length) (v.2.getLast?.getD last) steps
    (v.1 :: r.1, r.2)
  | .abandon _ late :: steps =>
    let v := verdicts last late
    let r := lifeSpec (ts ++ unfinished v.2) (n + v.2.length) (v.2.getLast?.getD last) steps
    (v.1 :: r.1, r.2)
  | .saveLoad _ :: steps =>
    let r := lifeSpec ts n [] steps
    ([] :: r.1, r.2)

/-- No term taken later begins with the letter with which a term begins that was in the dictionary when it was resumed, or the term
with which `add` compared. -/
def NewBeginnings (ts : List Str) (last : Str) : List LifeStep → Prop
  | [] => True
  | .resume _ late :: steps =>
    (∀ c u u', c :: u ∈ (verdicts last late).2 → c :: u' ∉ ts ∧ c :: u' ≠ last) ∧
      NewBeginnings (ts ++ (verdicts last late).2) ((verdicts last late).2.getLast?.getD last) steps
  | .abandon _ late :: steps =>
    (∀ c u u', c :: u ∈ (verdicts last late).2 → c :: u' ∉ ts ∧ c :: u' ≠ last) ∧
      NewBeginnings (ts ++ unfinished (verdicts last late).2) ((verdicts last late).2.getLast?.getD last) steps
  | .saveLoad _ :: steps => NewBeginnings ts [] steps

/-- Written, deleted and read back, whatever the allocator. -/
theorem settled_saveLoad {sgn : Bool} {addr : Nat → Nat} {m0 : Mem} {L : Str → Prop} {h : Heap} {d : SDawg}
    (hf : Settled sgn m0 L h d) (ha : ∀ h', Ends (fun fuel => destroyDawg fuel h d) h' → Allocator addr h') :
    ∃ h' d', Ends (fun fuel => lifeStep sgn fuel (.saveLoad addr) h d) ([], h', d') ∧
      d'.size = d.size ∧ d'.prev = [] ∧ Settled sgn m0 L h' d' ∧ Allocator addr h' := by
  obtain ⟨h1, e1, hm1⟩ := hf.destroy
  have ha1 := ha h1 e1
  obtain ⟨nd0, F0, g1, g2, g3, g4, g5⟩ := hf.dict
  obtain ⟨msg, h', d', φ, nd, F, e2, hm, hw, e3, hr, k1, k2, k3, k4, k5, k6, k7, k8⟩ :=
    roundTrip_spec (sgn := sgn) (size := d.size) ha1 g5
  rw [g1] at k1; obtain rfl := Option.some.inj k1
  obtain rfl := Unf.unique g2 k2
  have hcl := DictNode.closed g5
  have hroot : d'.root = φ d.root := by rw [hr.root, hm.root_id]
  have hrange : ∀ a, InRange addr h1.count h' a ↔ ∃ x ∈ msg.nodeIds, a = φ x := hr.range
  obtain ⟨r', hr1, hr2, hr3⟩ := (hrange d'.root).2 ⟨_, hw.root, hr.root⟩
  have hreach : ∀ a, Reaches h'.mem d'.root a ↔ ∃ x ∈ msg.nodeIds, a = φ x := by
    intro a
    have hiff := hr.reaches hw.target hw.root a
    rw [← hr.root] at hiff
    rw [hiff]
    constructor
    · rintro ⟨y, hy, rfl⟩
      refine ⟨y, ?_, rfl⟩
      have hr0 := hw.root
      clear hiff
      generalize msg.rootId = rr at hy hr0
      induction hy with
      | refl => exact hr0
      | step he _ ih => exact ih (hw.target _ he)
    · rintro ⟨x, hx, rfl⟩; exact ⟨x, k8 x hx, rfl⟩
  have hw : Whole sgn addr h1.count r' m0 L h' d' := by
    refine ⟨hr3, hr1, hr2, hr.ptrs, (hr.allocator ha1).null, (hr.allocator ha1).fresh, ?_, ?_, ?_, ?_, ?_⟩
    · intro a ha
      rw [hr.old a fun x hx he => ha ((hrange a).2 ⟨x, hx, he⟩), hm1]
    · intro a ha
      constructor
      · intro _; exact (hreach a).2 ((hrange a).1 ha)
      · intro _
        obtain ⟨x, hx, rfl⟩ := (hrange a).1 ha
        obtain ⟨es, he, _⟩ := hr.node x hx
        rw [he]; simp
    · intro a ha; exact (hrange a).2 ((hreach a).1 ha)
    · exact ⟨_, F0, k5, k6, g3, g4, k7⟩
    · intro t
      rw [hroot, hm.accepts hr hcl .refl, hf.accepts]
  refine ⟨h', d', ?_, by rw [hr.size, hm.size_eq], hr.prev,
    hw.settled ⟨ha1.nonnull, ha1.inj⟩ (fun j hj => by rw [← hm1]; exact ha1.fresh j hj), hr.allocator ha1⟩
  obtain ⟨N1, e1⟩ := e1
  obtain ⟨N2, e2⟩ := e2
  refine ⟨N1 + N2, fun fuel hfu => ?_⟩
  have e1 := e1 fuel (by omega)
  have e2 := e2 fuel (by omega)
  simp only at e1 e2
  simp only [lifeStep, bind, Except.bind, e2, e1, e3]

/-- Terms with new beginnings are added as they are. -/
theorem attached_new {q : Str} {late : List Call} (hn : ∀ c u u', c :: u ∈ (verdicts q late).2 → c :: u' ≠ q) :
    (∀ t rest, (verdicts q late).2 = t :: rest → commonPrefix t q = 0) ∧ attached q (verdicts q late).2 = (verdicts q late).2 := by
  have hk : ∀ t rest, (verdicts q late).2 = t :: rest → commonPrefix t q = 0 := by
    intro t rest hr
    refine commonPrefix_append (p := []) (w := t) (y := q) fun c hc hc' => ?_
    cases t with
    | nil => simp at hc
    | cons a u =>
      cases hd : q with
      | nil => rw [hd] at hc'; simp at hc'
      | cons b u' =>
        rw [hd] at hc'
        simp only [List.head?_cons, Option.some.injEq] at hc hc'
        subst hc hc'
        exact hn _ u u' (by rw [hr]; simp) hd.symm
  refine ⟨hk, ?_⟩
  cases hr : (verdicts q late).2 with
  | nil => rfl
  | cons t rest => simp only [attached, hk t rest hr, List.drop_zero]

/-- One step. -/
theorem lifeStep_spec {sgn : Bool} {m0 : Mem} (s : LifeStep) {h : Heap} {d : SDawg} {ts : List Str}
    (hf : Settled sgn m0 (· ∈ ts) h d) (hfr : FreeThen s h d) (hn : NewBeginnings ts d.prev [s]) :
    ∃ h' d', (∀ steps, lifeSpec ts d.size d.prev (s :: steps) =
        ((lifeSpec ts d.size d.prev [s]).1 ++ (lifeSpec (lifeSpec ts d.size d.prev [s]).2.1 d'.size d'.prev steps).1,
          (lifeSpec (lifeSpec ts d.size d.prev [s]).2.1 d'.size d'.prev steps).2)) ∧
      (∃ rs, (lifeSpec ts d.size d.prev [s]).1 = [rs] ∧ Ends (fun fuel => lifeStep sgn fuel s h d) (rs, h', d')) ∧
      (∀ steps, NewBeginnings ts d.prev (s :: steps) → NewBeginnings (lifeSpec ts d.size d.prev [s]).2.1 d'.prev steps) ∧
      Settled sgn m0 (· ∈ (lifeSpec ts d.size d.prev [s]).2.1) h' d' ∧
      ∀ addr, s = .saveLoad addr ∨ (∃ late, s = .resume addr late ∨ s = .abandon addr late) → Allocator addr h' := by
  have happ : ∀ l l' : List Str, (fun t => t ∈ l ∨ t ∈ l') = (· ∈ l ++ l') := by
    intro l l'; funext t; exact propext List.mem_append.symm
  cases s with
  | resume addr late =>
    obtain ⟨hk, hatt⟩ := attached_new fun c u u' hu => (hn.1 c u u' hu).2
    obtain ⟨h3, d3, e3, hsz, hpv, hw, ha3, _⟩ := settled_resume hf hfr late (fun t rest hr => .inr (hk t rest hr))
      (by rw [hatt]; exact fun c u hu u' => (hn.1 c u u' hu).1)
    rw [hatt, happ] at hw
    refine ⟨h3, d3, fun steps => ?_, ⟨_, rfl, e3⟩, fun steps hn => ?_, hw, ?_⟩
    · simp only [lifeSpec, hsz, hpv]; rfl
    · rw [hpv]; exact hn.2
    · rintro addr' (h | ⟨l, h | h⟩) <;> cases h
      exact ha3
  | abandon addr late =>
    obtain ⟨hk, hatt⟩ := attached_new fun c u u' hu => (hn.1 c u u' hu).2
    obtain ⟨h3, d3, e3, hsz, hpv, hw, ha3⟩ := settled_abandon hf hfr late (fun t rest hr => .inr (hk t rest hr))
      (by rw [hatt]; exact fun c u hu u' => (hn.1 c u u' hu).1)
    rw [hatt, happ] at hw
    refine ⟨h3, d3, fun steps => ?_, ⟨_, rfl, e3⟩, fun steps hn => ?_, hw, ?_⟩
    · simp only [lifeSpec, hsz, hpv]; rfl
    · rw [hpv]; exact hn.2
    · rintro addr' (h | ⟨l, h | h⟩) <;> cases h
      exact ha3
  | saveLoad addr =>
    obtain ⟨h3, d3, e3, hsz, hpv, hw, ha3⟩ := settled_saveLoad hf hfr
    refine ⟨h3, d3, fun steps => ?_, ⟨_, rfl, e3⟩, fun steps hn => ?_, hw, ?_⟩
    · simp only [lifeSpec, hsz, hpv]; rfl
    · rw [hpv]; exact hn
    · rintro addr' (h | ⟨l, h | h⟩) <;> cases h
      exact ha3

theorem NewBeginnings.head {ts : List Str} {q : Str} {s : LifeStep} {steps : List LifeStep} (h : NewBeginnings ts q (s :: steps)) :
    NewBeginnings ts q [s] := by
  cases s with
  | resume => exact ⟨h.1, trivial⟩
  | abandon => exact ⟨h.1, trivial⟩
  | saveLoad => trivial

theorem life_spec {sgn : Bool} {m0 : Mem} (steps : List LifeStep) :
    ∀ {h : Heap} {d : SDawg} {ts : List Str}, Settled sgn m0 (· ∈ ts) h d → FreeAlways sgn steps h d →
      NewBeginnings ts d.prev steps →
      ∃ h' d', Ends (fun fuel => lifeSteps sgn fuel steps h d) ((lifeSpec ts d.size d.prev steps).1, h', d') ∧
        d'.size = (lifeSpec ts d.size d.prev steps).2.2 ∧
        Settled sgn m0 (· ∈ (lifeSpec ts d.size d.prev steps).2.1) h' d' := by
  induction steps with
  | nil => exact fun hf _ _ => ⟨_, _, .of_eq fun _ => rfl, rfl, hf⟩
  | cons s steps ih =>
    intro h d ts hf hfr hn
    obtain ⟨h3, d3, hspec, ⟨rs, hrs, e3⟩, hnb, hw, _⟩ := lifeStep_spec s hf hfr.1 hn.head
    obtain ⟨h', d', ⟨N4, e4⟩, k1, k3⟩ := ih hw (hfr.2 _ _ _ e3) (hnb _ hn)
    obtain ⟨N3, e3⟩ := e3
    rw [hspec steps, hrs]
    refine ⟨h', d', ⟨N3 + N4, fun fuel hfu => ?_⟩, k1, k3⟩
    have e3 := e3 fuel (by omega)
    have e4 := e4 fuel (by omega)
    simp only at e3 e4
    simp only [lifeSteps, bind, Except.bind, e3, e4, List.singleton_append]

/-- C103: a dictionary is built, and then any number of times resumed with `init`, finished or not, or written and read back, in any
order, each time with any allocator that hands out what is free then.  As long as no term taken begins with the letter of a term
that was there when the dictionary was resumed or of the term taken before, all calls return what they should, exactly the terms
taken are accepted but for those that were not finished, the size is the number of all terms taken, and deleting the dictionary
leaves memory as it was. -/
theorem c103_life (sgn : Bool) {addr : Nat → Nat} {h : Heap} (ha : Allocator addr h) (calls : List Call) (steps : List LifeStep)
    (ha' : ∀ rs h' d', Ends (fun fuel => constructRun sgn addr fuel calls (newDawg addr h).1 (newDawg addr h).2) (rs, h', d') →
      FreeAlways sgn steps h' d')
    (hn : NewBeginnings (verdicts [] calls).2 ((verdicts [] calls).2.getLast?.getD []) steps) :
    ∃ h' d', Ends (fun fuel => lifeRun sgn addr fuel calls steps h) ((verdicts [] calls).1 ::
        (lifeSpec (verdicts [] calls).2 (verdicts [] calls).2.length ((verdicts [] calls).2.getLast?.getD []) steps).1, h', d') ∧
      d'.size = (lifeSpec (verdicts [] calls).2 (verdicts [] calls).2.length ((verdicts [] calls).2.getLast?.getD []) steps).2.2 ∧
      (∀ t, Accepts h'.mem d'.root t ↔
        t ∈ (lifeSpec (verdicts [] calls).2 (verdicts [] calls).2.length ((verdicts [] calls).2.getLast?.getD []) steps).2.1) ∧
      ((∀ t, Accepts h'.mem d'.root t → t.length < 2 ^ 62) → Dictionary sgn h'.mem d'.root) ∧
      ∃ h'', Ends (fun fuel => destroyDawg fuel h' d') h'' ∧ ∀ a, h''.mem a = h.mem a := by
  obtain ⟨h3, d3, hN3, hsz, hpv, hf, _⟩ := built_settled sgn ha calls
  rw [← hpv] at hn ⊢
  rw [← hsz]
  obtain ⟨h4, d4, ⟨N4, hN4⟩, k1, k3⟩ := life_spec steps hf (ha' _ _ _ hN3) hn
  obtain ⟨N3, hN3⟩ := hN3
  refine ⟨h4, d4, ⟨N3 + N4, fun fuel hfu => ?_⟩, k1, k3.accepts, fun hb => k3.dictionary fun t ht => hb t ((k3.accepts t).2 ht),
    k3.destroy⟩
  have e3 := hN3 fuel (by omega)
  have e4 := hN4 fuel (by omega)
  simp only at e3 e4
  simp only [lifeRun, bind, Except.bind, e3, e4]

/-- All steps have the allocator `addr`. -/
def LifeStep.Uses (addr : Nat → Nat) (s : LifeStep) : Prop :=
  s = .saveLoad addr ∨ ∃ late, s = .resume addr late ∨ s = .abandon addr late

/-- An allocator that never hands out an address twice meets the condition. -/
theorem FreeAlways.same {sgn : Bool} {addr : Nat → Nat} {m0 : Mem} (steps : List LifeStep) (hu : ∀ s ∈ steps, s.Uses addr) :
    ∀ {h : Heap} {d : SDawg} {ts : List Str}, Settled sgn m0 (· ∈ ts) h d → Allocator addr h →
      NewBeginnings ts d.prev steps → FreeAlways sgn steps h d := by
  induction steps with
  | nil => exact fun _ _ _ => trivial
  | cons s steps ih =>
    intro h d ts hf ha hn
    have hu1 := hu s (by simp)
    have hu2 := fun s hs => hu s (List.mem_cons_of_mem _ hs)
    have hfree : FreeThen s h d := by
      rcases hu1 with rfl | ⟨late, rfl | rfl⟩
      · intro h' e
        obtain ⟨h1, e1, hc, hm⟩ := hf.destroy_count
        rw [e.unique e1]
        refine ⟨ha.nonnull, ha.inj, ?_, fun k hk => ?_⟩
        · rw [hm]
          by_cases hr : Reaches h.mem d.root 0
          · exact hf.own 0 hr
          · rw [← hf.other 0 hr]; exact ha.null
        · rw [hm]
          by_cases hr : Reaches h.mem d.root (addr k)
          · exact hf.own _ hr
          · rw [← hf.other _ hr]; exact ha.fresh k (by omega)
      · exact ha
      · exact ha
    refine ⟨hfree, fun rs h' d' e => ?_⟩
    obtain ⟨h3, d3, _, ⟨rs, _, e3⟩, hnb, hw, hal⟩ := lifeStep_spec s hf hfree hn.head
    cases e.unique e3
    exact ih hu2 hw (hal addr hu1) (hnb _ hn)

/-- An allocator that hands out again what was freed: "a" lies at 1 and 2, is deleted, and read back at 1 and 2. -/
def exAgain (k : Nat) : Nat := if k = 0 then 3 else if k = 1 then 4 else if k = 2 then 1 else if k = 3 then 2 else k + 1

theorem exAgain_free (rs : List Bool) (h' : Heap) (d' : SDawg) (e : Ends (fun fuel => constructRun true (fun k => k + 1) fuel
    [.add [97]] (newDawg (fun k => k + 1) exHeap).1 (newDawg (fun k => k + 1) exHeap).2) (rs, h', d')) :
    FreeAlways true [.saveLoad exAgain, .resume exAgain [.add [98]]] h' d' := by
  obtain ⟨h1, d1, e1, _, hpv, hf, _⟩ := built_settled true exAllocator [.add [97]]
  have hv : verdicts [] [.add [97]] = ([true], [[97]]) := by decide
  rw [hv] at e1 hpv hf
  cases e1.unique e
  obtain ⟨h2, e2, hc, hm⟩ := hf.destroy_count
  have hfree : FreeThen (.saveLoad exAgain) h' d' := by
    intro h3 e
    rw [e.unique e2]
    refine ⟨fun k => ?_, fun j k h => ?_, by rw [hm]; rfl, fun k hk => by rw [hm]; rfl⟩
    · unfold exAgain; repeat' split
      all_goals omega
    · unfold exAgain at h; repeat' split at h
      all_goals omega
  refine ⟨hfree, fun rs h' d' e => ?_⟩
  obtain ⟨h3, d3, e3, _, hpv, hw, ha⟩ := settled_saveLoad hf hfree
  cases e3.unique e
  exact ⟨ha, fun _ _ _ _ => trivial⟩

/-- The theorem speaks of this allocator: where the second root lies the first has been. -/
example : NewBeginnings [[97]] [97] [.saveLoad exAgain, .resume exAgain [.add [98]]] ∧
    (lifeRun true (fun k => k + 1) 100 [.add [97]] [.saveLoad exAgain, .resume exAgain [.add [98]]] exHeap).map
      (fun r => (r.1, r.2.2.root, r.2.2.size, (r.2.1.mem 1).map (·.edges))) =
      .ok ([[true], [], [true]], 1, 2, some [(97, 2), (98, 5)]) := by
  constructor
  · have v : verdicts [] [.add [98]] = ([true], [[98]]) := by decide
    simp only [NewBeginnings, v, List.mem_singleton, List.cons.injEq, and_true]
    rintro c u u' ⟨rfl, -⟩
    simp
  · rfl

/-- Steps for which the theorem speaks: "b" is built; resumed, "a" is rejected and "c" taken; "d", "e" and "ee" are added, but not
finished, so that "d" alone is there; written and read back, "a" and "e" are taken now; and "f" as well. -/
example (f : Nat → Nat) :
    NewBeginnings [[98]] [98] [.resume f [.add [97], .add [99]], .abandon f [.add [100], .add [101], .add [101, 101]], .saveLoad f,
      .resume f [.add [97], .add [101]], .resume f [.add [102]]] ∧
    lifeSpec [[98]] 1 [98] [.resume f [.add [97], .add [99]], .abandon f [.add [100], .add [101], .add [101, 101]], .saveLoad f,
      .resume f [.add [97], .add [101]], .resume f [.add [102]]] =
      ([[false, true], [true, true, true], [], [true, true], [true]], [[98], [99], [100], [97], [101], [102]], 8) := by
  constructor
  · have v1 : verdicts [98] [.add [97], .add [99]] = ([false, true], [[99]]) := by decide
    have v2 : verdicts [99] [.add [100], .add [101], .add [101, 101]] = ([true, true, true], [[100], [101], [101, 101]]) := by decide
    have v3 : verdicts [] [.add [97], .add [101]] = ([true, true], [[97], [101]]) := by decide
    have v4 : verdicts [101] [.add [102]] = ([true], [[102]]) := by decide
    have u2 : unfinished [[100], [101], [101, 101]] = [[100]] := by decide
    have g2 : ([[100], [101], [101, 101]] : List Str).getLast? = some [101, 101] := rfl
    have g3 : ([[97], [101]] : List Str).getLast? = some [101] := rfl
    simp only [NewBeginnings, v1, List.getLast?_singleton, Option.getD_some, v2, g2, u2, v3, g3, v4, List.mem_cons, List.not_mem_nil,
      or_false, List.cons.injEq, and_true]
    refine ⟨?_, ?_, ?_, ?_⟩ <;> intro c u u' h
    · obtain ⟨rfl, -⟩ := h; simp
    · rcases h with ⟨rfl, -⟩ | ⟨rfl, -⟩ | ⟨rfl, -⟩ <;> simp
    · rcases h with ⟨rfl, -⟩ | ⟨rfl, -⟩ <;> simp
    · obtain ⟨rfl, -⟩ := h; simp
  · rfl

/-- C103: the claim that the terms of a dictionary which was read back are still there after another one is added is false. -/
theorem c103_life_loses_terms :
    ¬ (∀ (sgn : Bool) (addr : Nat → Nat) (h : Heap) (s t : Str), Allocator addr h → ∀ fuel rs h' d',
      lifeRun sgn addr fuel [.add s] [.saveLoad addr, .resume addr [.add t]] h = .ok (rs, h', d') → Accepts h'.mem d'.root s) := by
  intro hall
  have h := hall true (fun k => k + 1) exHeap [97, 98] [97, 99] exAllocator 100 _ _ _ rfl
  cases h with
  | step hm hb ha =>
    have hm' := hm.symm.trans (show _ = some (⟨false, [(97, 7)]⟩ : DNode) from rfl)
    obtain rfl := Option.some.inj hm'
    simp only [List.mem_singleton, Prod.mk.injEq, true_and] at hb
    subst hb
    cases ha with
    | step hm hb ha =>
      have hm' := hm.symm.trans (show _ = some (⟨false, [(99, 8)]⟩ : DNode) from rfl)
      obtain rfl := Option.some.inj hm'
      simp at hb

/-- C103: nor need it end well: the target of the replaced edge is deleted although another edge leads there. -/
theorem c103_life_undefined :
    ∃ (calls late : List Call), ∀ n, lifeRun true (fun k => k + 1) (n + 100) calls [.saveLoad (fun k => k + 1), .resume (fun k => k + 1) late] exHeap = .error .ub :=
  ⟨[.add [97, 98], .add [98, 98]], [.add [97, 99]], fun _ => rfl⟩

end Lev.Props
