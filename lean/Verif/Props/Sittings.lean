import Verif.Props.Resume

/-!
C108: `init`, calls of `add` and `remove`, `finish` (or not) and `clean_up` any number of times on one dictionary.
-/

namespace Lev.Props

open Lev Spec

/-- From one call of `init` to the next of `clean_up` (`sorted_dawg.cpp` lines 15–121): the addresses that are handed out, the calls
in between and whether `finish` is called before `clean_up`. -/
structure Sitting where
  addr : Nat → Nat
  calls : List Call
  finished : Bool

def Sitting.run (sgn : Bool) (fuel : Nat) (s : Sitting) (h : Heap) (d : SDawg) : Except Err (List Bool × Heap × SDawg) :=
  if s.finished then constructRun sgn s.addr fuel s.calls h d else abandonRun sgn s.addr fuel s.calls h d

/-- One after the other, with the results of all calls. -/
def sittingsRun (sgn : Bool) (fuel : Nat) : List Sitting → Heap → SDawg → Except Err (List (List Bool) × Heap × SDawg)
  | [], h, d => .ok ([], h, d)
  | s :: ss, h, d => do
      let (r, h, d) ← s.run sgn fuel h d
      let (rs, h, d) ← sittingsRun sgn fuel ss h d
      .ok (r :: rs, h, d)

/-- What the calls return, the words that are kept and how many words were taken, if `q` was the last word taken before. -/
structure Tally where
  results : List (List Bool) := []
  words : List Str := []
  size : Nat := 0
deriving DecidableEq, Repr

def tally (q : Str) : List Sitting → Tally
  | [] => {}
  | s :: ss =>
      let v := verdicts q s.calls
      let t := tally (v.2.getLast?.getD q) ss
      ⟨v.1 :: t.results, (if s.finished then v.2 else unfinished v.2) ++ t.words, v.2.length + t.size⟩

/-- The first word that each sitting takes does not begin with the letter of the last word taken before. -/
def Turned (q : Str) : List Sitting → Prop
  | [] => True
  | s :: ss =>
      (∀ t c, (verdicts q s.calls).2.head? = some t → t.head? = some c → q.head? ≠ some c) ∧
        Turned ((verdicts q s.calls).2.getLast?.getD q) ss

/-- The addresses to be handed out in each sitting are free when it begins. -/
def FreeEach (sgn : Bool) (h : Heap) (d : SDawg) : List Sitting → Prop
  | [] => True
  | s :: ss => Allocator s.addr h ∧
      ∀ rs h' d', Ends (fun fuel => s.run sgn fuel h d) (rs, h', d') → FreeEach sgn h' d' ss

theorem unfinished_sub {ts : List Str} {t : Str} (h : t ∈ unfinished ts) : t ∈ ts := (mem_unfinished.1 h).1

/-- The words that were taken are not above the last one. -/
theorem last_above {q : Str} {ts : List Str} (hs : SortedTerms (q :: ts)) {t : Str}
    (ht : t ∈ ts ∨ ¬ strLess q t) : ¬ strLess (ts.getLast?.getD q) t := by
  cases hl : ts.getLast? with
  | none =>
    rw [List.getLast?_eq_none_iff.1 hl] at ht
    simpa using ht
  | some x =>
    have hx : x ∈ ts := List.mem_of_getLast? hl
    rcases ht with ht | ht
    · have := le_last (List.pairwise_cons.1 hs).2 ht
      rwa [hl] at this
    · exact not_strLess_trans ht ((List.pairwise_cons.1 hs).1 x hx)

theorem attached_turned {q : Str} {ts : List Str} (hk : ∀ t c, ts.head? = some t → t.head? = some c → q.head? ≠ some c) :
    attached q ts = ts ∧ ∀ t rest, ts = t :: rest → commonPrefix t q = 0 := by
  have hk' : ∀ t rest, ts = t :: rest → commonPrefix t q = 0 := by
    intro t rest hr
    exact commonPrefix_append (p := []) (w := t) (y := q) fun c hc => hk t c (by rw [hr]; rfl) hc
  refine ⟨?_, hk'⟩
  cases ts with
  | nil => rfl
  | cons t rest => simp only [attached, hk' t rest rfl, List.drop_zero]

/-- The words of the next sitting begin with letters that no word has begun with so far. -/
theorem turned_new {q : Str} {ts : List Str} {L : Str → Prop} (hs : SortedTerms (q :: ts)) (hle : ∀ t, L t → ¬ strLess q t)
    (hk : ∀ t c, ts.head? = some t → t.head? = some c → q.head? ≠ some c) {c : UInt8} {u u' : Str} (hu : c :: u ∈ ts) :
    ¬ L (c :: u') := by
  intro hu'
  cases ts with
  | nil => simp at hu
  | cons t rest =>
    obtain ⟨hq1, hq2⟩ := List.pairwise_cons.1 hs
    obtain ⟨x, y, hqx, hxc⟩ := not_less_head (hle _ hu')
    have ht := hq1 t (by simp)
    rw [hqx] at ht
    obtain ⟨x2, y2, rfl, hx2⟩ := not_less_head ht
    have hne : x2 ≠ x := fun h' => hk _ x2 rfl rfl (by rw [hqx, h']; rfl)
    have hlt : x.toNat < x2.toNat := by
      rcases Nat.lt_or_eq_of_le hx2 with h | h
      · exact h
      · exact absurd (UInt8.toNat_inj.1 h.symm) hne
    have : x2.toNat ≤ c.toNat := by
      rcases List.mem_cons.1 hu with h | h
      · cases h; exact Nat.le_refl _
      · obtain ⟨z, w, hz, hz2⟩ := not_less_head ((List.pairwise_cons.1 hq2).1 _ h)
        cases hz; exact hz2
    omega

/-- One sitting. -/
theorem settled_sitting {sgn : Bool} {m0 : Mem} {L : Str → Prop} {h : Heap} {d : SDawg} (hf : Settled sgn m0 L h d) (s : Sitting)
    (ha : Allocator s.addr h) (hle : ∀ t, L t → ¬ strLess d.prev t)
    (hk : ∀ t c, (verdicts d.prev s.calls).2.head? = some t → t.head? = some c → d.prev.head? ≠ some c) :
    ∃ h' d', Ends (fun fuel => s.run sgn fuel h d) ((verdicts d.prev s.calls).1, h', d') ∧
      d'.size = d.size + (verdicts d.prev s.calls).2.length ∧
      d'.prev = (verdicts d.prev s.calls).2.getLast?.getD d.prev ∧
      Settled sgn m0 (fun t => L t ∨
        t ∈ if s.finished then (verdicts d.prev s.calls).2 else unfinished (verdicts d.prev s.calls).2) h' d' ∧ Allocator s.addr h' := by
  obtain ⟨hatt, hz⟩ := attached_turned hk
  have hs := verdicts_sorted d.prev s.calls
  have hnew : ∀ c u, c :: u ∈ attached d.prev (verdicts d.prev s.calls).2 → ∀ u', ¬ L (c :: u') := by
    rw [hatt]
    exact fun c u hu u' => turned_new hs hle hk hu
  unfold Sitting.run
  cases s.finished with
  | true =>
    obtain ⟨h', d', e1, e2, e3, e4, e5, _⟩ := settled_resume hf ha s.calls (fun t rest hr => .inr (hz t rest hr)) hnew
    rw [hatt] at e4
    exact ⟨h', d', e1, e2, e3, e4, e5⟩
  | false =>
    obtain ⟨h', d', e1, e2, e3, e4, e5⟩ := settled_abandon hf ha s.calls (fun t rest hr => .inr (hz t rest hr)) hnew
    rw [hatt] at e4
    exact ⟨h', d', e1, e2, e3, e4, e5⟩

theorem settled_sittings {sgn : Bool} {m0 : Mem} (ss : List Sitting) {L : Str → Prop} {h : Heap} {d : SDawg}
    (hf : Settled sgn m0 L h d) (hfree : FreeEach sgn h d ss) (hle : ∀ t, L t → ¬ strLess d.prev t)
    (hk : Turned d.prev ss) :
    ∃ h' d', Ends (fun fuel => sittingsRun sgn fuel ss h d) ((tally d.prev ss).results, h', d') ∧
      d'.size = d.size + (tally d.prev ss).size ∧ Settled sgn m0 (fun t => L t ∨ t ∈ (tally d.prev ss).words) h' d' := by
  induction ss generalizing L h d with
  | nil => exact ⟨h, d, .of_eq fun _ => rfl, rfl, by simpa [tally] using hf⟩
  | cons s ss ih =>
    obtain ⟨h1, d1, e1, e2, e3, e4, _⟩ := settled_sitting hf s hfree.1 hle hk.1
    obtain ⟨h2, d2, g1, g2, g3⟩ := ih e4 (hfree.2 _ _ _ e1) (by
      intro t ht
      rw [e3]
      refine last_above (verdicts_sorted d.prev s.calls) ?_
      rcases ht with ht | ht
      · exact .inr (hle t ht)
      · left
        split at ht
        · exact ht
        · exact unfinished_sub ht) (by rw [e3]; exact hk.2)
    rw [e3] at g1 g2 g3
    obtain ⟨N1, e1⟩ := e1
    obtain ⟨N2, g1⟩ := g1
    refine ⟨h2, d2, ⟨N1 + N2, fun fuel hfu => ?_⟩, ?_, ?_⟩
    · have e1 := e1 fuel (by omega)
      have g1 := g1 fuel (by omega)
      simp only at e1 g1
      simp only [sittingsRun, e1, bind, Except.bind, g1, tally]
    · rw [g2, e2]; simp only [tally]; omega
    · simpa only [tally, List.mem_append, or_assoc] using g3

/-- A new dictionary. -/
theorem newDawg_settled {sgn : Bool} {addr : Nat → Nat} {h : Heap} (ha : Allocator addr h) :
    Settled sgn h.mem (fun _ => False) (newDawg addr h).1 (newDawg addr h).2 := by
  have hroot : (newDawg addr h).1.mem (newDawg addr h).2.root = some ⟨false, []⟩ := by
    simp [newDawg, newNode, Mem.set]
  have hne : ∀ a, a ≠ addr h.count → (newDawg addr h).1.mem a = h.mem a := fun a hn => by
    simp [newDawg, newNode, Mem.set, hn]
  have hreach : ∀ a, Reaches (newDawg addr h).1.mem (newDawg addr h).2.root a ↔ a = addr h.count := by
    intro a
    constructor
    · intro hr
      cases hr with
      | refl => rfl
      | step hm he =>
        rw [hroot] at hm
        cases hm
        simp at he
    · rintro rfl; exact .refl
  refine ⟨⟨rfl, rfl, rfl⟩, ?_, fun a hn => hne a fun h' => hn ((hreach a).2 h'), fun a hr => ?_,
    ⟨[addr h.count], by simp, fun a => by rw [hreach a]; simp, by simp [newDawg, newNode]⟩,
    ⟨_, .nil, hroot, .nil, trivial, .nil, .mk hroot .nil fun _ _ he => by simp at he⟩, fun t => ?_⟩
  · rw [hne 0 fun h' => ha.nonnull _ h'.symm]; exact ha.null
  · rw [(hreach a).1 hr]; exact ha.fresh _ (Nat.le_refl _)
  · rw [accepts_node hroot]; simp

/-- C108: on a new dictionary `init`, calls of `add` and `remove`, perhaps `finish`, and `clean_up`, again and again.  Each time the
addresses may be any that are free then.  If the first word taken each time does not begin with the letter of the last word taken
before, all calls return what they should, exactly the words of the tally are accepted, `size` is the number of all words taken, and
deleting the dictionary leaves memory as it was. -/
theorem c108_sittings (sgn : Bool) {addr : Nat → Nat} {h : Heap} (ha : Allocator addr h) (ss : List Sitting)
    (hfree : FreeEach sgn (newDawg addr h).1 (newDawg addr h).2 ss) (hk : Turned [] ss) :
    ∃ h' d', Ends (fun fuel => sittingsRun sgn fuel ss (newDawg addr h).1 (newDawg addr h).2) ((tally [] ss).results, h', d') ∧
      d'.size = (tally [] ss).size ∧ (∀ t, Accepts h'.mem d'.root t ↔ t ∈ (tally [] ss).words) ∧
      ((∀ t, Accepts h'.mem d'.root t → t.length < 2 ^ 62) → Dictionary sgn h'.mem d'.root) ∧
      ∃ h'', Ends (fun fuel => destroyDawg fuel h' d') h'' ∧ ∀ a, h''.mem a = h.mem a := by
  obtain ⟨h', d', e1, e2, e3⟩ := settled_sittings ss (newDawg_settled (sgn := sgn) ha) hfree (fun _ h => h.elim) hk
  have hp : (newDawg addr h).2.prev = [] := rfl
  rw [hp] at e1 e2 e3
  refine ⟨h', d', e1, by rw [e2]; simp [newDawg], fun t => by rw [e3.accepts t]; simp,
    fun hb => e3.dictionary fun t ht => hb t ((e3.accepts t).2 ht), e3.destroy⟩

/-- C108: and queries find exactly those words of the tally that are within the distance, in the usual order. -/
theorem c108_query (sgn : Bool) {addr : Nat → Nat} {h : Heap} (ha : Allocator addr h) (ss : List Sitting)
    (hfree : FreeEach sgn (newDawg addr h).1 (newDawg addr h).2 ss) (hk : Turned [] ss) (A : Algorithm) {q : Str} {n : Nat}
    (hlen : ∀ t ∈ (tally [] ss).words, t.length < 2 ^ 62) (hq : QueryFits n q) (hn : n < 2 ^ 64) {rs : List (List Bool)}
    {h' : Heap} {d' : SDawg} (hr : Ends (fun fuel => sittingsRun sgn fuel ss (newDawg addr h).1 (newDawg addr h).2) (rs, h', d')) :
    ∃ out, Yields A updCandidate h'.mem d'.root q n out ∧
      (∀ t k, (t, k) ∈ out ↔ t ∈ (tally [] ss).words ∧ IsMinCost A q t k ∧ k ≤ n) ∧
      out.Pairwise (fun a b => shortLex sgn a.1 b.1) := by
  obtain ⟨h1, d1, e1, _, hacc, hd, _⟩ := c108_sittings sgn ha ss hfree hk
  cases e1.unique hr
  have hd' := hd fun t ht => hlen t ((hacc t).1 ht)
  obtain ⟨out, g1, g2⟩ := query_exact A hd' hq hn
  exact ⟨out, g1, fun t k => by rw [g2, hacc], c37_order hd' hq hn g1⟩

/-- The words that all sittings take. -/
def allTaken (q : Str) : List Sitting → List Str
  | [] => []
  | s :: ss => (verdicts q s.calls).2 ++ allTaken ((verdicts q s.calls).2.getLast?.getD q) ss

/-- C108: if `finish` was called each time, these are the words that were taken. -/
theorem c108_finished (q : Str) (ss : List Sitting) (hf : ∀ s ∈ ss, s.finished = true) :
    (tally q ss).words = allTaken q ss ∧ (tally q ss).size = (tally q ss).words.length := by
  induction ss generalizing q with
  | nil => exact ⟨rfl, rfl⟩
  | cons s ss ih =>
    obtain ⟨h1, h2⟩ := ih ((verdicts q s.calls).2.getLast?.getD q) fun s' hs' => hf s' (by simp [hs'])
    have := hf s (by simp)
    simp only [tally, allTaken, this, if_true, h1, List.length_append, true_and]
    rw [h2, h1]

/-- The words of later sittings begin with later letters. -/
theorem tally_later {q : Str} {ss : List Sitting} (hk : Turned q ss) {c : UInt8} {x : Str} (hc : q = c :: x) {t : Str}
    (ht : t ∈ (tally q ss).words) : ∃ c' u, t = c' :: u ∧ c.toNat < c'.toNat := by
  induction ss generalizing q c x with
  | nil => simp [tally] at ht
  | cons s ss ih =>
    have hs := verdicts_sorted q s.calls
    have hnew : ∀ t ∈ (verdicts q s.calls).2, ∃ c' u, t = c' :: u ∧ c.toNat < c'.toNat := by
      intro t ht
      have hqt := (List.pairwise_cons.1 hs).1 t ht
      rw [hc] at hqt
      obtain ⟨z, w, rfl, hz⟩ := not_less_head hqt
      refine ⟨z, w, rfl, Nat.lt_of_le_of_ne hz fun h' => ?_⟩
      cases UInt8.toNat_inj.1 h'
      exact turned_new (L := (· = q)) hs (fun t h => by rw [h]; exact strLess_irrefl q) hk.1 ht (u' := x) hc.symm
    simp only [tally, List.mem_append] at ht
    rcases ht with ht | ht
    · refine hnew t ?_
      split at ht
      · exact ht
      · exact unfinished_sub ht
    · have hk2 := hk.2
      cases hl : (verdicts q s.calls).2.getLast? with
      | none =>
        rw [hl] at ht hk2
        exact ih hk2 hc ht
      | some y =>
        rw [hl, Option.getD_some] at ht hk2
        obtain ⟨z, w, hz, hlt⟩ := hnew y (List.mem_of_getLast? hl)
        obtain ⟨z', w', hz', hlt'⟩ := ih hk2 hz ht
        exact ⟨z', w', hz', by omega⟩

/-- The last word that was taken. -/
def lastTaken (q : Str) : List Sitting → Str
  | [] => q
  | s :: ss => lastTaken ((verdicts q s.calls).2.getLast?.getD q) ss

theorem tally_append (q : Str) (ss ss' : List Sitting) :
    (tally q (ss ++ ss')).words = (tally q ss).words ++ (tally (lastTaken q ss) ss').words := by
  induction ss generalizing q with
  | nil => rfl
  | cons s ss ih => simp only [List.cons_append, tally, lastTaken, ih, List.append_assoc]

theorem turned_append {q : Str} {ss ss' : List Sitting} (h : Turned q (ss ++ ss')) : Turned (lastTaken q ss) ss' := by
  induction ss generalizing q with
  | nil => exact h
  | cons s ss ih => exact ih h.2

theorem tally_below {q : Str} {ss : List Sitting} {t : Str} (ht : t ∈ (tally q ss).words ∨ ¬ strLess q t) :
    ¬ strLess (lastTaken q ss) t := by
  induction ss generalizing q with
  | nil => simpa [tally, lastTaken] using ht
  | cons s ss ih =>
    simp only [tally, List.mem_append, lastTaken] at ht ⊢
    have hs := verdicts_sorted q s.calls
    rcases ht with (ht | ht) | ht
    · refine ih (.inr (last_above hs (.inl ?_)))
      split at ht
      · exact ht
      · exact unfinished_sub ht
    · exact ih (.inl ht)
    · exact ih (.inr (last_above hs (.inr ht)))

/-- C108: if `finish` is not called, the words with the first letter of the last one taken are lost for good, although `add` returned
true for them and `size` counts them. -/
theorem c108_lost (pre post : List Sitting) (s : Sitting) (hk : Turned [] (pre ++ s :: post)) (hs : s.finished = false)
    {c : UInt8} {t u : Str} (ht : c :: t ∈ (verdicts (lastTaken [] pre) s.calls).2)
    (hu : (verdicts (lastTaken [] pre) s.calls).2.getLast? = some (c :: u)) :
    c :: t ∉ (tally [] (pre ++ s :: post)).words := by
  have hk2 := turned_append hk
  rw [tally_append, List.mem_append]
  rintro (h1 | h1)
  · exact turned_new (L := (· ∈ (tally [] pre).words)) (verdicts_sorted _ s.calls) (fun t h => tally_below (.inl h)) hk2.1 ht h1
  · simp only [tally, hs, List.mem_append, hu, Option.getD_some] at h1
    rcases h1 with h1 | h1
    · have := (mem_unfinished.1 h1).2 c (by rw [hu]; rfl)
      simp at this
    · have hk3 := hk2.2
      rw [hu, Option.getD_some] at hk3
      obtain ⟨z, w, hz, hlt⟩ := tally_later hk3 rfl h1
      cases hz
      omega

/-! ### Examples -/

/-- "a", "ab" and "b" without `finish`; "c" with; a sitting that takes nothing; "d" and "da" with `finish`.  "b" is lost. -/
def exSittings : List Sitting :=
  [⟨(· + 1), [.add [97], .add [97, 98], .remove [97], .add [98]], false⟩, ⟨(· + 1), [.add [99]], true⟩,
    ⟨(· + 1), [.add [97]], false⟩, ⟨(· + 1), [.add [100], .add [100, 97]], true⟩]

example : tally [] exSittings = ⟨[[true, true, false, true], [true], [false], [true, true]],
    [[97], [97, 98], [99], [100], [100, 97]], 6⟩ := by decide

theorem Turned.of {q : Str} {s : Sitting} {ss : List Sitting} {v : List Str} (hv : (verdicts q s.calls).2 = v)
    (h : ∀ t c, v.head? = some t → t.head? = some c → q.head? ≠ some c) (h' : Turned (v.getLast?.getD q) ss) :
    Turned q (s :: ss) := by
  subst hv; exact ⟨h, h'⟩

theorem exSittings_turned : Turned [] exSittings := by
  refine .of (v := [[97], [97, 98], [98]]) (by decide) ?_ <| .of (v := [[99]]) (by decide) ?_ <| .of (v := []) (by decide) ?_ <|
    .of (v := [[100], [100, 97]]) (by decide) ?_ trivial
  all_goals intro t c h1 h2 h3; simp at h1 h3
  all_goals subst h1 h3; simp at h2

/-- An allocator that never hands out an address twice serves all sittings. -/
theorem FreeEach.same {sgn : Bool} {addr : Nat → Nat} {m0 : Mem} (ss : List Sitting) {L : Str → Prop} {h : Heap} {d : SDawg}
    (hf : Settled sgn m0 L h d) (ha : Allocator addr h) (hle : ∀ t, L t → ¬ strLess d.prev t) (hk : Turned d.prev ss)
    (hs : ∀ s ∈ ss, s.addr = addr) : FreeEach sgn h d ss := by
  induction ss generalizing L h d with
  | nil => trivial
  | cons s ss ih =>
    have he := hs s (by simp)
    refine ⟨he ▸ ha, fun rs h' d' hr => ?_⟩
    obtain ⟨h1, d1, e1, e2, e3, e4, e5⟩ := settled_sitting hf s (he ▸ ha) hle hk.1
    cases e1.unique hr
    refine ih e4 (he ▸ e5) (fun t ht => ?_) (by rw [e3]; exact hk.2) fun s' hs' => hs s' (by simp [hs'])
    rw [e3]
    refine last_above (verdicts_sorted d.prev s.calls) ?_
    rcases ht with ht | ht
    · exact .inr (hle t ht)
    · left
      split at ht
      · exact ht
      · exact unfinished_sub ht

theorem exSittings_free : FreeEach true (newDawg (· + 1) exHeap).1 (newDawg (· + 1) exHeap).2 exSittings :=
  FreeEach.same _ (newDawg_settled exAllocator) ⟨exAllocator.nonnull, exAllocator.inj, rfl, fun k hk => by
    have : k ≠ 0 := by simp [newDawg, newNode, exHeap] at hk; omega
    simp [newDawg, newNode, exHeap, Mem.set, this]⟩ (fun _ h => h.elim) exSittings_turned
    (by simp [exSittings])

/-- The theorem speaks of these sittings; they leave six nodes. -/
example : (sittingsRun true 100 exSittings (newDawg (· + 1) exHeap).1 (newDawg (· + 1) exHeap).2).map
    (fun r => (r.1, r.2.2.size, (r.2.1.mem 1).map (·.edges))) =
      .ok ([[true, true, false, true], [true], [false], [true, true]], 6, some [(97, 2), (99, 5), (100, 6)]) := rfl

example : [98] ∉ (tally [] exSittings).words :=
  c108_lost [] exSittings.tail exSittings[0] exSittings_turned rfl (u := []) (by decide) (by decide)

end Lev.Props
