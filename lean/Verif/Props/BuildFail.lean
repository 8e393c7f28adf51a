import Verif.Proofs.SiteClash
import Verif.Proofs.SiteFactory
import Verif.Props.Dawg

/-!
# Property C91: building a dictionary that runs out of memory

`Spec/BuildFail.lean` says what each call does to the words of a dictionary, without nodes.  `Allocator addr h` is what is
assumed of memory; `Ends f r` says that the fuelled run `f` ends with `r`, without undefined behaviour.
-/

namespace Lev.Props

open Lev Spec

/-! ### No failure -/

theorem addEdgeF_none (sgn : Bool) (a : Nat) (c : UInt8) (b : Nat) (h : Heap) :
    addEdgeF sgn false a c b h = (addEdge sgn a c b h).map fun h => (h, false) := by
  unfold addEdgeF addEdge
  cases deref h.mem a with
  | error => rfl
  | ok nd =>
    simp only [bind, Except.bind]
    cases deleteNode (nodeTransition nd c) h with
    | error => rfl
    | ok h1 =>
      simp only
      cases deref h1.mem a with
      | error => rfl
      | ok nd => simp [Except.map, pure, Except.pure]

theorem minimizeStepF_none (sgn : Bool) (fuel k : Nat) (h : Heap) (d : SDawg) :
    minimizeStepF sgn fuel none k h d = (minimizeStep sgn fuel h d).map fun r => (r.1, r.2, false) := by
  unfold minimizeStepF minimizeStep
  split
  · next h1 => simp [h1, Except.map]
  · next h1 => simp [h1, Except.map]
  · next t rest h1 =>
    simp only [h1, reduceCtorEq, if_false, decide_false, addEdgeF_none, bind, Except.bind, pure, Except.pure]
    cases minimizedNode fuel t.target h { d with unchecked := some rest } with
    | error => rfl
    | ok r =>
      cases r with
      | some e =>
        simp only
        cases addEdge sgn t.source t.label e h <;> rfl
      | none =>
        simp only
        cases addEdge sgn t.source t.label t.target h with
        | error => rfl
        | ok h1 =>
          simp only [Except.map, Bool.false_eq_true, if_false]
          cases register fuel t.target h1 { d with unchecked := some rest } <;> rfl

theorem minimizeLoopF_none (sgn : Bool) (fuel n k : Nat) (h : Heap) (d : SDawg) :
    minimizeLoopF sgn fuel none n k h d = (minimizeLoop sgn fuel n h d).map fun r => (r.1, r.2, false) := by
  induction n generalizing k h d with
  | zero => rfl
  | succ n ih =>
    rw [minimizeLoopF, minimizeLoop, minimizeStepF_none]
    cases minimizeStep sgn fuel h d with
    | error => rfl
    | ok r => simpa [Except.map, bind, Except.bind] using ih (k + 1) r.1 r.2

theorem minimizeF_none (sgn : Bool) (fuel lower : Nat) (h : Heap) (d : SDawg) :
    minimizeF sgn fuel none lower h d = (minimize sgn fuel lower h d).map fun r => (r.1, r.2, false) := by
  unfold minimizeF minimize
  split
  · next h1 => simp [h1, Except.map]
  · next h1 => simp only [h1, minimizeLoopF_none]

theorem pushSuffixF_none (addr : Nat → Nat) (j source : Nat) (rest : Str) (h : Heap) (d : SDawg) :
    pushSuffixF addr none j source rest h d = (pushSuffix addr source rest h d).map fun r => (some r.1, r.2.1, r.2.2) := by
  induction rest generalizing j source h d with
  | nil => rfl
  | cons c rest ih =>
    rw [pushSuffixF, pushSuffix]
    cases h1 : d.floating <;> cases h2 : d.unchecked
    · rfl
    · rfl
    · rfl
    · simp only [reduceCtorEq, if_false]
      exact ih _ _ _ _

/-- How a call that does not throw ends. -/
def fateOf : Bool → Fate
  | true => .added
  | false => .refused

theorem addTermF_none (sgn : Bool) (addr : Nat → Nat) (fuel : Nat) (t : Str) (h : Heap) (d : SDawg) :
    addTermF sgn addr fuel none t h d = (addTerm sgn addr fuel t h d).map fun r => (fateOf r.1, r.2.1, r.2.2) := by
  unfold addTermF addTerm
  split
  · rfl
  · split
    · cases setFinal d.root h <;> rfl
    · simp only [minimizeF_none]
      cases minimize sgn fuel (commonPrefix t d.prev) h d with
      | error => rfl
      | ok r =>
        simp only [Except.map, bind, Except.bind, Bool.false_eq_true, if_false, pushSuffixF_none]
        cases suffixSource r.2 with
        | error => rfl
        | ok s =>
          simp only
          cases pushSuffix addr s (t.drop (commonPrefix t d.prev)) r.1 r.2 with
          | error => rfl
          | ok r2 =>
            simp only
            cases setFinal r2.1 r2.2.1 <;> rfl

/-- C91: if no allocation fails the calls are those of the model without failures. -/
theorem c91_no_failure (sgn : Bool) (addr : Nat → Nat) (fuel : Nat) (terms : List Str) (h : Heap) :
    sortedDawgF sgn addr fuel {} terms h = (sortedDawg sgn addr fuel terms h).map fun r =>
      (r.1, match r.2 with | some d => FactoryEnd.dawg d | none => .null) := by
  have hloop : ∀ (terms : List Str) (k : Nat) (h : Heap) (d : SDawg), buildLoopF sgn addr fuel {} k terms h d =
      (buildLoop sgn addr fuel terms h d).map fun r => (r.1, match r.2 with | some d => FactoryEnd.dawg d | none => .null) := by
    intro terms
    induction terms with
    | nil => intro k h d; rfl
    | cons t rest ih =>
      intro k h d
      rw [buildLoopF, buildLoop]
      simp only [addTermF_none]
      cases addTerm sgn addr fuel t h d with
      | error => rfl
      | ok r =>
        obtain ⟨ok, h1, d1⟩ := r
        cases ok with
        | true => simpa [Except.map, bind, Except.bind, fateOf] using ih (k + 1) h1 d1
        | false =>
          simp only [Except.map, bind, Except.bind, fateOf, destroyDawgF, Bool.false_eq_true, if_false]
          cases destroyDawg fuel h1 d1 <;> rfl
  unfold sortedDawgF sortedDawg
  simp only [Bool.false_eq_true, if_false, hloop]
  cases buildLoop sgn addr fuel terms (newDawg addr h).1 (initDawg (newDawg addr h).2) with
  | error => rfl
  | ok r =>
    obtain ⟨h1, r⟩ := r
    cases r with
    | none => rfl
    | some d =>
      simp only [Except.map, bind, Except.bind, finishF, finishDawg, minimizeF_none]
      cases minimize sgn fuel 0 h1 d with
      | error => rfl
      | ok r =>
        simp only [cleanUpF, Bool.false_and, Bool.false_eq_true, if_false, bind, Except.bind]
        cases cleanUp fuel r.1 r.2 <;> rfl

/-! ### Going on after an exception -/

/-- C91: whatever allocations of `add` fail, as long as all calls are safe nothing is undefined, and the words are those of
`AddOuts`.  Deleting the dictionary then frees all nodes but the stray ones. -/
theorem c91_safe_calls (sgn : Bool) {addr : Nat → Nat} {h : Heap} (ha : Allocator addr h)
    (calls : List (Str × Option BFault)) (hs : SafeCalls {} calls) :
    ∃ fates s h' d', Ends (fun fuel => addCallsF sgn addr fuel calls (newDawg addr h).1 (initDawg (newDawg addr h).2)) (fates, h', d') ∧
      AddOuts {} calls fates s ∧ d'.size = s.size ∧
      ∃ h'', Ends (fun fuel => destroyDawg fuel h' d') h'' ∧ StrayNodes h.mem h''.mem s.stray := by
  have haddr : AddrOk addr := ⟨ha.nonnull, ha.inj⟩
  have hL : ∃ L, ∀ c ∈ calls, c.1.length ≤ L := by
    clear hs
    induction calls with
    | nil => exact ⟨0, by simp⟩
    | cons c calls ih =>
      obtain ⟨L, hL⟩ := ih
      refine ⟨max L c.1.length, fun c' hc' => ?_⟩
      rcases List.mem_cons.1 hc' with rfl | h'
      · omega
      · have := hL c' h'; omega
  obtain ⟨L, hL⟩ := hL
  obtain ⟨fates, s, h', d', hrun, ho, hw⟩ := addCallsF_spec haddr calls (newDawg_inWork (sgn := sgn) haddr L ha.null ha.fresh) hs hL
  obtain ⟨_, _, _, _, _, _, _, hw⟩ := hw
  obtain ⟨h'', hd, hstray⟩ := hw.site.destroy haddr ha.fresh
  rw [hw.stray] at hstray
  exact ⟨fates, s, h', d', hrun, ho, hw.size, h'', hd, hstray⟩

/-- C91: then `finish` may throw any number of times, and `clean_up`; once they return there is a dictionary that accepts
the words that are left, and deleting it frees all nodes but the stray ones. -/
theorem c91_dictionary (sgn : Bool) {addr : Nat → Nat} {h : Heap} (ha : Allocator addr h)
    (calls : List (Str × Option BFault)) (hs : SafeCalls {} calls) (hlen : ∀ c ∈ calls, c.1.length < 2 ^ 62)
    (faults : List BFault) (n : Nat) :
    ∃ fates s h1 d1 s' h2 d2 h3 d3,
      Ends (fun fuel => addCallsF sgn addr fuel calls (newDawg addr h).1 (initDawg (newDawg addr h).2)) (fates, h1, d1) ∧
      AddOuts {} calls fates s ∧
      Ends (fun fuel => finishCallsF sgn fuel faults h1 d1) (h2, d2) ∧ FinishOut s faults s' ∧
      Ends (fun fuel => cleanCallsF fuel n h2 d2) (h3, d3) ∧
      Dictionary sgn h3.mem d3.root ∧ h3.mem 0 = none ∧ (∀ t, Accepts h3.mem d3.root t ↔ t ∈ s'.words) ∧ d3.size = s'.size ∧
      ∃ h4, Ends (fun fuel => destroyDawg fuel h3 d3) h4 ∧ StrayNodes h.mem h4.mem s'.stray := by
  have haddr : AddrOk addr := ⟨ha.nonnull, ha.inj⟩
  obtain ⟨fates, s, h1, d1, hrun1, ho, hw⟩ := addCallsF_spec haddr calls
    (newDawg_inWork (sgn := sgn) haddr (2 ^ 62 - 1) ha.null ha.fresh) hs (fun c hc => by have := hlen c hc; omega)
  obtain ⟨s', h2, d2, hrun2, ho2, hw2, hp⟩ := finishCallsF_spec haddr faults hw.closing
  obtain ⟨reg, st, fl, lk, fs, rf, Z, hw2⟩ := hw2
  have hfs : fs = [] := by
    have := hw2.path
    rw [hp] at this
    simpa [path] using this
  subst hfs
  have hC := hw2.site.cleaned haddr ha.fresh
  have hlow : rf.kids.height ≤ 2 ^ 62 - 1 := hw2.low
  refine ⟨fates, s, h1, d1, s', h2, d2, _, _, hrun1, ho, hrun2, ho2, hw2.site.cleanCalls n rfl hw2.site.floating,
    ⟨_, by omega, hC.dict⟩, hC.null, fun t => ?_, hw2.size, ?_⟩
  · exact (hC.accepts t).trans (hw2.lang t)
  · obtain ⟨h4, hrun4, hst⟩ := hC.delete
    rw [hw2.stray] at hst
    exact ⟨h4, hrun4.congr fun fuel => rfl, hst⟩

/-- C91: if the words of the calls are in order (a word may come again), and no exception before the last call leaves a part
of a word behind, then all calls are safe. -/
theorem c91_early_is_safe (calls : List (Str × Option BFault)) (hsort : SortedTerms (calls.map (·.1)))
    (hearly : ∀ c ∈ calls.dropLast, ∀ b, c.2 = some b → Early b) : SafeCalls {} calls := by
  have key : ∀ (calls : List (Str × Option BFault)) (s : Progress), SortedTerms (calls.map (·.1)) →
      (∀ c ∈ calls.dropLast, ∀ b, c.2 = some b → Early b) → (∀ c ∈ calls, ¬ strLess c.1 s.last) → s.path <+: s.prev →
      SafeCalls s calls := by
    intro calls
    induction calls with
    | nil => intro _ _ _ _ _; trivial
    | cons c calls ih =>
      obtain ⟨t, f⟩ := c
      intro s hsort hearly hlast hpre
      have hsort' := List.pairwise_cons.1 hsort
      refine ⟨.inr ⟨hlast (t, f) (by simp), ?_⟩, fun fate s' ho => ?_⟩
      · obtain ⟨u, hu⟩ := hpre
        have h1 := commonLen_le_left t s.path
        have h2 := commonLen_le_right t s.path
        have hlen : s.prev.length = s.path.length + u.length := by rw [← hu]; simp
        refine commonLen_ge h1 (by omega) ?_
        rw [commonLen_take, ← hu, List.take_append_of_le_length h2]
      · by_cases hnil : calls = []
        · subst hnil; trivial
        have hdrop : ((t, f) :: calls).dropLast = (t, f) :: calls.dropLast := List.dropLast_cons_of_ne_nil hnil
        rw [hdrop] at hearly
        have hE := hearly (t, f) (by simp)
        simp only at hE
        have hnext : ∀ c ∈ calls, ¬ strLess c.1 t := fun c hc => hsort'.1 c.1 (List.mem_map_of_mem hc)
        have hrest : ∀ c ∈ calls.dropLast, ∀ b, c.2 = some b → Early b := fun c hc => hearly c (by simp [hc])
        have hgo : ∀ s'' : Progress, s''.last = t → s''.path <+: s''.prev → SafeCalls s'' calls := fun s'' h1 h2 =>
          ih s'' hsort'.2 hrest (by rw [h1]; exact hnext) h2
        have hlast' : ∀ c ∈ calls, ¬ strLess c.1 s.last := fun c hc => hlast c (by simp [hc])
        have hcommon : t.take (commonLen t s.prev) <+: s.prev := by rw [commonLen_take]; exact List.take_prefix _ _
        cases ho with
        | refused => exact ih s hsort'.2 hrest hlast' hpre
        | stuck _ hst =>
          refine hgo _ rfl ?_
          cases hst with
          | lost => exact (List.take_prefix _ _).trans hpre
          | unregistered => exact (List.take_prefix _ _).trans hpre
        | node _ _ => have := hE _ rfl; simp only [Early] at this; subst this; exact hgo _ rfl (by simpa using hcommon)
        | float _ _ => have := hE _ rfl; simp only [Early] at this; subst this; exact hgo _ rfl (by simpa using hcommon)
        | emplace _ _ => have := hE _ rfl; simp only [Early] at this; subst this; exact hgo _ rfl (by simpa using hcommon)
        | prev => exact absurd (hE _ rfl) (by simp [Early])
        | added => exact hgo _ rfl (List.prefix_refl _)
  exact key calls {} hsort hearly (fun c _ => ge_nil _) (List.prefix_refl _)

/-- "ab" fails at its first letter and is added the next time; "ac" fails because an edge cannot be made, and is added the
next time. -/
def exEarly : List (Str × Option BFault) :=
  [([97], none), ([97, 98], some (.float 0)), ([97, 98], none), ([97, 99], some (.edge 0)), ([97, 99], none)]

theorem exEarly_safe : SafeCalls {} exEarly := by
  refine c91_early_is_safe _ ?_ ?_
  · unfold SortedTerms; decide
  · intro c hc b hb
    simp only [exEarly, List.dropLast, List.mem_cons, List.not_mem_nil, or_false] at hc
    rcases hc with rfl | rfl | rfl | rfl <;> simp_all [Early] <;> subst hb <;> simp

/-! ### Which words -/

/-- The place is a lookup of a node or the insertion of an edge. -/
def Loses : BFault → Prop
  | .find _ => True
  | .edge _ => True
  | _ => False

/-- C91: `size` counts the calls that returned true.  A word of the dictionary was given in such a call, or in one whose very
last step threw.  No word of a call that returned true is missing, unless a lookup or an edge failed. -/
theorem c91_words {calls : List (Str × Option BFault)} {fates : List Fate} {s : Progress} (ho : AddOuts {} calls fates s) :
    fates.length = calls.length ∧ s.size = fates.count .added ∧
    (∀ w ∈ s.words, ∃ c ∈ calls.zip fates, c.1.1 = w ∧ (c.2 = .added ∨ c.2 = .threw ∧ c.1.2 = some .prev)) ∧
    ((∀ c ∈ calls, ∀ b, c.2 = some b → ¬ Loses b) → ∀ c ∈ calls.zip fates, c.2 = .added → c.1.1 ∈ s.words) ∧
    s.stray ≤ (calls.filter fun c => match c.2 with | some (.float _) => true | _ => false).length := by
  have key : ∀ (s : Progress) calls fates s', AddOuts s calls fates s' →
      fates.length = calls.length ∧ s'.size = s.size + fates.count .added ∧
      (∀ w ∈ s'.words, w ∈ s.words ∨ ∃ c ∈ calls.zip fates, c.1.1 = w ∧ (c.2 = .added ∨ c.2 = .threw ∧ c.1.2 = some .prev)) ∧
      ((∀ c ∈ calls, ∀ b, c.2 = some b → ¬ Loses b) → (∀ w ∈ s.words, w ∈ s'.words) ∧
        ∀ c ∈ calls.zip fates, c.2 = .added → c.1.1 ∈ s'.words) ∧
      s'.stray ≤ s.stray + (calls.filter fun c => match c.2 with | some (.float _) => true | _ => false).length := by
    intro s calls fates s' ho
    induction ho with
    | nil => exact ⟨rfl, by simp, fun w hw => .inl hw, fun _ => ⟨fun _ h => h, by simp⟩, by simp⟩
    | @cons s s1 s2 t f fate calls fates hadd _ ih =>
      obtain ⟨i1, i2, i3, i4, i5⟩ := ih
      have step : s1.size = s.size + (if fate = .added then 1 else 0) ∧
          (∀ w ∈ s1.words, w ∈ s.words ∨ w = t ∧ (fate = .added ∨ fate = .threw ∧ f = some .prev)) ∧
          ((∀ b, f = some b → ¬ Loses b) → (∀ w ∈ s.words, w ∈ s1.words)) ∧ (fate = .added → t ∈ s1.words) ∧
          s1.stray ≤ s.stray + (match f with | some (.float _) => 1 | _ => 0) := by
        cases hadd with
        | refused => exact ⟨by simp, fun w hw => .inl hw, fun _ _ h => h, by simp, by omega⟩
        | stuck _ hst =>
          cases hst with
          | lost hb _ =>
            refine ⟨by simp, fun w hw => .inl (List.mem_filter.1 hw).1, fun hl => ?_, by simp, by simp⟩
            exfalso
            rcases hb with rfl | rfl
            · exact hl _ rfl trivial
            · exact hl _ rfl trivial
          | unregistered => exact ⟨by simp, fun w hw => .inl hw, fun _ _ h => h, by simp, by simp⟩
        | node => exact ⟨by simp, fun w hw => .inl hw, fun _ _ h => h, by simp, by simp⟩
        | float => exact ⟨by simp, fun w hw => .inl hw, fun _ _ h => h, by simp, by simp⟩
        | emplace => exact ⟨by simp, fun w hw => .inl hw, fun _ _ h => h, by simp, by simp⟩
        | prev =>
          refine ⟨by simp, fun w hw => ?_, fun _ w h => List.mem_append_left _ h, by simp, by simp⟩
          rcases List.mem_append.1 hw with h | h
          · exact .inl h
          · exact .inr ⟨by simpa using h, .inr ⟨rfl, rfl⟩⟩
        | added =>
          refine ⟨by simp, fun w hw => ?_, fun _ w h => List.mem_append_left _ h, by simp, by simp only; omega⟩
          rcases List.mem_append.1 hw with h | h
          · exact .inl h
          · exact .inr ⟨by simpa using h, .inl rfl⟩
      obtain ⟨j1, j2, j3, j4, j5⟩ := step
      refine ⟨by simp [i1], ?_, ?_, ?_, ?_⟩
      · rw [i2, j1, List.count_cons]
        by_cases hf : fate = .added
        · simp [hf]; omega
        · simp [hf]
      · intro w hw
        rcases i3 w hw with h | ⟨c, hc, h⟩
        · rcases j2 w h with h | ⟨rfl, h⟩
          · exact .inl h
          · exact .inr ⟨((w, f), fate), by simp, rfl, h⟩
        · exact .inr ⟨c, by simp [hc], h⟩
      · intro hl
        have hl' : ∀ c ∈ calls, ∀ b, c.2 = some b → ¬ Loses b := fun c hc => hl c (by simp [hc])
        obtain ⟨k1, k2⟩ := i4 hl'
        refine ⟨fun w hw => k1 w (j3 (hl (t, f) (by simp)) w hw), fun c hc h => ?_⟩
        rw [List.zip_cons_cons, List.mem_cons] at hc
        rcases hc with rfl | hc
        · exact k1 _ (j4 h)
        · exact k2 c hc h
      · rw [List.filter_cons]
        cases f with
        | none => simp only at j5 ⊢; simp only [Bool.false_eq_true, if_false]; omega
        | some b => cases b <;> simp only at j5 ⊢ <;> simp <;> omega
  obtain ⟨k1, k2, k3, k4, k5⟩ := key _ _ _ _ ho
  refine ⟨k1, by simpa using k2, fun w hw => ?_, fun hl => (k4 hl).2, by simpa using k5⟩
  rcases k3 w hw with h | h
  · simp at h
  · exact h

/-- C91: how the calls ended and where they failed determines the words, `size` and the number of stray nodes. -/
theorem c91_exact {s s1 s2 : Progress} {calls : List (Str × Option BFault)} {fates : List Fate} (h1 : AddOuts s calls fates s1)
    (h2 : AddOuts s calls fates s2) : s1 = s2 := by
  induction h1 with
  | nil => cases h2; rfl
  | cons a1 _ ih =>
    cases h2 with
    | cons b1 b2 =>
      refine ih ?_
      have : ∀ {s s1 s2 : Progress} {t : Str} {f : Option BFault} {fate : Fate}, AddOut s t f fate s1 → AddOut s t f fate s2 →
          s1 = s2 := by
        intro s s1 s2 t f fate a1 b1
        cases a1 with
        | refused => cases b1; rfl
        | stuck _ hst =>
          cases hst with
          | lost hf _ =>
            rcases hf with rfl | rfl <;> cases b1 with
            | stuck _ hst' => cases hst' with
              | lost hf' _ => rcases hf' with h | h <;> cases h <;> rfl
          | unregistered =>
            cases b1 with
            | stuck _ hst' => cases hst' with
              | lost hf' _ => rcases hf' with h | h <;> cases h
              | unregistered => rfl
        | node => cases b1 with
          | stuck _ hst' => cases hst' with
            | lost hf' _ => rcases hf' with h | h <;> cases h
          | node => rfl
        | float => cases b1 with
          | stuck _ hst' => cases hst' with
            | lost hf' _ => rcases hf' with h | h <;> cases h
          | float => rfl
        | emplace => cases b1 with
          | stuck _ hst' => cases hst' with
            | lost hf' _ => rcases hf' with h | h <;> cases h
          | emplace => rfl
        | prev => cases b1 with
          | stuck _ hst' => cases hst' with
            | lost hf' _ => rcases hf' with h | h <;> cases h
          | prev => rfl
        | added => cases b1; rfl
      rw [this a1 b1]
      exact b2

/-! ### Trying the word again -/

/-- C91: after safe calls, a word that is not smaller than the last one that was added, and that has more letters in common
with what exceptions left behind, is accepted.  But `finish` and `clean_up` are undefined then: they would read freed nodes
or free them again.  Only deleting the dictionary instead is defined. -/
theorem c91_clash (sgn : Bool) {addr : Nat → Nat} {h : Heap} (ha : Allocator addr h)
    (calls : List (Str × Option BFault)) (hs : SafeCalls {} calls) :
    ∃ fates s h' d', Ends (fun fuel => addCallsF sgn addr fuel calls (newDawg addr h).1 (initDawg (newDawg addr h).2)) (fates, h', d') ∧
      AddOuts {} calls fates s ∧
      ∀ t, ¬ strLess t s.prev → commonLen t s.prev < commonLen t s.path →
        ∃ h2 d2, Ends (fun fuel => addTermF sgn addr fuel none t h' d') (.added, h2, d2) ∧
          (∃ N, ∀ fuel, N ≤ fuel → (do
            let (h, d, _) ← finishF sgn fuel none h2 d2
            cleanUp fuel h d) = .error .ub) ∧
          ∃ h3, Ends (fun fuel => destroyDawg fuel h2 d2) h3 ∧ StrayNodes h.mem h3.mem s.stray := by
  have haddr : AddrOk addr := ⟨ha.nonnull, ha.inj⟩
  have hL : ∃ L, ∀ c ∈ calls, c.1.length ≤ L := by
    clear hs
    induction calls with
    | nil => exact ⟨0, by simp⟩
    | cons c calls ih =>
      obtain ⟨L, hL⟩ := ih
      refine ⟨max L c.1.length, fun c' hc' => ?_⟩
      rcases List.mem_cons.1 hc' with rfl | h'
      · omega
      · have := hL c' h'; omega
  obtain ⟨L, hL⟩ := hL
  obtain ⟨fates, s, h', d', hrun, ho, hw⟩ := addCallsF_spec haddr calls (newDawg_inWork (sgn := sgn) haddr L ha.null ha.fresh) hs hL
  obtain ⟨_, _, _, _, _, _, _, hw⟩ := hw
  refine ⟨fates, s, h', d', hrun, ho, fun t ht hc => ?_⟩
  obtain ⟨h2, d2, _, _, _, lk2, _, _, _, hadd, hsite, hcl, hlk⟩ := hw.retry haddr t ht hc
  obtain ⟨h3, hdel, hst⟩ := hsite.destroy haddr ha.fresh
  rw [hlk, hw.stray] at hst
  exact ⟨h2, d2, hadd, hsite.clash haddr hcl, h3, hdel, hst⟩

/-- An exception at this place leaves a part of the word behind, if `n` letters are new. -/
def Late (n : Nat) : BFault → Prop
  | .node j => 0 < j ∧ j < n
  | .float j => 0 < j ∧ j < n
  | .emplace j => 0 < j ∧ j < n
  | .prev => 0 < n
  | _ => False

/-- What becomes of words that are added without a failure. -/
theorem addOuts_none {s : Progress} {terms : List Str} {fates : List Fate} {s' : Progress}
    (ho : AddOuts s (terms.map fun t => (t, none)) fates s') (hsort : SortedTerms (s.prev :: terms)) :
    fates = List.replicate terms.length .added ∧ s'.prev = terms.getLastD s.prev := by
  induction terms generalizing s fates with
  | nil => cases ho; exact ⟨rfl, rfl⟩
  | cons t rest ih =>
    have hsort' := List.pairwise_cons.1 hsort
    cases ho with
    | cons h1 h2 =>
      cases h1 with
      | refused hlt => exact absurd hlt (hsort'.1 t (by simp))
      | added _ _ =>
        obtain ⟨e1, e2⟩ := ih h2 hsort'.2
        refine ⟨by rw [e1]; rfl, e2.trans ?_⟩
        cases rest <;> rfl

theorem addOuts_append {s : Progress} {a b : List (Str × Option BFault)} {fates : List Fate} {s' : Progress}
    (ho : AddOuts s (a ++ b) fates s') : ∃ f1 f2 s1, fates = f1 ++ f2 ∧ AddOuts s a f1 s1 ∧ AddOuts s1 b f2 s' := by
  induction a generalizing s fates with
  | nil => exact ⟨[], fates, s, rfl, .nil, ho⟩
  | cons c a ih =>
    cases ho with
    | cons h1 h2 =>
      obtain ⟨f1, f2, s1, rfl, h3, h4⟩ := ih h2
      exact ⟨_ :: f1, f2, s1, rfl, .cons h1 h3, h4⟩

/-- C91: some words are added in order.  Then an allocation fails for the next word, after the first of its new letters: the
exception is caught and the same word is added again.  That succeeds, but `finish` and `clean_up` are undefined. -/
theorem c91_retry (sgn : Bool) {addr : Nat → Nat} {h : Heap} (ha : Allocator addr h) (terms : List Str) (t : Str)
    (hsort : SortedTerms (terms ++ [t])) (b : BFault) (hb : Late (t.length - commonLen t (terms.getLastD [])) b) :
    ∃ h' d', Ends (fun fuel => addCallsF sgn addr fuel (terms.map (fun t => (t, none)) ++ [(t, some b), (t, none)])
        (newDawg addr h).1 (initDawg (newDawg addr h).2)) (List.replicate terms.length .added ++ [.threw, .added], h', d') ∧
      ∃ N, ∀ fuel, N ≤ fuel → (do
        let (h, d, _) ← finishF sgn fuel none h' d'
        cleanUp fuel h d) = .error .ub := by
  have hmap : (terms.map (fun t => ((t, none) : Str × Option BFault)) ++ [(t, some b)]).map (·.1) = terms ++ [t] := by
    simp [List.map_map, Function.comp_def]
  have hsafe : SafeCalls {} (terms.map (fun t => (t, none)) ++ [(t, some b)]) := by
    refine c91_early_is_safe _ (by rw [hmap]; exact hsort) fun c hc b hb => ?_
    rw [List.dropLast_concat] at hc
    obtain ⟨t, _, rfl⟩ := List.mem_map.1 hc
    cases hb
  obtain ⟨fates, s, h', d', ⟨N, hrun⟩, ho, hcl⟩ := c91_clash sgn ha _ hsafe
  obtain ⟨f1, f2, s1, rfl, ho1, ho2⟩ := addOuts_append ho
  have hsort1 : SortedTerms terms := (List.pairwise_append.1 hsort).1
  obtain ⟨rfl, hprev⟩ := addOuts_none ho1 (List.pairwise_cons.2 ⟨fun t _ => ge_nil t, hsort1⟩)
  have hge : ¬ strLess t s1.prev := by
    rw [hprev]
    cases hl : terms.getLast? with
    | none =>
      rw [List.getLast?_eq_none_iff] at hl
      subst hl
      exact ge_nil t
    | some l =>
      rw [List.getLastD_eq_getLast?, hl]
      exact (List.pairwise_append.1 hsort).2.2 l (List.mem_of_getLast? hl) t (by simp)
  have hi : commonLen t (terms.getLastD []) = commonLen t s1.prev := by rw [hprev]
  rw [hi] at hb
  have hle := commonLen_le_left t s1.prev
  have hself : ∀ j, 0 < j → j ≤ t.length - commonLen t s1.prev → commonLen t s1.prev < commonLen t (t.take (commonLen t s1.prev + j)) := by
    intro j h1 h2
    have : commonLen t s1.prev + j ≤ commonLen t (t.take (commonLen t s1.prev + j)) := by
      refine commonLen_ge (by omega) (by rw [List.length_take]; omega) ?_
      rw [List.take_take, Nat.min_self]
    omega
  have hout : f2 = [.threw] ∧ s.prev = s1.prev ∧ commonLen t s1.prev < commonLen t s.path := by
    cases ho2 with
    | cons h1 h2 =>
      cases h2
      cases h1 with
      | refused hlt => exact absurd hlt hge
      | stuck _ hst =>
        cases hst with
        | lost hf _ => rcases hf with rfl | rfl <;> exact hb.elim
        | unregistered => exact hb.elim
      | node _ h4 => exact ⟨rfl, rfl, hself _ hb.1 (by have := hb.2; omega)⟩
      | float _ h4 => exact ⟨rfl, rfl, hself _ hb.1 (by have := hb.2; omega)⟩
      | emplace _ h4 => exact ⟨rfl, rfl, hself _ hb.1 (by have := hb.2; omega)⟩
      | prev _ =>
        refine ⟨rfl, rfl, ?_⟩
        have hb' : 0 < t.length - commonLen t s1.prev := hb
        have := hself _ hb' (Nat.le_refl _)
        rwa [List.take_of_length_le (by omega)] at this
      | added _ h4 =>
        obtain ⟨_, h5, h6⟩ := h4 b rfl
        exfalso
        cases b <;> simp only [Late, Beyond] at hb h5 <;> first | omega | exact h6 rfl
  obtain ⟨rfl, hp, hc⟩ := hout
  obtain ⟨h2, d2, ⟨N2, hadd⟩, hub, _⟩ := hcl t (by rw [hp]; exact hge) (by rw [hp]; exact hc)
  refine ⟨h2, d2, ⟨max N N2, fun fuel hf => ?_⟩, hub⟩
  have happ : ∀ (a b : List (Str × Option BFault)) (h : Heap) (d : SDawg), addCallsF sgn addr fuel (a ++ b) h d = (do
      let (f1, h, d) ← addCallsF sgn addr fuel a h d
      let (f2, h, d) ← addCallsF sgn addr fuel b h d
      return (f1 ++ f2, h, d)) := by
    intro a b
    induction a with
    | nil => intro h d; simp [addCallsF, bind, Except.bind, pure, Except.pure]; cases addCallsF sgn addr fuel b h d <;> rfl
    | cons c a ih =>
      intro h d
      obtain ⟨t, f⟩ := c
      rw [List.cons_append, addCallsF, addCallsF]
      cases addTermF sgn addr fuel f t h d with
      | error => rfl
      | ok r =>
        simp only [bind, Except.bind, ih]
        cases addCallsF sgn addr fuel a r.2.1 r.2.2 with
        | error => rfl
        | ok r2 =>
          simp only [pure, Except.pure]
          cases addCallsF sgn addr fuel b r2.2.1 r2.2.2 <;> rfl
  have e : terms.map (fun t => ((t, none) : Str × Option BFault)) ++ [(t, some b), (t, none)] =
      (terms.map (fun t => (t, none)) ++ [(t, some b)]) ++ [(t, none)] := by simp
  have h1 := hrun fuel (by omega)
  have h2' := hadd fuel (by omega)
  simp only at h1 h2'
  simp only [e]
  rw [happ, h1]
  simp [addCallsF, h2', bind, Except.bind, pure, Except.pure]

/-- "a" is added, then "abc" fails at its last letter and is tried again. -/
example : SortedTerms ([[97]] ++ [[97, 98, 99]]) ∧ Late (([97, 98, 99] : Str).length - commonLen [97, 98, 99] (([[97]] : List Str).getLastD [])) (.node 1) := by
  constructor
  · unfold SortedTerms; decide
  · simp [Late, commonLen]

/-! ### The factory -/

/-- How `sorted_dawg` ends. -/
inductive FactoryOut (sgn : Bool) (addr : Nat → Nat) (h : Heap) (f : FactoryFault) (terms : List Str) : Heap → FactoryEnd → Prop
  /-- All is well: the words were in order, and deleting the dictionary frees everything. -/
  | dawg {h' : Heap} {d : SDawg} : SortedTerms terms → Dictionary sgn h'.mem d.root → (∀ t, Accepts h'.mem d.root t ↔ t ∈ terms) →
      d.size = terms.length → (∃ h2, Ends (fun fuel => destroyDawg fuel h' d) h2 ∧ ∀ a, h2.mem a = h.mem a) →
      FactoryOut sgn addr h f terms h' (.dawg d)
  /-- The words were not in order, and everything is freed. -/
  | null {h' : Heap} : ¬ SortedTerms terms → (∀ a, h'.mem a = h.mem a) → FactoryOut sgn addr h f terms h' .null
  /-- An exception: every node that was allocated is lost, and that is none only if the object itself cannot be allocated. -/
  | threw {h' : Heap} : NothingFreed addr h.count h.mem h' → h.count ≤ h'.count → (h'.count = h.count ↔ f.object = true) →
      FactoryOut sgn addr h f terms h' .threw
  /-- The words were not in order, and the destructor threw. -/
  | terminated {h' : Heap} : ¬ SortedTerms terms → f.destroy = true → FactoryOut sgn addr h f terms h' .terminated

/-- C91: whatever allocation fails, `sorted_dawg` is defined, and it is all or nothing: a dictionary of all words, a null
pointer, an exception that loses all nodes made so far, or the end of the program. -/
theorem c91_factory (sgn : Bool) {addr : Nat → Nat} {h : Heap} (ha : Allocator addr h) (f : FactoryFault) (terms : List Str)
    (hlen : ∀ t ∈ terms, t.length < 2 ^ 62) :
    ∃ h' r, Ends (fun fuel => sortedDawgF sgn addr fuel f terms h) (h', r) ∧ FactoryOut sgn addr h f terms h' r := by
  have haddr : AddrOk addr := ⟨ha.nonnull, ha.inj⟩
  obtain ⟨h', r, hrun, ho⟩ := sortedDawgF_spec (sgn := sgn) (L := 2 ^ 62 - 1) haddr ha.null ha.fresh f terms
    (fun t ht => by have := hlen t ht; omega)
  refine ⟨h', r, hrun, ?_⟩
  cases ho with
  | dawg hC hlow hacc hsize hfl hasc =>
    refine .dawg ((asc_nil_iff _).1 hasc) ⟨_, by omega, hC.dict⟩ (fun t => (hC.accepts t).trans (hacc t)) hsize ?_
    obtain ⟨h2, hrun2, hst⟩ := hC.delete
    refine ⟨h2, ?_, fun a => ?_⟩
    · refine hrun2.congr fun fuel => ?_
      simp [destroyDawg, cleanUp, hfl, bind, Except.bind]
    · obtain ⟨l, _, hl, _, hall⟩ := hst
      rw [List.length_eq_zero_iff] at hl
      subst hl
      exact hall a (by simp)
  | null h1 h2 => exact .null (fun hh => h2 ((asc_nil_iff _).2 hh)) h1
  | threw h1 h2 h3 => exact .threw h1 h3 h2
  | terminated h1 h2 => exact .terminated (fun hh => h2 ((asc_nil_iff _).2 hh)) h1

/-! ### Cases -/

/-- Some calls of `add`, a call of `finish`, one of `clean_up`; the fates, `size`, whether the root accepts each of the words
`ws`, and how many of the first 20 nodes are left after deleting the dictionary. -/
def exBuild (calls : List (Str × Option BFault)) (ws : List Str) : Except Err (List Fate × Nat × List Bool × Nat) := do
  let (fates, h, d) ← addCallsF true (fun n => n + 1) 20 calls (newDawg (fun n => n + 1) exHeap).1
    (initDawg (newDawg (fun n => n + 1) exHeap).2)
  let (h, d, _) ← finishF true 20 none h d
  let (h, d) ← cleanUp 20 h d
  let oks ← ws.mapM fun w => containsTerm h.mem d.root w
  let h' ← destroyDawg 20 h d
  return (fates, d.size, oks, ((List.range 20).filter fun a => (h'.mem (a + 1)).isSome).length)

/-- "ab" fails at its second letter and is added again: undefined. -/
theorem c91_case_retry : exBuild [([97, 98], some (.node 1)), ([97, 98], none)] [] = .error .ub := by decide +kernel

/-- "abc" is added, "b" fails; then "abd" is accepted, since it is not smaller than "abc", but "d" is stored. -/
theorem c91_case_other_word : exBuild [([97, 98, 99], none), ([98], some (.node 0)), ([97, 98, 100], none)]
    [[97, 98, 99], [97, 98, 100], [100]] = .ok ([.added, .threw, .added], 2, [true, false, true], 0) := by decide +kernel

/-- "ab" is added; "b" fails because of an edge, and is added the next time.  Both were added, but "ab" is lost. -/
theorem c91_case_lost : exBuild [([97, 98], none), ([98], some (.edge 0)), ([98], none)] [[97, 98], [98]] =
    .ok ([.added, .threw, .added], 2, [false, true], 0) := by decide +kernel

/-- The call for "ab" throws at the end: the word is there, but not counted. -/
theorem c91_case_uncounted : exBuild [([97, 98], some .prev), ([98], none)] [[97, 98], [98]] =
    .ok ([.threw, .added], 1, [true, true], 0) := by decide +kernel

/-- A node that cannot be remembered is never freed. -/
theorem c91_case_stray : exBuild [([97, 98], some (.float 0)), ([97, 98], none)] [[97, 98]] =
    .ok ([.threw, .added], 1, [true], 1) := by decide +kernel

/-- The factory throws in the third call of `add`: five nodes are lost. -/
theorem c91_case_factory :
    (sortedDawgF true (fun n => n + 1) 20 { add := fun k => if k = 2 then some (.node 1) else none }
      [[97], [98, 99], [99, 100]] exHeap).map (fun r => (match r.2 with | .threw => true | _ => false,
        ((List.range 20).filter fun a => (r.1.mem (a + 1)).isSome).length)) = .ok (true, 5) := by decide +kernel

end Lev.Props
