import Verif.Proofs.TestDawg
import Verif.Props.Distance
import Verif.Props.Iter
import Verif.Props.Wire
import Verif.Proofs.Demo

/-!
The tests of distances, dictionaries, transducers and of the serializer.
-/

namespace Lev

open Spec Props

/-! ### Distances -/

theorem callD_spec {A : Algorithm} {m : Memo} (hm : m.Good (GoodEntry A)) (x y : Str) :
    ∃ d m', callD A x y m = (d, m') ∧ IsMinCost A x y d ∧ m'.Good (GoodEntry A) :=
  have h := (between_correct A x y).run hm
  ⟨_, _, rfl, h.1, h.2⟩

theorem memoAfter_good (A : Algorithm) (history : List (Str × Str)) : (memoAfter A history).Good (GoodEntry A) :=
  ((callSeq_correct A history).run (m := []) (fun _ h => by cases h)).2

/-- The test passes and leaves a memo in which every entry is right. -/
def PassesD (A : Algorithm) (r : Except Stop Memo) : Prop := ∃ m, r = .ok m ∧ m.Good (GoodEntry A)

section
variable {A : Algorithm} {m : Memo}

theorem testNonNegativity_ok (hm : m.Good (GoodEntry A)) (x y : Str) : PassesD A (testNonNegativity A x y m) := by
  obtain ⟨d, m', e, _, hm'⟩ := callD_spec hm x y
  exact ⟨m', by simp [testNonNegativity, e, bind, Except.bind], hm'⟩

theorem testIdentity_ok (hm : m.Good (GoodEntry A)) (x y : Str) : PassesD A (testIdentity A x y m) := by
  obtain ⟨d, m', e, hd, hm'⟩ := callD_spec hm x y
  refine ⟨m', ?_, hm'⟩
  by_cases h0 : d = 0
  · subst h0
    have := hd.1.eq_of_zero
    subst this
    simp [testIdentity, e, bind, Except.bind]
  · simp [testIdentity, e, h0]

theorem testSymmetry_ok (hm : m.Good (GoodEntry A)) (first : Bool) (x y : Str) : PassesD A (testSymmetry A first x y m) := by
  cases first
  · obtain ⟨d, m1, e1, h1, g1⟩ := callD_spec hm y x
    obtain ⟨d', m2, e2, h2, g2⟩ := callD_spec g1 x y
    have := h2.unique h1.symm
    subst this
    exact ⟨m2, by simp [testSymmetry, e1, e2, bind, Except.bind], g2⟩
  · obtain ⟨d, m1, e1, h1, g1⟩ := callD_spec hm x y
    obtain ⟨d', m2, e2, h2, g2⟩ := callD_spec g1 y x
    have := h2.unique h1.symm
    subst this
    exact ⟨m2, by simp [testSymmetry, e1, e2, bind, Except.bind], g2⟩

/-- The test of the triangle inequality, for a variant and strings for which it holds. -/
theorem testTriangle_iff (hm : m.Good (GoodEntry A)) (x y z : Str) :
    ∃ d d1 d2 m', IsMinCost A x y d ∧ IsMinCost A x z d1 ∧ IsMinCost A z y d2 ∧ m'.Good (GoodEntry A) ∧
      testTriangle A x y z m = if d ≤ d1 + d2 then .ok m' else .error .failed := by
  obtain ⟨d, m1, e1, h1, g1⟩ := callD_spec hm x y
  obtain ⟨d1, m2, e2, h2, g2⟩ := callD_spec g1 x z
  obtain ⟨d2, m3, e3, h3, g3⟩ := callD_spec g2 z y
  refine ⟨d, d1, d2, m3, h1, h2, h3, g3, ?_⟩
  by_cases h : d ≤ d1 + d2 <;> simp [testTriangle, e1, e2, e3, h, rcAssert, bind, Except.bind]

theorem testTriangle_ok (hA : A ≠ .transposition) (hm : m.Good (GoodEntry A)) (x y z : Str) :
    PassesD A (testTriangle A x y z m) := by
  obtain ⟨d, d1, d2, m', h1, h2, h3, g, e⟩ := testTriangle_iff hm x y z
  have h := h1.le_iff.1 (AlignLe.reach hA h2.1.le h3.1.reach)
  exact ⟨m', by rw [e, if_pos h], g⟩

theorem testInvariance_ok (hm : m.Good (GoodEntry A)) (x y z : Str) : PassesD A (testInvariance A x y z m) := by
  obtain ⟨d, m1, e1, h1, g1⟩ := callD_spec hm (z ++ x) (z ++ y)
  obtain ⟨d', m2, e2, h2, g2⟩ := callD_spec g1 x y
  obtain ⟨d1, m3, e3, h3, g3⟩ := callD_spec g2 (x ++ z) (y ++ z)
  obtain ⟨d2, m4, e4, h4, g4⟩ := callD_spec g3 x y
  have a : d = d' := Nat.le_antisymm (h1.le_iff.1 (h2.1.le.keep_prefix z)) (h2.le_iff.1 (h1.1.le.discard_prefix z))
  have b : d1 = d2 := Nat.le_antisymm (h3.le_iff.1 (h4.1.le.keep_suffix z)) (h4.le_iff.1 (h3.1.le.discard_suffix z))
  subst a b
  exact ⟨m4, by simp [testInvariance, e1, e2, e3, e4, bind, Except.bind], g4⟩

theorem runCases_ok {cases : List DCase} (hc : A = .transposition → ∀ c ∈ cases, ∀ x y z, c ≠ .triangle x y z)
    (hm : m.Good (GoodEntry A)) : PassesD A (runCases A cases m) := by
  induction cases generalizing m with
  | nil => exact ⟨m, rfl, hm⟩
  | cons c rest ih =>
    have h1 : PassesD A (c.run A m) := by
      cases c with
      | nonNegativity x y => exact testNonNegativity_ok hm x y
      | identity x y => exact testIdentity_ok hm x y
      | symmetry f x y => exact testSymmetry_ok hm f x y
      | triangle x y z =>
        exact testTriangle_ok (fun hA => hc hA _ (by simp) x y z rfl) hm x y z
      | invariance x y z => exact testInvariance_ok hm x y z
    obtain ⟨m1, e1, g1⟩ := h1
    obtain ⟨m2, e2, g2⟩ := ih (fun hA c hcm => hc hA c (by simp [hcm])) g1
    exact ⟨m2, by simp only [runCases, e1, e2, bind, Except.bind], g2⟩

end

theorem symPair_comm (u v : Str) : SymPair.make u v = SymPair.make v u := by
  have h := (c14_unordered_pair u v v u).2 (.inr ⟨rfl, rfl⟩)
  simp only [SymPair.eq, Bool.and_eq_true, beq_iff_eq] at h
  cases hp : SymPair.make u v; cases hq : SymPair.make v u
  simp_all

theorem rcAssert_bind {α : Type} {b : Bool} (h : b = true) (k : Unit → Except Stop α) : (rcAssert b >>= k) = k () := by
  rw [h]; rfl

attribute [local irreducible] SymPair.hash in
theorem symmetricPairChecks_eq (hashes differ : Bool) (p q : SymPair) (hpq : differ = true → p.eq q = false ∧ q.eq p = false) :
    symmetricPairChecks hashes differ p p q =
      if hashes = true ∧ differ = true ∧ p.hash = q.hash then .error .failed else .ok () := by
  have hself : ∀ p : SymPair, p.eq p = true := fun p => by simp [SymPair.eq]
  unfold symmetricPairChecks
  generalize p.hash = a
  generalize q.hash = b
  rw [rcAssert_bind (hself p), rcAssert_bind (hself p), rcAssert_bind (hself q), rcAssert_bind (hself p),
    rcAssert_bind (hself p), rcAssert_bind (by simp), rcAssert_bind (by simp), rcAssert_bind (by simp),
    rcAssert_bind (by simp)]
  cases differ
  · simp
  · obtain ⟨h1, h2⟩ := hpq rfl
    rw [if_pos rfl, rcAssert_bind (by simp [h1]), rcAssert_bind (by simp [h2]), rcAssert_bind (by simp [h1]),
      rcAssert_bind (by simp [h2])]
    cases hashes
    · simp
    · rw [if_pos rfl]
      by_cases hab : a = b
      · rw [if_pos ⟨rfl, rfl, hab⟩, show (a != b) = false by simp [hab]]; rfl
      · rw [if_neg (fun h => hab h.2.2), show (a != b) = true by simp [hab]]; rfl

attribute [local irreducible] SymPair.hash in
/-- What the test of `SymmetricPair` does. -/
theorem testSymmetricPair_eq (hashes : Bool) (foo bar baz : Str) :
    testSymmetricPair hashes foo bar baz =
      if hashes = true ∧ bar ≠ baz ∧ (SymPair.make foo bar).hash = (SymPair.make foo baz).hash then .error .failed
      else .ok () := by
  have hne : decide (bar ≠ baz) = true → (SymPair.make foo bar).eq (SymPair.make foo baz) = false ∧
      (SymPair.make foo baz).eq (SymPair.make foo bar) = false := by
    intro hb
    have hb : bar ≠ baz := of_decide_eq_true hb
    constructor
    · rw [← Bool.not_eq_true, c14_unordered_pair]; grind
    · rw [← Bool.not_eq_true, c14_unordered_pair]; grind
  unfold testSymmetricPair
  rw [symPair_comm bar foo, symmetricPairChecks_eq _ _ _ _ hne]
  generalize (SymPair.make foo bar).hash = a
  generalize (SymPair.make foo baz).hash = b
  simp only [decide_eq_true_eq]

/-! ### Dictionaries -/

theorem isSortedT_go (prev : Str) (terms : List Str) : isSortedT.go prev terms = true ↔ Asc prev terms := by
  induction terms generalizing prev with
  | nil => simp [isSortedT.go, Asc]
  | cons t ts ih =>
    simp only [isSortedT.go, Asc]
    cases strLt t prev <;> simp [ih]

theorem isSortedT_ok {terms : List Str} (hne : terms ≠ []) :
    ∃ b, isSortedT terms = .ok b ∧ (b = true ↔ SortedTerms terms) := by
  cases terms with
  | nil => exact absurd rfl hne
  | cons t ts => exact ⟨_, rfl, by rw [isSortedT_go, asc_iff]⟩

/-- The loop ends with the first of the vectors that is not sorted. -/
theorem shuffleLoop_ok {shuffles : Nat → List Str} {k j : Nat} {terms : List Str} {fuel : Nat}
    (hne : terms ≠ []) (hne' : ∀ i, shuffles i ≠ [])
    (hfirst : SortedTerms terms) (hs : ∀ i, k ≤ i → i < k + j → SortedTerms (shuffles i)) (hu : ¬ SortedTerms (shuffles (k + j)))
    (hf : j + 2 ≤ fuel) : shuffleLoop shuffles fuel k terms = .ok (shuffles (k + j)) := by
  obtain ⟨n, rfl⟩ : ∃ n, fuel = n + 1 := ⟨fuel - 1, by omega⟩
  obtain ⟨b, h1, h2⟩ := isSortedT_ok hne
  obtain rfl : b = true := h2.2 hfirst
  simp only [shuffleLoop, h1, bind, Except.bind, if_true]
  induction j generalizing k terms n with
  | zero =>
    obtain ⟨n, rfl⟩ : ∃ i, n = i + 1 := ⟨n - 1, by omega⟩
    obtain ⟨b, h1, h2⟩ := isSortedT_ok (hne' k)
    have hb : b = false := by
      rw [← Bool.not_eq_true, h2]; simpa using hu
    subst hb
    simp [shuffleLoop, h1, bind, Except.bind]
  | succ j ih =>
    obtain ⟨n, rfl⟩ : ∃ i, n = i + 1 := ⟨n - 1, by omega⟩
    obtain ⟨b, h1', h2'⟩ := isSortedT_ok (hne' k)
    obtain rfl : b = true := h2'.2 (hs k (Nat.le_refl _) (by omega))
    simp only [shuffleLoop, h1', bind, Except.bind, if_true]
    rw [ih (k := k + 1) (terms := shuffles k) (hne' k) (hs k (Nat.le_refl _) (by omega))
      (fun i h3 h4 => hs i (by omega) (by omega)) (by rwa [Nat.add_assoc, Nat.add_comm 1 j]) n (by omega) h1' h2']
    rw [Nat.add_assoc, Nat.add_comm 1 j]

theorem testRejects_ok {sgn : Bool} {addr : Nat → Nat} {h : Heap} (ha : Allocator addr h) {terms : List Str}
    {shuffles : Nat → List Str} (hl : 1 < terms.length) (hp : ∀ i, (shuffles i).Perm terms) {j : Nat}
    (hj : ¬ SortedTerms (shuffles j)) :
    ∃ h', Passes (fun fuel => testRejects sgn addr fuel terms shuffles h) h' ∧ h'.mem = h.mem := by
  have hne : terms ≠ [] := by rintro rfl; simp at hl
  have hne' : ∀ i, shuffles i ≠ [] := fun i hi => by
    have := hp i
    rw [hi] at this
    exact hne this.symm.eq_nil
  -- the vector with which the loop ends
  obtain ⟨u, N, hN, hu⟩ : ∃ u N, (∀ fuel, N ≤ fuel → shuffleLoop shuffles fuel 0 terms = .ok u) ∧ ¬ SortedTerms u := by
    by_cases hs : SortedTerms terms
    · have hex : ∃ i, ¬ SortedTerms (shuffles i) := ⟨j, hj⟩
      obtain ⟨i, hi, hmin⟩ : ∃ i, ¬ SortedTerms (shuffles i) ∧ ∀ k, k < i → SortedTerms (shuffles k) := by
        clear hj
        obtain ⟨j, hj⟩ := hex
        induction j using Nat.strongRecOn with
        | _ j ih =>
          by_cases hall : ∀ k, k < j → SortedTerms (shuffles k)
          · exact ⟨j, hj, hall⟩
          · simp only [Classical.not_forall] at hall
            obtain ⟨k, hk, hk'⟩ := hall
            exact ih k hk hk'
      refine ⟨shuffles i, i + 2, fun fuel hf => ?_, hi⟩
      have := shuffleLoop_ok (k := 0) (j := i) (fuel := fuel) hne hne' hs (fun k _ hk => hmin k (by omega))
        (by rwa [Nat.zero_add]) hf
      rwa [Nat.zero_add] at this
    · refine ⟨terms, 1, fun fuel hf => ?_, hs⟩
      obtain ⟨n, rfl⟩ : ∃ n, fuel = n + 1 := ⟨fuel - 1, by omega⟩
      obtain ⟨b, h1, h2⟩ := isSortedT_ok hne
      have hb : b = false := by rw [← Bool.not_eq_true, h2]; exact hs
      subst hb
      simp [shuffleLoop, h1, bind, Except.bind]
  obtain ⟨h', ⟨N', hN'⟩, hm, _⟩ := sortedDawg_desc (sgn := sgn) ⟨ha.nonnull, ha.inj⟩ ha.null ha.fresh (terms := u)
    (fun h' => hu ((asc_nil_iff _).1 h'))
  refine ⟨h', ⟨max N N', fun fuel hf => ?_⟩, funext hm⟩
  have e1 := hN fuel (by omega)
  have e2 : sortedDawg sgn addr fuel u h = .ok (h', none) := hN' fuel (by omega)
  simp only [testRejects, hl, decide_true, rcPre_true, e1, e2, use_ok, Option.isNone_none, rcAssert_true, bind, Except.bind]

/-- If the shuffles never give anything that is not sorted, the test does not end. -/
theorem testRejects_forever {sgn : Bool} {addr : Nat → Nat} {h : Heap} {terms : List Str} {shuffles : Nat → List Str}
    (hl : 1 < terms.length) (hp : ∀ i, (shuffles i).Perm terms) (hs : SortedTerms terms)
    (hs' : ∀ i, SortedTerms (shuffles i)) (fuel : Nat) :
    testRejects sgn addr fuel terms shuffles h = .error (.err .diverge) := by
  have hne : terms ≠ [] := by rintro rfl; simp at hl
  have hne' : ∀ i, shuffles i ≠ [] := fun i hi => by
    have := hp i
    rw [hi] at this
    exact hne this.symm.eq_nil
  have hloop : ∀ fuel k (t : List Str), t ≠ [] → SortedTerms t → shuffleLoop shuffles fuel k t = .error .diverge := by
    intro fuel
    induction fuel with
    | zero => intros; rfl
    | succ n ih =>
      intro k t ht hst
      obtain ⟨b, h1, h2⟩ := isSortedT_ok ht
      obtain rfl : b = true := h2.2 hst
      simp only [shuffleLoop, h1, bind, Except.bind, if_true]
      exact ih _ _ (hne' k) (hs' k)
  simp only [testRejects, hl, decide_true, rcPre_true, hloop fuel 0 terms hne hs, use, bind, Except.bind]

theorem checkContains_ok {mem : Mem} {root : Nat} {b : Bool} {l : List Str} (hl : ∀ t ∈ l, containsTerm mem root t = .ok b) :
    checkContains mem root b l = .ok () := by
  induction l with
  | nil => rfl
  | cons t l ih =>
    simp only [checkContains, hl t (by simp), use_ok, beq_self_eq_true, rcAssert_true, bind, Except.bind]
    exact ih fun t ht => hl t (by simp [ht])

/-- Taking away each element of a set, in any order, leaves nothing. -/
theorem checkErase_ok {out left : List Str} (hp : out.Perm left) (hnd : left.Nodup) : checkErase out left = .ok [] := by
  induction out generalizing left with
  | nil => rw [hp.symm.eq_nil]; rfl
  | cons t out ih =>
    have hmem : t ∈ left := hp.subset (by simp)
    have hnd' : (t :: out).Nodup := hp.nodup_iff.2 hnd
    simp only [checkErase, show left.contains t = true by simpa using hmem, rcAssert_true, bind, Except.bind]
    refine ih ?_ (hnd.filter _)
    have h1 : (out.filter (· != t)) = out := List.filter_eq_self.2 fun a ha => by
      have := (List.nodup_cons.1 hnd').1
      simp only [bne_iff_ne, ne_eq]
      rintro rfl
      exact this ha
    have h2 := hp.filter (· != t)
    simpa [h1] using h2

theorem eraseAll_eq (ignore : List Str) (add : List Str) :
    ignore.foldl (fun s t => s.filter (· != t)) add = add.filter fun t => decide (t ∉ ignore) := by
  induction ignore generalizing add with
  | nil => exact (List.filter_eq_self.2 (by simp)).symm
  | cons t ts ih =>
    simp only [List.foldl_cons, ih, List.filter_filter]
    congr 1
    funext a
    by_cases h1 : a = t <;> by_cases h2 : a ∈ ts <;> simp [h1, h2]

theorem testContains_ok {sgn : Bool} {addr paddr : Nat → Nat} {h : Heap} {ph : PHeap} (ha : Allocator addr h)
    (hp : PAllocator paddr ph) {add ignore : List Str} (hs : SortedTerms add) (hnd : add.Nodup)
    (hl : ∀ t ∈ add ++ ignore, t.length < 2 ^ 31) :
    ∃ h' ph', Passes (fun fuel => testContains sgn addr paddr fuel add ignore h ph) (h', ph') ∧ h'.mem = h.mem ∧
      ph'.mem = ph.mem := by
  have e0 := eraseAll_eq ignore add
  generalize hadd : (ignore.foldl (fun s t => s.filter (· != t)) add) = add' at e0
  have hsub : ∀ t, t ∈ add' ↔ t ∈ add ∧ t ∉ ignore := by intro t; rw [e0]; simp
  have hs' : SortedTerms add' := by rw [e0]; exact List.Pairwise.filter _ hs
  have hnd' : add'.Nodup := by rw [e0]; exact hnd.filter _
  obtain ⟨h1, d, hr, hf⟩ := sortedDawg_asc (sgn := sgn) ⟨ha.nonnull, ha.inj⟩ ha.null ha.fresh ((asc_nil_iff _).2 hs')
  obtain ⟨out, ph', hi, hperm, hph⟩ := c18_each_term_once ha hr hnd' hp
  obtain ⟨h2, hd, hm⟩ := hf.destroy ha.fresh
  obtain ⟨N1, hN1⟩ := hr
  obtain ⟨N2, hN2⟩ := hi
  obtain ⟨N3, hN3⟩ := hd
  refine ⟨h2, ph', ⟨max N1 (max N2 N3), fun fuel hfu => ?_⟩, funext hm, funext hph⟩
  have g1 : sortedDawg sgn addr fuel add' h = .ok (h1, some d) := hN1 fuel (by omega)
  have g2 : rangeFor h1.mem paddr fuel d.root d.size ph = .ok (out, ph') := hN2 fuel (by omega)
  have g3 : destroyDawg fuel h1 d = .ok h2 := hN3 fuel (by omega)
  have c1 : containsTerm h1.mem d.root [] = .ok (decide ([] ∈ add')) := hf.contains [] (.inl (by simp))
  have c2 : checkContains h1.mem d.root true add' = .ok () := checkContains_ok fun t ht => by
    rw [hf.contains t (.inl (by have := hl t (by simp [((hsub t).1 ht).1]); omega))]; simp [ht]
  have c3 : checkContains h1.mem d.root false ignore = .ok () := checkContains_ok fun t ht => by
    rw [hf.contains t (.inl (by have := hl t (by simp [ht]); omega))]
    have : t ∉ add' := fun h => ((hsub t).1 h).2 ht
    simp [this]
  have c4 := checkErase_ok hperm hnd'
  simp only [testContains, hadd, g1, use_ok, bind, Except.bind]
  by_cases hn : [] ∈ add'
  · simp only [show add'.contains [] = true by simpa using hn, if_true, c2, c3, c4, g2, g3, use_ok,
      List.isEmpty_nil, rcAssert_true]
  · simp only [show add'.contains [] = false by simpa using hn, if_false, Bool.false_eq_true, c1, hn, decide_false,
      Bool.not_false, c2, c3, c4, g2, g3, use_ok, List.isEmpty_nil, rcAssert_true]

/-! ### Transducers -/

section
variable {A : Algorithm} {n : Nat}

theorem expectedFor_ok (q : Str) (dict acc : List Str) {m : Memo} (hm : m.Good (GoodEntry A)) :
    ∃ e m', expectedFor A n q dict acc m = (acc ++ e, m') ∧ m'.Good (GoodEntry A) ∧ e.Sublist dict ∧
      ∀ t, t ∈ e ↔ t ∈ dict ∧ ∃ d, IsMinCost A t q d ∧ d ≤ n := by
  induction dict generalizing acc m with
  | nil => exact ⟨[], m, by simp [expectedFor], hm, .slnil, by simp⟩
  | cons t ts ih =>
    obtain ⟨d, m1, e1, h1, g1⟩ := callD_spec hm t q
    by_cases hd : d ≤ n
    · obtain ⟨e, m2, e2, g2, s2, f2⟩ := ih (acc ++ [t]) g1
      refine ⟨t :: e, m2, ?_, g2, s2.cons_cons _, fun u => ?_⟩
      · simp only [expectedFor, e1, hd, if_true, e2]; simp
      · simp only [List.mem_cons, f2]
        constructor
        · rintro (rfl | ⟨h2, h3⟩)
          · exact ⟨.inl rfl, d, h1, hd⟩
          · exact ⟨.inr h2, h3⟩
        · rintro ⟨rfl | h2, h3⟩
          · exact .inl rfl
          · exact .inr ⟨h2, h3⟩
    · obtain ⟨e, m2, e2, g2, s2, f2⟩ := ih acc g1
      refine ⟨e, m2, ?_, g2, s2.cons _, fun u => ?_⟩
      · simp only [expectedFor, e1, hd, if_false, e2]
      · simp only [List.mem_cons, f2]
        constructor
        · rintro ⟨h2, h3⟩; exact ⟨.inr h2, h3⟩
        · rintro ⟨rfl | h2, d', h3, h4⟩
          · exact absurd (h1.unique h3 ▸ h4) hd
          · exact ⟨h2, d', h3, h4⟩

/-- What is known of the entry of a query term in `expected_candidates`. -/
def ExpectedOf (A : Algorithm) (n : Nat) (dict : List Str) (e : Str × List Str) : Prop :=
  e.2.Sublist dict ∧ ∀ t, t ∈ e.2 ↔ t ∈ dict ∧ ∃ d, IsMinCost A t e.1 d ∧ d ≤ n

theorem expectedAll_ok (dict queries : List Str) {m : Memo} (hm : m.Good (GoodEntry A)) :
    ∃ es m', expectedAll A n dict queries m = (es, m') ∧ m'.Good (GoodEntry A) ∧ es.map Prod.fst = queries ∧
      ∀ e ∈ es, ExpectedOf A n dict e := by
  induction queries generalizing m with
  | nil => exact ⟨[], m, rfl, hm, rfl, by simp⟩
  | cons q qs ih =>
    obtain ⟨e, m1, e1, g1, s1, f1⟩ := expectedFor_ok (n := n) q dict [] hm
    obtain ⟨es, m2, e2, g2, k2, f2⟩ := ih g1
    refine ⟨(q, e) :: es, m2, ?_, g2, by simp [k2], ?_⟩
    · simp only [expectedAll, e1, e2, List.nil_append]
    · intro x hx
      rcases List.mem_cons.1 hx with rfl | hx
      · exact ⟨s1, f1⟩
      · exact f2 x hx

theorem checkCandidates_ok {q : Str} {rs : List (Str × Nat)} {left : List Str} {m : Memo} (hm : m.Good (GoodEntry A))
    (hp : (rs.map Prod.fst).Perm left) (hnd : left.Nodup) (hr : ∀ r ∈ rs, IsMinCost A r.1 q r.2) :
    ∃ m', checkCandidates A q rs left m = .ok ([], m') ∧ m'.Good (GoodEntry A) := by
  induction rs generalizing left m with
  | nil => rw [hp.symm.eq_nil]; exact ⟨m, rfl, hm⟩
  | cons r rs ih =>
    obtain ⟨t, d⟩ := r
    have hmem : t ∈ left := hp.subset (by simp)
    have hnd' : (t :: rs.map Prod.fst).Nodup := hp.nodup_iff.2 hnd
    obtain ⟨d', m1, e1, h1, g1⟩ := callD_spec hm t q
    have hd : d = d' := (hr (t, d) (by simp)).unique h1
    subst hd
    simp only [checkCandidates, show left.contains t = true by simpa using hmem, rcAssert_true, e1, beq_self_eq_true, bind,
      Except.bind]
    refine ih g1 ?_ (hnd.filter _) fun r hr' => hr r (by simp [hr'])
    have h1 : ((rs.map Prod.fst).filter (· != t)) = rs.map Prod.fst := List.filter_eq_self.2 fun a ha => by
      have := (List.nodup_cons.1 hnd').1
      simp only [bne_iff_ne, ne_eq]
      rintro rfl
      exact this ha
    have h2 := hp.filter (· != t)
    simpa [h1] using h2

variable {sgn : Bool} {mem : Mem} {root : Nat} {dict : List Str}

/-- The results of a query, against the entry in `expected_candidates`. -/
theorem results_ok (hd : Dictionary sgn mem root) (hacc : ∀ t, Accepts mem root t ↔ t ∈ dict) (hnd : dict.Nodup)
    (hn : n < 2 ^ 64) {e : Str × List Str} (he : ExpectedOf A n dict e) (hq : e.1.length < 2 ^ 31) :
    ∃ rs, Yields A updCandidate mem root e.1 n rs ∧ Yields A updString mem root e.1 n (rs.map Prod.fst) ∧
      (rs.map Prod.fst).Perm e.2 ∧ ∀ r ∈ rs, IsMinCost A r.1 e.1 r.2 := by
  have hq := QueryFits.of_short (n := n) hq
  obtain ⟨rs, h1, h2⟩ := query_exact A hd hq hn
  obtain ⟨rs', h3, h4⟩ := c36_string_results (A := A) hd hq hn
  have := h3.unique h1
  subst this
  refine ⟨rs', h1, h4, ?_, fun r hr => ((h2 r.1 r.2).1 hr).2.1.symm⟩
  refine (List.perm_ext_iff_of_nodup (c35_no_duplicates hd hq hn h1) (hnd.sublist he.1)).2 fun t => ?_
  rw [he.2]
  simp only [List.mem_map, Prod.exists, exists_and_right, exists_eq_right, h2, hacc]
  constructor
  · rintro ⟨d, h5, h6, h7⟩; exact ⟨h5, d, h6.symm, h7⟩
  · rintro ⟨h5, d, h6, h7⟩; exact ⟨d, h5, h6.symm, h7⟩

theorem candidateLoop_ok (hd : Dictionary sgn mem root) (hacc : ∀ t, Accepts mem root t ↔ t ∈ dict) (hnd : dict.Nodup)
    (hn : n < 2 ^ 64) {es : List (Str × List Str)} (he : ∀ e ∈ es, ExpectedOf A n dict e ∧ e.1.length < 2 ^ 31)
    {m : Memo} (hm : m.Good (GoodEntry A)) :
    ∃ m', Passes (fun fuel => candidateLoop A n fuel mem root es m) m' ∧ m'.Good (GoodEntry A) := by
  induction es generalizing m with
  | nil => exact ⟨m, ⟨0, fun _ _ => rfl⟩, hm⟩
  | cons e es ih =>
    obtain ⟨rs, ⟨N, hN⟩, _, h3, h4⟩ := results_ok hd hacc hnd hn (he e (by simp)).1 (he e (by simp)).2
    obtain ⟨m1, e1, g1⟩ := checkCandidates_ok hm h3 (hnd.sublist (he e (by simp)).1.1) h4
    obtain ⟨m2, ⟨N', hN'⟩, g2⟩ := ih (fun e he' => he e (by simp [he'])) g1
    refine ⟨m2, ⟨max N N', fun fuel hf => ?_⟩, g2⟩
    obtain ⟨q, ex⟩ := e
    have hrest : candidateLoop A n fuel mem root es m1 = .ok m2 := hN' fuel (by omega)
    simp only [candidateLoop, hN fuel (by omega) ([], 0), use_ok, e1, List.isEmpty_nil, rcAssert_true, hrest, bind,
      Except.bind]

theorem stringLoop_ok (hd : Dictionary sgn mem root) (hacc : ∀ t, Accepts mem root t ↔ t ∈ dict) (hnd : dict.Nodup)
    (hn : n < 2 ^ 64) {es : List (Str × List Str)} (he : ∀ e ∈ es, ExpectedOf A n dict e ∧ e.1.length < 2 ^ 31) :
    Passes (fun fuel => stringLoop A n fuel mem root es) () := by
  induction es with
  | nil => exact ⟨0, fun _ _ => rfl⟩
  | cons e es ih =>
    obtain ⟨rs, _, ⟨N, hN⟩, h3, _⟩ := results_ok hd hacc hnd hn (he e (by simp)).1 (he e (by simp)).2
    obtain ⟨N', hN'⟩ := ih (fun e he' => he e (by simp [he']))
    refine ⟨max N N', fun fuel hf => ?_⟩
    obtain ⟨q, ex⟩ := e
    have hrest : stringLoop A n fuel mem root es = .ok () := hN' fuel (by omega)
    simp only [stringLoop, hN fuel (by omega) [], use_ok, checkErase_ok h3 (hnd.sublist (he (q, ex) (by simp)).1.1),
      List.isEmpty_nil, rcAssert_true, hrest, bind, Except.bind]

end

theorem testTransducer_ok {sgn : Bool} {addr : Nat → Nat} {A : Algorithm} {h : Heap} (ha : Allocator addr h)
    {dict queries : List Str} (hs : SortedTerms dict) (hnd : dict.Nodup) (hl : ∀ t ∈ dict ++ queries, t.length < 2 ^ 31)
    {n : Nat} (hn : n < 2 ^ 64) {m : Memo} (hm : m.Good (GoodEntry A)) :
    ∃ h' m', Passes (fun fuel => testTransducer sgn addr A fuel dict queries n h m) (h', m') ∧ h'.mem = h.mem ∧
      m'.Good (GoodEntry A) := by
  obtain ⟨es, m1, e1, g1, k1, f1⟩ := expectedAll_ok (n := n) dict queries hm
  obtain ⟨h1, d, ⟨N1, hN1⟩, hf⟩ := sortedDawg_asc (sgn := sgn) ⟨ha.nonnull, ha.inj⟩ ha.null ha.fresh ((asc_nil_iff _).2 hs)
  have hd := hf.dictionary fun t ht => by have := hl t (by simp [ht]); omega
  have he : ∀ e ∈ es, ExpectedOf A n dict e ∧ e.1.length < 2 ^ 31 := fun e he =>
    ⟨f1 e he, hl _ (by rw [← k1]; simp only [List.mem_append, List.mem_map]; exact .inr ⟨e, he, rfl⟩)⟩
  obtain ⟨m2, ⟨N2, hN2⟩, g2⟩ := candidateLoop_ok hd hf.accepts hnd hn he g1
  obtain ⟨N3, hN3⟩ := stringLoop_ok hd hf.accepts hnd hn he
  obtain ⟨h2, ⟨N4, hN4⟩, hmem⟩ := hf.destroy ha.fresh
  refine ⟨h2, m2, ⟨max (max N1 N2) (max N3 N4), fun fuel hfu => ?_⟩, funext hmem, g2⟩
  have a1 : sortedDawg sgn addr fuel dict h = .ok (h1, some d) := hN1 fuel (by omega)
  have a2 : candidateLoop A n fuel h1.mem d.root es m1 = .ok m2 := hN2 fuel (by omega)
  have a3 : stringLoop A n fuel h1.mem d.root es = .ok () := hN3 fuel (by omega)
  have a4 : destroyDawg fuel h1 d = .ok h2 := hN4 fuel (by omega)
  simp only [testTransducer, e1, a1, a2, a3, a4, use_ok, bind, Except.bind]

/-! ### The serializer -/

/-- Two dictionaries that share no node are deleted, in either order. -/
theorem destroy_two {sgn : Bool} {h1 h2 : Heap} {d d2 : SDawg} {k k2 : Nat} (hfl : d.floating = none)
    (hfl2 : d2.floating = none) (h0 : h2.mem 0 = none) (hd : DictNode sgn h1.mem k d.root) (hd2 : DictNode sgn h2.mem k2 d2.root)
    (hold : ∀ a, h1.mem a ≠ none → h2.mem a = h1.mem a) (hnew : ∀ a, Reaches h2.mem d2.root a → h1.mem a = none)
    (hother : ∀ a, ¬ Reaches h2.mem d2.root a → h2.mem a = h1.mem a) :
    ∃ h3 h4, Ends (fun fuel => destroyDawg fuel h2 d) h3 ∧ Ends (fun fuel => destroyDawg fuel h3 d2) h4 ∧
      (∀ a, Reaches h1.mem d.root a → h4.mem a = none) ∧ ∀ a, ¬ Reaches h1.mem d.root a → h4.mem a = h1.mem a := by
  have hcl := DictNode.closed hd
  have hcl2 := DictNode.closed hd2
  have hsame : ∀ a, Reaches h1.mem d.root a → h2.mem a = h1.mem a := fun a hra => by
    obtain ⟨n, hn, _⟩ := hcl a hra
    exact hold a (by rw [hn]; simp)
  obtain ⟨nd, F, m1, u1, _⟩ := DictNode.unf (DictNode.frame hcl hsame hd .refl)
  have hri := reaches_frame_iff hcl hsame (a := d.root) .refl
  have hcl' : Closed h2.mem (Reaches h2.mem d.root) := DictNode.closed (DictNode.frame hcl hsame hd .refl)
  obtain ⟨h3, r3, _, dead3, old3⟩ := deleteReach_spec m1 u1 h0 hcl'
  have hsame2 : ∀ a, Reaches h2.mem d2.root a → h3.mem a = h2.mem a := fun a hra => old3 a fun hr => by
    obtain ⟨n, hn, _⟩ := hcl a ((hri a).1 hr)
    rw [hnew a hra] at hn
    cases hn
  have hd3 := DictNode.frame hcl2 hsame2 hd2 .refl
  obtain ⟨nd2, F2, m2, u2, _⟩ := DictNode.unf hd3
  have hri2 := reaches_frame_iff hcl2 hsame2 (a := d2.root) .refl
  have h03 : h3.mem 0 = none := by
    by_cases hz : Reaches h2.mem d.root 0
    · exact dead3 0 hz
    · rw [old3 0 hz, h0]
  obtain ⟨h4, r4, _, dead4, old4⟩ := deleteReach_spec m2 u2 h03 (DictNode.closed hd3)
  refine ⟨h3, h4, r3.congr fun n => ?_, r4.congr fun n => ?_, fun a hra => ?_, fun a hra => ?_⟩
  · simp only [destroyDawg, cleanUp, hfl, bind, Except.bind]
  · simp only [destroyDawg, cleanUp, hfl2, bind, Except.bind]
  · by_cases h2r : Reaches h3.mem d2.root a
    · exact dead4 a h2r
    · rw [old4 a h2r]; exact dead3 a ((hri a).2 hra)
  · by_cases h2r : Reaches h3.mem d2.root a
    · rw [dead4 a h2r, hnew a ((hri2 a).1 h2r)]
    · rw [old4 a h2r, old3 a fun hr => hra ((hri a).1 hr)]
      exact hother a fun hr => h2r ((hri2 a).2 hr)

/-- The test of the serializer passes if the file can be written and the message is not too large for protobuf; otherwise an
assertion fails. -/
theorem testSerializer_spec {sgn : Bool} {addr : Nat → Nat} {h : Heap} (ha : Allocator addr h) {terms : List Str}
    (hs : SortedTerms terms) (hlen : terms.length < 2 ^ 64) (path : Str) (fs : Files)
    (haddr : ∀ h1 d, Ends (fun fuel => sortedDawg sgn addr fuel terms h) (h1, some d) →
      ∀ a, Reaches h1.mem d.root a → a < 2 ^ 64) :
    ∃ h1 d msg, Ends (fun fuel => sortedDawg sgn addr fuel terms h) (h1, some d) ∧
      Ends (fun fuel => toProto sgn h1.mem fuel d.root d.size) msg ∧
      (fs.writable path = true → ∀ bs, encodeMsg msg = some bs →
        ∃ fs' h', Passes (fun fuel => testSerializer sgn addr fuel terms path fs h) (fs', h') ∧ h'.mem = h.mem ∧
          fs'.read path = some bs) ∧
      (fs.writable path = false ∨ encodeMsg msg = none →
        ∃ N, ∀ fuel, N ≤ fuel → testSerializer sgn addr fuel terms path fs h = .error .failed) := by
  obtain ⟨h1, d, hrun, hf⟩ := sortedDawg_asc (sgn := sgn) ⟨ha.nonnull, ha.inj⟩ ha.null ha.fresh ((asc_nil_iff _).2 hs)
  obtain ⟨nd, F, _, _, _, _, hd⟩ := hf.dict
  have haddr' := haddr h1 d hrun
  have ha1 := hf.allocator ha
  obtain ⟨msg, h2, d2, φ, nd, F, g1, hm, hw, g2, hr, _, _, _, _, _, _, g9, g10⟩ := roundTrip_spec (size := d.size) ha1 hd
  have hcl := DictNode.closed hd
  have hfits := hm.fits hcl haddr' (by rw [hf.size]; exact hlen)
  obtain ⟨msg', h2', d2', g1', g2', c1, c2, c3, c4, _⟩ := c27_round_trip ha1 hd d.size
  cases g1'.unique g1
  cases g2'.symm.trans g2
  refine ⟨h1, d, msg, hrun, g1, fun hwr bs hbs => ?_, ?_⟩
  · have hdec : decodeMsg bs = some msg := by
      unfold encodeMsg at hbs
      split at hbs
      · next hl => cases hbs; exact decode_encode hfits hl
      · cases hbs
    have hother : ∀ a, ¬ Reaches h2.mem d2.root a → h2.mem a = h1.mem a := fun a hra => hr.old a fun x hx he => by
      apply hra
      rw [he, hr.root]
      exact (hr.reaches hw.target hw.root _).2 ⟨x, g10 x hx, rfl⟩
    obtain ⟨h3, h4, ⟨N3, hN3⟩, ⟨N4, hN4⟩, dead, old⟩ := destroy_two hf.ptrs.2.2 hr.ptrs.2.2 (hr.allocator ha1).null hd g9 c1
      (fun a hra => (c2 a hra).1) hother
    obtain ⟨h4', hdel', hmem⟩ := hf.destroy ha.fresh
    obtain ⟨nd', F', m', u', _⟩ := hf.dict
    obtain ⟨h5, r5, _, dead5, old5⟩ := deleteReach_spec m' u' hf.null hf.closed
    have h45 : h4' = h5 := hdel'.unique (r5.congr fun n => by
      simp only [destroyDawg, cleanUp, hf.ptrs.2.2, bind, Except.bind])
    obtain ⟨N1, hN1⟩ := hrun
    obtain ⟨N2, hN2⟩ := g1
    obtain ⟨N5, hN5⟩ := c4
    refine ⟨{ fs with read := fun p => if p = path then some bs else fs.read p }, h4,
      ⟨max (max N1 N2) (max N3 (max N4 N5)), fun fuel hfu => ?_⟩, funext fun a => ?_, by simp⟩
    · have a1 : sortedDawg sgn addr fuel terms h = .ok (h1, some d) := hN1 fuel (by omega)
      have a2 : toProto sgn h1.mem fuel d.root d.size = .ok msg := hN2 fuel (by omega)
      have a3 : destroyDawg fuel h2 d = .ok h3 := hN3 fuel (by omega)
      have a4 : destroyDawg fuel h3 d2 = .ok h4 := hN4 fuel (by omega)
      have a5 : dawgEq h2.mem fuel d.size d.root d2.size d2.root = .ok true := hN5 fuel (by omega)
      simp only [testSerializer, a1, serializeFile, serializeStream, a2, hwr, hbs, deserializeFile, deserializeStream, hdec, g2,
        a3, a4, a5, use_ok, bind, Except.bind, if_true, Option.isSome_some, Option.getD_some, rcAssert_true, pure, Except.pure]
    · rw [← hmem a, h45]
      by_cases hra : Reaches h1.mem d.root a
      · rw [dead a hra, dead5 a hra]
      · rw [old a hra, old5 a hra]
  · intro hno
    obtain ⟨N1, hN1⟩ := hrun
    obtain ⟨N2, hN2⟩ := g1
    refine ⟨max N1 N2, fun fuel hfu => ?_⟩
    have a1 : sortedDawg sgn addr fuel terms h = .ok (h1, some d) := hN1 fuel (by omega)
    have a2 : toProto sgn h1.mem fuel d.root d.size = .ok msg := hN2 fuel (by omega)
    cases hwr : fs.writable path with
    | false =>
      simp only [testSerializer, a1, serializeFile, serializeStream, a2, hwr, use_ok, bind, Except.bind, Bool.false_eq_true, if_false,
        pure, Except.pure, rcAssert]
    | true =>
      rw [hwr] at hno
      have hno : encodeMsg msg = none := by simpa using hno
      simp only [testSerializer, a1, serializeFile, serializeStream, a2, hwr, hno, use_ok, bind, Except.bind, if_true,
        pure, Except.pure, rcAssert, Option.isSome_none, Bool.false_eq_true, if_false]

theorem length_le_sum {t : Str} {terms : List Str} (ht : t ∈ terms) : t.length ≤ (terms.map List.length).sum := by
  induction terms with
  | nil => cases ht
  | cons u us ih =>
    simp only [List.map_cons, List.sum_cons]
    rcases List.mem_cons.1 ht with rfl | ht
    · omega
    · have := ih ht; omega

/-- If the file can be written and the terms have at most 39 000 000 characters together, the test passes. -/
theorem testSerializer_ok {sgn : Bool} {addr : Nat → Nat} {h : Heap} (ha : Allocator addr h)
    (h64 : ∀ k, k < h.count + 2 ^ 31 → addr k < 2 ^ 64) {terms : List Str} (hs : SortedTerms terms)
    (hlen : terms.length < 2 ^ 64) (hsum : (terms.map List.length).sum ≤ 39000000) {path : Str} {fs : Files}
    (hw : fs.writable path = true) :
    ∃ fs' h', Passes (fun fuel => testSerializer sgn addr fuel terms path fs h) (fs', h') ∧ h'.mem = h.mem := by
  have haddr : ∀ h1 d, Ends (fun fuel => sortedDawg sgn addr fuel terms h) (h1, some d) →
      ∀ a, Reaches h1.mem d.root a → a < 2 ^ 64 := fun h1 d hr a hra => by
    obtain ⟨_, hf⟩ := finished_of_run ha hr
    obtain ⟨N, hN⟩ := hr
    have := sortedDawg_count (hN N (Nat.le_refl _))
    obtain ⟨j, _, _, rfl⟩ := hf.range a hra
    exact h64 j (by omega)
  obtain ⟨h1, d, msg, hr, hp, hpass, _⟩ := testSerializer_spec ha hs hlen path fs haddr
  obtain ⟨_, hf⟩ := finished_of_run ha hr
  obtain ⟨k, hk, hd⟩ := hf.dictionary fun t ht => by
    have := length_le_sum ht
    omega
  obtain ⟨bs, ⟨N, hN⟩, _⟩ := save_spec hd hk (haddr h1 d hr) (size := d.size) (by rw [hf.size]; exact hlen) hf.counted (by omega)
  obtain ⟨N', hN'⟩ := hp
  have e1 : serializeStream sgn h1.mem (max N N') d.root d.size = .ok (some bs) := hN _ (by omega)
  have e2 : toProto sgn h1.mem (max N N') d.root d.size = .ok msg := hN' _ (by omega)
  simp only [serializeStream, e2, bind, Except.bind, pure, Except.pure, Except.ok.injEq] at e1
  obtain ⟨fs', h', g1, g2, _⟩ := hpass hw bs e1
  exact ⟨fs', h', g1, g2⟩

end Lev
