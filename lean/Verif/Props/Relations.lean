import Verif.Props.SerialGraph

/-!
# Property C116: how the answers to different queries and dictionaries are related

(src/liblevenshtein/transducer/{transducer.h,lazy_query.h}).
-/

namespace Lev.Props

open Lev Spec

section
variable {sgn : Bool} {mem mem' : Mem} {root root' : Nat} {A : Algorithm} {q : Str} {n : Nat} {rs : List (Str × Nat)}

theorem yields_facts (hd : Dictionary sgn mem root) (hq : QueryFits n q) (hn : n < 2 ^ 64)
    (hy : Yields A updCandidate mem root q n rs) :
    (∀ t d, (t, d) ∈ rs ↔ Accepts mem root t ∧ IsMinCost A q t d ∧ d ≤ n) ∧ rs.Pairwise fun a b => shortLex sgn a.1 b.1 := by
  obtain ⟨rs', h1, h2⟩ := query_exact A hd hq hn
  obtain rfl := hy.unique h1
  exact ⟨h2, c37_order hd hq hn hy⟩

theorem yields_of_facts (hd : Dictionary sgn mem root) (hq : QueryFits n q) (hn : n < 2 ^ 64)
    (h1 : ∀ t d, (t, d) ∈ rs ↔ Accepts mem root t ∧ IsMinCost A q t d ∧ d ≤ n)
    (h2 : rs.Pairwise fun a b => shortLex sgn a.1 b.1) : Yields A updCandidate mem root q n rs := by
  obtain ⟨rs', g1, g2⟩ := query_exact A hd hq hn
  rw [answers_unique h2 (c37_order hd hq hn g1) fun t d => by rw [h1, g2]]
  exact g1

theorem perm_of_facts {rs rs' : List (Str × Nat)} (h1 : rs.Nodup) (h2 : rs'.Nodup) (h : ∀ r, r ∈ rs ↔ r ∈ rs') : rs.Perm rs' :=
  (List.perm_ext_iff_of_nodup h1 h2).2 fun r => h r

theorem nodup_of_sorted {rs : List (Str × Nat)} (h : rs.Pairwise fun a b => shortLex sgn a.1 b.1) : rs.Nodup :=
  List.Pairwise.imp (S := (· ≠ ·)) (fun {a b} h he => shortLex_irrefl (sgn := sgn) (s := a.1) (by rw [← he] at h; exact h)) h

theorem nodup_map {rs : List (Str × Nat)} {f : Str × Nat → Str × Nat} (hf : ∀ a b, f a = f b → a = b) (h : rs.Nodup) :
    (rs.map f).Nodup :=
  List.pairwise_map.2 (List.Pairwise.imp (S := fun a b => f a ≠ f b) (fun {a b} hne he => hne (hf a b he)) h)

/-- C116: a dictionary with fewer terms answers a query with those of the answers that it contains, in the same order. -/
theorem c116_fewer_terms (hd : Dictionary sgn mem root) (hd' : Dictionary sgn mem' root')
    (hsub : ∀ t, Accepts mem' root' t → Accepts mem root t) {P : Str → Bool} (hP : ∀ t, P t = true ↔ Accepts mem' root' t)
    (hq : QueryFits n q) (hn : n < 2 ^ 64) (hy : Yields A updCandidate mem root q n rs) :
    Yields A updCandidate mem' root' q n (rs.filter fun r => P r.1) := by
  obtain ⟨h1, h2⟩ := yields_facts hd hq hn hy
  refine yields_of_facts hd' hq hn (fun t d => ?_) (h2.filter _)
  rw [List.mem_filter, h1, hP]
  exact ⟨fun h => ⟨h.2, h.1.2⟩, fun h => ⟨⟨hsub t h.1, h.2⟩, h.1⟩⟩

/-- C116: a dictionary with the terms of two others answers a query with their answers, each of them in its order. -/
theorem c116_more_terms {mem'' : Mem} {root'' : Nat} {rs' : List (Str × Nat)} (hd : Dictionary sgn mem root)
    (hd' : Dictionary sgn mem' root') (hd'' : Dictionary sgn mem'' root'')
    (hor : ∀ t, Accepts mem'' root'' t ↔ Accepts mem root t ∨ Accepts mem' root' t) (hq : QueryFits n q) (hn : n < 2 ^ 64)
    (hy : Yields A updCandidate mem root q n rs) (hy' : Yields A updCandidate mem' root' q n rs') :
    ∃ rs'', Yields A updCandidate mem'' root'' q n rs'' ∧ rs.Sublist rs'' ∧ rs'.Sublist rs'' ∧ ∀ r ∈ rs'', r ∈ rs ∨ r ∈ rs' := by
  obtain ⟨h1, h2⟩ := yields_facts hd hq hn hy
  obtain ⟨g1, g2⟩ := yields_facts hd' hq hn hy'
  obtain ⟨rs'', k0, k1⟩ := query_exact A hd'' hq hn
  have k2 := c37_order hd'' hq hn k0
  have hs : ∀ {l : List (Str × Nat)}, l.Pairwise (fun a b => shortLex sgn a.1 b.1) → (∀ r ∈ l, r ∈ rs'') → l.Sublist rs'' :=
    fun hl hm => sorted_sublist (lt := fun a b : Str × Nat => shortLex sgn a.1 b.1) (fun _ h => shortLex_irrefl h)
      (fun _ _ h h' => shortLex_asymm h h') hl k2 hm
  refine ⟨rs'', k0, hs h2 fun r hr => ?_, hs g2 fun r hr => ?_, fun r hr => ?_⟩
  · have := (h1 r.1 r.2).1 hr
    exact (k1 r.1 r.2).2 ⟨(hor _).2 (.inl this.1), this.2⟩
  · have := (g1 r.1 r.2).1 hr
    exact (k1 r.1 r.2).2 ⟨(hor _).2 (.inr this.1), this.2⟩
  · have := (k1 r.1 r.2).1 hr
    rcases (hor _).1 this.1 with h | h
    · exact .inl ((h1 r.1 r.2).2 ⟨h, this.2⟩)
    · exact .inr ((g1 r.1 r.2).2 ⟨h, this.2⟩)

/-- C116: what STANDARD finds, the other algorithms find at no greater distance. -/
theorem c116_standard_found (hd : Dictionary sgn mem root) (hq : QueryFits n q) (hn : n < 2 ^ 64) {rs' : List (Str × Nat)}
    (hy : Yields .standard updCandidate mem root q n rs) (hy' : Yields A updCandidate mem root q n rs') {t : Str} {d : Nat}
    (h : (t, d) ∈ rs) : ∃ e, (t, e) ∈ rs' ∧ e ≤ d ∧ d ≤ 2 * e := by
  obtain ⟨h1, h2, h3⟩ := ((yields_facts hd hq hn hy).1 t d).1 h
  have hc := cost_spec A q t
  have hle : cost A q t ≤ d := hc.2 _ h2.1.of_standard
  exact ⟨cost A q t, ((yields_facts hd hq hn hy').1 _ _).2 ⟨h1, hc, by omega⟩, hle, h2.le_iff.1 hc.1.to_standard⟩

/-- C116: what the other algorithms find, STANDARD finds at most at twice the distance. -/
theorem c116_found_by_standard (hd : Dictionary sgn mem root) (hq : QueryFits (2 * n) q) (hn : 2 * n < 2 ^ 64) {rs' : List (Str × Nat)}
    (hy : Yields A updCandidate mem root q n rs) (hy' : Yields .standard updCandidate mem root q (2 * n) rs') {t : Str} {d : Nat}
    (h : (t, d) ∈ rs) : ∃ e, (t, e) ∈ rs' ∧ d ≤ e ∧ e ≤ 2 * d := by
  obtain ⟨h1, h2, h3⟩ := ((yields_facts hd (hq.le (by omega)) (by omega) hy).1 t d).1 h
  have hc := cost_spec .standard q t
  have hle : cost .standard q t ≤ 2 * d := hc.le_iff.1 h2.1.to_standard
  exact ⟨cost .standard q t, ((yields_facts hd hq hn hy').1 _ _).2 ⟨h1, hc, by omega⟩, h2.2 _ hc.1.of_standard, hle⟩

/-- C116: query word and term may change places. -/
theorem c116_exchanged (hd : Dictionary sgn mem root) (hd' : Dictionary sgn mem' root') {t : Str} (hq : QueryFits n q)
    (ht : QueryFits n t) (hn : n < 2 ^ 64) {rs' : List (Str × Nat)} (hy : Yields A updCandidate mem root q n rs)
    (hy' : Yields A updCandidate mem' root' t n rs') (h : Accepts mem root t) (h' : Accepts mem' root' q) (d : Nat) :
    (t, d) ∈ rs ↔ (q, d) ∈ rs' := by
  rw [(yields_facts hd hq hn hy).1, (yields_facts hd' ht hn hy').1]
  exact ⟨fun g => ⟨h', g.2.1.symm, g.2.2⟩, fun g => ⟨h, g.2.1.symm, g.2.2⟩⟩

theorem isMinCost_reverse {v w : Str} {d : Nat} (h : IsMinCost A v w d) : IsMinCost A v.reverse w.reverse d :=
  ⟨h.1.reverse, fun c hc => h.2 c (by simpa using hc.reverse)⟩

/-- C116: the dictionary of the reversed terms answers the reversed query word with the reversed answers. -/
theorem c116_reversed (hd : Dictionary sgn mem root) (hd' : Dictionary sgn mem' root')
    (hrev : ∀ t, Accepts mem' root' t ↔ Accepts mem root t.reverse) (hq : QueryFits n q) (hn : n < 2 ^ 64)
    (hy : Yields A updCandidate mem root q n rs) :
    ∃ rs', Yields A updCandidate mem' root' q.reverse n rs' ∧ rs'.Perm (rs.map fun r => (r.1.reverse, r.2)) := by
  obtain ⟨h1, h2⟩ := yields_facts hd hq hn hy
  have hq' : QueryFits n q.reverse := ⟨by simpa using hq.lt, by simpa using hq.fits⟩
  obtain ⟨rs', g0, g1⟩ := query_exact A hd' hq' hn
  refine ⟨rs', g0, perm_of_facts (nodup_of_sorted (c37_order hd' hq' hn g0)) ?_ fun r => ?_⟩
  · refine nodup_map (fun a b hab => ?_) (nodup_of_sorted h2)
    simp only [Prod.mk.injEq, List.reverse_inj] at hab
    exact Prod.ext hab.1 hab.2
  · obtain ⟨t, d⟩ := r
    rw [g1, hrev, List.mem_map]
    constructor
    · rintro ⟨a, b, c⟩
      refine ⟨(t.reverse, d), (h1 _ _).2 ⟨a, ?_, c⟩, by simp⟩
      simpa using isMinCost_reverse b
    · rintro ⟨⟨s, e⟩, hm, he⟩
      obtain ⟨a, b, c⟩ := (h1 s e).1 hm
      simp only [Prod.mk.injEq] at he
      obtain ⟨rfl, rfl⟩ := he
      exact ⟨by simpa using a, isMinCost_reverse b, c⟩

theorem align_map {v w : Str} {c : Nat} (f : UInt8 → UInt8) (h : Align A v w c) : Align A (v.map f) (w.map f) c := by
  induction h with
  | nil => exact .nil
  | keep a _ ih => exact .keep _ ih
  | sub a b _ ih => exact .sub _ _ ih
  | ins b _ ih => exact .ins _ ih
  | del a _ ih => exact .del _ ih
  | swap h a b _ ih => exact .swap h _ _ ih
  | merge h a b d _ ih => exact .merge h _ _ _ ih
  | split h a b d _ ih => exact .split h _ _ _ ih

theorem isMinCost_map {f : UInt8 → UInt8} (hf : ∀ a b, f a = f b → a = b) {v w : Str} {d : Nat} :
    IsMinCost A (v.map f) (w.map f) d ↔ IsMinCost A v w d := by
  have hg : ∃ g : UInt8 → UInt8, ∀ a, g (f a) = a := by
    refine ⟨fun b => Classical.epsilon fun a => f a = b, fun a => hf _ _ ?_⟩
    exact Classical.epsilon_spec (p := fun x => f x = f a) ⟨a, rfl⟩
  obtain ⟨g, hg⟩ := hg
  have hb : ∀ s : Str, (s.map f).map g = s := fun s => by
    rw [List.map_map]
    have : g ∘ f = id := funext hg
    rw [this, List.map_id]
  have hi : ∀ c, Align A (v.map f) (w.map f) c ↔ Align A v w c := fun c =>
    ⟨fun h => by simpa only [hb] using align_map g h, align_map f⟩
  simp only [IsMinCost, hi]

/-- C116: renaming the characters in query word and terms, so that different ones stay different, renames them in the answers. -/
theorem c116_renamed {f : UInt8 → UInt8} (hf : ∀ a b, f a = f b → a = b) (hd : Dictionary sgn mem root)
    (hd' : Dictionary sgn mem' root') (hren : ∀ t, Accepts mem' root' t ↔ ∃ s, Accepts mem root s ∧ t = s.map f) (hq : QueryFits n q)
    (hn : n < 2 ^ 64) (hy : Yields A updCandidate mem root q n rs) :
    ∃ rs', Yields A updCandidate mem' root' (q.map f) n rs' ∧ rs'.Perm (rs.map fun r => (r.1.map f, r.2)) := by
  obtain ⟨h1, h2⟩ := yields_facts hd hq hn hy
  have hq' : QueryFits n (q.map f) := ⟨by simpa using hq.lt, by simpa using hq.fits⟩
  obtain ⟨rs', g0, g1⟩ := query_exact A hd' hq' hn
  refine ⟨rs', g0, perm_of_facts (nodup_of_sorted (c37_order hd' hq' hn g0)) ?_ fun r => ?_⟩
  · refine nodup_map (fun a b hab => ?_) (nodup_of_sorted h2)
    simp only [Prod.mk.injEq] at hab
    exact Prod.ext ((List.map_inj_right hf).1 hab.1) hab.2
  · obtain ⟨t, d⟩ := r
    rw [g1, hren, List.mem_map]
    constructor
    · rintro ⟨⟨s, a, rfl⟩, b, c⟩
      exact ⟨(s, d), (h1 _ _).2 ⟨a, (isMinCost_map hf).1 b, c⟩, rfl⟩
    · rintro ⟨⟨s, e⟩, hm, he⟩
      obtain ⟨a, b, c⟩ := (h1 s e).1 hm
      simp only [Prod.mk.injEq] at he
      obtain ⟨rfl, rfl⟩ := he
      exact ⟨⟨s, a, rfl⟩, (isMinCost_map hf).2 b, c⟩

theorem isMinCost_affixes {v w x z : Str} {d : Nat} : IsMinCost A (x ++ v ++ z) (x ++ w ++ z) d ↔ IsMinCost A v w d := by
  have hi : ∀ c, AlignLe A (x ++ v ++ z) (x ++ w ++ z) c ↔ AlignLe A v w c := fun c =>
    ⟨fun h => (h.discard_suffix z).discard_prefix x, fun h => (h.keep_prefix x).keep_suffix z⟩
  exact ⟨fun h => isMinCost_of_le ((hi d).1 h.1.le) fun c hc => h.le_iff.1 ((hi c).2 hc),
    fun h => isMinCost_of_le ((hi d).2 h.1.le) fun c hc => h.le_iff.1 ((hi c).1 hc)⟩

theorem lex_append {r : UInt8 → UInt8 → Prop} {s t : Str} (z : Str) (hl : s.length = t.length) (h : List.Lex r s t) :
    List.Lex r (s ++ z) (t ++ z) := by
  induction h with
  | nil => simp at hl
  | rel h => exact .rel h
  | cons _ ih => exact .cons (ih (by simpa using hl))

theorem shortLex_affixes {s t : Str} (x z : Str) (h : shortLex sgn s t) : shortLex sgn (x ++ s ++ z) (x ++ t ++ z) := by
  rcases h with h | ⟨h, h'⟩
  · left; simp; omega
  · right
    refine ⟨by simp; omega, lex_append z (by simp; omega) ?_⟩
    induction x with
    | nil => exact h'
    | cons a x ih => exact .cons ih

/-- C116: with the same beginning and the same ending added to the query word and to all terms, the answers are the same with this
beginning and this ending, in the same order. -/
theorem c116_affixes (x z : Str) (hd : Dictionary sgn mem root) (hd' : Dictionary sgn mem' root')
    (hadd : ∀ t, Accepts mem' root' t ↔ ∃ s, Accepts mem root s ∧ t = x ++ s ++ z) (hq : QueryFits n (x ++ q ++ z)) (hn : n < 2 ^ 64)
    (hy : Yields A updCandidate mem root q n rs) :
    Yields A updCandidate mem' root' (x ++ q ++ z) n (rs.map fun r => (x ++ r.1 ++ z, r.2)) := by
  have hq0 : QueryFits n q := by
    have h1 := hq.lt
    have h2 := hq.fits
    simp only [List.length_append] at h1 h2
    exact ⟨by omega, by omega⟩
  obtain ⟨h1, h2⟩ := yields_facts hd hq0 hn hy
  refine yields_of_facts hd' hq hn (fun t d => ?_) (List.pairwise_map.2 (h2.imp fun h => shortLex_affixes x z h))
  rw [hadd, List.mem_map]
  constructor
  · rintro ⟨⟨s, e⟩, hm, he⟩
    obtain ⟨a, b, c⟩ := (h1 s e).1 hm
    simp only [Prod.mk.injEq] at he
    obtain ⟨rfl, rfl⟩ := he
    exact ⟨⟨s, a, rfl⟩, isMinCost_affixes.2 b, c⟩
  · rintro ⟨⟨s, a, rfl⟩, b, c⟩
    exact ⟨(s, d), (h1 _ _).2 ⟨a, isMinCost_affixes.1 b, c⟩, rfl⟩

/-- C116: for STANDARD and MERGE_AND_SPLIT, a query word at distance `e` finds the same terms with a maximum distance larger by `e`, and
their distances change at most by `e`. -/
theorem c116_other_word (hA : A ≠ .transposition) (hd : Dictionary sgn mem root) {q' : Str} {e : Nat} (he : IsMinCost A q q' e)
    (hq : QueryFits n q) (hq' : QueryFits (n + e) q') (hn : n + e < 2 ^ 64) {rs' : List (Str × Nat)}
    (hy : Yields A updCandidate mem root q n rs) (hy' : Yields A updCandidate mem root q' (n + e) rs') {t : Str} {d : Nat}
    (h : (t, d) ∈ rs) : ∃ d', (t, d') ∈ rs' ∧ d' ≤ d + e ∧ d ≤ d' + e := by
  obtain ⟨h1, h2, h3⟩ := ((yields_facts hd hq (by omega) hy).1 t d).1 h
  have hc := cost_spec A q' t
  have hle : cost A q' t ≤ e + d := hc.le_iff.1 (AlignLe.reach hA he.symm.1.le h2.1.reach)
  have hle' : d ≤ e + cost A q' t := h2.le_iff.1 (AlignLe.reach hA he.1.le hc.1.reach)
  exact ⟨cost A q' t, ((yields_facts hd hq' hn hy').1 _ _).2 ⟨h1, hc, by omega⟩, by omega, by omega⟩

end

/-- There is a dictionary of any given terms. -/
theorem dictionary_of (sgn : Bool) {terms : List Str} (hs : SortedTerms terms) (hlen : ∀ t ∈ terms, t.length < 2 ^ 62) :
    ∃ mem root, Dictionary sgn mem root ∧ ∀ t, Accepts mem root t ↔ t ∈ terms := by
  have ha := exAllocator
  obtain ⟨h', d, _, hf⟩ := sortedDawg_asc (sgn := sgn) ⟨ha.nonnull, ha.inj⟩ ha.null ha.fresh ((asc_nil_iff _).2 hs)
  exact ⟨h'.mem, d.root, hf.dictionary (by simpa using hlen), hf.accepts⟩

/-- C116: `c116_other_word` is false for TRANSPOSITION, whose distance violates the triangle inequality: ABC is found from AC within
distance 1, but not from CA, at distance 1 from AC, within distance 2. -/
theorem c116_other_word_transposition_false (sgn : Bool) :
    ¬ ∀ (mem : Mem) (root : Nat) (q q' t : Str) (n e d : Nat) (rs rs' : List (Str × Nat)), Dictionary sgn mem root →
      IsMinCost .transposition q q' e → QueryFits n q → QueryFits (n + e) q' → n + e < 2 ^ 64 →
      Yields .transposition updCandidate mem root q n rs → Yields .transposition updCandidate mem root q' (n + e) rs' →
      (t, d) ∈ rs → ∃ d', (t, d') ∈ rs' := by
  intro hall
  obtain ⟨mem, root, hd, hacc⟩ := dictionary_of sgn (terms := [sABC]) (by simp [SortedTerms]) (by simp [sABC])
  have e1 : IsMinCost .transposition sAC sCA 1 := by
    have := answer_isMinCost .transposition [] sAC sCA
    rwa [show answer .transposition [] sAC sCA = 1 by rw [answer_eq_eval]; decide] at this
  have e2 : IsMinCost .transposition sAC sABC 1 := by
    have := answer_isMinCost .transposition [] sAC sABC
    rwa [show answer .transposition [] sAC sABC = 1 by rw [answer_eq_eval]; decide] at this
  have e3 : IsMinCost .transposition sCA sABC 3 := by
    have := answer_isMinCost .transposition [] sCA sABC
    rwa [show answer .transposition [] sCA sABC = 3 by rw [answer_eq_eval]; decide] at this
  have hq : QueryFits 1 sAC := ⟨by decide, .inl (by decide)⟩
  have hq' : QueryFits (1 + 1) sCA := ⟨by decide, .inl (by decide)⟩
  obtain ⟨rs, h1, h2⟩ := query_exact .transposition hd hq (by decide)
  obtain ⟨rs', g1, g2⟩ := query_exact .transposition hd hq' (by decide)
  obtain ⟨d', h⟩ := hall mem root sAC sCA sABC 1 1 1 rs rs' hd e1 hq hq' (by decide) h1 g1
    ((h2 _ _).2 ⟨(hacc _).2 (by simp), e2, by decide⟩)
  obtain ⟨_, h3, h4⟩ := (g2 _ _).1 h
  have := h3.unique e3
  omega

/-! ### Cases -/

/-- "ab", "cb" and the reversed terms. -/
example : ∃ mem root mem' root', Dictionary true mem root ∧ Dictionary true mem' root' ∧ Accepts mem root [97, 98] ∧
    ∀ t, Accepts mem' root' t ↔ Accepts mem root t.reverse := by
  obtain ⟨mem, root, h1, h2⟩ := dictionary_of true (terms := [[97, 98], [99, 98]]) (by simp [SortedTerms, strLess]; decide) (by simp)
  obtain ⟨mem', root', g1, g2⟩ := dictionary_of true (terms := [[98, 97], [98, 99]]) (by simp [SortedTerms, strLess]; decide) (by simp)
  refine ⟨mem, root, mem', root', h1, g1, (h2 _).2 (by simp), fun t => ?_⟩
  rw [h2, g2]
  simp only [List.mem_cons, List.not_mem_nil, or_false, List.reverse_eq_iff]
  rfl

/-- "ab", "cb" among "ab", "abc", "cb", and with "x" before and "y" behind. -/
example : ∃ mem root mem' root' mem'' root'', Dictionary true mem root ∧ Dictionary true mem' root' ∧ Dictionary true mem'' root'' ∧
    (∀ t, Accepts mem root t → Accepts mem' root' t) ∧
    ∀ t, Accepts mem'' root'' t ↔ ∃ s, Accepts mem root s ∧ t = [120] ++ s ++ [121] := by
  obtain ⟨mem, root, h1, h2⟩ := dictionary_of true (terms := [[97, 98], [99, 98]]) (by simp [SortedTerms, strLess]; decide) (by simp)
  obtain ⟨mem', root', g1, g2⟩ := dictionary_of true (terms := [[97, 98], [97, 98, 99], [99, 98]])
    (by simp [SortedTerms, strLess]; decide) (by simp)
  obtain ⟨mem'', root'', k1, k2⟩ := dictionary_of true (terms := [[120, 97, 98, 121], [120, 99, 98, 121]])
    (by simp [SortedTerms, strLess]; decide) (by simp)
  refine ⟨mem, root, mem', root', mem'', root'', h1, g1, k1, fun t ht => ?_, fun t => ?_⟩
  · rw [h2] at ht
    rw [g2]
    simp only [List.mem_cons, List.not_mem_nil, or_false] at ht ⊢
    rcases ht with h | h <;> simp [h]
  · simp [k2, h2]

end Lev.Props
