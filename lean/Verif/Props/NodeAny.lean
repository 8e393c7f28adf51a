import Verif.Proofs.NodeAny
import Verif.Props.IterAny

/-!
# Property C87: hashing and comparing any graphs

C20 to C22 are about dictionaries.  Here the graphs may have cycles, and edges to places where there is no node, as graphs from
foreign files may (C75).  Both functions read strings in lexicographic order; what they meet first decides.
-/

namespace Lev.Props

open Lev Spec

section
variable {sgn : Bool} {mem : Mem} {a b : Nat}

theorem sound_iff (hs : EdgesSorted sgn mem a) : Sound mem a ↔ ∃ k, DictNode sgn mem k a := by
  constructor
  · rintro ⟨hl, N, hN⟩
    have key : ∀ n w x, Leads mem a w x → w.length + n = N + 1 → DictNode sgn mem n x := by
      intro n
      induction n with
      | zero => intro w x hw hn; have := hN w x hw; omega
      | succ n ih =>
        intro w x hw hn
        cases hm : mem x with
        | none => exact absurd ⟨x, hw, hm⟩ (hl w)
        | some nd =>
          refine .mk hm (hs x nd hw.toReaches hm) fun c d hd => ?_
          exact ih _ _ (.snoc hw hm hd) (by simp only [List.length_append, List.length_singleton]; omega)
    exact ⟨_, key (N + 1) [] a .here (by simp)⟩
  · rintro ⟨k, hd⟩
    obtain ⟨⟨U, hU⟩, _, hl, hc⟩ := c81_dictionaries.1 ⟨k, hd⟩
    exact ⟨fun v ⟨b, h1, h2⟩ => hl b h1.toReaches h2, U.length, fun w b hw => leads_bound hU hc hw⟩

/-! ### Hashing -/

theorem dawgHash_any (hs : EdgesSorted sgn mem a) (size fuel : Nat) : HashOut sgn mem a fuel (dawgHash mem fuel size a) := by
  cases hm : mem a with
  | none =>
    simp only [dawgHash, deref, hm, bind, Except.bind]
    exact .gone (v := []) ⟨nowhere_nil.2 hm, fun w hw => (by cases hw), 0, fun w b _ hw => (by cases hw)⟩
  | some x =>
    have := nodeHash_any fuel hs hm
    simp only [dawgHash, deref, hm, bind, Except.bind]
    generalize nodeHash mem fuel x = r at this
    cases this with
    | sound h => exact .sound h
    | gone h => exact .gone h
    | deep h1 h2 h3 => exact .deep h1 h2 h3

/-- How long a string can be before a gap. -/
theorem gap_bound {v w : Str} {z : Nat} (hv : FirstGap sgn mem a v) (hw : Leads mem a w z)
    (hn : ∀ u, LeadsNowhere mem a u → ¬ List.Lex (charLt sgn) u w) : w.length ≤ max hv.2.2.choose v.length := by
  rcases lex_total (sgn := sgn) w v with h | rfl | h
  · have := hv.2.2.choose_spec w z hw h; omega
  · omega
  · exact absurd h (hn v hv.1)

/-- C87: hashing a dictionary's graph gives a value exactly if it has neither cycle nor missing node. -/
theorem c87_hash (hs : EdgesSorted sgn mem a) (size : Nat) :
    (∃ h, Ends (fun fuel => dawgHash mem fuel size a) h) ↔ ∃ k, DictNode sgn mem k a := by
  rw [← sound_iff hs]
  constructor
  · rintro ⟨h, N, hN⟩
    have := dawgHash_any hs size N
    have hN := hN N (Nat.le_refl _)
    simp only at hN
    rw [hN] at this
    cases this with
    | sound h => exact h
  · intro hso
    obtain ⟨k, hd⟩ := (sound_iff hs).1 hso
    obtain ⟨x, F, m, u, _⟩ := DictNode.unf hd
    exact ⟨mixByte (lowByte (treeHash x.final F)) (mixByte (lowByte (UInt64.ofNat size)) hashSeed), F.height + 1,
      fun fuel hf => by
        simp only [dawgHash, deref, m, bind, Except.bind, nodeHash_spec u (by omega : F.height < fuel), mixByte]⟩

/-- C87: hashing is undefined behaviour exactly if there is a first string that leads to a missing node, with finitely many
before it. -/
theorem c87_hash_undefined (hs : EdgesSorted sgn mem a) (size : Nat) :
    (∃ N, ∀ fuel, N ≤ fuel → dawgHash mem fuel size a = .error .ub) ↔ ∃ v, FirstGap sgn mem a v := by
  constructor
  · rintro ⟨N, hN⟩
    have := dawgHash_any hs size N
    rw [hN N (Nat.le_refl _)] at this
    cases this with
    | gone h => exact ⟨_, h⟩
  · rintro ⟨v, hv⟩
    refine ⟨max hv.2.2.choose v.length + 1, fun fuel hf => ?_⟩
    have := dawgHash_any hs size fuel
    generalize dawgHash mem fuel size a = r at this
    cases this with
    | sound h => exact absurd hv.1 (h.1 v)
    | gone => rfl
    | deep h1 h2 h3 => have := gap_bound hv h1 h3; omega

/-- C87: otherwise hashing recurses for ever; that is when there are arbitrarily long strings before all that lead to missing
nodes. -/
theorem c87_hash_endless (hs : EdgesSorted sgn mem a) (size : Nat) :
    (∀ fuel, dawgHash mem fuel size a = .error .diverge) ↔
      ∀ n, ∃ w b, Leads mem a w b ∧ n ≤ w.length ∧ ∀ v, LeadsNowhere mem a v → ¬ List.Lex (charLt sgn) v w := by
  constructor
  · intro h n
    have := dawgHash_any hs size n
    rw [h n] at this
    cases this with
    | deep h1 h2 h3 => exact ⟨_, _, h1, h2, h3⟩
  · intro h fuel
    have := dawgHash_any hs size fuel
    generalize dawgHash mem fuel size a = r at this
    cases this with
    | sound h' =>
      obtain ⟨N, hN⟩ := h'.2
      obtain ⟨w, b, h1, h2, _⟩ := h (N + 1)
      have := hN w b h1
      omega
    | @gone v hv =>
      obtain ⟨w, b, h1, h2, h3⟩ := h (max hv.2.2.choose v.length + 1)
      have := gap_bound hv h1 h3
      omega
    | deep => rfl

/-- C87: one of the three happens. -/
theorem c87_hash_cases (hs : EdgesSorted sgn mem a) (size : Nat) :
    (∃ h, Ends (fun fuel => dawgHash mem fuel size a) h) ∨
    (∃ N, ∀ fuel, N ≤ fuel → dawgHash mem fuel size a = .error .ub) ∨
    ∀ fuel, dawgHash mem fuel size a = .error .diverge := by
  by_cases hd : ∀ fuel, dawgHash mem fuel size a = .error .diverge
  · exact .inr (.inr hd)
  · rw [Classical.not_forall] at hd
    obtain ⟨fuel, hd⟩ := hd
    have := dawgHash_any hs size fuel
    generalize dawgHash mem fuel size a = r at this hd
    cases this with
    | sound h => exact .inl ((c87_hash hs size).2 ((sound_iff hs).1 h))
    | gone h => exact .inr (.inl ((c87_hash_undefined hs size).2 ⟨_, h⟩))
    | deep => exact absurd rfl hd

/-- C87: with a cycle and no missing node, hashing recurses for ever. -/
theorem c87_hash_cycle (hs : EdgesSorted sgn mem a) (hl : AllAlive mem a) (hc : HasCycle mem a) (size fuel : Nat) :
    dawgHash mem fuel size a = .error .diverge := by
  refine (c87_hash_endless hs size).2 (fun n => ?_) fuel
  obtain ⟨w, b, h1, h2⟩ := hc.long n
  exact ⟨w, b, h1, h2, fun v ⟨x, h3, h4⟩ => absurd h4 (hl x h3.toReaches)⟩

/-! ### Comparing -/

theorem dawgEq_any (hsa : EdgesSorted sgn mem a) (hsb : EdgesSorted sgn mem b) (size fuel : Nat) :
    EqOut sgn mem a b fuel (dawgEq mem fuel size a size b) := by
  have hnil : ClearBefore sgn mem a b [] := ⟨fun w hw => (by cases hw), 0, fun w _ hw => (by cases hw)⟩
  simp only [dawgEq, ne_eq, not_true_eq_false, if_false]
  cases ha : mem a with
  | none =>
    simp only [deref, ha, bind, Except.bind]
    exact .gone (v := []) ⟨a, b, .here, .here, .inl rfl, .inl ha⟩ hnil
  | some x =>
    cases hb : mem b with
    | none =>
      simp only [deref, ha, hb, bind, Except.bind]
      exact .gone (v := []) ⟨a, b, .here, .here, .inl rfl, .inr hb⟩ hnil
    | some y =>
      simp only [deref, ha, hb, bind, Except.bind]
      exact nodeEq_any fuel hsa hsb ha hb

theorem leads_snoc_inv {a d : Nat} {w : Str} {c : UInt8} (h : Leads mem a (w ++ [c]) d) :
    ∃ x nd, Leads mem a w x ∧ mem x = some nd ∧ (c, d) ∈ nd.edges := by
  generalize hv : w ++ [c] = v at h
  cases h with
  | here => simp at hv
  | snoc h1 h2 h3 =>
    obtain ⟨rfl, hc⟩ := List.append_inj' hv rfl
    cases hc
    exact ⟨_, _, h1, h2, h3⟩

theorem not_differ_gone (hsa : EdgesSorted sgn mem a) (hsb : EdgesSorted sgn mem b) {v : Str} (hd : DifferAt mem a b v)
    (hg : GoneAt mem a b v) : False := by
  obtain ⟨x, y, h1, h2, h3, h4⟩ := hg
  rcases hd with ⟨x', y', nd, nd', k1, k2, k3, k4, _⟩ | ⟨u, c, x', y', nd, rfl, k1, k2, k3, k4⟩
  · rw [leads_one hsa h1 k1, leads_one hsb h2 k2, k3, k4] at h4
    simp at h4
  · obtain ⟨z, nd', j1, j2, j3⟩ := leads_snoc_inv h2
    rw [leads_one hsb j1 k2, k3] at j2
    cases j2
    rcases h3 with h3 | h3
    · simp at h3
    · exact h3 (k4 _ j3)

/-- How long a string can be before the end is decided. -/
theorem clear_bound {v w : Str} (hc : ClearBefore sgn mem a b v) (hv : DifferAt mem a b v ∨ GoneAt mem a b v)
    (hw : CommonAt mem a b w) (hn : ∀ u, DifferAt mem a b u ∨ GoneAt mem a b u → ¬ List.Lex (charLt sgn) u w) :
    w.length ≤ max hc.2.choose v.length := by
  rcases lex_total (sgn := sgn) w v with h | rfl | h
  · have := hc.2.choose_spec w hw h; omega
  · omega
  · exact absurd h (hn v hv)

theorem clear_once (hsa : EdgesSorted sgn mem a) (hsb : EdgesSorted sgn mem b) {v v' : Str} (hd : DifferAt mem a b v)
    (hc : ClearBefore sgn mem a b v) (hg : GoneAt mem a b v') (hc' : ClearBefore sgn mem a b v') : False := by
  rcases lex_total (sgn := sgn) v v' with h | rfl | h
  · exact (hc'.1 v h).1 hd
  · exact not_differ_gone hsa hsb hd hg
  · exact (hc.1 v' h).2 hg

/-- C87: the comparison says "unequal" exactly if there is a difference with nothing else before it. -/
theorem c87_unequal (hsa : EdgesSorted sgn mem a) (hsb : EdgesSorted sgn mem b) (size : Nat) :
    Ends (fun fuel => dawgEq mem fuel size a size b) false ↔ ∃ v, DifferAt mem a b v ∧ ClearBefore sgn mem a b v := by
  constructor
  · rintro ⟨N, hN⟩
    have := dawgEq_any hsa hsb size N
    have hN := hN N (Nat.le_refl _)
    simp only at hN
    rw [hN] at this
    cases this with
    | differ h1 h2 => exact ⟨_, h1, h2⟩
  · rintro ⟨v, hv, hc⟩
    refine ⟨max hc.2.choose v.length + 1, fun fuel hf => ?_⟩
    have := dawgEq_any hsa hsb size fuel
    simp only
    generalize dawgEq mem fuel size a size b = r at this
    cases this with
    | same h => exact absurd hv (h.1 v).1
    | differ => rfl
    | gone h1 h2 => exact (clear_once hsa hsb hv hc h1 h2).elim
    | deep h1 h2 h3 => have := clear_bound hc (.inl hv) h1 h3; omega

/-- C87: the comparison is undefined behaviour exactly if there is a missing node with nothing else before it. -/
theorem c87_undefined (hsa : EdgesSorted sgn mem a) (hsb : EdgesSorted sgn mem b) (size : Nat) :
    (∃ N, ∀ fuel, N ≤ fuel → dawgEq mem fuel size a size b = .error .ub) ↔
      ∃ v, GoneAt mem a b v ∧ ClearBefore sgn mem a b v := by
  constructor
  · rintro ⟨N, hN⟩
    have := dawgEq_any hsa hsb size N
    rw [hN N (Nat.le_refl _)] at this
    cases this with
    | gone h1 h2 => exact ⟨_, h1, h2⟩
  · rintro ⟨v, hv, hc⟩
    refine ⟨max hc.2.choose v.length + 1, fun fuel hf => ?_⟩
    have := dawgEq_any hsa hsb size fuel
    generalize dawgEq mem fuel size a size b = r at this
    cases this with
    | same h => exact absurd hv (h.1 v).2
    | differ h1 h2 => exact (clear_once hsa hsb h1 h2 hv hc).elim
    | gone => rfl
    | deep h1 h2 h3 => have := clear_bound hc (.inr hv) h1 h3; omega

/-- C87: the comparison recurses for ever exactly if there are arbitrarily long strings that can be read from both places,
before all differences and missing nodes. -/
theorem c87_endless (hsa : EdgesSorted sgn mem a) (hsb : EdgesSorted sgn mem b) (size : Nat) :
    (∀ fuel, dawgEq mem fuel size a size b = .error .diverge) ↔ ∀ n, ∃ w, CommonAt mem a b w ∧ n ≤ w.length ∧
      ∀ v, DifferAt mem a b v ∨ GoneAt mem a b v → ¬ List.Lex (charLt sgn) v w := by
  constructor
  · intro h n
    have := dawgEq_any hsa hsb size n
    rw [h n] at this
    cases this with
    | deep h1 h2 h3 => exact ⟨_, h1, h2, h3⟩
  · intro h fuel
    have := dawgEq_any hsa hsb size fuel
    generalize dawgEq mem fuel size a size b = r at this
    cases this with
    | same h' =>
      obtain ⟨N, hN⟩ := h'.2
      obtain ⟨w, h1, h2, _⟩ := h (N + 1)
      have := hN w h1
      omega
    | @differ v hv hc =>
      obtain ⟨w, h1, h2, h3⟩ := h (max hc.2.choose v.length + 1)
      have := clear_bound hc (.inl hv) h1 h3
      omega
    | @gone v hv hc =>
      obtain ⟨w, h1, h2, h3⟩ := h (max hc.2.choose v.length + 1)
      have := clear_bound hc (.inr hv) h1 h3
      omega
    | deep => rfl

theorem equal_iff (hsa : EdgesSorted sgn mem a) (hsb : EdgesSorted sgn mem b) (size : Nat) :
    Ends (fun fuel => dawgEq mem fuel size a size b) true ↔ SameBelow mem a b := by
  constructor
  · rintro ⟨N, hN⟩
    have := dawgEq_any hsa hsb size N
    have hN := hN N (Nat.le_refl _)
    simp only at hN
    rw [hN] at this
    cases this with
    | same h => exact h
  · intro hs
    obtain ⟨N, hN⟩ := hs.2
    refine ⟨N + 1, fun fuel hf => ?_⟩
    have := dawgEq_any hsa hsb size fuel
    simp only
    generalize dawgEq mem fuel size a size b = r at this
    cases this with
    | same => rfl
    | @differ v h => exact absurd h (hs.1 v).1
    | @gone v h => exact absurd h (hs.1 v).2
    | @deep w h1 h2 => have := hN w h1; omega

/-- Where both can be read, there are nodes that agree. -/
theorem SameBelow.at (hsb : EdgesSorted sgn mem b) (hs : SameBelow mem a b) {w : Str} {x y : Nat}
    (hx : Leads mem a w x) (hy : Leads mem b w y) :
    ∃ nd nd', mem x = some nd ∧ mem y = some nd' ∧ nd.final = nd'.final ∧ nd.edges.length = nd'.edges.length ∧
      ∀ c d, (c, d) ∈ nd.edges → ∃ e, (c, e) ∈ nd'.edges := by
  have hy0 : w = [] ∨ y ≠ 0 := by
    apply Classical.byContradiction
    intro hn
    simp only [not_or, Classical.not_not] at hn
    obtain ⟨hw, rfl⟩ := hn
    obtain ⟨u, c, rfl⟩ : ∃ u c, w = u ++ [c] := ⟨w.dropLast, w.getLast hw, (List.dropLast_concat_getLast hw).symm⟩
    obtain ⟨z, nd, k1, k2, k3⟩ := leads_snoc_inv hy
    refine (hs.1 (u ++ [c])).1 (.inr ⟨u, c, x, z, nd, rfl, hx, k1, k2, fun z' hz' => ?_⟩)
    exact sorted_edge_unique (hsb z nd k1.toReaches k2) hz' k3
  have hg := (hs.1 w).2
  have hd := (hs.1 w).1
  cases hm : mem x with
  | none => exact absurd ⟨x, y, hx, hy, hy0, .inl hm⟩ hg
  | some nd =>
    cases hm' : mem y with
    | none => exact absurd ⟨x, y, hx, hy, hy0, .inr hm'⟩ hg
    | some nd' =>
      refine ⟨nd, nd', rfl, rfl, ?_, ?_, fun c d hcd => ?_⟩
      · exact Classical.byContradiction fun h => hd (.inl ⟨x, y, nd, nd', hx, hy, hm, hm', .inl h⟩)
      · exact Classical.byContradiction fun h => hd (.inl ⟨x, y, nd, nd', hx, hy, hm, hm', .inr h⟩)
      · apply Classical.byContradiction
        intro hn
        refine (hs.1 (w ++ [c])).1 (.inr ⟨w, c, d, y, nd', rfl, .snoc hx hm hcd, hy, hm', fun z hz => ?_⟩)
        exact absurd ⟨z, hz⟩ hn

theorem labels_nodup {es : List (UInt8 × Nat)} (h : es.Pairwise fun e f => charLt sgn e.1 f.1) : (es.map (·.1)).Nodup :=
  List.pairwise_map.2 (h.imp fun hlt he => by rw [he] at hlt; exact charLt_irrefl hlt)

theorem SameBelow.same_strings (hsa : EdgesSorted sgn mem a) (hsb : EdgesSorted sgn mem b)
    (hs : SameBelow mem a b) (w : Str) : (∃ x, Leads mem a w x) ↔ ∃ y, Leads mem b w y := by
  have snoc : ∀ w : Str, w = [] ∨ ∃ u c, w = u ++ [c] := fun w => by
    cases hw : w.reverse with
    | nil => exact .inl (List.reverse_eq_nil_iff.1 hw)
    | cons c u => exact .inr ⟨u.reverse, c, by rw [← List.reverse_reverse w, hw, List.reverse_cons]⟩
  generalize hn : w.length = n
  induction n generalizing w with
  | zero =>
    rw [List.length_eq_zero_iff] at hn
    subst hn
    exact ⟨fun _ => ⟨b, .here⟩, fun _ => ⟨a, .here⟩⟩
  | succ n ih =>
    rcases snoc w with rfl | ⟨u, c, rfl⟩
    · simp at hn
    have ih := ih u (by simpa using hn)
    constructor
    · rintro ⟨d, hd⟩
      obtain ⟨x, nd, h1, h2, h3⟩ := leads_snoc_inv hd
      obtain ⟨y, h4⟩ := ih.1 ⟨x, h1⟩
      obtain ⟨nd0, nd', k1, k2, _, _, k3⟩ := SameBelow.at hsb hs h1 h4
      rw [h2] at k1
      cases k1
      obtain ⟨e, he⟩ := k3 c d h3
      exact ⟨e, .snoc h4 k2 he⟩
    · rintro ⟨e, he⟩
      obtain ⟨y, nd', h1, h2, h3⟩ := leads_snoc_inv he
      obtain ⟨x, h4⟩ := ih.2 ⟨y, h1⟩
      obtain ⟨nd, nd0, k1, k2, _, k4, k3⟩ := SameBelow.at hsb hs h4 h1
      rw [h2] at k2
      cases k2
      have hsub : nd.edges.map (·.1) ⊆ nd'.edges.map (·.1) := by
        intro c' hc'
        obtain ⟨⟨c2, d⟩, hm, rfl⟩ := List.mem_map.1 hc'
        obtain ⟨e, he⟩ := k3 _ _ hm
        exact List.mem_map.2 ⟨_, he, rfl⟩
      have hc : c ∈ nd.edges.map (·.1) := by
        apply Classical.byContradiction
        intro hc
        have := List.Nodup.length_le_of_subset (l₁ := c :: nd.edges.map (·.1)) (l₂ := nd'.edges.map (·.1))
          (List.nodup_cons.2 ⟨hc, labels_nodup (hsa x nd h4.toReaches k1)⟩)
          (List.cons_subset.2 ⟨List.mem_map.2 ⟨_, h3, rfl⟩, hsub⟩)
        simp only [List.length_cons, List.length_map] at this
        omega
      obtain ⟨⟨c', d⟩, hm, rfl⟩ := List.mem_map.1 hc
      exact ⟨d, .snoc h4 k1 hm⟩

/-- C87: the comparison says "equal" exactly if both graphs have neither cycle nor missing node, the same strings can be read
in both, and both have the same language. -/
theorem c87_equal (h0 : mem 0 = none) (hsa : EdgesSorted sgn mem a) (hsb : EdgesSorted sgn mem b) (size : Nat) :
    Ends (fun fuel => dawgEq mem fuel size a size b) true ↔ (∃ k, DictNode sgn mem k a) ∧ (∃ k, DictNode sgn mem k b) ∧
      (∀ w, (∃ x, Leads mem a w x) ↔ ∃ y, Leads mem b w y) ∧ ∀ t, Accepts mem a t ↔ Accepts mem b t := by
  rw [equal_iff hsa hsb, ← sound_iff hsa, ← sound_iff hsb]
  constructor
  · intro hs
    have hw := SameBelow.same_strings hsa hsb hs
    obtain ⟨N, hN⟩ := hs.2
    refine ⟨⟨fun v => ?_, N, fun w x h => hN w ⟨⟨x, h⟩, (hw w).1 ⟨x, h⟩⟩⟩,
      ⟨fun v => ?_, N, fun w y h => hN w ⟨(hw w).2 ⟨y, h⟩, ⟨y, h⟩⟩⟩, hw, fun t => ?_⟩
    · rintro ⟨x, h1, h2⟩
      obtain ⟨y, h3⟩ := (hw v).1 ⟨x, h1⟩
      obtain ⟨nd, _, k, _⟩ := SameBelow.at hsb hs h1 h3
      rw [h2] at k; cases k
    · rintro ⟨y, h1, h2⟩
      obtain ⟨x, h3⟩ := (hw v).2 ⟨y, h1⟩
      obtain ⟨_, nd, _, k, _⟩ := SameBelow.at hsb hs h3 h1
      rw [h2] at k; cases k
    · constructor
      · intro h
        obtain ⟨x, h1⟩ := accepts_leads h
        obtain ⟨y, h2⟩ := (hw t).1 ⟨x, h1⟩
        obtain ⟨nd, nd', k1, k2, k3, _⟩ := SameBelow.at hsb hs h1 h2
        rw [leads_accepts hsb h2 k2, ← k3, ← leads_accepts hsa h1 k1]; exact h
      · intro h
        obtain ⟨y, h2⟩ := accepts_leads h
        obtain ⟨x, h1⟩ := (hw t).2 ⟨y, h2⟩
        obtain ⟨nd, nd', k1, k2, k3, _⟩ := SameBelow.at hsb hs h1 h2
        rw [leads_accepts hsa h1 k1, k3, ← leads_accepts hsb h2 k2]; exact h
  · rintro ⟨⟨ha, N, hN⟩, ⟨hb, _⟩, hw, ht⟩
    have alive : ∀ {r w z}, (∀ v, ¬ LeadsNowhere mem r v) → Leads mem r w z → ∃ nd, mem z = some nd := by
      intro r w z hr h
      cases hm : mem z with
      | none => exact absurd ⟨z, h, hm⟩ (hr w)
      | some nd => exact ⟨nd, rfl⟩
    -- edges on one side have their like on the other
    have edge : ∀ {u x y nd nd' c d}, Leads mem a u x → Leads mem b u y → mem x = some nd → mem y = some nd' →
        (c, d) ∈ nd.edges → ∃ e, (c, e) ∈ nd'.edges := by
      intro u x y nd nd' c d h1 h2 h3 h4 h5
      obtain ⟨e, he⟩ := (hw (u ++ [c])).1 ⟨d, .snoc h1 h3 h5⟩
      obtain ⟨y', nd2, k1, k2, k3⟩ := leads_snoc_inv he
      rw [leads_one hsb k1 h2, h4] at k2
      cases k2
      exact ⟨e, k3⟩
    have edge' : ∀ {u x y nd nd' c e}, Leads mem a u x → Leads mem b u y → mem x = some nd → mem y = some nd' →
        (c, e) ∈ nd'.edges → ∃ d, (c, d) ∈ nd.edges := by
      intro u x y nd nd' c e h1 h2 h3 h4 h5
      obtain ⟨d, hd⟩ := (hw (u ++ [c])).2 ⟨e, .snoc h2 h4 h5⟩
      obtain ⟨x', nd2, k1, k2, k3⟩ := leads_snoc_inv hd
      rw [leads_one hsa k1 h1, h3] at k2
      cases k2
      exact ⟨d, k3⟩
    refine ⟨fun v => ⟨?_, ?_⟩, N, fun w h => by obtain ⟨x, hx⟩ := h.1; exact hN w x hx⟩
    · rintro (⟨x, y, nd, nd', h1, h2, h3, h4, h5⟩ | ⟨u, c, x, y, nd', rfl, h1, h2, h3, h4⟩)
      · rcases h5 with h5 | h5
        · apply h5
          have := ht v
          rw [leads_accepts hsa h1 h3, leads_accepts hsb h2 h4] at this
          exact Bool.eq_iff_iff.2 this
        · apply h5
          have l1 := (labels_nodup (hsa x nd h1.toReaches h3)).length_le_of_subset (l₂ := nd'.edges.map (·.1)) (by
            intro c' hc'
            obtain ⟨⟨c2, d⟩, hm, rfl⟩ := List.mem_map.1 hc'
            obtain ⟨e, he⟩ := edge h1 h2 h3 h4 hm
            exact List.mem_map.2 ⟨_, he, rfl⟩)
          have l2 := (labels_nodup (hsb y nd' h2.toReaches h4)).length_le_of_subset (l₂ := nd.edges.map (·.1)) (by
            intro c' hc'
            obtain ⟨⟨c2, d⟩, hm, rfl⟩ := List.mem_map.1 hc'
            obtain ⟨e, he⟩ := edge' h1 h2 h3 h4 hm
            exact List.mem_map.2 ⟨_, he, rfl⟩)
          simp only [List.length_map] at l1 l2
          omega
      · obtain ⟨x0, nd, k1, k2, k3⟩ := leads_snoc_inv h1
        obtain ⟨e, he⟩ := edge k1 h2 k2 h3 k3
        obtain ⟨nd2, hm⟩ := alive hb (.snoc h2 h3 he)
        rw [h4 e he, h0] at hm
        cases hm
    · rintro ⟨x, y, h1, h2, _, h3⟩
      obtain ⟨nd, k1⟩ := alive ha h1
      obtain ⟨nd', k2⟩ := alive hb h2
      rw [k1, k2] at h3
      simp at h3

/-- C87: "equal" is symmetric, even here. -/
theorem c87_equal_symm (h0 : mem 0 = none) (hsa : EdgesSorted sgn mem a) (hsb : EdgesSorted sgn mem b) (size : Nat) :
    Ends (fun fuel => dawgEq mem fuel size a size b) true ↔ Ends (fun fuel => dawgEq mem fuel size b size a) true := by
  rw [c87_equal h0 hsa hsb, c87_equal h0 hsb hsa]
  constructor
  · rintro ⟨h1, h2, h3, h4⟩; exact ⟨h2, h1, fun w => (h3 w).symm, fun t => (h4 t).symm⟩
  · rintro ⟨h1, h2, h3, h4⟩; exact ⟨h2, h1, fun w => (h3 w).symm, fun t => (h4 t).symm⟩

/-- C87: one of the four happens. -/
theorem c87_cases (hsa : EdgesSorted sgn mem a) (hsb : EdgesSorted sgn mem b) (size : Nat) :
    Ends (fun fuel => dawgEq mem fuel size a size b) true ∨ Ends (fun fuel => dawgEq mem fuel size a size b) false ∨
    (∃ N, ∀ fuel, N ≤ fuel → dawgEq mem fuel size a size b = .error .ub) ∨
    ∀ fuel, dawgEq mem fuel size a size b = .error .diverge := by
  by_cases hd : ∀ fuel, dawgEq mem fuel size a size b = .error .diverge
  · exact .inr (.inr (.inr hd))
  · rw [Classical.not_forall] at hd
    obtain ⟨fuel, hd⟩ := hd
    have := dawgEq_any hsa hsb size fuel
    generalize dawgEq mem fuel size a size b = r at this hd
    cases this with
    | same h => exact .inl ((equal_iff hsa hsb size).2 h)
    | differ h1 h2 => exact .inr (.inl ((c87_unequal hsa hsb size).2 ⟨_, h1, h2⟩))
    | gone h1 h2 => exact .inr (.inr (.inl ((c87_undefined hsa hsb size).2 ⟨_, h1, h2⟩)))
    | deep => exact absurd rfl hd

/-- C87: without missing nodes, the comparison is never undefined behaviour. -/
theorem c87_alive (hsa : EdgesSorted sgn mem a) (hsb : EdgesSorted sgn mem b) (hla : AllAlive mem a) (hlb : AllAlive mem b)
    (size size' fuel : Nat) : dawgEq mem fuel size a size' b ≠ .error .ub := by
  intro h
  by_cases hsz : size = size'
  · subst hsz
    have := dawgEq_any hsa hsb size fuel
    rw [h] at this
    cases this with
    | gone h1 =>
      obtain ⟨x, y, k1, k2, _, k3⟩ := h1
      exact k3.elim (hla x k1.toReaches) (hlb y k2.toReaches)
  · simp [dawgEq, hsz] at h

/-! ### A graph compared with itself -/

theorem self_differ (hs : EdgesSorted sgn mem a) {v : Str} : DifferAt mem a a v ↔ v ≠ [] ∧ Leads mem a v 0 := by
  constructor
  · rintro (⟨x, y, nd, nd', h1, h2, h3, h4, h5⟩ | ⟨u, c, x, y, nd, rfl, h1, h2, h3, h4⟩)
    · rw [leads_one hs h1 h2, h4] at h3
      cases h3
      simp at h5
    · refine ⟨by simp, ?_⟩
      obtain ⟨y', nd', k1, k2, k3⟩ := leads_snoc_inv h1
      rw [leads_one hs k1 h2, h3] at k2
      cases k2
      rw [h4 x k3] at h1
      exact h1
  · rintro ⟨hv, h⟩
    obtain ⟨u, c, rfl⟩ : ∃ u c, v = u ++ [c] := ⟨v.dropLast, v.getLast hv, (List.dropLast_concat_getLast hv).symm⟩
    obtain ⟨y, nd, k1, k2, k3⟩ := leads_snoc_inv h
    exact .inr ⟨u, c, 0, y, nd, rfl, h, k1, k2, fun z hz => sorted_edge_unique (hs y nd k1.toReaches k2) hz k3⟩

theorem self_gone (hs : EdgesSorted sgn mem a) {v : Str} :
    GoneAt mem a a v ↔ LeadsNowhere mem a v ∧ (v = [] ∨ ¬ Leads mem a v 0) := by
  constructor
  · rintro ⟨x, y, h1, h2, h3, h4⟩
    obtain rfl := leads_one hs h1 h2
    exact ⟨⟨x, h1, h4.elim id id⟩, h3.imp id fun h k => h (leads_one hs h1 k)⟩
  · rintro ⟨⟨x, h1, h2⟩, h3⟩
    exact ⟨x, x, h1, h1, h3.imp id fun h k => h (k ▸ h1), .inl h2⟩

theorem self_stop (h0 : mem 0 = none) (hs : EdgesSorted sgn mem a) {v : Str} :
    DifferAt mem a a v ∨ GoneAt mem a a v ↔ LeadsNowhere mem a v := by
  rw [self_differ hs, self_gone hs]
  constructor
  · rintro (⟨_, h⟩ | ⟨h, _⟩)
    · exact ⟨0, h, h0⟩
    · exact h
  · intro h
    by_cases hv : v = []
    · exact .inr ⟨h, .inl hv⟩
    by_cases hl : Leads mem a v 0
    · exact .inl ⟨hv, hl⟩
    · exact .inr ⟨h, .inr hl⟩

theorem self_clear (h0 : mem 0 = none) (hs : EdgesSorted sgn mem a) {v : Str} (hv : LeadsNowhere mem a v) :
    ClearBefore sgn mem a a v ↔ FirstGap sgn mem a v := by
  have hstop := fun w => self_stop h0 hs (v := w)
  constructor
  · rintro ⟨h1, N, h2⟩
    refine ⟨hv, fun w hw hn => ?_, N, fun w b hb hw => h2 w ⟨⟨b, hb⟩, b, hb⟩ hw⟩
    exact ((hstop w).2 hn).elim (h1 w hw).1 (h1 w hw).2
  · rintro ⟨_, h1, N, h2⟩
    exact ⟨fun w hw => ⟨fun h => h1 w hw ((hstop w).1 (.inl h)), fun h => h1 w hw ((hstop w).1 (.inr h))⟩, N,
      fun w hc hw => by obtain ⟨b, hb⟩ := hc.1; exact h2 w b hb hw⟩

/-- C87: a graph is equal to itself exactly if it has neither cycle nor missing node.  It is unequal to itself if its first
string that leads to a missing node is one that ends with a null edge.  With another missing node there the comparison is
undefined behaviour, as is hashing. -/
theorem c87_self (h0 : mem 0 = none) (hs : EdgesSorted sgn mem a) (size : Nat) :
    (Ends (fun fuel => dawgEq mem fuel size a size a) true ↔ ∃ k, DictNode sgn mem k a) ∧
    (Ends (fun fuel => dawgEq mem fuel size a size a) false ↔ ∃ v, FirstGap sgn mem a v ∧ v ≠ [] ∧ Leads mem a v 0) ∧
    ((∃ N, ∀ fuel, N ≤ fuel → dawgEq mem fuel size a size a = .error .ub) ↔
      ∃ v, FirstGap sgn mem a v ∧ (v = [] ∨ ¬ Leads mem a v 0)) ∧
    ((∀ fuel, dawgEq mem fuel size a size a = .error .diverge) ↔ ∀ fuel, dawgHash mem fuel size a = .error .diverge) := by
  refine ⟨?_, ?_, ?_, ?_⟩
  · rw [c87_equal h0 hs hs]
    exact ⟨fun h => h.1, fun h => ⟨h, h, fun _ => Iff.rfl, fun _ => Iff.rfl⟩⟩
  · rw [c87_unequal hs hs]
    constructor
    · rintro ⟨v, h1, h2⟩
      have h3 := (self_stop h0 hs).1 (.inl h1)
      exact ⟨v, (self_clear h0 hs h3).1 h2, (self_differ hs).1 h1⟩
    · rintro ⟨v, h1, h2⟩
      exact ⟨v, (self_differ hs).2 h2, (self_clear h0 hs h1.1).2 h1⟩
  · rw [c87_undefined hs hs]
    constructor
    · rintro ⟨v, h1, h2⟩
      have h3 := (self_stop h0 hs).1 (.inr h1)
      exact ⟨v, (self_clear h0 hs h3).1 h2, ((self_gone hs).1 h1).2⟩
    · rintro ⟨v, h1, h2⟩
      exact ⟨v, (self_gone hs).2 ⟨h1.1, h2⟩, (self_clear h0 hs h1.1).2 h1⟩
  · rw [c87_endless hs hs, c87_hash_endless hs]
    constructor
    · intro h n
      obtain ⟨w, h1, h2, h3⟩ := h n
      obtain ⟨b, hb⟩ := h1.1
      exact ⟨w, b, hb, h2, fun v hv => h3 v ((self_stop h0 hs).2 hv)⟩
    · intro h n
      obtain ⟨w, b, h1, h2, h3⟩ := h n
      exact ⟨w, ⟨⟨b, h1⟩, b, h1⟩, h2, fun v hv => h3 v ((self_stop h0 hs).1 hv)⟩

end

/-- C87, foreign messages: what was read can be hashed, and is equal to itself, exactly if no missing node and no cycle can be
reached.  With a cycle and no missing node, both recurse for ever. -/
theorem c87_messages {sgn : Bool} {addr : Nat → Nat} {h h' : Heap} {msg : Msg} {d : SDawg} (ha : Allocator addr h)
    (hok : fromProto sgn addr msg h = .ok (h', d)) :
    ((∃ k, Ends (fun fuel => dawgHash h'.mem fuel d.size d.root) k) ↔ ¬ Dangling msg ∧ ¬ Cyclic msg) ∧
    (Ends (fun fuel => dawgEq h'.mem fuel d.size d.root d.size d.root) true ↔ ¬ Dangling msg ∧ ¬ Cyclic msg) ∧
    (¬ Dangling msg → Cyclic msg → ∀ fuel, dawgHash h'.mem fuel d.size d.root = .error .diverge ∧
      dawgEq h'.mem fuel d.size d.root d.size d.root = .error .diverge) := by
  obtain ⟨φ, hr⟩ := readAny_of_ok ha hok
  have hs := hr.sorted
  have hdict : (∃ k, DictNode sgn h'.mem k d.root) ↔ ¬ Dangling msg ∧ ¬ Cyclic msg := by
    rw [c81_dictionaries]
    constructor
    · rintro ⟨_, _, hl, hc⟩
      have hd := hr.allAlive.1 hl
      exact ⟨hd, fun h => hc ((hr.hasCycle hd).2 h)⟩
    · rintro ⟨hd, hc⟩
      exact ⟨hr.finite, hs, hr.allAlive.2 hd, fun h => hc ((hr.hasCycle hd).1 h)⟩
  refine ⟨by rw [c87_hash hs, hdict], by rw [(c87_self hr.null hs d.size).1, hdict], fun hd hc => ?_⟩
  have hh := c87_hash_cycle hs (hr.allAlive.2 hd) ((hr.hasCycle hd).2 hc) d.size
  exact fun fuel => ⟨hh fuel, (c87_self hr.null hs d.size).2.2.2.2 hh fuel⟩

/-! ### Cases -/

/-- Under `a`, node 1 has a null edge, node 2 a proper one. -/
def exNullEdge : Mem := fun a => match a with
  | 1 => some ⟨false, [(97, 0)]⟩
  | 2 => some ⟨false, [(97, 3)]⟩
  | 3 => some ⟨true, []⟩
  | _ => none

/-- C87: "unequal" is not symmetric: one way round the answer is "unequal", the other way round there is undefined
behaviour.  And a graph with a null edge is unequal to itself. -/
theorem c87_asymmetric : (∀ fuel, dawgEq exNullEdge (fuel + 1) 1 2 1 1 = .ok false) ∧
    (∀ fuel, dawgEq exNullEdge (fuel + 1) 1 1 1 2 = .error .ub) ∧
    ∀ fuel, dawgEq exNullEdge (fuel + 1) 1 1 1 1 = .ok false :=
  ⟨fun _ => rfl, fun _ => rfl, fun _ => rfl⟩

-- 1 and 2 can be read from: edges are sorted, and 0 is no place for a node
example (sgn : Bool) (a : Nat) : EdgesSorted sgn exNullEdge a ∧ exNullEdge 0 = none := by
  refine ⟨fun b nd _ hm => ?_, rfl⟩
  match b, hm with
  | 1, hm => cases hm; simp
  | 2, hm => cases hm; simp
  | 3, hm => cases hm; simp

-- the first string that leads nowhere
example (sgn : Bool) : FirstGap sgn exNullEdge 1 [97] ∧ Leads exNullEdge 1 [97] 0 := by
  have h : Leads exNullEdge 1 [97] 0 := .snoc (w := []) .here (nd := ⟨false, [(97, 0)]⟩) rfl (by simp)
  refine ⟨⟨⟨0, h, rfl⟩, fun w hw => ?_, 0, fun w b _ hw => ?_⟩, h⟩
  · cases hw with
    | nil => rw [nowhere_nil]; simp [exNullEdge]
    | rel hc =>
      rename_i c w
      rw [nowhere_cons (x := ⟨false, [(97, 0)]⟩) rfl]
      rintro ⟨d, hd, _⟩
      simp only [List.mem_cons, Prod.mk.injEq, List.not_mem_nil, or_false] at hd
      rw [hd.1] at hc
      exact charLt_irrefl hc
    | cons hw => cases hw
  · cases hw with
    | nil => simp
    | rel hc =>
      rename_i c w hl
      obtain ⟨d, hd, _⟩ := (leads_cons_iff (x := ⟨false, [(97, 0)]⟩) rfl).1 hl
      simp only [List.mem_cons, Prod.mk.injEq, List.not_mem_nil, or_false] at hd
      rw [hd.1] at hc
      exact absurd hc charLt_irrefl
    | cons hw => cases hw

-- a cycle before the missing node: `abbb…` comes before `zz`
example (n : Nat) : ∃ w b, Leads exDamaged 1 w b ∧ n ≤ w.length ∧
    ∀ v, LeadsNowhere exDamaged 1 v → ¬ List.Lex (charLt true) v w := by
  have two : ∀ n, Leads exDamaged 2 (List.replicate n 98) 2 := by
    intro n
    induction n with
    | zero => exact .here
    | succ n ih => exact leads_cons (nd := ⟨true, [(98, 2)]⟩) rfl (by simp) ih
  refine ⟨97 :: List.replicate n 98, 2, leads_cons (nd := ⟨false, [(97, 2), (122, 3)]⟩) rfl (by simp) (two n), by simp,
    fun v hv hlt => ?_⟩
  rw [exDamaged_nowhere hv] at hlt
  cases hlt with
  | rel h => simp [charLt, charKey] at h

example : dawgHash exDamaged 50 1 1 = .error .diverge ∧ dawgEq exDamaged 50 1 1 1 1 = .error .diverge ∧
    dawgEq exDamaged 50 1 1 1 3 = .ok false ∧ dawgEq exDamaged 50 1 3 1 3 = .ok false ∧
    dawgHash exDamaged 50 1 3 = .error .ub := by decide +kernel

-- cycles on one side only, or that differ, do no harm
example : dawgEq exRing 50 1 1 1 2 = .ok false ∧ dawgEq exRing 50 1 1 1 1 = .error .diverge := by decide +kernel

end Lev.Props
