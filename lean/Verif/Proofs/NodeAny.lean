import Verif.Proofs.IterAny
import Verif.Proofs.TestNode

/-!
# Comparing and hashing nodes of any graph

Both go through the strings that can be read, in lexicographic order, until they meet a difference or a missing node.
-/

namespace Lev

open Spec Props

theorem charKey_injective {sgn : Bool} {a b : UInt8} (h : charKey sgn a = charKey sgn b) : a = b := by
  have := a.toNat_lt
  have := b.toNat_lt
  apply UInt8.toNat_inj.1
  cases sgn <;> simp [charKey] at h <;> omega

theorem lex_total {sgn : Bool} (v w : Str) : List.Lex (charLt sgn) v w ∨ v = w ∨ List.Lex (charLt sgn) w v := by
  induction v generalizing w with
  | nil =>
    cases w with
    | nil => exact .inr (.inl rfl)
    | cons b w => exact .inl .nil
  | cons a v ih =>
    cases w with
    | nil => exact .inr (.inr .nil)
    | cons b w =>
      rcases Nat.lt_trichotomy (charKey sgn a) (charKey sgn b) with h | h | h
      · exact .inl (.rel h)
      · obtain rfl := charKey_injective h
        rcases ih w with h | rfl | h
        · exact .inl (.cons h)
        · exact .inr (.inl rfl)
        · exact .inr (.inr (.cons h))
      · exact .inr (.inr (.rel h))

theorem bound_list {α : Type} {P : α → Nat → Prop} (hmono : ∀ e m n, m ≤ n → P e m → P e n) (l : List α)
    (h : ∀ e ∈ l, ∃ N, P e N) : ∃ N, ∀ e ∈ l, P e N := by
  induction l with
  | nil => exact ⟨0, by simp⟩
  | cons e l ih =>
    obtain ⟨N, hN⟩ := ih fun x hx => h x (List.mem_cons_of_mem _ hx)
    obtain ⟨M, hM⟩ := h e (List.mem_cons_self ..)
    refine ⟨max M N, fun x hx => ?_⟩
    rcases List.mem_cons.1 hx with rfl | hx
    · exact hmono _ _ _ (Nat.le_max_left _ _) hM
    · exact hmono _ _ _ (Nat.le_max_right _ _) (hN x hx)

/-- An edge with a smaller label stands before. -/
theorem mem_pre {sgn : Bool} {pre post : List (UInt8 × Nat)} {c c' : UInt8} {d d' : Nat}
    (hs : (pre ++ (c, d) :: post).Pairwise (fun e f => charLt sgn e.1 f.1)) (he : (c', d') ∈ pre ++ (c, d) :: post)
    (hc : charLt sgn c' c) : (c', d') ∈ pre := by
  rcases List.mem_append.1 he with h | h
  · exact h
  · rcases List.mem_cons.1 h with h | h
    · cases h; exact absurd hc charLt_irrefl
    · have := (List.pairwise_cons.1 (List.pairwise_append.1 hs).2.1).1 _ h
      exact absurd (charLt_trans hc this) charLt_irrefl

section
variable {sgn : Bool} {mem : Mem}

theorem Spec.EdgesSorted.kid {a d : Nat} {x : DNode} {c : UInt8} (hs : EdgesSorted sgn mem a) (hm : mem a = some x)
    (he : (c, d) ∈ x.edges) : EdgesSorted sgn mem d :=
  fun e nd hr h => hs e nd (.step hm he hr) h

theorem leads_cons_iff {a z : Nat} {x : DNode} (hm : mem a = some x) {c : UInt8} {w : Str} :
    Leads mem a (c :: w) z ↔ ∃ d, (c, d) ∈ x.edges ∧ Leads mem d w z := by
  constructor
  · intro h
    obtain ⟨nd, b, h1, h2, h3⟩ := leads_cons_inv h rfl
    rw [hm] at h1
    cases h1
    exact ⟨b, h2, h3⟩
  · rintro ⟨d, h1, h2⟩
    exact leads_cons hm h1 h2

theorem leads_nil_iff {a z : Nat} : Leads mem a [] z ↔ z = a := by
  constructor
  · intro h
    generalize hw : ([] : Str) = u at h
    cases h with
    | here => rfl
    | snoc => simp at hw
  · rintro rfl; exact .here

/-! ### Hashing -/

theorem nowhere_cons {a : Nat} {x : DNode} (hm : mem a = some x) {c : UInt8} {w : Str} :
    LeadsNowhere mem a (c :: w) ↔ ∃ d, (c, d) ∈ x.edges ∧ LeadsNowhere mem d w := by
  simp only [LeadsNowhere, leads_cons_iff hm]
  constructor
  · rintro ⟨b, ⟨d, h1, h2⟩, h3⟩; exact ⟨d, h1, b, h2, h3⟩
  · rintro ⟨d, h1, b, h2, h3⟩; exact ⟨b, ⟨d, h1, h2⟩, h3⟩

theorem nowhere_nil {a : Nat} : LeadsNowhere mem a [] ↔ mem a = none := by
  simp only [LeadsNowhere, leads_nil_iff]
  constructor
  · rintro ⟨b, rfl, h⟩; exact h
  · exact fun h => ⟨a, rfl, h⟩

/-- Nothing is missing below `a`, and the strings that can be read have bounded length. -/
def Sound (mem : Mem) (a : Nat) : Prop := (∀ v, ¬ LeadsNowhere mem a v) ∧ ∃ N, ∀ w b, Leads mem a w b → w.length ≤ N

/-- How hashing comes out. -/
inductive HashOut {α : Type} (sgn : Bool) (mem : Mem) (a fuel : Nat) : Except Err α → Prop
  | sound {h : α} : Sound mem a → HashOut sgn mem a fuel (.ok h)
  | gone {v : Str} : FirstGap sgn mem a v → HashOut sgn mem a fuel (.error .ub)
  | deep {w : Str} {b : Nat} : Leads mem a w b → fuel ≤ w.length →
      (∀ v, LeadsNowhere mem a v → ¬ List.Lex (charLt sgn) v w) → HashOut sgn mem a fuel (.error .diverge)

/-- How hashing the edges `es` comes out. -/
inductive EdgesHashOut (sgn : Bool) (mem : Mem) (fuel : Nat) (es : List (UInt8 × Nat)) : Except Err UInt64 → Prop
  | all {h : UInt64} : (∀ e ∈ es, Sound mem e.2) → EdgesHashOut sgn mem fuel es (.ok h)
  | gone {pre post : List (UInt8 × Nat)} {c : UInt8} {d : Nat} {v : Str} : es = pre ++ (c, d) :: post →
      (∀ e ∈ pre, Sound mem e.2) → FirstGap sgn mem d v → EdgesHashOut sgn mem fuel es (.error .ub)
  | deep {pre post : List (UInt8 × Nat)} {c : UInt8} {d : Nat} {w : Str} {b : Nat} : es = pre ++ (c, d) :: post →
      (∀ e ∈ pre, Sound mem e.2) → Leads mem d w b → fuel ≤ w.length →
      (∀ v, LeadsNowhere mem d v → ¬ List.Lex (charLt sgn) v w) → EdgesHashOut sgn mem fuel es (.error .diverge)

theorem EdgesHashOut.cons {fuel : Nat} {e : UInt8 × Nat} {es : List (UInt8 × Nat)} {r : Except Err UInt64}
    (he : Sound mem e.2) (h : EdgesHashOut sgn mem fuel es r) : EdgesHashOut sgn mem fuel (e :: es) r := by
  have key : ∀ {pre : List (UInt8 × Nat)}, (∀ x ∈ pre, Sound mem x.2) → ∀ x ∈ e :: pre, Sound mem x.2 := by
    intro pre hp x hx
    rcases List.mem_cons.1 hx with rfl | hx
    · exact he
    · exact hp x hx
  cases h with
  | all g => exact .all (key g)
  | @gone pre post c d v g1 g2 g3 => exact .gone (pre := e :: pre) (by rw [g1]; rfl) (key g2) g3
  | @deep pre post c d w b g1 g2 g3 g4 g5 => exact .deep (pre := e :: pre) (by rw [g1]; rfl) (key g2) g3 g4 g5

theorem edgesHash_any {fuel : Nat} (hash : DNode → Except Err UInt64) (es : List (UInt8 × Nat))
    (ih : ∀ e ∈ es, ∀ nd, mem e.2 = some nd → HashOut sgn mem e.2 fuel (hash nd)) (h : UInt64) :
    EdgesHashOut sgn mem fuel es (edgesHash mem hash es h) := by
  induction es generalizing h with
  | nil => exact .all (by simp)
  | cons e es ih' =>
    obtain ⟨c, d⟩ := e
    cases hm : mem d with
    | none =>
      simp only [edgesHash, deref, hm, bind, Except.bind]
      refine .gone (pre := []) (v := []) rfl (by simp) ⟨nowhere_nil.2 hm, fun w hw => (by cases hw), 0,
        fun w b _ hw => (by cases hw)⟩
    | some nd =>
      have h1 := ih (c, d) (by simp) nd hm
      simp only [edgesHash, deref, hm, bind, Except.bind]
      generalize hash nd = r at h1
      cases h1 with
      | sound g => exact .cons g (ih' (fun e he => ih e (List.mem_cons_of_mem _ he)) _)
      | gone g => exact .gone (pre := []) rfl (by simp) g
      | deep g1 g2 g3 => exact .deep (pre := []) rfl (by simp) g1 g2 g3

theorem nodeHash_any (fuel : Nat) {a : Nat} {x : DNode} (hs : EdgesSorted sgn mem a) (hm : mem a = some x) :
    HashOut sgn mem a fuel (nodeHash mem fuel x) := by
  induction fuel generalizing a x with
  | zero => exact .deep (w := []) .here (Nat.le_refl _) fun v _ h => by cases h
  | succ fuel ih =>
    have hout := edgesHash_any (sgn := sgn) (fuel := fuel) (nodeHash mem fuel) x.edges
      (fun e he nd h => ih (hs.kid (c := e.1) hm he) h) hashSeed
    have hso := hs a x .refl hm
    have h0 : ¬ LeadsNowhere mem a [] := by rw [nowhere_nil, hm]; simp
    have hbd : ∀ {l : List (UInt8 × Nat)}, (∀ e ∈ l, Sound mem e.2) → ∃ N, ∀ e ∈ l, ∀ w b, Leads mem e.2 w b → w.length ≤ N :=
      fun {l} hl => bound_list (P := fun (e : UInt8 × Nat) N => ∀ w b, Leads mem e.2 w b → w.length ≤ N)
        (fun e m n hle h w b hw => Nat.le_trans (h w b hw) hle) l fun e he => (hl e he).2
    rw [nodeHash]
    generalize edgesHash mem (nodeHash mem fuel) x.edges hashSeed = r at hout
    cases hout with
    | all g =>
      obtain ⟨N, hN⟩ := hbd g
      refine .sound ⟨fun v hv => ?_, N + 1, fun w b hw => ?_⟩
      · cases v with
        | nil => exact h0 hv
        | cons c v =>
          obtain ⟨d, h1, h2⟩ := (nowhere_cons hm).1 hv
          exact (g _ h1).1 v h2
      · cases w with
        | nil => simp
        | cons c w =>
          obtain ⟨d, h1, h2⟩ := (leads_cons_iff hm).1 hw
          have := hN _ h1 w b h2
          simp; omega
    | @gone pre post c d v g1 g2 g3 =>
      have hcd : (c, d) ∈ x.edges := by rw [g1]; simp
      obtain ⟨N, hN⟩ := hbd g2
      obtain ⟨k1, k2, M, hM⟩ := g3
      refine .gone (v := c :: v) ⟨(nowhere_cons hm).2 ⟨d, hcd, k1⟩, fun w hw hn => ?_, max M N + 1, fun w b hl hw => ?_⟩
      · cases hw with
        | nil => exact h0 hn
        | @rel c' w _ _ hc =>
          obtain ⟨d', h1, h2⟩ := (nowhere_cons hm).1 hn
          rw [g1] at h1 hso
          exact (g2 _ (mem_pre hso h1 hc)).1 w h2
        | @cons _ w _ hw =>
          obtain ⟨d', h1, h2⟩ := (nowhere_cons hm).1 hn
          rw [sorted_edge_unique hso h1 hcd] at h2
          exact k2 w hw h2
      · cases hw with
        | nil => simp
        | @rel c' w _ _ hc =>
          obtain ⟨d', h1, h2⟩ := (leads_cons_iff hm).1 hl
          rw [g1] at h1 hso
          have := hN _ (mem_pre hso h1 hc) w b h2
          simp; omega
        | @cons _ w _ hw =>
          obtain ⟨d', h1, h2⟩ := (leads_cons_iff hm).1 hl
          rw [sorted_edge_unique hso h1 hcd] at h2
          have := hM w b h2 hw
          simp; omega
    | @deep pre post c d w b g1 g2 g3 g4 g5 =>
      have hcd : (c, d) ∈ x.edges := by rw [g1]; simp
      refine .deep (w := c :: w) ((leads_cons_iff hm).2 ⟨d, hcd, g3⟩) (by simp; omega) fun v hn hv => ?_
      cases hv with
      | nil => exact h0 hn
      | @rel c' v _ _ hc =>
        obtain ⟨d', h1, h2⟩ := (nowhere_cons hm).1 hn
        rw [g1] at h1 hso
        exact (g2 _ (mem_pre hso h1 hc)).1 v h2
      | @cons _ v _ hv =>
        obtain ⟨d', h1, h2⟩ := (nowhere_cons hm).1 hn
        rw [sorted_edge_unique hso h1 hcd] at h2
        exact g5 v h2 hv

/-! ### Comparing -/

variable {a b : Nat} {x y : DNode}

theorem common_cons (ha : mem a = some x) (hb : mem b = some y) {c : UInt8} {w : Str} :
    CommonAt mem a b (c :: w) ↔ ∃ d e, (c, d) ∈ x.edges ∧ (c, e) ∈ y.edges ∧ CommonAt mem d e w := by
  simp only [CommonAt, leads_cons_iff ha, leads_cons_iff hb]
  constructor
  · rintro ⟨⟨p, d, h1, h2⟩, q, e, h3, h4⟩; exact ⟨d, e, h1, h3, ⟨p, h2⟩, q, h4⟩
  · rintro ⟨d, e, h1, h3, ⟨p, h2⟩, q, h4⟩; exact ⟨⟨p, d, h1, h2⟩, q, e, h3, h4⟩

theorem differ_cons (ha : mem a = some x) (hb : mem b = some y) {c : UInt8} {v : Str} :
    DifferAt mem a b (c :: v) ↔ ∃ d, (c, d) ∈ x.edges ∧
      ((v = [] ∧ ∀ z, (c, z) ∈ y.edges → z = 0) ∨ ∃ e, (c, e) ∈ y.edges ∧ DifferAt mem d e v) := by
  constructor
  · rintro (⟨p, q, nd, nd', h1, h2, h3⟩ | ⟨u, c', p, q, nd, h1, h2, h3, h4, h5⟩)
    · obtain ⟨d, k1, k2⟩ := (leads_cons_iff ha).1 h1
      obtain ⟨e, k3, k4⟩ := (leads_cons_iff hb).1 h2
      exact ⟨d, k1, .inr ⟨e, k3, .inl ⟨p, q, nd, nd', k2, k4, h3⟩⟩⟩
    · obtain ⟨d, k1, k2⟩ := (leads_cons_iff ha).1 h2
      refine ⟨d, k1, ?_⟩
      cases u with
      | nil =>
        simp only [List.nil_append, List.cons.injEq] at h1
        obtain ⟨rfl, rfl⟩ := h1
        rw [leads_nil_iff] at h3
        subst h3
        rw [hb] at h4
        cases h4
        exact .inl ⟨rfl, h5⟩
      | cons c2 u =>
        simp only [List.cons_append, List.cons.injEq] at h1
        obtain ⟨rfl, rfl⟩ := h1
        obtain ⟨e, k3, k4⟩ := (leads_cons_iff hb).1 h3
        exact .inr ⟨e, k3, .inr ⟨u, c', p, q, nd, rfl, k2, k4, h4, h5⟩⟩
  · rintro ⟨d, h1, ⟨rfl, h2⟩ | ⟨e, h2, ⟨p, q, nd, nd', k1, k2, k3⟩ | ⟨u, c', p, q, nd, rfl, k2, k3, k4, k5⟩⟩⟩
    · exact .inr ⟨[], c, d, b, y, rfl, (leads_cons_iff ha).2 ⟨d, h1, .here⟩, .here, hb, h2⟩
    · exact .inl ⟨p, q, nd, nd', (leads_cons_iff ha).2 ⟨d, h1, k1⟩, (leads_cons_iff hb).2 ⟨e, h2, k2⟩, k3⟩
    · exact .inr ⟨c :: u, c', p, q, nd, rfl, (leads_cons_iff ha).2 ⟨d, h1, k2⟩, (leads_cons_iff hb).2 ⟨e, h2, k3⟩, k4, k5⟩

theorem differ_nil (ha : mem a = some x) (hb : mem b = some y) :
    DifferAt mem a b [] ↔ x.final ≠ y.final ∨ x.edges.length ≠ y.edges.length := by
  constructor
  · rintro (⟨p, q, nd, nd', h1, h2, h3, h4, h5⟩ | ⟨u, c', p, q, nd, h1, _⟩)
    · rw [leads_nil_iff] at h1 h2
      subst h1; subst h2
      rw [ha] at h3; rw [hb] at h4
      cases h3; cases h4
      exact h5
    · simp at h1
  · exact fun h => .inl ⟨a, b, x, y, .here, .here, ha, hb, h⟩

theorem gone_cons (ha : mem a = some x) (hb : mem b = some y) {c : UInt8} {v : Str} :
    GoneAt mem a b (c :: v) ↔ ∃ d e, (c, d) ∈ x.edges ∧ (c, e) ∈ y.edges ∧
      ∃ p q, Leads mem d v p ∧ Leads mem e v q ∧ q ≠ 0 ∧ (mem p = none ∨ mem q = none) := by
  simp only [GoneAt, leads_cons_iff ha, leads_cons_iff hb]
  constructor
  · rintro ⟨p, q, ⟨d, h1, h2⟩, ⟨e, h3, h4⟩, h5 | h5, h6⟩
    · cases h5
    · exact ⟨d, e, h1, h3, p, q, h2, h4, h5, h6⟩
  · rintro ⟨d, e, h1, h3, p, q, h2, h4, h5, h6⟩
    exact ⟨p, q, ⟨d, h1, h2⟩, ⟨e, h3, h4⟩, .inr h5, h6⟩

theorem gone_nil (ha : mem a = some x) (hb : mem b = some y) : ¬ GoneAt mem a b [] := by
  rintro ⟨p, q, h1, h2, _, h3⟩
  rw [leads_nil_iff] at h1 h2
  subst h1; subst h2
  rw [ha, hb] at h3
  simp at h3

/-- Both graphs can be gone through together, and there is no difference. -/
def SameBelow (mem : Mem) (a b : Nat) : Prop :=
  (∀ v, ¬ DifferAt mem a b v ∧ ¬ GoneAt mem a b v) ∧ ∃ N, ∀ w, CommonAt mem a b w → w.length ≤ N

/-- How a comparison comes out. -/
inductive EqOut (sgn : Bool) (mem : Mem) (a b fuel : Nat) : Except Err Bool → Prop
  | same : SameBelow mem a b → EqOut sgn mem a b fuel (.ok true)
  | differ {v : Str} : DifferAt mem a b v → ClearBefore sgn mem a b v → EqOut sgn mem a b fuel (.ok false)
  | gone {v : Str} : GoneAt mem a b v → ClearBefore sgn mem a b v → EqOut sgn mem a b fuel (.error .ub)
  | deep {w : Str} : CommonAt mem a b w → fuel ≤ w.length →
      (∀ v, DifferAt mem a b v ∨ GoneAt mem a b v → ¬ List.Lex (charLt sgn) v w) → EqOut sgn mem a b fuel (.error .diverge)

/-- The edge has its like in `y`, and below both everything is the same. -/
def Passed (mem : Mem) (y : DNode) (p : UInt8 × Nat) : Prop :=
  ∃ e nd nd', (p.1, e) ∈ y.edges ∧ e ≠ 0 ∧ mem p.2 = some nd ∧ mem e = some nd' ∧ SameBelow mem p.2 e

/-- How the comparison stops at an edge. -/
inductive EdgeStop (sgn : Bool) (mem : Mem) (y : DNode) (fuel : Nat) (c : UInt8) (d : Nat) : Except Err Bool → Prop
  | absent : (∀ z, (c, z) ∈ y.edges → z = 0) → EdgeStop sgn mem y fuel c d (.ok false)
  | missing {e : Nat} : (c, e) ∈ y.edges → e ≠ 0 → mem d = none ∨ mem e = none → EdgeStop sgn mem y fuel c d (.error .ub)
  | inner {e : Nat} {nd nd' : DNode} {r : Except Err Bool} : (c, e) ∈ y.edges → e ≠ 0 → mem d = some nd → mem e = some nd' →
      EqOut sgn mem d e fuel r → r ≠ .ok true → EdgeStop sgn mem y fuel c d r

/-- How the comparison of the edges `es` comes out. -/
inductive EdgesEqOut (sgn : Bool) (mem : Mem) (y : DNode) (fuel : Nat) (es : List (UInt8 × Nat)) : Except Err Bool → Prop
  | all : (∀ p ∈ es, Passed mem y p) → EdgesEqOut sgn mem y fuel es (.ok true)
  | stop {pre post : List (UInt8 × Nat)} {c : UInt8} {d : Nat} {r : Except Err Bool} : es = pre ++ (c, d) :: post →
      (∀ p ∈ pre, Passed mem y p) → EdgeStop sgn mem y fuel c d r → EdgesEqOut sgn mem y fuel es r

theorem EdgesEqOut.cons {fuel : Nat} {p : UInt8 × Nat} {es : List (UInt8 × Nat)} {r : Except Err Bool}
    (hp : Passed mem y p) (h : EdgesEqOut sgn mem y fuel es r) : EdgesEqOut sgn mem y fuel (p :: es) r := by
  have key : ∀ {pre : List (UInt8 × Nat)}, (∀ x ∈ pre, Passed mem y x) → ∀ x ∈ p :: pre, Passed mem y x := by
    intro pre hpre x hx
    rcases List.mem_cons.1 hx with rfl | hx
    · exact hp
    · exact hpre x hx
  cases h with
  | all g => exact .all (key g)
  | @stop pre post c d r g1 g2 g3 => exact .stop (pre := p :: pre) (by rw [g1]; rfl) (key g2) g3

theorem edgesEq_any {fuel : Nat} (hy : y.edges.Pairwise fun e f => charLt sgn e.1 f.1)
    (eq : DNode → DNode → Except Err Bool) (es : List (UInt8 × Nat))
    (ih : ∀ c d e nd nd', (c, d) ∈ es → (c, e) ∈ y.edges → mem d = some nd → mem e = some nd' →
      EqOut sgn mem d e fuel (eq nd nd')) :
    EdgesEqOut sgn mem y fuel es (edgesEq mem eq y es) := by
  induction es with
  | nil => exact .all (by simp)
  | cons p es ih' =>
    obtain ⟨c, d⟩ := p
    simp only [edgesEq]
    by_cases hz : nodeTransition y c = 0
    · rw [if_pos hz]
      refine .stop (pre := []) rfl (by simp) (.absent fun z h => ?_)
      rw [← nodeTransition_some hy h]; exact hz
    · rw [if_neg hz]
      have he : (c, nodeTransition y c) ∈ y.edges := by
        apply Classical.byContradiction
        intro hn
        refine hz (nodeTransition_none fun e h1 h2 => hn ?_)
        have h3 : (c, e.2) ∈ y.edges := by rw [← h2]; exact h1
        rw [nodeTransition_some hy h3]; exact h3
      cases hm : mem d with
      | none =>
        simp only [deref, hm, bind, Except.bind]
        exact .stop (pre := []) rfl (by simp) (.missing he hz (.inl hm))
      | some nd =>
        cases hm' : mem (nodeTransition y c) with
        | none =>
          simp only [deref, hm, hm', bind, Except.bind]
          exact .stop (pre := []) rfl (by simp) (.missing he hz (.inr hm'))
        | some nd' =>
          simp only [deref, hm, hm', bind, Except.bind]
          have hout := ih c d _ nd nd' (by simp) he hm hm'
          have hrest := ih' fun c d e nd nd' h => ih c d e nd nd' (List.mem_cons_of_mem _ h)
          cases hr : eq nd nd' with
          | error e =>
            rw [hr] at hout
            exact .stop (pre := []) rfl (by simp) (.inner he hz hm hm' hout (by simp))
          | ok q =>
            rw [hr] at hout
            cases q with
            | false =>
              simp only [Bool.false_eq_true, if_false]
              exact .stop (pre := []) rfl (by simp) (.inner he hz hm hm' hout (by simp))
            | true =>
              simp only [if_true]
              generalize hr' : (Except.ok true : Except Err Bool) = q at hout
              cases hout with
              | same g => exact .cons ⟨_, nd, nd', he, hz, hm, hm', g⟩ hrest
              | differ => cases hr'
              | gone => cases hr'
              | deep => cases hr'

theorem nodeEq_any (fuel : Nat) {a b : Nat} {x y : DNode} (hsa : EdgesSorted sgn mem a)
    (hsb : EdgesSorted sgn mem b) (ha : mem a = some x) (hb : mem b = some y) :
    EqOut sgn mem a b fuel (nodeEq mem fuel x y) := by
  induction fuel generalizing a b x y with
  | zero => exact .deep (w := []) ⟨⟨a, .here⟩, b, .here⟩ (Nat.le_refl _) fun v _ h => by cases h
  | succ fuel ih =>
    have hnil : ClearBefore sgn mem a b [] :=
      ⟨fun w hw => (by cases hw), 0, fun w _ hw => (by cases hw)⟩
    rw [nodeEq]
    by_cases hf : x.final ≠ y.final
    · rw [if_pos hf]
      exact .differ ((differ_nil ha hb).2 (.inl hf)) hnil
    replace hf := Classical.not_not.1 hf
    by_cases hl : x.edges.length ≠ y.edges.length
    · rw [if_neg (by simp [hf]), if_pos hl]
      exact .differ ((differ_nil ha hb).2 (.inr hl)) hnil
    replace hl := Classical.not_not.1 hl
    rw [if_neg (by simp [hf]), if_neg (by simp [hl])]
    have hx := hsa a x .refl ha
    have hy := hsb b y .refl hb
    have hd0 : ¬ DifferAt mem a b [] := by rw [differ_nil ha hb]; simp [hf, hl]
    have hg0 := gone_nil ha hb
    have hout := edgesEq_any (sgn := sgn) (fuel := fuel) hy (nodeEq mem fuel) x.edges
      fun c d e nd nd' h1 h2 h3 h4 => ih (hsa.kid ha h1) (hsb.kid hb h2) h3 h4
    -- what has passed does not stop anything
    have hno : ∀ {c : UInt8} {d : Nat} {v : Str}, (c, d) ∈ x.edges → Passed mem y (c, d) →
        ¬ DifferAt mem a b (c :: v) ∧ ¬ GoneAt mem a b (c :: v) := by
      rintro c d v hcd ⟨e, nd, nd', h1, h2, h3, h4, h5⟩
      refine ⟨fun h => ?_, fun h => ?_⟩
      · obtain ⟨d', k1, ⟨rfl, k2⟩ | ⟨e', k2, k3⟩⟩ := (differ_cons ha hb).1 h
        · exact h2 (k2 e h1)
        · rw [sorted_edge_unique hx k1 hcd, sorted_edge_unique hy k2 h1] at k3
          exact (h5.1 v).1 k3
      · obtain ⟨d', e', k1, k2, p, q, k3, k4, k5, k6⟩ := (gone_cons ha hb).1 h
        rw [sorted_edge_unique hx k1 hcd] at k3
        rw [sorted_edge_unique hy k2 h1] at k4
        exact (h5.1 v).2 ⟨p, q, k3, k4, .inr k5, k6⟩
    have hbd : ∀ {l : List (UInt8 × Nat)}, (∀ p ∈ l, p ∈ x.edges ∧ Passed mem y p) →
        ∃ N, ∀ p ∈ l, ∀ w, CommonAt mem a b (p.1 :: w) → w.length ≤ N := by
      intro l hl
      refine bound_list (P := fun (p : UInt8 × Nat) N => ∀ w, CommonAt mem a b (p.1 :: w) → w.length ≤ N)
        (fun p m n hle h w hw => Nat.le_trans (h w hw) hle) l fun p hp => ?_
      obtain ⟨hpx, e, nd, nd', h1, h2, h3, h4, h5, N, hN⟩ := hl p hp
      refine ⟨N, fun w hw => ?_⟩
      obtain ⟨d', e', k1, k2, k3⟩ := (common_cons ha hb).1 hw
      rw [sorted_edge_unique hx k1 hpx, sorted_edge_unique hy k2 h1] at k3
      exact hN w k3
    generalize edgesEq mem (nodeEq mem fuel) y x.edges = r at hout
    cases hout with
    | all g =>
      obtain ⟨N, hN⟩ := hbd (l := x.edges) fun p hp => ⟨hp, g p hp⟩
      refine .same ⟨fun v => ?_, N + 1, fun w hw => ?_⟩
      · cases v with
        | nil => exact ⟨hd0, hg0⟩
        | cons c v =>
          refine ⟨fun h => ?_, fun h => ?_⟩
          · obtain ⟨d, k1, _⟩ := (differ_cons ha hb).1 h
            exact (hno k1 (g _ k1)).1 h
          · obtain ⟨d, _, k1, _⟩ := (gone_cons ha hb).1 h
            exact (hno k1 (g _ k1)).2 h
      · cases w with
        | nil => simp
        | cons c w =>
          obtain ⟨d, _, k1, _⟩ := (common_cons ha hb).1 hw
          have := hN _ k1 w hw
          simp; omega
    | @stop pre post c d r g1 g2 g3 =>
      have hcd : (c, d) ∈ x.edges := by rw [g1]; simp
      have hpre : ∀ p ∈ pre, p ∈ x.edges := fun p hp => by rw [g1]; exact List.mem_append_left _ hp
      have hin : ∀ {c' d'}, (c', d') ∈ x.edges → charLt sgn c' c → (c', d') ∈ pre := by
        intro c' d' h hc
        rw [g1] at h hx
        exact mem_pre hx h hc
      obtain ⟨N, hN⟩ := hbd (l := pre) fun p hp => ⟨hpre p hp, g2 p hp⟩
      -- strings with a smaller first character
      have hless : ∀ {c' : UInt8} {w : Str}, charLt sgn c' c →
          (¬ DifferAt mem a b (c' :: w) ∧ ¬ GoneAt mem a b (c' :: w)) ∧ (CommonAt mem a b (c' :: w) → w.length ≤ N) := by
        intro c' w hc
        refine ⟨⟨fun h => ?_, fun h => ?_⟩, fun h => ?_⟩
        · obtain ⟨d', k1, _⟩ := (differ_cons ha hb).1 h
          exact (hno k1 (g2 _ (hin k1 hc))).1 h
        · obtain ⟨d', _, k1, _⟩ := (gone_cons ha hb).1 h
          exact (hno k1 (g2 _ (hin k1 hc))).2 h
        · obtain ⟨d', _, k1, _⟩ := (common_cons ha hb).1 h
          exact hN _ (hin k1 hc) w h
      -- nothing stops before the string `c`
      have hclear : ClearBefore sgn mem a b [c] := by
        refine ⟨fun w hw => ?_, N + 1, fun w hcm hw => ?_⟩
        · cases hw with
          | nil => exact ⟨hd0, hg0⟩
          | rel hc => exact (hless hc).1
          | cons hw => cases hw
        · cases hw with
          | nil => simp
          | rel hc => have := (hless hc).2 hcm; simp; omega
          | cons hw => cases hw
      cases g3 with
      | absent g => exact .differ ((differ_cons ha hb).2 ⟨d, hcd, .inl ⟨rfl, g⟩⟩) hclear
      | @missing e k1 k2 k3 => exact .gone ((gone_cons ha hb).2 ⟨d, e, hcd, k1, d, e, .here, .here, k2, k3⟩) hclear
      | @inner e nd nd' r k1 k2 k3 k4 k5 k6 =>
        have hdiff : ∀ {v : Str}, DifferAt mem a b (c :: v) → DifferAt mem d e v := by
          intro v h
          obtain ⟨d', j1, ⟨rfl, j2⟩ | ⟨e', j2, j3⟩⟩ := (differ_cons ha hb).1 h
          · exact absurd (j2 e k1) k2
          · rwa [sorted_edge_unique hx j1 hcd, sorted_edge_unique hy j2 k1] at j3
        have hgone : ∀ {v : Str}, GoneAt mem a b (c :: v) → GoneAt mem d e v := by
          intro v h
          obtain ⟨d', e', j1, j2, p, q, j3, j4, j5, j6⟩ := (gone_cons ha hb).1 h
          rw [sorted_edge_unique hx j1 hcd] at j3
          rw [sorted_edge_unique hy j2 k1] at j4
          exact ⟨p, q, j3, j4, .inr j5, j6⟩
        have hcom : ∀ {v : Str}, CommonAt mem a b (c :: v) → CommonAt mem d e v := by
          intro v h
          obtain ⟨d', e', j1, j2, j3⟩ := (common_cons ha hb).1 h
          rwa [sorted_edge_unique hx j1 hcd, sorted_edge_unique hy j2 k1] at j3
        have hclear' : ∀ {v : Str}, ClearBefore sgn mem d e v → ClearBefore sgn mem a b (c :: v) := by
          rintro v ⟨j1, M, hM⟩
          refine ⟨fun w hw => ?_, max M N + 1, fun w hcm hw => ?_⟩
          · cases hw with
            | nil => exact ⟨hd0, hg0⟩
            | rel hc => exact (hless hc).1
            | cons hw => exact ⟨fun h => (j1 _ hw).1 (hdiff h), fun h => (j1 _ hw).2 (hgone h)⟩
          · cases hw with
            | nil => simp
            | rel hc => have := (hless hc).2 hcm; simp; omega
            | cons hw => have := hM _ (hcom hcm) hw; simp; omega
        cases k5 with
        | same => exact absurd rfl k6
        | differ j1 j2 => exact .differ ((differ_cons ha hb).2 ⟨d, hcd, .inr ⟨e, k1, j1⟩⟩) (hclear' j2)
        | @gone v j1 j2 =>
          obtain ⟨p, q, i1, i2, i3, i4⟩ := j1
          have hq : q ≠ 0 := by
            rcases i3 with rfl | i3
            · rw [leads_nil_iff] at i2; rw [i2]; exact k2
            · exact i3
          exact .gone ((gone_cons ha hb).2 ⟨d, e, hcd, k1, p, q, i1, i2, hq, i4⟩) (hclear' j2)
        | @deep w j1 j2 j3 =>
          refine .deep (w := c :: w) ((common_cons ha hb).2 ⟨d, e, hcd, k1, j1⟩) (by simp; omega) fun v hv hlt => ?_
          cases hlt with
          | nil => exact hv.elim hd0 hg0
          | rel hc => exact hv.elim (hless hc).1.1 (hless hc).1.2
          | cons hw => exact j3 _ (hv.imp hdiff hgone) hw

end

end Lev
