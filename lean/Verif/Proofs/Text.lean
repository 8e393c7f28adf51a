import Verif.Model.Text
import Verif.Proofs.DemoText

/-!
# Lemmas on the texts of nodes, dictionaries and pairs
-/

namespace Lev

open Spec

/-- One edge in the text of a node. -/
def edgeText (c : UInt8) : Str := 39 :: c :: lit "':DawgNode{...}"

/-- The edges after the first. -/
def moreEdges : List UInt8 → Str
  | [] => []
  | c :: cs => lit ", " ++ edgeText c ++ moreEdges cs

theorem putEdges_pos (i : Nat) (out : Str) (es : List (UInt8 × Nat)) :
    putEdges (i + 1) out es = out ++ moreEdges (es.map (·.1)) := by
  induction es generalizing i out with
  | nil => simp [putEdges, moreEdges]
  | cons e es ih =>
    simp only [putEdges, ih, List.map_cons, moreEdges, edgeText, Nat.zero_lt_succ, gt_iff_lt, if_true,
      show lit "'" = [39] by decide, List.append_assoc, List.cons_append, List.nil_append]

theorem putEdges_zero (out : Str) (es : List (UInt8 × Nat)) :
    putEdges 0 out es = out ++ (lit ", ").intercalate (es.map fun e => edgeText e.1) := by
  have key : ∀ (cs : List UInt8) (c : UInt8), (lit ", ").intercalate ((c :: cs).map edgeText) = edgeText c ++ moreEdges cs := by
    intro cs
    induction cs with
    | nil => intro c; simp [List.intercalate, moreEdges]
    | cons d cs ih =>
      intro c
      have := ih d
      simp only [List.intercalate, List.map_cons, List.intersperse_cons_cons, List.flatten_cons, moreEdges] at this ⊢
      rw [this, List.append_assoc]
  cases es with
  | nil => simp [putEdges, List.intercalate]
  | cons e es =>
    have := key (es.map (·.1)) e.1
    rw [List.map_cons, List.map_map] at this
    rw [List.map_cons]
    simp only [putEdges, putEdges_pos, Nat.lt_irrefl, gt_iff_lt, if_false]
    rw [show (fun e : UInt8 × Nat => edgeText e.1) = edgeText ∘ (·.1) from rfl, this]
    simp only [edgeText, show lit "'" = [39] by decide, List.append_assoc, List.cons_append, List.nil_append]

theorem moreEdges_inj {cs ds : List UInt8} (h : moreEdges cs ++ lit "}}" = moreEdges ds ++ lit "}}") : cs = ds := by
  induction cs generalizing ds with
  | nil =>
    cases ds with
    | nil => rfl
    | cons d ds => exact absurd (congrArg List.head? h) (by
        simp only [moreEdges, List.nil_append, show lit ", " = [44, 32] by decide, List.cons_append, List.head?_cons]
        decide)
  | cons c cs ih =>
    cases ds with
    | nil => exact absurd (congrArg List.head? h) (by
        simp only [moreEdges, List.nil_append, show lit ", " = [44, 32] by decide, List.cons_append, List.head?_cons]
        decide)
    | cons d ds =>
      simp only [moreEdges, edgeText, List.append_assoc, List.cons_append, List.append_cancel_left_eq, List.cons.injEq,
        true_and] at h
      rw [h.1, ih h.2]

theorem putNode_inj {x y : DNode} (h : putNode x = putNode y) :
    x.final = y.final ∧ x.edges.map (·.1) = y.edges.map (·.1) := by
  have hd : ∀ z : DNode, putNode z = lit "DawgNode{is_final=" ++ ((if z.final then lit "true" else lit "false") ++
      (lit ", edges={" ++ (putEdges 0 [] z.edges ++ lit "}}"))) := by
    intro z; simp only [putNode, putEdges_zero, List.append_assoc, List.nil_append]
  rw [hd, hd, List.append_cancel_left_eq] at h
  have hf : x.final = y.final := by
    cases hx : x.final <;> cases hy : y.final <;>
      simp [hx, hy, show lit "true" = 116 :: lit "rue" by decide, show lit "false" = 102 :: lit "alse" by decide] at h ⊢
  refine ⟨hf, ?_⟩
  rw [hf, List.append_cancel_left_eq, List.append_cancel_left_eq] at h
  generalize x.edges = es at h
  generalize y.edges = fs at h
  have h1 : ∀ e es, putEdges 0 [] (e :: es) = edgeText e.1 ++ moreEdges (es.map (·.1)) := by
    intro e es
    simp only [putEdges, putEdges_pos, Nat.lt_irrefl, gt_iff_lt, if_false, edgeText, show lit "'" = [39] by decide,
      List.cons_append, List.nil_append]
  cases es with
  | nil =>
    cases fs with
    | nil => rfl
    | cons d ds =>
      rw [h1] at h
      simp [putEdges, edgeText, show lit "}}" = [125, 125] by decide] at h
  | cons c cs =>
    cases fs with
    | nil =>
      rw [h1] at h
      simp [putEdges, edgeText, show lit "}}" = [125, 125] by decide] at h
    | cons d ds =>
      simp only [h1, edgeText, List.append_assoc, List.cons_append, List.append_cancel_left_eq, List.cons.injEq,
        true_and] at h
      rw [List.map_cons, List.map_cons, h.1, moreEdges_inj h.2]

/-- What comes before a character that does not occur in it can be read off. -/
theorem until_inj {x : UInt8} {a b r s : Str} (ha : x ∉ a) (hb : x ∉ b) (h : a ++ x :: r = b ++ x :: s) : a = b ∧ r = s := by
  induction a generalizing b with
  | nil =>
    cases b with
    | nil => simpa using h
    | cons c b => simp only [List.nil_append, List.cons_append, List.cons.injEq] at h; exact absurd (by simp [h.1]) hb
  | cons c a ih =>
    cases b with
    | nil => simp only [List.nil_append, List.cons_append, List.cons.injEq] at h; exact absurd (by simp [h.1]) ha
    | cons d b =>
      simp only [List.cons_append, List.cons.injEq] at h
      obtain ⟨g1, g2⟩ := ih (fun hm => ha (by simp [hm])) (fun hm => hb (by simp [hm])) h.2
      exact ⟨by rw [h.1, g1], g2⟩

theorem putDawg_inj {ptr : Nat → Str} {n m r s : Nat} (h : putDawg ptr n r = putDawg ptr m s) : n = m ∧ ptr r = ptr s := by
  have hno : ∀ n, (44 : UInt8) ∉ numeral n := fun n hm => by
    have := (numeral_spec n).1 44 hm
    revert this; decide
  simp only [putDawg, putSize_numeral, List.append_assoc, List.append_cancel_left_eq,
    show lit ", root=" = 44 :: lit " root=" by decide, List.cons_append] at h
  obtain ⟨h1, h2⟩ := until_inj (hno n) (hno m) h
  exact ⟨numeral_inj h1, by simpa using h2⟩

theorem putPair_inj {p q : SymPair} (hp : 34 ∉ p.first) (hq : 34 ∉ q.first) (h : putPair p = putPair q) : p = q := by
  simp only [putPair, List.append_assoc, List.append_cancel_left_eq,
    show lit "\", second=\"" = 34 :: lit ", second=\"" by decide, List.cons_append] at h
  obtain ⟨h1, h2⟩ := until_inj hp hq h
  cases p; cases q
  simp only [List.append_cancel_left_eq, List.append_cancel_right_eq] at h1 h2
  rw [h1, h2]

end Lev
