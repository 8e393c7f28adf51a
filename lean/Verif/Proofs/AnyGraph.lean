import Verif.Proofs.Unroll
import Verif.Proofs.Demo

/-!
# Queries on any graph: exact, or undefined because of a missing node

If a query does not get to a missing node, its results are those in any memory in which something stands in that place.
So they would be the same whether it stands for no strings or for all of them.
-/

namespace Lev

open Spec

/-! ### More memory -/

/-- The first outcome is undefined behaviour, or it is the second. -/
def UbOr {α : Type} (a b : Except Err α) : Prop := a = .error .ub ∨ a = b

theorem UbOr.refl {α : Type} (a : Except Err α) : UbOr a a := .inr rfl

theorem UbOr.bind {α β : Type} {a b : Except Err α} {f g : α → Except Err β} (h : UbOr a b) (hf : ∀ x, UbOr (f x) (g x)) :
    UbOr (a >>= f) (b >>= g) := by
  rcases h with rfl | rfl
  · exact .inl rfl
  · cases a with
    | error e => exact .inr rfl
    | ok x => exact hf x

theorem UbOr.map {α β : Type} {a b : Except Err α} {f : α → β} (h : UbOr a b) : UbOr (a.map f) (b.map f) := by
  rcases h with rfl | rfl
  · exact .inl rfl
  · exact .inr rfl

/-- The memory with `x` in all places that are empty. -/
def fill (mem : Mem) (x : DNode) : Mem := fun a => match mem a with
  | some nd => some nd
  | none => some x

theorem fill_some {mem : Mem} {x nd : DNode} {a : Nat} (h : mem a = some nd) : fill mem x a = some nd := by simp [fill, h]

theorem fill_none {mem : Mem} {x : DNode} {a : Nat} (h : mem a = none) : fill mem x a = some x := by simp [fill, h]

theorem deref_fill (mem : Mem) (x : DNode) (a : Nat) : UbOr (deref mem a) (deref (fill mem x) a) := by
  cases h : mem a with
  | none => left; simp [deref, h]
  | some nd => right; simp [deref, h, fill]

section
variable {σ S R : Type} (B : Backend σ S) (mem : Mem) (x : DNode) (upd : Str → Nat → R)

theorem queryIter_fill (m : σ) (Q : Query S R) : UbOr (queryIter B mem upd m Q) (queryIter B (fill mem x) upd m Q) := by
  unfold queryIter
  split
  · split
    · exact .refl _
    · exact (UbOr.refl _).bind fun _ => (deref_fill mem x _).bind fun _ => .refl _
  · split
    · exact .refl _
    · refine (UbOr.refl _).bind fun _ => (UbOr.refl _).bind fun r => ?_
      obtain ⟨m', next⟩ := r
      cases next with
      | none => exact .refl _
      | some s => exact (deref_fill mem x _).bind fun _ => .refl _

theorem queryLoop_fill (fuel : Nat) (m : σ) (Q : Query S R) :
    UbOr (queryLoop B mem upd fuel m Q) (queryLoop B (fill mem x) upd fuel m Q) := by
  induction fuel generalizing m Q with
  | zero => exact .refl _
  | succ fuel ih =>
    rw [queryLoop, queryLoop]
    refine (queryIter_fill B mem x upd m Q).bind fun r => ?_
    obtain ⟨m', Q', stop⟩ := r
    dsimp only
    split
    · exact .refl _
    · split
      · exact .refl _
      · exact ih _ _

theorem queryAdvance_fill (fuel : Nat) (m : σ) (Q : Query S R) :
    UbOr (queryAdvance B mem upd fuel m Q) (queryAdvance B (fill mem x) upd fuel m Q) := by
  unfold queryAdvance
  split
  · exact .refl _
  · exact queryLoop_fill B mem x upd fuel m _

theorem queryCollect_fill (fuel : Nat) (m : σ) (Q : Query S R) :
    UbOr (queryCollect B mem upd fuel m Q) (queryCollect B (fill mem x) upd fuel m Q) := by
  induction fuel generalizing m Q with
  | zero => exact .refl _
  | succ fuel ih =>
    rw [queryCollect, queryCollect]
    split
    · exact .refl _
    · exact (queryAdvance_fill B mem x upd fuel m Q).bind fun r => (ih _ _).bind fun _ => .refl _

theorem queryAll_fill (fuel : Nat) (dflt : R) (m : σ) (root : Nat) (s0 : S) (term : Str) (n : Nat) :
    UbOr (queryAll B mem upd fuel dflt m root s0 term n) (queryAll B (fill mem x) upd fuel dflt m root s0 term n) := by
  unfold queryAll queryBegin
  refine UbOr.bind ((deref_fill mem x root).bind fun nd => ?_) fun _ => queryCollect_fill B mem x upd _ _ _
  dsimp only
  split
  · exact .refl _
  · exact queryAdvance_fill B mem x upd _ _ _

end

theorem transduce_fill {R : Type} (A : Algorithm) (upd : Str → Nat → R) (dflt : R) (mem : Mem) (x : DNode) (root : Nat)
    (q : Str) (n fuel : Nat) :
    UbOr (transduce A upd dflt mem root q n fuel) (transduce A upd dflt (fill mem x) root q n fuel) :=
  (queryAll_fill _ mem x upd fuel dflt () root initialState q n).map

/-! ### What to put there -/

/-- All bytes in the order of `char`. -/
def allBytes (sgn : Bool) : List UInt8 :=
  (List.range 256).map fun i => UInt8.ofNat (if sgn then (i + 128) % 256 else i)

theorem charKey_allBytes (sgn : Bool) {i : Nat} (h : i < 256) :
    charKey sgn (UInt8.ofNat (if sgn then (i + 128) % 256 else i)) = i := by
  cases sgn <;> simp [charKey] <;> omega

theorem allBytes_sorted (sgn : Bool) : (allBytes sgn).Pairwise (charLt sgn) := by
  rw [List.pairwise_iff_getElem]
  intro i j hi hj hij
  simp only [allBytes, List.length_map, List.length_range] at hi hj
  simp only [allBytes, List.getElem_map, List.getElem_range, charLt, charKey_allBytes sgn hi, charKey_allBytes sgn hj]
  exact hij

theorem mem_allBytes (sgn : Bool) (c : UInt8) : c ∈ allBytes sgn := by
  have hc := c.toNat_lt
  refine List.mem_map.2 ⟨charKey sgn c, ?_, ?_⟩
  · rw [List.mem_range]; unfold charKey; split <;> omega
  · apply UInt8.toNat_inj.1
    cases sgn <;> simp [charKey] <;> omega

/-- A node that accepts every string, if it stands at `b`. -/
def anyNode (sgn : Bool) (b : Nat) : DNode := ⟨true, (allBytes sgn).map fun c => (c, b)⟩

theorem anyNode_accepts {sgn : Bool} {mem : Mem} {b : Nat} (h : mem b = some (anyNode sgn b)) (u : Str) : Accepts mem b u := by
  induction u with
  | nil => exact .here h rfl
  | cons c u ih => exact .step h (List.mem_map.2 ⟨c, mem_allBytes sgn c, rfl⟩) ih

theorem fill_reaches {mem : Mem} {x : DNode} (hx : ∀ e ∈ x.edges, mem e.2 = none) {a y : Nat}
    (h : Reaches (fill mem x) a y) : Reaches mem a y ∨ mem y = none := by
  induction h with
  | refl => exact .inl .refl
  | @step a nd c b y hm he _ ih =>
    cases hma : mem a with
    | some nd' =>
      rw [fill_some hma] at hm
      cases hm
      rcases ih with ih | ih
      · exact .inl (.step hma he ih)
      · exact .inr ih
    | none =>
      rw [fill_none hma] at hm
      cases hm
      have hb := hx _ he
      rcases ih with ih | ih
      · cases ih with
        | refl => exact .inr hb
        | step h1 _ _ => rw [hb] at h1; cases h1
      · exact .inr ih

theorem fill_sorted {sgn : Bool} {mem : Mem} {root : Nat} {x : DNode} (hs : EdgesSorted sgn mem root)
    (hx : ∀ e ∈ x.edges, mem e.2 = none) (hxs : x.edges.Pairwise (fun e f => charLt sgn e.1 f.1)) :
    EdgesSorted sgn (fill mem x) root := by
  intro a nd ha hm
  cases hma : mem a with
  | some nd' =>
    rw [fill_some hma] at hm
    cases hm
    rcases fill_reaches hx ha with h | h
    · exact hs a _ h hma
    · rw [h] at hma; cases hma
  | none =>
    rw [fill_none hma] at hm
    cases hm
    exact hxs

theorem fill_leads {mem : Mem} {x : DNode} {a b : Nat} {w : Str} (h : Leads mem a w b) : Leads (fill mem x) a w b := by
  induction h with
  | here => exact .here
  | snoc _ hm he ih => exact .snoc ih (fill_some hm) he

theorem Spec.Leads.toReaches {mem : Mem} {a b : Nat} {w : Str} (h : Leads mem a w b) : Reaches mem a b := by
  have key : ∀ {x y z : Nat}, Reaches mem x y → Reaches mem y z → Reaches mem x z := by
    intro x y z h1 h2
    induction h1 with
    | refl => exact h2
    | step hm he _ ih => exact .step hm he (ih h2)
  induction h with
  | here => exact .refl
  | snoc _ hm he ih => exact key ih (.step hm he .refl)

theorem sorted_edge_unique {sgn : Bool} {es : List (UInt8 × Nat)} (h : es.Pairwise (fun e f => charLt sgn e.1 f.1))
    {c : UInt8} {b d : Nat} (h1 : (c, b) ∈ es) (h2 : (c, d) ∈ es) : b = d := by
  induction es with
  | nil => cases h1
  | cons e es ih =>
    rw [List.pairwise_cons] at h
    rcases List.mem_cons.1 h1 with e1 | e1 <;> rcases List.mem_cons.1 h2 with e2 | e2
    · rw [← e1] at e2; cases e2; rfl
    · have := h.1 _ e2; rw [← e1] at this; exact absurd this (Nat.lt_irrefl _)
    · have := h.1 _ e1; rw [← e2] at this; exact absurd this (Nat.lt_irrefl _)
    · exact ih h.2 e1 e2

/-- Where edges are sorted, there is one way to read a string. -/
theorem accepts_after {sgn : Bool} {mem : Mem} {root b : Nat} {w : Str} (hs : EdgesSorted sgn mem root)
    (h : Leads mem root w b) {u : Str} (ha : Accepts mem root (w ++ u)) : Accepts mem b u := by
  induction h generalizing u with
  | here => exact ha
  | @snoc w b nd c d hl hm he ih =>
    have := ih (u := c :: u) (by simpa using ha)
    cases this with
    | step hm' he' h' =>
      rw [hm] at hm'
      cases hm'
      rw [sorted_edge_unique (hs b nd hl.toReaches hm) he he']
      exact h'

/-! ### The results -/

section
variable {A : Algorithm} {n : Nat} {q : Str} {mem : Mem} {root : Nat} {sgn : Bool}

/-- Without a missing node, the query is exact and in order. -/
theorem query_graph (hs : EdgesSorted sgn mem root) (hL : QueryFits n q ∧ q.length + n + 2 ≤ 2 ^ 62) (hp : ¬ Pitfall A n q mem root) :
    ∃ rs : List (Str × Nat), (∀ t d, (t, d) ∈ rs ↔ Accepts mem root t ∧ IsMinCost A q t d ∧ d ≤ n) ∧
      rs.Pairwise (fun a b => shortLex sgn a.1 b.1) ∧
      ∀ {R : Type} (upd : Str → Nat → R), Yields A upd mem root q n (rs.map fun r => upd r.1 r.2) := by
  obtain ⟨nd, F, ht⟩ := (unrollFor_dictionary (n := n) (q := q) hs hL).tree
  refine ⟨allOut A n q nd F, fun t d => ?_, ht.allOut_order, fun {R} upd => ?_⟩
  · rw [ht.mem_allOut, unroll_accepts (Nat.zero_le _)]
    constructor
    · rintro ⟨⟨_, h1⟩, h2, h3⟩; exact ⟨h1, h2, h3⟩
    · rintro ⟨h1, h2, h3⟩
      have := h2.1.length_bounds.2
      exact ⟨⟨by omega, h1⟩, h2, h3⟩
  · obtain ⟨N, hN⟩ := ht.yields (A := A) (n := n) (q := q) (by rw [sizeMax_val]; omega) hL.1 upd
    refine ⟨N, fun fuel hf dflt => ?_⟩
    rcases transduce_unroll (A := A) (upd := upd) hs hL fuel dflt with h | ⟨_, h⟩
    · rw [← h]; exact hN fuel hf dflt
    · exact absurd h hp

/-- With a missing node at a prefix that can be continued, the query is undefined behaviour. -/
theorem query_pitfall (hs : EdgesSorted sgn mem root) (hL : QueryFits n q ∧ q.length + n + 2 ≤ 2 ^ 62) (hp : Pitfall A n q mem root)
    {R : Type} {upd : Str → Nat → R} (hupd : ∃ f : R → Str, ∀ t d, f (upd t d) = t) :
    ∃ N, ∀ fuel, N ≤ fuel → ∀ dflt, transduce A upd dflt mem root q n fuel = .error .ub := by
  obtain ⟨w, b, ⟨u, c, hc, hal⟩, hl, hb⟩ := hp
  obtain ⟨f, hf⟩ := hupd
  have nopit : ∀ x, ¬ Pitfall A n q (fill mem x) root := by
    rintro x ⟨w, b, _, _, h⟩
    unfold fill at h
    split at h <;> cases h
  have hs1 : EdgesSorted sgn (fill mem ⟨false, []⟩) root := fill_sorted hs (by simp) (by simp)
  have hs2 : EdgesSorted sgn (fill mem (anyNode sgn b)) root := by
    refine fill_sorted hs ?_ ?_
    · intro e he
      obtain ⟨_, _, rfl⟩ := List.mem_map.1 he
      exact hb
    · simp only [anyNode, List.pairwise_map]
      exact allBytes_sorted sgn
  obtain ⟨rs1, h1, _, y1⟩ := query_graph (n := n) (q := q) hs1 hL (nopit _)
  obtain ⟨rs2, h2, _, y2⟩ := query_graph (n := n) (q := q) hs2 hL (nopit _)
  obtain ⟨N1, y1⟩ := y1 upd
  obtain ⟨N2, y2⟩ := y2 upd
  refine ⟨max N1 N2, fun fuel hfu dflt => ?_⟩
  have e1 := y1 fuel (by omega) dflt
  have e2 := y2 fuel (by omega) dflt
  rcases transduce_fill A upd dflt mem ⟨false, []⟩ root q n fuel with h | h
  · exact h
  rcases transduce_fill A upd dflt mem (anyNode sgn b) root q n fuel with h' | h'
  · exact h'
  exfalso
  rw [h, e1, e2] at h'
  have heq := congrArg (List.map f) (Except.ok.inj h')
  simp only [List.map_map] at heq
  have hterm : ∀ rs : List (Str × Nat), rs.map (f ∘ fun r => upd r.1 r.2) = rs.map (·.1) := by
    intro rs
    exact List.map_congr_left fun r _ => hf r.1 r.2
  rw [hterm, hterm] at heq
  have hacc : Accepts (fill mem (anyNode sgn b)) root (w ++ u) :=
    (fill_leads hl).accepts (anyNode_accepts (fill_none hb) u)
  have hcost := cost_spec A q (w ++ u)
  have hin2 := (h2 (w ++ u) (cost A q (w ++ u))).2 ⟨hacc, hcost, Nat.le_trans (hcost.2 c hal) hc⟩
  have hin1 : w ++ u ∈ rs1.map (·.1) := by rw [heq]; exact List.mem_map_of_mem (f := (·.1)) hin2
  obtain ⟨⟨t, d⟩, hr, rfl⟩ := List.mem_map.1 hin1
  have := accepts_after hs1 (fill_leads hl) ((h1 _ d).1 hr).1
  cases this with
  | here hm hfin => rw [fill_none hb] at hm; cases hm; cases hfin
  | step hm he _ => rw [fill_none hb] at hm; cases hm; cases he

end

end Lev
