import Verif.Proofs.QueryRun

/-!
What a query on a dictionary yields, from `queryAll_spec`.
-/

namespace Lev

open Spec

section
variable {σ S R : Type} {A : Algorithm} {n : Nat} {q : Str} {B : Backend σ S}
  {Rep : σ → S → List Pos → Prop} {mem : Mem} {upd : Str → Nat → R} {s0 : S} {D : Nat}

/-- Repeated increments: the query is complete after as many as there are results left. -/
theorem queryAdvances_spec (hB : BackendOk A n q.length B Rep) (hn : n ≤ sizeMax) (hq : Spec.QueryFits n q)
    (hD : D < 2 ^ 62) (fuel : Nat) (k : Nat) {m : σ} {Q : Query S R} {P ch : List Item}
    (h : QueryInv A n q Rep mem s0 D m Q P ch) (hf : workOf P ch + 1 < fuel)
    (hc : Q.complete = true → P = [] ∧ ch = []) :
    ∃ m' Q' P' ch', queryAdvances B mem upd fuel k m Q = .ok (m', Q') ∧ QueryInv A n q Rep mem s0 D m' Q' P' ch' ∧
      Grow A n q.length B Rep m m' Q.owned Q'.owned ∧ workOf P' ch' + 1 < fuel ∧ (Q'.complete = true → P' = [] ∧ ch' = []) ∧
      (Q'.complete = true ↔ Q.complete = true ∨ (outOf A n q P ch).length < k) ∧
      (∀ r, 1 ≤ k → (outOf A n q P ch)[k - 1]? = some r → Q'.cand = upd r.1 r.2) := by
  induction k generalizing m Q P ch with
  | zero => exact ⟨m, Q, P, ch, rfl, h, Grow.refl _ _, hf, hc, by simp, by omega⟩
  | succ k ih =>
    obtain ⟨m1, Q1, P1, ch1, heq, hinv, hgrow, hadv⟩ := queryAdvance_spec (upd := upd) hB hn hq hD fuel h (by omega)
    have hc1 : Q1.complete = true → P1 = [] ∧ ch1 = [] := by
      rcases hadv with ⟨a1, _⟩ | ⟨_, _, a3, a4, _⟩
      · simp [a1]
      · exact fun _ => ⟨a3, a4⟩
    have hw1 : workOf P1 ch1 + 1 < fuel := by
      rcases hadv with ⟨_, a, _⟩ | ⟨_, _, rfl, rfl, _⟩
      · omega
      · simp [workOf, itemsWt]; omega
    obtain ⟨m2, Q2, P2, ch2, heq2, hinv2, hgrow2, hw2, hc2, hiff, hcand⟩ := ih hinv hw1 hc1
    refine ⟨m2, Q2, P2, ch2, ?_, hinv2, hgrow.trans hgrow2, hw2, hc2, ?_, ?_⟩
    · simp only [queryAdvances, heq, bind, Except.bind]; exact heq2
    · rw [hiff]
      rcases hadv with ⟨a1, _, t, d, a3, _⟩ | ⟨a1, a2, rfl, rfl, _⟩
      · rw [a3]
        constructor
        · rintro (h' | h')
          · rw [a1] at h'; cases h'
          · right; simp; omega
        · rintro (h' | h')
          · obtain ⟨rfl, rfl⟩ := hc h'
            rw [outOf_nil] at a3; cases a3
          · right; simp at h'; omega
      · rw [a2]; simp [a1]
    · intro r _ hr
      rcases hadv with ⟨a1, _, t, d, a3, a4, _⟩ | ⟨a1, a2, _⟩
      · rw [a3] at hr
        cases k with
        | zero =>
          simp only [Nat.zero_add, Nat.sub_self, List.getElem?_cons_zero, Option.some.injEq] at hr
          simp only [queryAdvances] at heq2
          cases heq2
          rw [a4, ← hr]
        | succ k =>
          simp only [Nat.add_sub_cancel, List.getElem?_cons_succ] at hr
          exact hcand r (by omega) (by simpa using hr)
      · rw [a2] at hr; simp at hr

end

/-- The tree below the root of a dictionary. -/
structure Tree (sgn : Bool) (mem : Mem) (root : Nat) (nd : DNode) (F : Forest) : Prop where
  node : mem root = some nd
  unf : Unf mem nd.edges F
  sorted : F.Sorted sgn
  height : F.height < 2 ^ 62

theorem Spec.Dictionary.tree {sgn : Bool} {mem : Mem} {root : Nat} (h : Dictionary sgn mem root) :
    ∃ nd F, Tree sgn mem root nd F := by
  obtain ⟨d, hd, h⟩ := h
  obtain ⟨nd, F, h1, h2, h3⟩ := DictNode.unf h
  exact ⟨nd, F, h1, h2, DictNode.sorted h h1 h2, by omega⟩

section
variable {sgn : Bool} {mem : Mem} {root : Nat} {nd : DNode} {F : Forest} {A : Algorithm} {n : Nat} {q : Str}

theorem Tree.yields {R : Type} (h : Tree sgn mem root nd F) (hn : n ≤ sizeMax) (hq : Spec.QueryFits n q)
    (upd : Str → Nat → R) : Yields A upd mem root q n ((allOut A n q nd F).map (fun r => upd r.1 r.2)) := by
  refine ⟨F.wt + 3, fun fuel hf dflt => ?_⟩
  obtain ⟨m', heq, _⟩ := queryAll_spec (upd := upd) (s0 := initialState) (m := ()) (listBackend_ok A n q.length) hn hq
    fuel dflt h.node h.unf h.height rfl hf
  unfold transduce
  rw [heq]
  rfl

theorem Yields.unique {R : Type} [Inhabited R] {upd : Str → Nat → R} {rs rs' : List R} (h : Yields A upd mem root q n rs)
    (h' : Yields A upd mem root q n rs') : rs = rs' := by
  obtain ⟨N, h⟩ := h
  obtain ⟨N', h'⟩ := h'
  have h1 := h (max N N') (by omega) default
  have h2 := h' (max N N') (by omega) default
  rw [h1] at h2
  exact Except.ok.inj h2

/-- All items of the walk, the root included. -/
theorem walk_mem (hm : mem root = some nd) (hu : Unf mem nd.edges F) (t : Str) :
    (∃ it ∈ rootItem nd F :: pushes [rootItem nd F], it.fin = true ∧ it.path = t) ↔ Accepts mem root t := by
  have hb := below_iff (it := rootItem nd F) hm rfl hu t
  have h1 := mem_pushes [rootItem nd F] t
  have h2 : Accepts mem root t ↔ Below' (rootItem nd F) t := by
    rw [hb]; simp [rootItem]
  rw [h2]
  constructor
  · rintro ⟨it, hit, hf, hp⟩
    rcases List.mem_cons.1 hit with rfl | hit
    · rw [← hp]; exact .here hf
    · obtain ⟨x, hx, y, hy, hby⟩ := h1.1 ⟨it, hit, hf, hp⟩
      simp only [List.mem_singleton] at hx
      subst hx
      exact .step hy hby
  · intro hb
    cases hb with
    | here hf => exact ⟨_, by simp, hf, rfl⟩
    | step hy hby =>
      obtain ⟨it, hit, h3⟩ := h1.2 ⟨_, List.mem_singleton.2 rfl, _, hy, hby⟩
      exact ⟨it, by simp [hit], h3⟩

theorem Tree.mem_walk (h : Tree sgn mem root nd F) (t : Str) :
    (∃ it ∈ rootItem nd F :: pushes [rootItem nd F], it.fin = true ∧ it.path = t) ↔ Accepts mem root t :=
  walk_mem h.node h.unf t

theorem walk_order (hs : F.Sorted sgn) :
    (rootItem nd F :: pushes [rootItem nd F]).Pairwise (fun a b => shortLex sgn a.path b.path) := by
  have h0 : Level sgn 0 [rootItem nd F] := by
    refine ⟨?_, by simp, ?_⟩
    · simp [rootItem]
    · simp only [List.mem_singleton, forall_eq]; exact hs
  have h1 := pushes_shortLex h0
  refine List.pairwise_cons.2 ⟨fun it hit => .inl ?_, h1.1⟩
  simpa [rootItem] using h1.2 it hit

theorem Tree.walk_order (h : Tree sgn mem root nd F) :
    (rootItem nd F :: pushes [rootItem nd F]).Pairwise (fun a b => shortLex sgn a.path b.path) :=
  Lev.walk_order h.sorted

theorem pushes_height (L : List Item) (H : Nat) (hL : ∀ it ∈ L, it.path.length + it.kids.height ≤ H) :
    ∀ it ∈ pushes L, it.path.length + it.kids.height ≤ H := by
  induction L using queue_induction with
  | nil => simp [pushes_nil]
  | cons x rest ih =>
    have hx := hL x (by simp)
    have hch : ∀ it ∈ x.children, it.path.length + it.kids.height ≤ H := fun it hit =>
      Nat.le_trans (mem_items_height hit) hx
    intro it hit
    rw [pushes_cons] at hit
    rcases List.mem_append.1 hit with hit | hit
    · exact hch it hit
    · refine ih (fun y hy => ?_) it hit
      rcases List.mem_append.1 hy with hy | hy
      · exact hL y (by simp [hy])
      · exact hch y hy

theorem walk_height (_ : Tree sgn mem root nd F) {it : Item} (hit : it ∈ rootItem nd F :: pushes [rootItem nd F]) :
    it.path.length ≤ F.height := by
  rcases List.mem_cons.1 hit with rfl | hit
  · simp [rootItem]
  · have := pushes_height [rootItem nd F] F.height (by simp [rootItem]) it hit
    omega

theorem resultOf_some {it : Item} {r : Str × Nat} : resultOf A n q it = some r ↔
    it.fin = true ∧ it.path = r.1 ∧ cost A q r.1 = r.2 ∧ r.2 ≤ n := by
  unfold resultOf
  obtain ⟨t, d⟩ := r
  split
  · next hc =>
    simp only [Option.some.injEq, Prod.mk.injEq]
    constructor
    · rintro ⟨rfl, rfl⟩; exact ⟨hc.1, rfl, rfl, hc.2⟩
    · rintro ⟨_, rfl, rfl, _⟩; exact ⟨rfl, rfl⟩
  · next hc =>
    simp only [reduceCtorEq, false_iff]
    rintro ⟨h1, rfl, h3, h4⟩
    exact hc ⟨h1, by rw [h3]; exact h4⟩

theorem Tree.mem_allOut (h : Tree sgn mem root nd F) (t : Str) (d : Nat) :
    (t, d) ∈ allOut A n q nd F ↔ Accepts mem root t ∧ IsMinCost A q t d ∧ d ≤ n := by
  unfold allOut
  rw [List.mem_filterMap, ← h.mem_walk]
  constructor
  · rintro ⟨it, hit, hr⟩
    obtain ⟨h1, h2, h3, h4⟩ := resultOf_some.1 hr
    exact ⟨⟨it, hit, h1, h2⟩, (show cost A q t = d from h3) ▸ cost_spec A q t, h4⟩
  · rintro ⟨⟨it, hit, h1, h2⟩, h3, h4⟩
    exact ⟨it, hit, resultOf_some.2 ⟨h1, h2, (cost_spec A q t).unique h3, h4⟩⟩

theorem pairwise_filterMap_of {α β : Type} {r : α → α → Prop} {s : β → β → Prop} {f : α → Option β}
    (hf : ∀ a b a' b', f a = some a' → f b = some b' → r a b → s a' b') {l : List α} (h : l.Pairwise r) :
    (l.filterMap f).Pairwise s := by
  induction h with
  | nil => simp
  | @cons a l hl _ ih =>
    rw [List.filterMap_cons]
    split
    · exact ih
    · next b hb =>
      refine List.pairwise_cons.2 ⟨fun c hc => ?_, ih⟩
      obtain ⟨x, hx, hxc⟩ := List.mem_filterMap.1 hc
      exact hf _ _ _ _ hb hxc (hl x hx)

theorem Tree.allOut_order (h : Tree sgn mem root nd F) :
    (allOut A n q nd F).Pairwise (fun a b => shortLex sgn a.1 b.1) :=
  pairwise_filterMap_of (fun a b a' b' ha hb hab => by
    rw [← (resultOf_some.1 ha).2.1, ← (resultOf_some.1 hb).2.1]; exact hab) h.walk_order

theorem lex_irrefl {sgn : Bool} {s : Str} : ¬ List.Lex (charLt sgn) s s := by
  induction s with
  | nil => intro h; cases h
  | cons a s ih =>
    intro h
    cases h with
    | rel h => exact charLt_irrefl h
    | cons h => exact ih h

theorem shortLex_irrefl {sgn : Bool} {s : Str} : ¬ shortLex sgn s s := by
  rintro (h | ⟨_, h⟩)
  · omega
  · exact lex_irrefl h

theorem allOut_filter {m : Nat} (hnm : n ≤ m) :
    allOut A n q nd F = (allOut A m q nd F).filter (fun r => decide (r.2 ≤ n)) := by
  unfold allOut
  rw [List.filter_filterMap]
  congr 1
  funext it
  unfold resultOf
  by_cases h1 : it.fin = true
  · by_cases h2 : cost A q it.path ≤ n
    · have h3 : cost A q it.path ≤ m := by omega
      simp [h1, h2, h3, Option.filter]
    · by_cases h3 : cost A q it.path ≤ m
      · simp [h1, h2, h3, Option.filter]
      · simp [h1, h2, h3]
  · simp [h1]

end

end Lev
