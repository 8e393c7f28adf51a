import Verif.Model.BuildCost
import Verif.Proofs.DeleteCost

/-!
The functions that count (`Verif/Model/BuildCost.lean`) compute what those of `Verif/Model/Dawg.lean` do, and the counts of
hashing and comparing two nodes.
-/

namespace Lev

open Spec

/-! ### Erasing the count -/

/-- The result without the count. -/
def erase {α β : Type} (x : Except Err (α × β)) : Except Err α := x.map Prod.fst

theorem erase_ok {α β : Type} (r : α) (w : β) : erase (.ok (r, w) : Except Err (α × β)) = .ok r := rfl

theorem erase_error {α β : Type} (e : Err) : erase (.error e : Except Err (α × β)) = .error e := rfl

theorem erase_bind {α β γ δ : Type} {x : Except Err (α × β)} {y : Except Err α} {f : α × β → Except Err (γ × δ)}
    {g : α → Except Err γ} (hx : erase x = y) (h : ∀ a n, erase (f (a, n)) = g a) : erase (x >>= f) = y >>= g := by
  subst hx
  cases x with
  | error e => rfl
  | ok r => exact h r.1 r.2

theorem erase_bind' {α γ δ : Type} {x : Except Err α} {f : α → Except Err (γ × δ)}
    {g : α → Except Err γ} (h : ∀ a, erase (f a) = g a) : erase (x >>= f) = x >>= g := by
  cases x with
  | error e => rfl
  | ok r => exact h r

theorem erase_tail {α β δ : Type} {x : Except Err (α × β)} {y : Except Err α} {f : α × β → Except Err (α × δ)}
    (hx : erase x = y) (h : ∀ a n, erase (f (a, n)) = .ok a) : erase (x >>= f) = y := by
  subst hx
  cases x with
  | error e => rfl
  | ok r => exact h r.1 r.2

theorem edgesEqN_erase {mem : Mem} {eqN : DNode → DNode → Except Err (Bool × Nat)} {eq : DNode → DNode → Except Err Bool}
    (h : ∀ x y, erase (eqN x y) = eq x y) (y : DNode) (es : List (UInt8 × Nat)) :
    erase (edgesEqN mem eqN y es) = edgesEq mem eq y es := by
  induction es with
  | nil => rfl
  | cons e es ih =>
    obtain ⟨l, a⟩ := e
    rw [edgesEqN, edgesEq]
    simp only
    split
    · rfl
    · refine erase_bind' fun x => erase_bind' fun y => erase_bind (h _ _) fun r n => ?_
      cases r with
      | true =>
        simp only [if_true]
        exact erase_tail ih fun _ _ => rfl
      | false => rfl

theorem nodeEqN_erase (mem : Mem) (fuel : Nat) (x y : DNode) : erase (nodeEqN mem fuel x y) = nodeEq mem fuel x y := by
  induction fuel generalizing x y with
  | zero => rfl
  | succ fuel ih =>
    rw [nodeEqN, nodeEq]
    split
    · rfl
    · split
      · rfl
      · exact erase_tail (edgesEqN_erase ih _ _) fun _ _ => rfl

theorem edgesHashN_erase {mem : Mem} {hN : DNode → Except Err (UInt64 × Nat)} {hs : DNode → Except Err UInt64}
    (h : ∀ x, erase (hN x) = hs x) (es : List (UInt8 × Nat)) (k : UInt64) :
    erase (edgesHashN mem hN es k) = edgesHash mem hs es k := by
  induction es generalizing k with
  | nil => rfl
  | cons e es ih =>
    obtain ⟨l, a⟩ := e
    rw [edgesHashN, edgesHash]
    refine erase_bind' fun x => erase_bind (h _) fun r n => ?_
    exact erase_tail (ih _) fun _ _ => rfl

theorem nodeHashN_erase (mem : Mem) (fuel : Nat) (x : DNode) : erase (nodeHashN mem fuel x) = nodeHash mem fuel x := by
  induction fuel generalizing x with
  | zero => rfl
  | succ fuel ih =>
    rw [nodeHashN, nodeHash]
    exact erase_bind (edgesHashN_erase ih _ _) fun _ _ => rfl

theorem regFindN_erase (mem : Mem) (fuel : Nat) (hash : UInt64) (key : DNode) (reg : List RegEntry) :
    erase (regFindN mem fuel hash key reg) = regFind mem fuel hash key reg := by
  induction reg with
  | nil => rfl
  | cons e reg ih =>
    rw [regFindN, regFind]
    split
    · refine erase_bind (nodeEqN_erase _ _ _ _) fun r n => ?_
      cases r with
      | true => rfl
      | false =>
        simp only [Bool.false_eq_true, if_false]
        exact erase_tail ih fun _ _ => rfl
    · exact ih

theorem minimizedNodeN_erase (fuel key : Nat) (h : Heap) (d : SDawg) :
    erase (minimizedNodeN fuel key h d) = minimizedNode fuel key h d := by
  rw [minimizedNodeN, minimizedNode]
  refine erase_bind' fun nd => ?_
  cases d.minimized with
  | none => rfl
  | some reg =>
    exact erase_bind (nodeHashN_erase _ _ _) fun r n => erase_tail (regFindN_erase _ _ _ _ _) fun _ _ => rfl

theorem regSetN_erase (mem : Mem) (fuel : Nat) (hash : UInt64) (key : DNode) (val : Nat) (reg : List RegEntry) :
    erase (regSetN mem fuel hash key val reg) = regSet mem fuel hash key val reg := by
  induction reg with
  | nil => rfl
  | cons e reg ih =>
    rw [regSetN, regSet]
    split
    · refine erase_bind (nodeEqN_erase _ _ _ _) fun r n => ?_
      cases r with
      | true => rfl
      | false =>
        simp only [Bool.false_eq_true, if_false]
        exact erase_bind ih fun _ _ => rfl
    · exact erase_bind ih fun _ _ => rfl

theorem registerN_erase (fuel target : Nat) (h : Heap) (d : SDawg) :
    erase (registerN fuel target h d) = register fuel target h d := by
  rw [registerN, register]
  refine erase_bind' fun nd => ?_
  cases d.minimized with
  | none => rfl
  | some reg =>
    exact erase_bind (nodeHashN_erase _ _ _) fun r n => erase_bind (regSetN_erase _ _ _ _ _ _) fun _ _ => rfl

theorem minimizeStepN_erase (sgn : Bool) (fuel : Nat) (h : Heap) (d : SDawg) :
    erase (minimizeStepN sgn fuel h d) = minimizeStep sgn fuel h d := by
  rw [minimizeStepN, minimizeStep]
  rcases d.unchecked with _ | _ | ⟨t, rest⟩
  · rfl
  · rfl
  · refine erase_bind (minimizedNodeN_erase _ _ _ _) fun o w => ?_
    cases o with
    | some x => exact erase_bind' fun _ => rfl
    | none => exact erase_bind' fun h => erase_bind (registerN_erase _ _ _ _) fun _ _ => rfl

theorem minimizeLoopN_erase (sgn : Bool) (fuel k : Nat) (h : Heap) (d : SDawg) :
    erase (minimizeLoopN sgn fuel k h d) = minimizeLoop sgn fuel k h d := by
  induction k generalizing h d with
  | zero => rfl
  | succ k ih =>
    rw [minimizeLoopN, minimizeLoop]
    refine erase_bind (minimizeStepN_erase _ _ _ _) fun r w => ?_
    exact erase_tail (ih _ _) fun _ _ => rfl

theorem minimizeN_erase (sgn : Bool) (fuel lower : Nat) (h : Heap) (d : SDawg) :
    erase (minimizeN sgn fuel lower h d) = minimize sgn fuel lower h d := by
  rw [minimizeN, minimize]
  cases d.unchecked with
  | none => rfl
  | some st => exact minimizeLoopN_erase _ _ _ _ _

theorem addTermN_erase (sgn : Bool) (addr : Nat → Nat) (fuel : Nat) (term : Str) (h : Heap) (d : SDawg) :
    erase (addTermN sgn addr fuel term h d) = addTerm sgn addr fuel term h d := by
  rw [addTermN, addTerm]
  split
  · rfl
  · split
    · exact erase_bind' fun _ => rfl
    · exact erase_bind (minimizeN_erase _ _ _ _ _) fun r w => erase_bind' fun s => erase_bind' fun q =>
        erase_bind' fun _ => rfl

theorem buildLoopN_erase (sgn : Bool) (addr : Nat → Nat) (fuel : Nat) (terms : List Str) (h : Heap) (d : SDawg) :
    erase (buildLoopN sgn addr fuel terms h d) = buildLoop sgn addr fuel terms h d := by
  induction terms generalizing h d with
  | nil => rfl
  | cons t terms ih =>
    rw [buildLoopN, buildLoop]
    refine erase_bind (addTermN_erase _ _ _ _ _ _) fun r w => ?_
    obtain ⟨b, h1, d1⟩ := r
    cases b with
    | true =>
      simp only [if_true]
      exact erase_tail (ih _ _) fun _ _ => rfl
    | false => exact erase_bind' fun _ => rfl

theorem sortedDawgN_erase (sgn : Bool) (addr : Nat → Nat) (fuel : Nat) (terms : List Str) (h : Heap) :
    erase (sortedDawgN sgn addr fuel terms h) = sortedDawg sgn addr fuel terms h := by
  rw [sortedDawgN, sortedDawg]
  refine erase_bind (buildLoopN_erase _ _ _ _ _ _) fun r w => ?_
  obtain ⟨h1, o⟩ := r
  cases o with
  | none => rfl
  | some d => exact erase_bind (minimizeN_erase _ _ _ _ _) fun r w => erase_bind' fun _ => rfl

/-- Forgetting the count of a run. -/
theorem Ends.erase {α β : Type} {f : Nat → Except Err (α × β)} {g : Nat → Except Err α} (hfg : ∀ n, Lev.erase (f n) = g n)
    {r : α} {w : β} (h : Ends f (r, w)) : Ends g r := by
  obtain ⟨N, hN⟩ := h
  exact ⟨N, fun fuel hf => by rw [← hfg, hN fuel hf]; rfl⟩

/-! ### Hashing one node -/

theorem edgesHashN_spec {mem : Mem} {hash : DNode → Except Err (UInt64 × Nat)} {es : List (UInt8 × Nat)} {F : Forest}
    (hF : Unf mem es F)
    (hh : ∀ l f k, (l, f, k) ∈ F.toList → ∀ x, x.final = f → Unf mem x.edges k →
      hash x = .ok (treeHash f k, 1 + k.size))
    (h : UInt64) : edgesHashN mem hash es h = .ok (F.hashWith mixByte hashSeed h, F.size) := by
  induction hF generalizing h with
  | nil => rw [edgesHashN, Forest.hashWith, Forest.size]
  | @cons l a nd es kids rest hm h1 _ _ ih =>
    have h2 := hh l nd.final kids (by simp [Forest.toList]) nd rfl h1
    have h3 := fun h => ih (fun l f k he => hh l f k (by simp [Forest.toList, he])) h
    rw [edgesHashN]
    simp only [deref, hm, bind, Except.bind]
    rw [h2, Forest.hashWith, ← treeHash]
    simp only
    rw [h3]
    rfl

/-- Hashing a node hashes once for each node of the tree below it. -/
theorem nodeHashN_spec {mem : Mem} {fuel : Nat} {x : DNode} {F : Forest} (hF : Unf mem x.edges F)
    (hfuel : F.height < fuel) : nodeHashN mem fuel x = .ok (treeHash x.final F, 1 + F.size) := by
  induction fuel generalizing x F with
  | zero => omega
  | succ fuel ih =>
    rw [nodeHashN, edgesHashN_spec hF]
    · simp only [bind, Except.bind, treeHash, mixByte]
      cases x.final <;> rfl
    · intro l f k he x hx hu
      subst hx
      exact ih hu (by have := Forest.height_mem he; omega)

/-! ### Comparing two nodes -/

/-- The number of nodes of the tree below the edge `l`. -/
def Forest.under (l : UInt8) : Forest → Nat
  | .nil => 0
  | .cons c _ k r => if c = l then 1 + k.size else r.under l

theorem Forest.under_cons (l c : UInt8) (f : Bool) (k r : Forest) :
    (Forest.cons c f k r).under l = if c = l then 1 + k.size else r.under l := rfl

theorem Forest.under_mem {sgn : Bool} {G : Forest} (hG : G.Sorted sgn) {l : UInt8} {f : Bool} {k : Forest}
    (h : (l, f, k) ∈ G.toList) : G.under l = 1 + k.size := by
  have hs := hG.toList.1
  clear hG
  induction G with
  | nil => simp [Forest.toList] at h
  | cons c g k' r _ ih =>
    rw [Forest.toList, List.pairwise_cons] at hs
    rw [Forest.under_cons]
    rcases List.mem_cons.1 h with h | h
    · cases h; simp
    · have : c ≠ l := by
        rintro rfl
        have := hs.1 _ h
        simp [charLt] at this
      rw [if_neg this, ih h hs.2]

theorem Forest.under_sum (G : Forest) {ls : List UInt8} (hls : ls.Nodup) : (ls.map (G.under ·)).sum ≤ G.size := by
  induction G with
  | nil =>
    have : ∀ ls : List UInt8, (ls.map (Forest.nil.under ·)).sum = 0 := by
      intro ls
      induction ls with
      | nil => rfl
      | cons l ls ih => rw [List.map_cons, List.sum_cons, ih]; rfl
    rw [this]; exact Nat.zero_le _
  | cons c f k r _ ih =>
    have key : ∀ ls : List UInt8, ls.Nodup → (ls.map ((Forest.cons c f k r).under ·)).sum ≤
        (if c ∈ ls then 1 + k.size else 0) + (ls.map (r.under ·)).sum := by
      intro ls hls
      induction ls with
      | nil => simp
      | cons l ls ih =>
        have hl := List.nodup_cons.1 hls
        have ih := ih hl.2
        rw [List.map_cons, List.sum_cons, List.map_cons, List.sum_cons, Forest.under_cons]
        simp only [List.mem_cons]
        by_cases hcl : c = l
        · subst hcl
          rw [if_neg hl.1] at ih
          simp only [if_true, true_or]
          omega
        · simp only [hcl, if_false, false_or]
          omega
    have h1 := key ls hls
    have h2 : (if c ∈ ls then 1 + k.size else 0) ≤ 1 + k.size := by split <;> omega
    simp only [Forest.size]
    omega

theorem edgesEqN_spec {sgn : Bool} {mem : Mem} (h0 : mem 0 = none) {y : DNode} {G : Forest} (hG : Unf mem y.edges G)
    (sG : G.Sorted sgn) {es : List (UInt8 × Nat)} {F : Forest} (hF : Unf mem es F)
    (heq : ∀ l f k, (l, f, k) ∈ F.toList → ∀ x y f' k', x.final = f → Unf mem x.edges k → y.final = f' →
      Unf mem y.edges k' → (l, f', k') ∈ G.toList → ∃ n, (∀ fuel, k.height < fuel →
        nodeEqN mem fuel x y = .ok (decide (f = f' ∧ k = k'), n)) ∧ n ≤ 1 + k.size ∧ n ≤ 1 + k'.size ∧
        (f = f' ∧ k = k' → n = 1 + k.size)) :
    ∃ n, (∀ fuel, F.height ≤ fuel →
        edgesEqN mem (nodeEqN mem fuel) y es = .ok (decide (∀ e ∈ F.toList, e ∈ G.toList), n)) ∧
      n ≤ F.size ∧ n ≤ (F.toList.map (G.under ·.1)).sum ∧ ((∀ e ∈ F.toList, e ∈ G.toList) → n = F.size) := by
  induction hF with
  | nil => exact ⟨0, fun _ _ => by simp [edgesEqN, Forest.toList], by simp [Forest.size], by simp, fun _ => rfl⟩
  | @cons l a nd es kids rest hm h1 _ _ ih =>
    obtain ⟨n', hr', b1, b2, b3⟩ := ih fun l f k he => heq l f k (by simp [Forest.toList, he])
    rcases hG.find y.final l with ⟨b, ndb, k, hb, hmb, hub, hmem⟩ | ⟨hb, hno⟩
    · have hb' : nodeTransition y l = b := hb
      have hb0 : b ≠ 0 := by rintro rfl; rw [h0] at hmb; cases hmb
      obtain ⟨n, hr, c1, c2, c3⟩ :=
        heq l nd.final kids (by simp [Forest.toList]) nd ndb ndb.final k rfl h1 rfl hub hmem
      have hund := Forest.under_mem sG hmem
      by_cases hk : nd.final = ndb.final ∧ kids = k
      · have hin : (l, nd.final, kids) ∈ G.toList := by rw [hk.1, hk.2]; exact hmem
        refine ⟨n + n', fun fuel hf => ?_, by simp only [Forest.size]; omega, ?_, fun hall => ?_⟩
        · simp only [Forest.height] at hf
          rw [edgesEqN]
          simp only [hb', hb0, if_false, deref, hm, hmb, bind, Except.bind]
          rw [hr fuel (by omega)]
          simp only [decide_eq_true hk, if_true]
          rw [hr' fuel (by omega)]
          simp only [Forest.toList, List.forall_mem_cons, hin, true_and]
        · simp only [Forest.toList, List.map_cons, List.sum_cons, hund]; omega
        · have := b3 fun e he => hall e (by simp [Forest.toList, he])
          have := c3 hk
          simp only [Forest.size]; omega
      · have hnin : (l, nd.final, kids) ∉ G.toList := fun h' => hk (by
          have := forest_label_unique sG h' hmem; simpa using this)
        have hnall : ¬ ∀ e ∈ (Forest.cons l nd.final kids rest).toList, e ∈ G.toList := fun h =>
          hnin (h (l, nd.final, kids) (by simp [Forest.toList]))
        refine ⟨n, fun fuel hf => ?_, by simp only [Forest.size]; omega, ?_, fun hall => absurd hall hnall⟩
        · simp only [Forest.height] at hf
          rw [edgesEqN, decide_eq_false hnall]
          simp only [hb', hb0, if_false, deref, hm, hmb, bind, Except.bind]
          rw [hr fuel (by omega)]
          simp [hk]
        · simp only [Forest.toList, List.map_cons, List.sum_cons, hund]; omega
    · have hb' : nodeTransition y l = 0 := hb
      have hnall : ¬ ∀ e ∈ (Forest.cons l nd.final kids rest).toList, e ∈ G.toList := fun h =>
        hno _ _ (h (l, nd.final, kids) (by simp [Forest.toList]))
      refine ⟨0, fun fuel _ => ?_, by omega, by omega, fun hall => absurd hall hnall⟩
      rw [edgesEqN, decide_eq_false hnall]
      simp [hb']

/-- Comparing two nodes compares at least once, at most once for each node of either tree, and that often if they are
equal. -/
theorem nodeEqN_spec {sgn : Bool} {mem : Mem} (h0 : mem 0 = none) {x y : DNode} {F G : Forest}
    (hF : Unf mem x.edges F) (hG : Unf mem y.edges G) (sF : F.Sorted sgn) (sG : G.Sorted sgn) :
    ∃ n, (∀ fuel, F.height < fuel → nodeEqN mem fuel x y = .ok (decide (x.final = y.final ∧ F = G), n)) ∧
      1 ≤ n ∧ n ≤ 1 + F.size ∧ n ≤ 1 + G.size ∧ (x.final = y.final ∧ F = G → n = 1 + F.size) := by
  generalize hN : F.height = N
  induction N using Nat.strongRecOn generalizing x y F G with
  | _ N ih =>
    subst hN
    by_cases hf : x.final = y.final
    · by_cases hl : x.edges.length = y.edges.length
      · obtain ⟨n, hr, b1, b2, b3⟩ := edgesEqN_spec h0 hG sG hF (fun l f k he x' y' f' k' hx hux hy huy he' => by
          subst hx; subst hy
          obtain ⟨n, h1, _, h3, h4, h5⟩ := ih k.height (Forest.height_mem he) hux huy (sF.toList.2 _ he)
            (sG.toList.2 _ he') rfl
          exact ⟨n, h1, h3, h4, h5⟩)
        have hiff : (∀ e ∈ F.toList, e ∈ G.toList) ↔ x.final = y.final ∧ F = G := by
          constructor
          · intro h
            refine ⟨hf, Forest.toList_inj ((forest_sublist sF sG h).eq_of_length ?_)⟩
            rw [hF.length, hG.length, hl]
          · rintro ⟨_, rfl⟩ e he; exact he
        refine ⟨1 + n, fun fuel hfu => ?_, by omega, by omega, ?_, fun h => by rw [b3 (hiff.2 h)]⟩
        · cases fuel with
          | zero => omega
          | succ fuel =>
            rw [nodeEqN]
            simp only [hf, ne_eq, not_true_eq_false, if_false, hl]
            rw [hr fuel (by omega)]
            simp only [bind, Except.bind]
            congr 2
            rw [decide_eq_decide, hiff]
            simp [hf]
        · have hls : (F.toList.map (·.1)).Nodup := by
            rw [List.Nodup, List.pairwise_map]
            refine sF.toList.1.imp fun {a b} hab h' => ?_
            rw [charLt, h'] at hab
            omega
          have := G.under_sum hls
          rw [List.map_map] at this
          have h2 : (F.toList.map (G.under ·.1)).sum ≤ G.size := this
          omega
      · have : ¬ (x.final = y.final ∧ F = G) := by
          rintro ⟨_, rfl⟩; exact hl (hF.length ▸ hG.length ▸ rfl)
        refine ⟨1, fun fuel hfu => ?_, by omega, by omega, by omega, fun h => absurd h this⟩
        cases fuel with
        | zero => omega
        | succ fuel =>
          rw [nodeEqN, decide_eq_false this]
          simp [hf, hl]
    · have : ¬ (x.final = y.final ∧ F = G) := fun h => hf h.1
      refine ⟨1, fun fuel hfu => ?_, by omega, by omega, by omega, fun h => absurd h this⟩
      cases fuel with
      | zero => omega
      | succ fuel =>
        rw [nodeEqN, decide_eq_false this]
        simp [hf]

end Lev
