import Verif.Proofs.StateHeapRun
import Verif.Proofs.QueryAll
import Verif.Spec.Session

/-!
Several queries on one transducer: each is the query it would be alone, and the states in memory are those of the
queries there are.
-/

namespace Lev

open Spec

theorem starts_append (p r : List QOp) : starts (p ++ r) = starts p ++ starts r := by
  induction p with
  | nil => rfl
  | cons op p ih => cases op <;> simp [starts, ih]

theorem Spec.SessionOk.prefix {p r : List QOp} (h : SessionOk (p ++ r)) : SessionOk p := by
  rintro p' op r' rfl
  exact h p' op (r' ++ r) (by simp)

theorem Spec.SessionOk.last {p : List QOp} {op : QOp} (h : SessionOk (p ++ [op])) : OpOk p op := h p op [] rfl

theorem Spec.SessionOk.bound {ops : List QOp} (h : SessionOk ops) {i : Nat} (hm : .next i ∈ ops ∨ .destroy i ∈ ops) :
    i < (starts ops).length := by
  rcases hm with hm | hm <;> obtain ⟨p, r, rfl⟩ := List.append_of_mem hm <;> have := (h p _ r rfl).1 <;>
    rw [starts_append, List.length_append] <;> omega

/-- The states of all queries. -/
def ownedAll {R : Type} (T : List (Option (Query Nat R))) : List Nat := T.flatMap (fun o => (o.map (·.owned)).getD [])

theorem ownedAll_append {R : Type} (T T' : List (Option (Query Nat R))) : ownedAll (T ++ T') = ownedAll T ++ ownedAll T' :=
  List.flatMap_append

theorem split_at {α : Type} {l : List α} {i : Nat} {x : α} (h : l[i]? = some x) :
    ∃ a b, l = a ++ x :: b ∧ a.length = i ∧ ∀ y, l.set i y = a ++ y :: b := by
  obtain ⟨hi, hx⟩ := List.getElem?_eq_some_iff.1 h
  refine ⟨l.take i, l.drop (i + 1), ?_, by simp; omega, fun y => List.set_eq_take_append_cons_drop .. |>.trans (by simp [hi])⟩
  rw [← hx, List.getElem_cons_drop, List.take_append_drop]

section
variable {R : Type} {paddr saddr : SMem → Nat} {first : Bool} {A : Algorithm} {upd : Str → Nat → R} {dflt : R}
  {mem : Mem} {root s0 : Nat} {sgn : Bool} {nd : DNode} {F : Forest}

/-- The edges not looked at yet are the last ones of the node under consideration. -/
def EdgeInv {S : Type} (mem : Mem) (Q : Query S R) : Prop :=
  ∀ I, Q.cur = some I → ∃ nd, mem I.node = some nd ∧ Q.edges <:+ nd.edges

/-- The query has just made an intersection: it is the last one that is pending, it belongs to the node under consideration, and its
edge is the one before those not looked at yet. -/
def JustPushed {S : Type} (mem : Mem) (Q : Query S R) : Prop :=
  ∃ pre l b s I nd, Q.pending = pre ++ [Inter.child l b s I] ∧ Q.cur = some I ∧ mem I.node = some nd ∧ (l, b) :: Q.edges <:+ nd.edges

/-- A query that shows a candidate: it has just made the intersection for it, or it is about to begin. -/
def Front {S : Type} (mem : Mem) (root : Nat) (s0 : S) (Q : Query S R) : Prop :=
  (Q.pending = [Inter.root root s0] ∧ Q.edges = []) ∨ JustPushed mem Q

section
variable {σ S : Type} {B : Backend σ S}

theorem queryIter_edge {m m' : σ} {Q Q' : Query S R} {stop : Bool} (h : EdgeInv mem Q)
    (e : queryIter B mem upd m Q = .ok (m', Q', stop)) :
    EdgeInv mem Q' ∧ if stop then JustPushed mem Q' else Q'.complete = Q.complete := by
  unfold queryIter at e
  cases hed : Q.edges with
  | nil =>
    simp only [hed] at e
    cases hp : Q.pending with
    | nil => simp [hp] at e
    | cons I rest =>
      simp only [hp, bind, Except.bind] at e
      split at e
      · cases e
      · split at e
        · cases e
        · rename_i nd hd
          simp only [pure, Except.pure, Except.ok.injEq, Prod.mk.injEq] at e
          obtain ⟨_, rfl, rfl⟩ := e
          refine ⟨?_, rfl⟩
          rintro J ⟨⟩
          refine ⟨nd, ?_, List.suffix_refl _⟩
          unfold deref at hd
          split at hd
          · rename_i h'; rw [h']; cases hd; rfl
          · cases hd
  | cons ed es =>
    obtain ⟨l, b⟩ := ed
    simp only [hed] at e
    cases hc : Q.cur with
    | none => simp [hc] at e
    | some I =>
      obtain ⟨nd, hm, hs⟩ := h I hc
      rw [hed] at hs
      have hs' : es <:+ nd.edges := (List.suffix_cons _ _).trans hs
      have hinv : ∀ Q' : Query S R, Q'.cur = some I → Q'.edges = es → EdgeInv mem Q' := by
        intro Q' h1 h2 J hJ
        rw [h1] at hJ
        cases hJ
        exact ⟨nd, hm, by rw [h2]; exact hs'⟩
      simp only [hc, bind, Except.bind] at e
      split at e
      · cases e
      · split at e
        · cases e
        · split at e
          · simp only [pure, Except.pure, Except.ok.injEq, Prod.mk.injEq] at e
            obtain ⟨_, rfl, rfl⟩ := e
            exact ⟨hinv _ (by simp) rfl, rfl⟩
          · split at e
            · cases e
            · split at e
              · split at e
                · cases e
                · split at e
                  · simp only [pure, Except.pure, Except.ok.injEq, Prod.mk.injEq] at e
                    obtain ⟨_, rfl, rfl⟩ := e
                    exact ⟨hinv _ (by simp) rfl, _, l, b, _, I, nd, rfl, by simp, hm, hs⟩
                  · simp only [pure, Except.pure, Except.ok.injEq, Prod.mk.injEq] at e
                    obtain ⟨_, rfl, rfl⟩ := e
                    exact ⟨hinv _ (by simp) rfl, rfl⟩
              · simp only [pure, Except.pure, Except.ok.injEq, Prod.mk.injEq] at e
                obtain ⟨_, rfl, rfl⟩ := e
                exact ⟨hinv _ (by simp) rfl, rfl⟩

theorem queryLoop_edge (fuel : Nat) {m m' : σ} {Q Q' : Query S R} (h : EdgeInv mem Q) (hc : Q.complete = true)
    (e : queryLoop B mem upd fuel m Q = .ok (m', Q')) : EdgeInv mem Q' ∧ (Q'.complete = false → JustPushed mem Q') := by
  induction fuel generalizing m Q with
  | zero => simp [queryLoop] at e
  | succ fuel ih =>
    rw [queryLoop] at e
    simp only [bind, Except.bind] at e
    split at e
    · cases e
    · rename_i r heq
      obtain ⟨m1, Q1, stop⟩ := r
      obtain ⟨h1, h2⟩ := queryIter_edge h heq
      simp only at e
      cases stop with
      | true =>
        simp only [if_true, pure, Except.pure, Except.ok.injEq, Prod.mk.injEq] at e h2
        obtain ⟨_, rfl⟩ := e
        exact ⟨h1, fun _ => h2⟩
      | false =>
        simp only [Bool.false_eq_true, if_false, pure, Except.pure] at e h2
        split at e
        · simp only [Except.ok.injEq, Prod.mk.injEq] at e
          obtain ⟨_, rfl⟩ := e
          exact ⟨h1, fun hf => by rw [h2, hc] at hf; cases hf⟩
        · exact ih h1 (h2.trans hc) e

theorem queryAdvance_edge {fuel : Nat} {m m' : σ} {Q Q' : Query S R} (h : EdgeInv mem Q)
    (e : queryAdvance B mem upd fuel m Q = .ok (m', Q')) : EdgeInv mem Q' ∧ (Q'.complete = false → JustPushed mem Q') := by
  unfold queryAdvance at e
  split at e
  · simp only [pure, Except.pure, Except.ok.injEq, Prod.mk.injEq] at e
    obtain ⟨_, rfl⟩ := e
    exact ⟨h, by simp⟩
  · exact queryLoop_edge fuel (Q := { Q with complete := true }) h rfl e

theorem queryBegin_edge {fuel : Nat} {m m' : σ} {root : Nat} {s0 : S} {q : Str} {n : Nat} {Q' : Query S R}
    (e : queryBegin B mem upd fuel dflt m root s0 q n = .ok (m', Q')) :
    EdgeInv mem Q' ∧ (Q'.complete = false → Front mem root s0 Q') := by
  unfold queryBegin at e
  simp only [bind, Except.bind] at e
  split at e
  · cases e
  · split at e
    · simp only [pure, Except.pure, Except.ok.injEq, Prod.mk.injEq] at e
      obtain ⟨_, rfl⟩ := e
      exact ⟨fun I hI => by simp at hI, fun _ => .inl ⟨rfl, rfl⟩⟩
    · obtain ⟨h1, h2⟩ := queryAdvance_edge (fun I hI => by simp at hI) e
      exact ⟨h1, fun hc => .inr (h2 hc)⟩

end

/-- Query `Q` for `(q, n)` after `k` increments. -/
def QueryAt (A : Algorithm) (upd : Str → Nat → R) (mem : Mem) (s0 : Nat) (nd : DNode) (F : Forest) (m : SMem)
    (q : Str) (n k : Nat) (Q : Query Nat R) : Prop :=
  ∃ P ch, QueryInv A n q HRep mem s0 F.height m Q P ch ∧ workOf P ch ≤ F.wt + 1 ∧ QueryFits n q ∧ n < 2 ^ 64 ∧
    (∃ ws, MadeFor A n q HRep m [] Q.owned (aheadOf A n q [rootItem nd F] []) (aheadOf A n q P ch) ws ∧
      EdgeInv mem Q ∧
      (Q.complete = false → ∃ t d, (allOut A n q nd F)[k]? = some (t, d) ∧ ([] :: ws).getLast? = some t ∧
        (∃ P0 x, P = P0 ++ [x] ∧ x.path = t) ∧ ∃ root, Front mem root s0 Q)) ∧
    ((Q.complete = false ∧ ∃ t d, (allOut A n q nd F).drop k = (t, d) :: outOf A n q P ch ∧ Q.cand = upd t d) ∨
      (Q.complete = true ∧ (allOut A n q nd F).drop k = [] ∧ P = [] ∧ ch = []))

theorem QueryAt.frame {m m' : SMem} {q : Str} {n k : Nat} {Q : Query Nat R} (h : QueryAt A upd mem s0 nd F m q n k Q)
    (hf : ∀ s l, (s = s0 ∨ s ∈ Q.owned) → HRep m s l → HRep m' s l) : QueryAt A upd mem s0 nd F m' q n k Q := by
  obtain ⟨P, ch, h1, h2, h3, h4, ⟨ws, ⟨h5, new, h6, h7⟩, he, h8⟩, h9⟩ := h
  refine ⟨P, ch, h1.frame hf, h2, h3, h4, ⟨ws, ⟨h5, new, h6, ?_⟩, he, h8⟩, h9⟩
  refine h7.imp_mem fun s hs w ⟨l, hl, hw⟩ => ⟨l, hf s l (.inr ?_) hl, hw⟩
  rw [h6]
  exact hs

/-- What holds after the operations `ops`. -/
structure SessionInv (A : Algorithm) (upd : Str → Nat → R) (mem : Mem) (s0 : Nat) (nd : DNode) (F : Forest) (m0 : SMem)
    (ops : List QOp) (m : SMem) (T : List (Option (Query Nat R))) : Prop where
  acc : Accounted m0 m (ownedAll T)
  len : T.length = (starts ops).length
  dead : ∀ i, QOp.destroy i ∈ ops → T[i]? = some none
  live : ∀ i q n, (starts ops)[i]? = some (q, n) → QOp.destroy i ∉ ops →
    ∃ Q, T[i]? = some (some Q) ∧ QueryAt A upd mem s0 nd F m q n (ops.count (.next i)) Q

theorem QueryAt.advance (hA : SAlloc paddr saddr) (ht : Tree sgn mem root nd F) {m : SMem} {q : Str} {n k fuel : Nat}
    {Q : Query Nat R} (h : QueryAt A upd mem s0 nd F m q n k Q) (hf : F.wt + 3 ≤ fuel) :
    ∃ m' Q', queryAdvance (heapBackend paddr saddr first A Q.maxD Q.term.length) mem upd fuel m Q = .ok (m', Q') ∧
      QueryAt A upd mem s0 nd F m' q n (k + 1) Q' ∧
      Grow A n q.length (heapBackend paddr saddr first A n q.length) HRep m m' Q.owned Q'.owned := by
  obtain ⟨P, ch, h1, h2, hq, hn, ⟨ws, hmade, hedge, _⟩, h3⟩ := h
  obtain ⟨m', Q', P', ch', e, hinv, hgrow, hadv⟩ := queryAdvance_spec (upd := upd)
    (heapBackend_ok hA first A n q.length) (by have := sizeMax_val; omega) (by omega) ht.height fuel h1 (by omega)
  have hdrop : (allOut A n q nd F).drop (k + 1) = outOf A n q P ch := by
    rw [← List.drop_drop]
    rcases h3 with ⟨_, t, d, h4, _⟩ | ⟨_, h4, rfl, rfl⟩
    · rw [h4]; rfl
    · rw [h4, outOf_nil]; rfl
  refine ⟨m', Q', by rw [h1.term, h1.maxD]; exact e, ⟨P', ch', hinv, ?_, hq, hn, ?_, ?_⟩, hgrow⟩
  · rcases hadv with ⟨_, a, _⟩ | ⟨_, _, rfl, rfl, _⟩
    · omega
    · simp [workOf, itemsWt]
  · obtain ⟨e1, e2⟩ := queryAdvance_edge hedge e
    rcases hadv with ⟨a1, _, t, d, a3, _, al, ws', a5⟩ | ⟨a1, _, rfl, rfl, _, a5⟩
    · refine ⟨_, hmade.trans a5 hgrow.keep, e1, fun _ => ⟨t, d, ?_, ?_, al, root, .inr (e2 a1)⟩⟩
      · have := congrArg List.head? (hdrop.trans a3)
        rwa [List.head?_drop] at this
      · rw [← List.append_assoc, ← List.cons_append, List.getLast?_concat]
    · rw [aheadOf_nil]
      exact ⟨_, hmade.trans a5 hgrow.keep, e1, by rw [a1]; simp⟩
  · rcases hadv with ⟨a1, _, t, d, a3, a4, _⟩ | ⟨a1, a2, a3, a4, _⟩
    · exact .inl ⟨a1, t, d, hdrop.trans a3, a4⟩
    · exact .inr ⟨a1, hdrop.trans a2, a3, a4⟩

theorem QueryAt.begin (hA : SAlloc paddr saddr) (ht : Tree sgn mem root nd F) {m : SMem} {q : Str} {n fuel : Nat}
    (hs : HRep m s0 initialState) (hq : QueryFits n q) (hn : n < 2 ^ 64) (hf : F.wt + 3 ≤ fuel) :
    ∃ m' Q, queryBegin (heapBackend paddr saddr first A n q.length) mem upd fuel dflt m root s0 q n = .ok (m', Q) ∧
      QueryAt A upd mem s0 nd F m' q n 0 Q ∧
      Grow A n q.length (heapBackend paddr saddr first A n q.length) HRep m m' [] Q.owned := by
  obtain ⟨m', Q, P, ch, e, hinv, hwork, hgrow, hcase⟩ := queryBegin_spec (upd := upd)
    (heapBackend_ok hA first A n q.length) (by have := sizeMax_val; omega) (by omega) ht.height fuel dflt ht.node ht.unf
    (Nat.le_refl _) hs (by omega)
  refine ⟨m', Q, e, ⟨P, ch, hinv, hwork, hq, hn, ?_, ?_⟩, hgrow⟩
  · obtain ⟨e1, e2⟩ := queryBegin_edge e
    rcases hcase with ⟨a0, t, d, a1, _, al, ws, a2, a3⟩ | ⟨a1, _, rfl, rfl, a2⟩
    · exact ⟨ws, a2, e1, fun _ => ⟨t, d, by rw [a1]; rfl, a3, al, root, e2 a0⟩⟩
    · rw [aheadOf_nil]
      exact ⟨_, a2, e1, by rw [a1]; simp⟩
  · rw [List.drop_zero]
    rcases hcase with ⟨a1, t, d, a2, a3, _⟩ | ⟨a1, a2, a3, a4, _⟩
    · exact .inl ⟨a1, t, d, a2, a3⟩
    · exact .inr ⟨a1, a2, a3, a4⟩

theorem Accounted.rep {m0 m : SMem} {o : List Nat} (h : Accounted m0 m o) {s : Nat} {l : List Pos} (hs : HRep m0 s l) :
    HRep m s l := by
  obtain ⟨_, c, h1, h2⟩ := hs
  exact ⟨h.finite, c, (h.keep h1).2, h2⟩

theorem HRep.unique {m : SMem} {s : Nat} {l l' : List Pos} (h : HRep m s l) (h' : HRep m s l') : l = l' := by
  obtain ⟨_, c, h1, rfl⟩ := h
  obtain ⟨_, c', h2, rfl⟩ := h'
  rw [h1.unique h2]

theorem mem_ownedAll {T : List (Option (Query Nat R))} {i : Nat} {Q : Query Nat R} (h : T[i]? = some (some Q)) {s : Nat}
    (hs : s ∈ Q.owned) : s ∈ ownedAll T :=
  List.mem_flatMap.2 ⟨some Q, List.mem_of_getElem? h, by simpa using hs⟩

theorem SessionInv.step (hA : SAlloc paddr saddr) (ht : Tree sgn mem root nd F) {m0 m : SMem}
    {T : List (Option (Query Nat R))} {ops : List QOp} {op : QOp} {fuel : Nat} (hs0 : HRep m0 s0 initialState)
    (h : SessionInv A upd mem s0 nd F m0 ops m T) (hok : SessionOk (ops ++ [op])) (hf : F.wt + 3 ≤ fuel) :
    ∃ m' T', sessionStep paddr saddr first A upd dflt mem root s0 fuel op m T = .ok (m', T') ∧
      SessionInv A upd mem s0 nd F m0 (ops ++ [op]) m' T' := by
  have hlast := hok.last
  have hpre := hok.prefix
  cases op with
  | start q n =>
    obtain ⟨m', Q, e, hq, hgrow⟩ := QueryAt.begin (first := first) (A := A) (upd := upd) (dflt := dflt) hA ht
      (h.acc.rep hs0) hlast.1 hlast.2 hf
    refine ⟨m', T ++ [some Q], by simp only [sessionStep, e, bind, Except.bind], ?_, ?_, ?_, ?_⟩
    · have := hgrow.inv _ (accounted_stable hA first A n q.length m0 (ownedAll T)) (by simpa using h.acc)
      simpa [ownedAll_append, ownedAll] using this
    · simp [h.len, starts_append, starts]
    · intro i hi
      have hi : QOp.destroy i ∈ ops := by simpa using hi
      have := h.dead i hi
      rw [List.getElem?_append_left (List.getElem?_eq_some_iff.1 this).1]
      exact this
    · intro i q' n' hi hd
      have hd : QOp.destroy i ∉ ops := fun hc => hd (by simp [hc])
      rw [starts_append] at hi
      rw [List.count_append]
      rcases Nat.lt_or_ge i (starts ops).length with hlt | hge
      · rw [List.getElem?_append_left hlt] at hi
        obtain ⟨Q', h1, h2⟩ := h.live i q' n' hi hd
        refine ⟨Q', by rw [List.getElem?_append_left (by rw [h.len]; exact hlt)]; exact h1, ?_⟩
        simpa using h2.frame fun s l _ => hgrow.keep s l
      · rw [List.getElem?_append_right hge] at hi
        have hi0 : i - (starts ops).length = 0 := by
          have := (List.getElem?_eq_some_iff.1 hi).1
          simp [starts] at this
          omega
        have hi' : i = (starts ops).length := by omega
        rw [hi0] at hi
        simp only [starts, List.getElem?_cons_zero, Option.some.injEq, Prod.mk.injEq] at hi
        obtain ⟨rfl, rfl⟩ := hi
        refine ⟨Q, by rw [List.getElem?_append_right (by rw [h.len]; exact hge), h.len, hi0]; rfl, ?_⟩
        have : ops.count (.next i) = 0 := List.count_eq_zero.2 fun hc => by
          have := hpre.bound (.inl hc)
          omega
        rw [this]
        simpa using hq
  | next i =>
    obtain ⟨hi, hd⟩ := hlast
    obtain ⟨q, n, hqn⟩ : ∃ q n, (starts ops)[i]? = some (q, n) := ⟨_, _, List.getElem?_eq_getElem hi⟩
    obtain ⟨Q, h1, h2⟩ := h.live i q n hqn hd
    obtain ⟨m', Q', e, hq, hgrow⟩ := h2.advance (first := first) hA ht hf
    obtain ⟨a, b, hT, hlen, hset⟩ := split_at h1
    refine ⟨m', T.set i (some Q'), by simp only [sessionStep, h1, e, bind, Except.bind], ?_, ?_, ?_, ?_⟩
    · have hperm : ∀ Q : Query Nat R, (ownedAll (a ++ some Q :: b)).Perm ((ownedAll a ++ ownedAll b) ++ Q.owned) := by
        intro Q
        rw [ownedAll_append, show ownedAll (some Q :: b) = Q.owned ++ ownedAll b by simp [ownedAll], List.append_assoc]
        exact List.perm_append_comm.append_left _
      rw [hset]
      refine Accounted.perm ?_ (hperm Q').symm
      refine hgrow.inv _ (accounted_stable hA first A n q.length m0 (ownedAll a ++ ownedAll b)) ?_
      rw [hT] at h
      exact h.acc.perm (hperm Q)
    · simp [h.len, starts_append, starts]
    · intro j hj
      replace hj : QOp.destroy j ∈ ops := by simpa using hj
      have hji : j ≠ i := by rintro rfl; exact hd hj
      rw [List.getElem?_set_ne hji.symm]
      exact h.dead j hj
    · intro j q' n' hj hdj
      have hdj : QOp.destroy j ∉ ops := fun hc => hdj (by simp [hc])
      rw [starts_append] at hj
      replace hj : (starts ops)[j]? = some (q', n') := by simpa [starts] using hj
      rw [List.count_append]
      by_cases hji : j = i
      · subst hji
        rw [hqn] at hj
        simp only [Option.some.injEq, Prod.mk.injEq] at hj
        obtain ⟨rfl, rfl⟩ := hj
        refine ⟨Q', by rw [List.getElem?_set_self (List.getElem?_eq_some_iff.1 h1).1], ?_⟩
        simpa using hq
      · obtain ⟨Qj, g1, g2⟩ := h.live j q' n' hj hdj
        refine ⟨Qj, by rw [List.getElem?_set_ne (fun h => hji h.symm)]; exact g1, ?_⟩
        have : List.count (QOp.next j) [QOp.next i] = 0 := List.count_eq_zero.2 (by simp [hji])
        rw [this]
        exact g2.frame fun s l _ => hgrow.keep s l
  | destroy i =>
    obtain ⟨hi, hd⟩ := hlast
    obtain ⟨q, n, hqn⟩ : ∃ q n, (starts ops)[i]? = some (q, n) := ⟨_, _, List.getElem?_eq_getElem hi⟩
    obtain ⟨Q, h1, h2⟩ := h.live i q n hqn hd
    obtain ⟨a, b, hT, hlen, hset⟩ := split_at h1
    have hperm : (ownedAll T).Perm (Q.owned ++ (ownedAll a ++ ownedAll b)) := by
      rw [hT, ownedAll_append, show ownedAll (some Q :: b) = Q.owned ++ ownedAll b by simp [ownedAll],
        ← List.append_assoc, ← List.append_assoc]
      exact List.perm_append_comm.append_right _
    obtain ⟨m', e, hacc, hkeep⟩ := (h.acc.perm hperm).destroy
    have hown : ownedAll (T.set i none) = ownedAll a ++ ownedAll b := by
      rw [hset, ownedAll_append]; rfl
    refine ⟨m', T.set i none, by simp only [sessionStep, h1, e, bind, Except.bind], by rw [hown]; exact hacc,
      by simp [h.len, starts_append, starts], ?_, ?_⟩
    · intro j hj
      by_cases hji : j = i
      · subst hji
        exact List.getElem?_set_self (List.getElem?_eq_some_iff.1 h1).1
      · rw [List.getElem?_set_ne (fun h => hji h.symm)]
        exact h.dead j (by simpa [hji] using hj)
    · intro j q' n' hj hdj
      have hji : j ≠ i := by rintro rfl; exact hdj (by simp)
      have hdj : QOp.destroy j ∉ ops := fun hc => hdj (by simp [hc])
      rw [starts_append] at hj
      replace hj : (starts ops)[j]? = some (q', n') := by simpa [starts] using hj
      rw [List.count_append]
      obtain ⟨Qj, g1, g2⟩ := h.live j q' n' hj hdj
      have g1' : (T.set i none)[j]? = some (some Qj) := by rw [List.getElem?_set_ne (fun h => hji h.symm)]; exact g1
      refine ⟨Qj, g1', ?_⟩
      have : List.count (QOp.next j) [QOp.destroy i] = 0 := List.count_eq_zero.2 (by simp)
      rw [this]
      refine g2.frame ?_
      rintro s l (rfl | hs) hrep
      · rw [hrep.unique (h.acc.rep hs0)]
        exact hacc.rep hs0
      · obtain ⟨_, c, hc, rfl⟩ := hrep
        exact ⟨hacc.finite, c, hkeep s (by rw [← hown]; exact mem_ownedAll g1' hs) c hc, rfl⟩

theorem session_append (fuel : Nat) (p r : List QOp) (m : SMem) (T : List (Option (Query Nat R))) :
    session paddr saddr first A upd dflt mem root s0 fuel (p ++ r) m T =
      (session paddr saddr first A upd dflt mem root s0 fuel p m T).bind fun w =>
        session paddr saddr first A upd dflt mem root s0 fuel r w.1 w.2 := by
  induction p generalizing m T with
  | nil => rfl
  | cons op p ih =>
    simp only [List.cons_append, session, bind]
    cases sessionStep paddr saddr first A upd dflt mem root s0 fuel op m T with
    | error e => rfl
    | ok w => exact ih w.1 w.2

theorem session_ok (hA : SAlloc paddr saddr) (ht : Tree sgn mem root nd F) {m0 : SMem} (hf0 : m0.Finite)
    (hs0 : HRep m0 s0 initialState) {fuel : Nat} (hf : F.wt + 3 ≤ fuel) (rops : List QOp)
    (hok : SessionOk rops.reverse) :
    ∃ m T, session paddr saddr first A upd dflt mem root s0 fuel rops.reverse m0 [] = .ok (m, T) ∧
      SessionInv A upd mem s0 nd F m0 rops.reverse m T := by
  induction rops with
  | nil => exact ⟨m0, [], rfl, Accounted.refl hf0, rfl, by simp, by simp [starts]⟩
  | cons op rops ih =>
    rw [List.reverse_cons] at hok ⊢
    obtain ⟨m, T, e, hinv⟩ := ih hok.prefix
    obtain ⟨m', T', e', hinv'⟩ := hinv.step (first := first) (dflt := dflt) hA ht hs0 hok hf
    refine ⟨m', T', ?_, hinv'⟩
    rw [session_append, e]
    simp [Except.bind, session, e', bind]

end

end Lev
