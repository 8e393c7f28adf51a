import Verif.Proofs.Lifetime

/-!
Programs that respect the lifetimes of objects.
-/

namespace Lev

open Spec

/-! ### Accounts of intersections and their states -/

/-- The intersections `O` and their states are all that is in memory beyond what was there at first. -/
structure WAcc (m0 : SMem) (im0 : IMem Nat) (m : SMem) (im : IMem Nat) (O : List Nat) : Prop where
  finite : im.Finite
  nodup : O.Nodup
  own : ∀ a ∈ O, a ≠ 0 ∧ im0.cell a = none ∧ ∃ c, im.cell a = some c
  same : ∀ a, a ∉ O → im.cell a = im0.cell a
  states : Accounted m0 m (O.map (stateOf im))

theorem WAcc.perm {m0 m : SMem} {im0 im : IMem Nat} {O O' : List Nat} (h : WAcc m0 im0 m im O) (hp : O.Perm O') :
    WAcc m0 im0 m im O' :=
  ⟨h.finite, hp.nodup_iff.1 h.nodup, fun a ha => h.own a (hp.mem_iff.2 ha), fun a ha => h.same a fun hc => ha (hp.mem_iff.1 hc),
    h.states.perm (hp.map _)⟩

theorem WAcc.grow {m0 m m' : SMem} {im0 im im' : IMem Nat} {P o o' new : List Nat} (h : WAcc m0 im0 m im (P ++ o))
    (hg : IGrow im im' o o' new) (hs : Accounted m0 m' (P.map (stateOf im) ++ o'.map (stateOf im'))) :
    WAcc m0 im0 m' im' (P ++ o') := by
  have hd : ∀ a ∈ P ++ o, a ∉ new := fun a ha hc => by
    obtain ⟨_, _, c, h1⟩ := h.own a ha
    rw [(hg.fresh a hc).2.1] at h1
    cases h1
  rw [hg.eq, ← List.append_assoc]
  refine ⟨hg.finite h.finite, List.nodup_append.2 ⟨h.nodup, hg.nodup, ?_⟩, ?_, ?_, ?_⟩
  · rintro a ha b hb rfl
    exact hd a ha hb
  · intro a ha
    rcases List.mem_append.1 ha with ha | ha
    · rw [hg.same a (hd a ha)]
      exact h.own a ha
    · obtain ⟨h1, h2, h3⟩ := hg.fresh a ha
      refine ⟨h1, ?_, h3⟩
      rw [← h.same a fun hc => hd a hc ha]
      exact h2
  · intro a ha
    simp only [List.mem_append, not_or] at ha
    rw [hg.same a ha.2]
    exact h.same a (by simp [ha.1.1, ha.1.2])
  · rw [List.append_assoc, ← hg.eq, List.map_append]
    have : P.map (stateOf im') = P.map (stateOf im) := List.map_congr_left fun a ha => by
      simp only [stateOf, hg.same a (hd a (by simp [ha]))]
    rw [this]
    exact hs

theorem WAcc.delete {m0 m : SMem} {im0 im : IMem Nat} {a : Nat} {O : List Nat} (h : WAcc m0 im0 m im (a :: O)) :
    ∃ m' im', deleteInter a m im = .ok (m', im') ∧ WAcc m0 im0 m' im' O ∧ (∀ x, x ≠ a → im'.cell x = im.cell x) ∧
      im'.count = im.count ∧ ∀ x ∈ O, ∀ l, IsState m (stateOf im x) l → IsState m' (stateOf im x) l := by
  obtain ⟨h0, hn, c, hc⟩ := h.own a (by simp)
  have hnd := List.nodup_cons.1 h.nodup
  have hst : stateOf im a = c.state := by simp [stateOf, hc]
  have hs := h.states
  rw [List.map_cons, hst] at hs
  have hsnd := (List.nodup_cons.1 hs.nodup).1
  obtain ⟨m', e, h1, h2⟩ := hs.delete
  have hmap : O.map (stateOf { im with cell := upd1 im.cell a none }) = O.map (stateOf im) :=
    List.map_congr_left fun x hx => by
      have hxa : x ≠ a := by rintro rfl; exact hnd.1 hx
      simp only [stateOf, upd1_ne _ _ hxa]
  refine ⟨m', { im with cell := upd1 im.cell a none }, by simp only [deleteInter, h0, if_false, getInter, hc, bind, Except.bind, e], ?_,
    fun x hx => upd1_ne _ _ hx, rfl, ?_⟩
  · refine ⟨?_, hnd.2, ?_, ?_, by rw [hmap]; exact h1⟩
    · obtain ⟨L, hL, hm⟩ := h.finite
      refine ⟨L, hL, fun x c' hx => ?_⟩
      by_cases hxa : x = a
      · subst hxa; simp at hx
      · simp only [upd1_ne _ _ hxa] at hx; exact hm x c' hx
    · intro x hx
      have hxa : x ≠ a := by rintro rfl; exact hnd.1 hx
      simp only [upd1_ne _ _ hxa]
      exact h.own x (by simp [hx])
    · intro x hx
      by_cases hxa : x = a
      · subst hxa; simp [hn]
      · simp only [upd1_ne _ _ hxa]
        exact h.same x (by simp [hxa, hx])
  · intro x hx l hl
    have hm := List.mem_map_of_mem (f := stateOf im) hx
    exact h2 _ l (by rintro he; rw [he] at hm; exact hsnd hm) hm hl

theorem WAcc.destroy {m0 m : SMem} {im0 im : IMem Nat} {O P : List Nat} (h : WAcc m0 im0 m im (O ++ P)) :
    ∃ m' im', deleteInters O m im = .ok (m', im') ∧ WAcc m0 im0 m' im' P ∧ (∀ x, x ∉ O → im'.cell x = im.cell x) ∧
      im'.count = im.count ∧ ∀ x ∈ P, ∀ l, IsState m (stateOf im x) l → IsState m' (stateOf im x) l := by
  induction O generalizing m im with
  | nil => exact ⟨m, im, rfl, h, fun _ _ => rfl, rfl, fun _ _ _ h => h⟩
  | cons a O ih =>
    obtain ⟨m1, im1, e1, h1, h2, h3, h4⟩ := WAcc.delete h
    obtain ⟨m2, im2, f1, g1, g2, g3, g4⟩ := ih h1
    have hnd := (List.nodup_cons.1 h.nodup).1
    refine ⟨m2, im2, by simp only [deleteInters, e1, f1, bind, Except.bind], g1, ?_, g3.trans h3, ?_⟩
    · intro x hx
      simp only [List.mem_cons, not_or] at hx
      rw [g2 x hx.2, h2 x hx.1]
    · intro x hx l hl
      have hxa : x ≠ a := by rintro rfl; exact hnd (by simp [hx])
      have hso : stateOf im1 x = stateOf im x := by simp only [stateOf, h2 x hxa]
      rw [← hso]
      refine g4 x hx l ?_
      rw [hso]
      exact h4 x (by simp [hx]) l hl

theorem WAcc.all {m0 m : SMem} {im0 im : IMem Nat} (h : WAcc m0 im0 m im []) :
    m.pos = m0.pos ∧ m.st = m0.st ∧ im.cell = im0.cell :=
  ⟨h.states.all.1, h.states.all.2, funext fun a => h.same a (by simp)⟩

theorem WAcc.refl {m : SMem} {im : IMem Nat} (hm : m.Finite) (hi : im.Finite) : WAcc m im m im [] :=
  ⟨hi, by simp, by simp, fun _ _ => rfl, Accounted.refl hm⟩

/-! ### Prefixes of programs -/

theorem made_append (p r : List LOp) : made (p ++ r) = made p ++ made r := by
  induction p with
  | nil => rfl
  | cons op p ih => cases op <;> simp [made, ih]

theorem started_append (p r : List LOp) : started (p ++ r) = started p ++ started r := by
  induction p with
  | nil => rfl
  | cons op p ih => cases op <;> simp [started, ih]

theorem Spec.LifeOk.prefix {p r : List LOp} (h : LifeOk (p ++ r)) : LifeOk p := by
  rintro p' op r' rfl
  exact h p' op (r' ++ r) (by simp)

theorem Spec.LifeOk.last {p : List LOp} {op : LOp} (h : LifeOk (p ++ [op])) : LifeOpOk p op := h p op [] rfl

theorem Spec.LifeOk.next_lt {ops : List LOp} (h : LifeOk ops) {i : Nat} (hm : .next i ∈ ops) :
    i < (started ops).length := by
  obtain ⟨p, r, rfl⟩ := List.append_of_mem hm
  obtain ⟨_, _, s, hs, _⟩ := h p _ r rfl
  have := (List.getElem?_eq_some_iff.1 hs).1
  rw [started_append, List.length_append]
  omega

theorem Spec.LifeOk.dropQuery_lt {ops : List LOp} (h : LifeOk ops) {i : Nat} (hm : .dropQuery i ∈ ops) :
    i < (started ops).length := by
  obtain ⟨p, r, rfl⟩ := List.append_of_mem hm
  have := (h p _ r rfl).1
  rw [started_append, List.length_append]
  omega

theorem Spec.LifeOk.dropTransducer_lt {ops : List LOp} (h : LifeOk ops) {t : Nat} (hm : .dropTransducer t ∈ ops) :
    t < (made ops).length := by
  obtain ⟨p, r, rfl⟩ := List.append_of_mem hm
  have := (h p _ r rfl).1
  rw [made_append, List.length_append]
  omega

theorem Spec.LifeOk.start_lt {ops : List LOp} (h : LifeOk ops) {i t n : Nat} {q : Str}
    (hi : (started ops)[i]? = some (t, q, n)) : t < (made ops).length := by
  have hm := List.mem_of_getElem? hi
  clear hi
  have : LOp.start t q n ∈ ops := by
    clear h
    induction ops with
    | nil => simp [started] at hm
    | cons op ops ih =>
      cases op
      case start =>
        simp only [started, List.mem_cons, Prod.mk.injEq] at hm
        rcases hm with ⟨rfl, rfl, rfl⟩ | hm
        · simp
        · simp [ih hm]
      all_goals exact List.mem_cons_of_mem _ (ih hm)
  obtain ⟨p, r, rfl⟩ := List.append_of_mem this
  have := (h p _ r rfl).1
  rw [made_append, List.length_append]
  omega

/-! ### The invariant -/

/-- The intersections of transducers. -/
def tOwned (ts : List (Option (Algorithm × Nat))) : List Nat := ts.flatMap fun o => (o.map fun x => [x.2]).getD []

/-- The intersections of queries. -/
def qOwned {R : Type} (qs : List (Option (Algorithm × PQuery R))) : List Nat :=
  qs.flatMap fun o => (o.map fun x => x.2.owned).getD []

theorem mem_tOwned {ts : List (Option (Algorithm × Nat))} {t a : Nat} {A : Algorithm} (h : ts[t]? = some (some (A, a))) :
    a ∈ tOwned ts :=
  List.mem_flatMap.2 ⟨some (A, a), List.mem_of_getElem? h, by simp⟩

theorem mem_qOwned {R : Type} {qs : List (Option (Algorithm × PQuery R))} {i : Nat} {A : Algorithm} {Q : PQuery R}
    (h : qs[i]? = some (some (A, Q))) {a : Nat} (ha : a ∈ Q.owned) : a ∈ qOwned qs :=
  List.mem_flatMap.2 ⟨some (A, Q), List.mem_of_getElem? h, by simpa using ha⟩

/-- What a query shows after `k` increments. -/
def Shows {R : Type} (A : Algorithm) (upd : Str → Nat → R) (nd : DNode) (F : Forest) (q : Str) (n k : Nat) (Q : PQuery R) :
    Prop :=
  (Q.complete = false ∧ (Q.owned ≠ [] ∨ k = 0) ∧ ∃ t d r, (allOut A n q nd F).drop k = (t, d) :: r ∧ Q.cand = upd t d) ∨
    (Q.complete = true ∧ (allOut A n q nd F).drop k = [] ∧ Q.pending = [] ∧ Q.edges = [])

section
variable {R : Type} {paddr saddr : SMem → Nat} {iaddr : IMem Nat → Nat} {first : Bool} {A : Algorithm}
  {upd : Str → Nat → R} {dflt : R} {mem : Mem} {root s0 : Nat} {sgn : Bool} {nd : DNode} {F : Forest}
  {Z : Nat → Prop}

theorem ptrIter_owned {B : Backend SMem Nat} {m m' : SMem} {im im' : IMem Nat} {PQ PQ' : PQuery R} {stop : Bool}
    (e : ptrIter B iaddr mem upd m im PQ = .ok (m', im', PQ', stop)) :
    if stop then PQ'.owned ≠ [] else PQ'.complete = PQ.complete := by
  unfold ptrIter at e
  cases h : PQ.edges with
  | nil =>
    simp only [h] at e
    cases hp : PQ.pending with
    | nil => simp [hp] at e
    | cons I rest =>
      simp only [hp, bind, Except.bind] at e
      split at e
      · cases e
      · split at e
        · cases e
        · split at e
          · cases e
          · simp only [pure, Except.pure, Except.ok.injEq, Prod.mk.injEq] at e
            obtain ⟨_, _, rfl, rfl⟩ := e
            rfl
  | cons ed es =>
    obtain ⟨l, b⟩ := ed
    simp only [h, bind, Except.bind] at e
    split at e
    · cases e
    · split at e
      · cases e
      · split at e
        · cases e
        · split at e
          · simp only [pure, Except.pure, Except.ok.injEq, Prod.mk.injEq] at e
            obtain ⟨_, _, rfl, rfl⟩ := e
            rfl
          · split at e
            · cases e
            · split at e
              · split at e
                · cases e
                · split at e
                  · split at e
                    · cases e
                    · simp only [pure, Except.pure, Except.ok.injEq, Prod.mk.injEq] at e
                      obtain ⟨_, _, rfl, rfl⟩ := e
                      simp
                  · simp only [pure, Except.pure, Except.ok.injEq, Prod.mk.injEq] at e
                    obtain ⟨_, _, rfl, rfl⟩ := e
                    rfl
              · simp only [pure, Except.pure, Except.ok.injEq, Prod.mk.injEq] at e
                obtain ⟨_, _, rfl, rfl⟩ := e
                rfl

theorem ptrLoop_owned {B : Backend SMem Nat} {m m' : SMem} {im im' : IMem Nat} {PQ PQ' : PQuery R} {fuel : Nat}
    (e : ptrLoop B iaddr mem upd fuel m im PQ = .ok (m', im', PQ')) (hc : PQ.complete = true) (hc' : PQ'.complete = false) :
    PQ'.owned ≠ [] := by
  induction fuel generalizing m im PQ with
  | zero => simp [ptrLoop] at e
  | succ fuel ih =>
    rw [ptrLoop] at e
    simp only [bind, Except.bind] at e
    split at e
    · cases e
    · rename_i r heq
      obtain ⟨m1, im1, PQ1, stop⟩ := r
      have h := ptrIter_owned heq
      simp only at e
      cases stop with
      | true =>
        simp only [if_true, pure, Except.pure, Except.ok.injEq, Prod.mk.injEq] at e h
        obtain ⟨_, _, rfl⟩ := e
        exact h
      | false =>
        simp only [Bool.false_eq_true, if_false, pure, Except.pure] at e h
        split at e
        · simp only [Except.ok.injEq, Prod.mk.injEq] at e
          obtain ⟨_, _, rfl⟩ := e
          rw [h, hc] at hc'; cases hc'
        · exact ih e (h.trans hc)

theorem ptrAdvance_owned {B : Backend SMem Nat} {m m' : SMem} {im im' : IMem Nat} {PQ PQ' : PQuery R} {fuel : Nat}
    (e : ptrAdvance B iaddr mem upd fuel m im PQ = .ok (m', im', PQ')) (hc' : PQ'.complete = false) : PQ'.owned ≠ [] := by
  unfold ptrAdvance at e
  split at e
  · simp only [pure, Except.pure, Except.ok.injEq, Prod.mk.injEq] at e
    obtain ⟨_, _, rfl⟩ := e
    cases hc'
  · exact ptrLoop_owned e rfl hc'

theorem QueryAt.shows {m : SMem} {q : Str} {n k : Nat} {Q : Query Nat R} (h : QueryAt A upd mem s0 nd F m q n k Q)
    {im : IMem Nat} {t : Nat} {PQ : PQuery R} (hr : QRel Z im t PQ Q)
    (ho : PQ.complete = false → PQ.owned ≠ [] ∨ k = 0) : Shows A upd nd F q n k PQ := by
  obtain ⟨P, ch, h0, _, _, _, _, h1⟩ := h
  rcases h1 with ⟨h2, t, d, h3, h4⟩ | ⟨h2, h3, rfl, rfl⟩
  · have h5 : PQ.complete = false := by rw [hr.complete]; exact h2
    exact .inl ⟨h5, ho h5, t, d, _, h3, by rw [hr.cand]; exact h4⟩
  · refine .inr ⟨by rw [hr.complete]; exact h2, h3, ?_, ?_⟩
    · have h4 := h0.pending
      generalize hp : Q.pending = pq at h4
      cases h4
      have h5 := hr.pending
      rw [hp] at h5
      generalize PQ.pending = pp at h5
      cases h5
      rfl
    · rw [hr.edges]
      rcases h0.cur with h4 | ⟨I, it, F', hd, tl, _, _, _, h4, h5, _⟩
      · exact h4.1
      · generalize Q.edges = es at h4
        cases h4 with
        | nil => rfl
        | cons => simp [Forest.items] at h5

/-- What has been done: transducers made, queries started, what was destroyed, how often each query was advanced. -/
structure Done where
  made : List Algorithm
  started : List (Nat × Str × Nat)
  dt : Nat → Prop
  dq : Nat → Prop
  dd : Prop
  cnt : Nat → Nat

/-- What holds after `p`; `h1` is the memory of nodes with the dictionary `d`, `h2` without it. -/
structure LifeInv (upd : Str → Nat → R) (root : Nat) (nd : DNode) (F : Forest) (m0 : SMem) (im0 : IMem Nat) (h1 h2 : Heap)
    (d : SDawg) (p : Done) (w : World R) : Prop where
  acc : WAcc m0 im0 w.sm w.im (tOwned w.ts ++ qOwned w.qs)
  dict : ¬ p.dd → w.heap = h1 ∧ w.dict = some d
  nodict : p.dd → w.heap = h2 ∧ w.dict = none
  tlen : w.ts.length = p.made.length
  tdead : ∀ t, p.dt t → w.ts[t]? = some none
  tlive : ∀ t A, p.made[t]? = some A → ¬ p.dt t →
    ∃ a s0, w.ts[t]? = some (some (A, a)) ∧ a ≠ 0 ∧ w.im.cell a = some ⟨0, root, s0, 0⟩ ∧ HRep w.sm s0 initialState
  qlen : w.qs.length = p.started.length
  qdead : ∀ i, p.dq i → w.qs[i]? = some none
  qlive : ∀ i t q n, p.started[i]? = some (t, q, n) → ¬ p.dq i →
    ∃ A PQ, p.made[t]? = some A ∧ w.qs[i]? = some (some (A, PQ)) ∧ Shows A upd nd F q n (p.cnt i) PQ ∧
      (¬ p.dt t → ∃ a Q, w.ts[t]? = some (some (A, a)) ∧ QRel (Reaches h1.mem root) w.im a PQ Q ∧
        QueryAt A upd h1.mem (stateOf w.im a) nd F w.sm q n (p.cnt i) Q)

/-- Memory has changed, but nothing that the transducer and the query refer to. -/
theorem QRel.keep {im im' : IMem Nat} {m m' : SMem} {a : Nat} {PQ : PQuery R} {Q : Query Nat R} {q : Str} {n k : Nat}
    (h : QRel Z im a PQ Q) (hq : QueryAt A upd mem (stateOf im a) nd F m q n k Q)
    (hk : ∀ x ∈ a :: PQ.owned, im'.cell x = im.cell x) (hc : im.count ≤ im'.count)
    (hs : ∀ x ∈ a :: PQ.owned, ∀ l, HRep m (stateOf im x) l → HRep m' (stateOf im x) l) :
    QRel Z im' a PQ Q ∧ QueryAt A upd mem (stateOf im' a) nd F m' q n k Q := by
  refine ⟨h.frame hk hc, ?_⟩
  have : stateOf im' a = stateOf im a := by simp only [stateOf, hk a (by simp)]
  rw [this]
  refine hq.frame fun s l hs' => ?_
  rcases hs' with rfl | hs'
  · exact hs a (by simp) l
  · rw [h.owned] at hs'
    obtain ⟨x, hx, rfl⟩ := List.mem_map.1 hs'
    exact hs x (by simp [hx]) l

variable {h1 h2 : Heap} {d : SDawg} {m0 : SMem} {im0 : IMem Nat} {w : World R} {p : Done} {fuel : Nat}

/-- Everything that is referred to is owned. -/
theorem LifeInv.alive (h : LifeInv upd root nd F m0 im0 h1 h2 d p w) {x : Nat} (hx : x ∈ tOwned w.ts ++ qOwned w.qs) :
    ∃ c, w.im.cell x = some c := (h.acc.own x hx).2.2

theorem LifeInv.transducer (hA : SAlloc paddr saddr) (hI : IAlloc iaddr) (h : LifeInv upd root nd F m0 im0 h1 h2 d p w)
    (A : Algorithm) :
    ∃ w', lifeStep paddr saddr iaddr first upd dflt root fuel (.transducer A) w = .ok w' ∧
      LifeInv upd root nd F m0 im0 h1 h2 d { p with made := p.made ++ [A] } w' := by
  obtain ⟨m1, s, l, e, hl, hb⟩ := newTransducer_built hA h.acc.states.finite
  have hrep : HRep m1 s initialState := ⟨hb.finite, l, hb.isState, hl⟩
  have hg := newInter_grow hI h.acc.finite ⟨0, root, s, 0⟩ (tOwned w.ts)
  have hcell : (newInter iaddr ⟨0, root, s, 0⟩ w.im).2.cell (newInter iaddr ⟨0, root, s, 0⟩ w.im).1 = some ⟨0, root, s, 0⟩ := by
    simp [newInter]
  generalize hw : newInter iaddr ⟨0, root, s, 0⟩ w.im = r at hg hcell
  obtain ⟨a, im1⟩ := r
  simp only at hg hcell
  obtain ⟨ha0, han, _⟩ := hg.fresh a (by simp)
  have hold : ∀ x c, w.im.cell x = some c → im1.cell x = w.im.cell x := by
    intro x c hx
    refine hg.same x fun hc => ?_
    simp only [List.mem_singleton] at hc
    subst hc
    rw [han] at hx; cases hx
  have hkeepS : ∀ s' l', HRep w.sm s' l' → HRep m1 s' l' := by
    rintro s' l' ⟨_, c, h3, h4⟩
    exact ⟨hb.finite, c, hb.keep h3, h4⟩
  have hsa : stateOf im1 a = s := by simp [stateOf, hcell]
  have hacc' : WAcc m0 im0 m1 im1 (qOwned w.qs ++ (tOwned w.ts ++ [a])) := by
    refine (h.acc.perm List.perm_append_comm).grow hg ?_
    have hT : (tOwned w.ts ++ [a]).map (stateOf im1) = (tOwned w.ts).map (stateOf w.im) ++ [s] := by
      rw [List.map_append, List.map_cons, List.map_nil, hsa]
      congr 1
      refine List.map_congr_left fun x hx => ?_
      obtain ⟨_, _, c, hc⟩ := h.acc.own x (by simp [hx])
      simp only [stateOf, hold x c hc]
    rw [hT, ← List.append_assoc, ← List.map_append]
    exact ((h.acc.perm List.perm_append_comm).states).grow hb
  refine ⟨{ w with sm := m1, im := im1, ts := w.ts ++ [some (A, a)] }, by simp only [lifeStep, e, bind, Except.bind, hw], ?_⟩
  refine ⟨?_, h.dict, h.nodict, by simp [h.tlen], ?_, ?_, h.qlen, h.qdead, ?_⟩
  · refine hacc'.perm ?_
    have : tOwned (w.ts ++ [some (A, a)]) = tOwned w.ts ++ [a] := by simp [tOwned]
    rw [this]
    exact List.perm_append_comm
  · intro t ht
    have := h.tdead t ht
    rw [List.getElem?_append_left (List.getElem?_eq_some_iff.1 this).1]
    exact this
  · intro t A' hA' hd
    rcases Nat.lt_or_ge t p.made.length with hlt | hge
    · rw [List.getElem?_append_left hlt] at hA'
      obtain ⟨a', s', g1, g2, g3, g4⟩ := h.tlive t A' hA' hd
      refine ⟨a', s', ?_, g2, by rw [hold _ _ g3]; exact g3, hkeepS _ _ g4⟩
      rw [List.getElem?_append_left (by rw [h.tlen]; exact hlt)]
      exact g1
    · rw [List.getElem?_append_right hge] at hA'
      have h0 : t - p.made.length = 0 := by
        have := (List.getElem?_eq_some_iff.1 hA').1
        simp at this
        omega
      rw [h0] at hA'
      simp only [List.getElem?_cons_zero, Option.some.injEq] at hA'
      subst hA'
      refine ⟨a, s, ?_, ha0, hcell, hrep⟩
      rw [List.getElem?_append_right (by rw [h.tlen]; exact hge), h.tlen, h0]
      rfl
  · intro i t q n hi hd
    obtain ⟨A', PQ, g1, g2, g3, g4⟩ := h.qlive i t q n hi hd
    have hlt := (List.getElem?_eq_some_iff.1 g1).1
    refine ⟨A', PQ, by rw [List.getElem?_append_left hlt]; exact g1, g2, g3, fun hdt => ?_⟩
    obtain ⟨a', Q, k1, k2, k3⟩ := g4 hdt
    refine ⟨a', Q, ?_, k2.keep k3 (fun x hx => ?_) hg.count fun x hx l => hkeepS _ l⟩
    · rw [List.getElem?_append_left (List.getElem?_eq_some_iff.1 k1).1]
      exact k1
    · obtain ⟨c, hc⟩ := k2.alive x hx
      exact hold x c hc

/-- A query has been started or advanced: what the others are like. -/
theorem LifeInv.others (h : LifeInv upd root nd F m0 im0 h1 h2 d p w) {im' : IMem Nat} {m' : SMem} {o o' new : List Nat}
    (hg : IGrow w.im im' o o' new) (hs : ∀ s l, HRep w.sm s l → HRep m' s l) :
    (∀ t A, p.made[t]? = some A → ¬ p.dt t →
      ∃ a s0, w.ts[t]? = some (some (A, a)) ∧ a ≠ 0 ∧ im'.cell a = some ⟨0, root, s0, 0⟩ ∧ HRep m' s0 initialState) ∧
    (∀ i t q n, p.started[i]? = some (t, q, n) → ¬ p.dq i →
      ∃ A PQ, p.made[t]? = some A ∧ w.qs[i]? = some (some (A, PQ)) ∧ Shows A upd nd F q n (p.cnt i) PQ ∧
        (¬ p.dt t → ∃ a Q, w.ts[t]? = some (some (A, a)) ∧ QRel (Reaches h1.mem root) im' a PQ Q ∧
          QueryAt A upd h1.mem (stateOf im' a) nd F m' q n (p.cnt i) Q)) := by
  have hold : ∀ x c, w.im.cell x = some c → im'.cell x = w.im.cell x := by
    intro x c hx
    refine hg.same x fun hc => ?_
    rw [(hg.fresh x hc).2.1] at hx; cases hx
  constructor
  · intro t A hA hd
    obtain ⟨a, s0, g1, g2, g3, g4⟩ := h.tlive t A hA hd
    exact ⟨a, s0, g1, g2, by rw [hold _ _ g3]; exact g3, hs _ _ g4⟩
  · intro i t q n hi hd
    obtain ⟨A, PQ, g1, g2, g3, g4⟩ := h.qlive i t q n hi hd
    refine ⟨A, PQ, g1, g2, g3, fun hdt => ?_⟩
    obtain ⟨a, Q, k1, k2, k3⟩ := g4 hdt
    refine ⟨a, Q, k1, k2.keep k3 (fun x hx => ?_) hg.count fun x _ l => hs _ l⟩
    obtain ⟨c, hc⟩ := k2.alive x hx
    exact hold x c hc

theorem LifeInv.start (hA : SAlloc paddr saddr) (hI : IAlloc iaddr) (ht : Tree sgn h1.mem root nd F)
    (hZ : Closed h1.mem (Reaches h1.mem root))
    (h : LifeInv upd root nd F m0 im0 h1 h2 d p w) (hf : F.wt + 3 ≤ fuel) {t : Nat} {q : Str} {n : Nat}
    (hlt : t < p.made.length) (hdt : ¬ p.dt t) (hdd : ¬ p.dd) (hq : QueryFits n q) (hn : n < 2 ^ 64)
    (hcnt : p.cnt p.started.length = 0) :
    ∃ w', lifeStep paddr saddr iaddr first upd dflt root fuel (.start t q n) w = .ok w' ∧
      LifeInv upd root nd F m0 im0 h1 h2 d { p with started := p.started ++ [(t, q, n)] } w' := by
  obtain ⟨a, s0, g1, g2, g3, g4⟩ := h.tlive t p.made[t] (List.getElem?_eq_getElem hlt) hdt
  have hs0 : stateOf w.im a = s0 := by simp [stateOf, g3]
  obtain ⟨m', Q, e, hqa, hgrow⟩ := QueryAt.begin (first := first) (A := p.made[t]) (upd := upd) (dflt := dflt) hA ht g4 hq hn hf
  obtain ⟨im', PQ, new, e', hrel, hg⟩ := ptrBegin_sim hI (Z := Reaches h1.mem root) hZ fuel h.acc.finite g2 .refl g3 e
  have hheap := (h.dict hdd).1
  obtain ⟨ho1, ho2⟩ := h.others hg hgrow.keep
  refine ⟨{ w with sm := m', im := im', qs := w.qs ++ [some (p.made[t], PQ)] }, ?_, ?_, h.dict, h.nodict, h.tlen, h.tdead, ho1,
    by simp [h.qlen], ?_, ?_⟩
  · simp only [lifeStep, g1, hheap, e', bind, Except.bind]
  · have hacc : WAcc m0 im0 m' im' ((tOwned w.ts ++ qOwned w.qs) ++ PQ.owned) := by
      refine WAcc.grow (o := []) (by rw [List.append_nil]; exact h.acc) hg ?_
      rw [← hrel.owned]
      exact hgrow.inv _ (accounted_stable hA first p.made[t] n q.length m0 _) (by simpa using h.acc.states)
    have : qOwned (w.qs ++ [some (p.made[t], PQ)]) = qOwned w.qs ++ PQ.owned := by simp [qOwned]
    simp only [this, ← List.append_assoc]
    exact hacc
  · intro i hi
    have := h.qdead i hi
    rw [List.getElem?_append_left (List.getElem?_eq_some_iff.1 this).1]
    exact this
  · intro i t' q' n' hi hd
    rcases Nat.lt_or_ge i p.started.length with hlt' | hge
    · rw [List.getElem?_append_left hlt'] at hi
      obtain ⟨A', PQ', k1, k2, k3, k4⟩ := ho2 i t' q' n' hi hd
      refine ⟨A', PQ', k1, ?_, k3, k4⟩
      rw [List.getElem?_append_left (by rw [h.qlen]; exact hlt')]
      exact k2
    · rw [List.getElem?_append_right hge] at hi
      have h0 : i - p.started.length = 0 := by
        have := (List.getElem?_eq_some_iff.1 hi).1
        simp at this
        omega
      have hi' : i = p.started.length := by omega
      rw [h0] at hi
      simp only [List.getElem?_cons_zero, Option.some.injEq, Prod.mk.injEq] at hi
      obtain ⟨rfl, rfl, rfl⟩ := hi
      have hc : p.cnt i = 0 := by rw [hi']; exact hcnt
      refine ⟨p.made[t], PQ, List.getElem?_eq_getElem hlt, ?_, by simp only [hc]; exact hqa.shows hrel fun _ => .inr rfl, fun _ => ⟨a, Q, g1, hrel, ?_⟩⟩
      · rw [List.getElem?_append_right (by rw [h.qlen]; exact hge), h.qlen, h0]
        rfl
      · have : stateOf im' a = s0 := by
          rw [← hs0]
          simp only [stateOf, hg.same a fun hc => by rw [(hg.fresh a hc).2.1] at g3; cases g3]
        simp only [this, hc]
        exact hqa

theorem qOwned_split {qs l r : List (Option (Algorithm × PQuery R))} {A : Algorithm} {Q : PQuery R}
    (h : qs = l ++ some (A, Q) :: r) (P : List Nat) :
    (P ++ qOwned qs).Perm ((P ++ (qOwned l ++ qOwned r)) ++ Q.owned) := by
  have : qOwned qs = qOwned l ++ (Q.owned ++ qOwned r) := by rw [h]; simp [qOwned]
  rw [this, List.append_assoc]
  refine List.Perm.append_left _ ?_
  rw [List.append_assoc]
  exact List.perm_append_comm.append_left _

theorem LifeInv.next (hA : SAlloc paddr saddr) (hI : IAlloc iaddr) (ht : Tree sgn h1.mem root nd F)
    (hZ : Closed h1.mem (Reaches h1.mem root))
    (h : LifeInv upd root nd F m0 im0 h1 h2 d p w) (hf : F.wt + 3 ≤ fuel) {i t : Nat} {q : Str} {n : Nat}
    (hi : p.started[i]? = some (t, q, n)) (hdq : ¬ p.dq i) (hdt : ¬ p.dt t) (hdd : ¬ p.dd) :
    ∃ w', lifeStep paddr saddr iaddr first upd dflt root fuel (.next i) w = .ok w' ∧
      LifeInv upd root nd F m0 im0 h1 h2 d { p with cnt := upd1 p.cnt i (p.cnt i + 1) } w' := by
  obtain ⟨A, PQ, g1, g2, g3, g4⟩ := h.qlive i t q n hi hdq
  obtain ⟨a, Q, k1, k2, k3⟩ := g4 hdt
  obtain ⟨m', Q', e, hqa, hgrow⟩ := k3.advance (first := first) hA ht hf
  have hterm : Q.term = q ∧ Q.maxD = n := by
    obtain ⟨P, ch, j1, _⟩ := k3
    exact ⟨j1.term, j1.maxD⟩
  obtain ⟨im', PQ', new, e', hrel, hg⟩ := ptrAdvance_sim hI hZ fuel h.acc.finite k2 e
  have hheap := (h.dict hdd).1
  obtain ⟨ho1, ho2⟩ := h.others hg hgrow.keep
  obtain ⟨l, r, hT, hlen, hset⟩ := split_at g2
  have hsame : stateOf im' a = stateOf w.im a := by
    obtain ⟨c, hc⟩ := k2.alive a (by simp)
    simp only [stateOf, hg.same a fun hc' => by rw [(hg.fresh a hc').2.1] at hc; cases hc]
  refine ⟨{ w with sm := m', im := im', qs := w.qs.set i (some (A, PQ')) }, ?_, ?_, h.dict, h.nodict, h.tlen, h.tdead, ho1,
    by simp [h.qlen], ?_, ?_⟩
  · simp only [lifeStep, g2, hheap, k2.maxD, k2.term, e', bind, Except.bind]
  · refine WAcc.perm ?_ (qOwned_split (hset (some (A, PQ'))) _).symm
    refine WAcc.grow (h.acc.perm (qOwned_split hT _)) hg ?_
    rw [← hrel.owned]
    refine hgrow.inv _ (accounted_stable hA first A n q.length m0 _) ?_
    rw [k2.owned, ← List.map_append]
    exact (h.acc.perm (qOwned_split hT _)).states
  · intro j hj
    have hji : j ≠ i := by rintro rfl; exact hdq hj
    simp only [List.getElem?_set_ne hji.symm]
    exact h.qdead j hj
  · intro j t' q' n' hj hdj
    by_cases hji : j = i
    · subst hji
      rw [hi] at hj
      simp only [Option.some.injEq, Prod.mk.injEq] at hj
      obtain ⟨rfl, rfl, rfl⟩ := hj
      simp only [upd1_self]
      refine ⟨A, PQ', g1, by simp only [List.getElem?_set_self (List.getElem?_eq_some_iff.1 g2).1], hqa.shows hrel (.inl ∘ ptrAdvance_owned e'), fun _ =>
        ⟨a, Q', k1, hrel, by rw [hsame]; exact hqa⟩⟩
    · simp only [upd1_ne _ _ hji, List.getElem?_set_ne (fun h : i = j => hji h.symm)]
      exact ho2 j t' q' n' hj hdj

/-- Intersections `O` have been deleted: transducers and queries that do not refer to them are what they were. -/
theorem LifeInv.afterDelete (h : LifeInv upd root nd F m0 im0 h1 h2 d p w) {im' : IMem Nat} {m' : SMem} {O P : List Nat}
    (hp : (tOwned w.ts ++ qOwned w.qs).Perm (O ++ P)) (hacc : WAcc m0 im0 m' im' P)
    (hk : ∀ x, x ∉ O → im'.cell x = w.im.cell x) (hc : im'.count = w.im.count)
    (hs : ∀ x ∈ P, ∀ l, IsState w.sm (stateOf w.im x) l → IsState m' (stateOf w.im x) l) :
    (∀ t A, p.made[t]? = some A → ¬ p.dt t →
      ∃ a s0, w.ts[t]? = some (some (A, a)) ∧ a ≠ 0 ∧ w.im.cell a = some ⟨0, root, s0, 0⟩ ∧
        (a ∈ P → im'.cell a = some ⟨0, root, s0, 0⟩ ∧ HRep m' s0 initialState)) ∧
    (∀ i t q n, p.started[i]? = some (t, q, n) → ¬ p.dq i →
      ∃ A PQ, p.made[t]? = some A ∧ w.qs[i]? = some (some (A, PQ)) ∧ Shows A upd nd F q n (p.cnt i) PQ ∧
        (¬ p.dt t → ∃ a Q, w.ts[t]? = some (some (A, a)) ∧ ((∀ x ∈ a :: PQ.owned, x ∈ P) → QRel (Reaches h1.mem root) im' a PQ Q ∧
          QueryAt A upd h1.mem (stateOf im' a) nd F m' q n (p.cnt i) Q))) := by
  have hnd := List.nodup_append.1 (hp.nodup_iff.1 h.acc.nodup)
  have hPO : ∀ x ∈ P, x ∉ O := fun x hx hc => hnd.2.2 x hc x hx rfl
  have hrep : ∀ x ∈ P, ∀ l, HRep w.sm (stateOf w.im x) l → HRep m' (stateOf w.im x) l := by
    rintro x hx l ⟨_, c, g1, g2⟩
    exact ⟨hacc.states.finite, c, hs x hx c g1, g2⟩
  constructor
  · intro t A hA hd
    obtain ⟨a, s0, g1, g2, g3, g4⟩ := h.tlive t A hA hd
    refine ⟨a, s0, g1, g2, g3, fun ha => ⟨by rw [hk a (hPO a ha)]; exact g3, ?_⟩⟩
    have hs0 : stateOf w.im a = s0 := by simp [stateOf, g3]
    have := hrep a ha
    rw [hs0] at this
    exact this _ g4
  · intro i t q n hi hd
    obtain ⟨A, PQ, g1, g2, g3, g4⟩ := h.qlive i t q n hi hd
    refine ⟨A, PQ, g1, g2, g3, fun hdt => ?_⟩
    obtain ⟨a, Q, k1, k2, k3⟩ := g4 hdt
    exact ⟨a, Q, k1, fun hx => k2.keep k3 (fun x hx' => hk x (hPO x (hx x hx'))) (by omega) fun x hx' => hrep x (hx x hx')⟩

theorem LifeInv.dropQuery (h : LifeInv upd root nd F m0 im0 h1 h2 d p w) {i : Nat} (hi : i < p.started.length)
    (hdq : ¬ p.dq i) :
    ∃ w', lifeStep paddr saddr iaddr first upd dflt root fuel (.dropQuery i) w = .ok w' ∧
      LifeInv upd root nd F m0 im0 h1 h2 d { p with dq := fun j => p.dq j ∨ j = i } w' := by
  obtain ⟨t, q, n, hs⟩ : ∃ t q n, p.started[i]? = some (t, q, n) := ⟨_, _, _, List.getElem?_eq_getElem hi⟩
  obtain ⟨A, PQ, g1, g2, g3, g4⟩ := h.qlive i t q n hs hdq
  obtain ⟨l, r, hT, hlen, hset⟩ := split_at g2
  have hperm : (tOwned w.ts ++ qOwned w.qs).Perm (PQ.owned ++ (tOwned w.ts ++ (qOwned l ++ qOwned r))) :=
    (qOwned_split hT _).trans List.perm_append_comm
  obtain ⟨m', im', e, hacc, hk, hc, hs'⟩ := (h.acc.perm hperm).destroy
  obtain ⟨ho1, ho2⟩ := h.afterDelete hperm hacc hk hc hs'
  have hown : qOwned (w.qs.set i none) = qOwned l ++ qOwned r := by
    rw [hset]; simp [qOwned]
  refine ⟨{ w with sm := m', im := im', qs := w.qs.set i none }, by simp only [lifeStep, g2, e, bind, Except.bind], ?_, h.dict,
    h.nodict, h.tlen, h.tdead, ?_, by simp [h.qlen], ?_, ?_⟩
  · simp only [hown]
    exact hacc
  · intro t' A' hA' hd'
    obtain ⟨a, s0, j1, j2, _, j3⟩ := ho1 t' A' hA' hd'
    exact ⟨a, s0, j1, j2, j3 (by simp [mem_tOwned j1])⟩
  · intro j hj
    simp only
    by_cases hji : j = i
    · subst hji
      exact List.getElem?_set_self (List.getElem?_eq_some_iff.1 g2).1
    · rw [List.getElem?_set_ne (fun h => hji h.symm)]
      exact h.qdead j (by simpa [hji] using hj)
  · intro j t' q' n' hj hdj
    simp only [not_or] at hdj
    obtain ⟨A', PQ', j1, j2, j3, j4⟩ := ho2 j t' q' n' hj hdj.1
    have j2' : (w.qs.set i none)[j]? = some (some (A', PQ')) := by
      rw [List.getElem?_set_ne (fun h => hdj.2 h.symm)]; exact j2
    refine ⟨A', PQ', j1, j2', j3, fun hdt => ?_⟩
    obtain ⟨a, Q, k1, k2⟩ := j4 hdt
    refine ⟨a, Q, k1, k2 fun x hx => ?_⟩
    rcases List.mem_cons.1 hx with rfl | hx
    · exact List.mem_append_left _ (mem_tOwned k1)
    · rw [← hown]
      exact List.mem_append_right _ (mem_qOwned j2' hx)

theorem LifeInv.dropTransducer (h : LifeInv upd root nd F m0 im0 h1 h2 d p w) {t : Nat} (hi : t < p.made.length)
    (hdt : ¬ p.dt t) :
    ∃ w', lifeStep paddr saddr iaddr first upd dflt root fuel (.dropTransducer t) w = .ok w' ∧
      LifeInv upd root nd F m0 im0 h1 h2 d { p with dt := fun j => p.dt j ∨ j = t } w' := by
  obtain ⟨a, s0, g1, g2, g3, g4⟩ := h.tlive t p.made[t] (List.getElem?_eq_getElem hi) hdt
  obtain ⟨l, r, hT, hlen, hset⟩ := split_at g1
  have hown : tOwned (w.ts.set t none) = tOwned l ++ tOwned r := by
    rw [hset]; simp [tOwned]
  have hperm : (tOwned w.ts ++ qOwned w.qs).Perm ([a] ++ ((tOwned l ++ tOwned r) ++ qOwned w.qs)) := by
    have : tOwned w.ts = tOwned l ++ ([a] ++ tOwned r) := by rw [hT]; simp [tOwned]
    rw [this, ← List.append_assoc [a]]
    refine List.Perm.append_right _ ?_
    rw [← List.append_assoc, ← List.append_assoc]
    exact List.perm_append_comm.append_right _
  obtain ⟨m', im', e, hacc, hk, hc, hs'⟩ := (h.acc.perm hperm).delete
  obtain ⟨ho1, ho2⟩ := h.afterDelete hperm hacc (by simpa using hk) hc hs'
  have hother : ∀ {t' : Nat} {A' : Algorithm} {a' : Nat}, t' ≠ t → w.ts[t']? = some (some (A', a')) →
      (w.ts.set t none)[t']? = some (some (A', a')) := by
    intro t' A' a' hne h'
    rw [List.getElem?_set_ne (fun h => hne h.symm)]; exact h'
  refine ⟨{ w with sm := m', im := im', ts := w.ts.set t none }, by simp only [lifeStep, g1, e, bind, Except.bind], ?_, h.dict,
    h.nodict, by simp [h.tlen], ?_, ?_, h.qlen, h.qdead, ?_⟩
  · simp only [hown]
    exact hacc
  · intro j hj
    simp only
    by_cases hji : j = t
    · subst hji
      exact List.getElem?_set_self (List.getElem?_eq_some_iff.1 g1).1
    · rw [List.getElem?_set_ne (fun h => hji h.symm)]
      exact h.tdead j (by simpa [hji] using hj)
  · intro t' A' hA' hd'
    simp only [not_or] at hd'
    obtain ⟨a', s', j1, j2, _, j3⟩ := ho1 t' A' hA' hd'.1
    refine ⟨a', s', hother hd'.2 j1, j2, j3 ?_⟩
    rw [← hown]
    exact List.mem_append_left _ (mem_tOwned (hother hd'.2 j1))
  · intro j t' q' n' hj hdj
    obtain ⟨A', PQ', j1, j2, j3, j4⟩ := ho2 j t' q' n' hj hdj
    refine ⟨A', PQ', j1, j2, j3, fun hdt' => ?_⟩
    simp only [not_or] at hdt'
    obtain ⟨a', Q, k1, k2⟩ := j4 hdt'.1
    refine ⟨a', Q, hother hdt'.2 k1, k2 fun x hx => ?_⟩
    rcases List.mem_cons.1 hx with rfl | hx
    · rw [← hown]
      exact List.mem_append_left _ (mem_tOwned (hother hdt'.2 k1))
    · exact List.mem_append_right _ (mem_qOwned j2 hx)

theorem LifeInv.dropDictionary (h : LifeInv upd root nd F m0 im0 h1 h2 d p w) (hdes : destroyDawg fuel h1 d = .ok h2)
    (hdd : ¬ p.dd) :
    ∃ w', lifeStep paddr saddr iaddr first upd dflt root fuel .dropDictionary w = .ok w' ∧
      LifeInv upd root nd F m0 im0 h1 h2 d { p with dd := True } w' := by
  obtain ⟨e1, e2⟩ := h.dict hdd
  refine ⟨{ w with heap := h2, dict := none }, by simp only [lifeStep, e1, e2, hdes, bind, Except.bind], h.acc, ?_,
    fun _ => ⟨rfl, rfl⟩, h.tlen, h.tdead, h.tlive, h.qlen, h.qdead, h.qlive⟩
  intro hc
  simp at hc

/-- What `ops` have done. -/
def doneBy (ops : List LOp) : Done :=
  { made := made ops, started := started ops, dt := fun t => .dropTransducer t ∈ ops, dq := fun i => .dropQuery i ∈ ops,
    dd := .dropDictionary ∈ ops, cnt := fun i => ops.count (.next i) }

theorem LifeInv.step (hA : SAlloc paddr saddr) (hI : IAlloc iaddr) (ht : Tree sgn h1.mem root nd F)
    (hZ : Closed h1.mem (Reaches h1.mem root))
    (hdes : destroyDawg fuel h1 d = .ok h2) {ops : List LOp} {op : LOp}
    (h : LifeInv upd root nd F m0 im0 h1 h2 d (doneBy ops) w) (hok : LifeOk (ops ++ [op])) (hf : F.wt + 3 ≤ fuel) :
    ∃ w', lifeStep paddr saddr iaddr first upd dflt root fuel op w = .ok w' ∧
      LifeInv upd root nd F m0 im0 h1 h2 d (doneBy (ops ++ [op])) w' := by
  have hlast := hok.last
  have hpre := hok.prefix
  have key : ∀ p', doneBy (ops ++ [op]) = p' → (∃ w', lifeStep paddr saddr iaddr first upd dflt root fuel op w = .ok w' ∧
      LifeInv upd root nd F m0 im0 h1 h2 d p' w') → ∃ w', lifeStep paddr saddr iaddr first upd dflt root fuel op w = .ok w' ∧
      LifeInv upd root nd F m0 im0 h1 h2 d (doneBy (ops ++ [op])) w' := by
    rintro p' rfl h'; exact h'
  cases op with
  | transducer A =>
    refine key _ ?_ (h.transducer hA hI A)
    simp [doneBy, made_append, started_append, made, started, List.count_append]
  | start t q n =>
    obtain ⟨h3, h4, h5, h6, h7⟩ := hlast
    refine key _ ?_ (h.start hA hI ht hZ hf h3 h4 h5 h6 h7 ?_)
    · simp [doneBy, made_append, started_append, made, started, List.count_append]
    · exact List.count_eq_zero.2 fun hc => by have := hpre.next_lt hc; simp [doneBy] at this
  | next i =>
    obtain ⟨h3, h4, ⟨t, q, n⟩, h5, h6⟩ := hlast
    refine key _ ?_ (h.next hA hI ht hZ hf h5 h3 h6 h4)
    simp only [doneBy, made_append, started_append, made, started, List.append_nil, Done.mk.injEq, true_and]
    refine ⟨by simp, by simp, by simp, ?_⟩
    funext j
    by_cases hji : j = i
    · subst hji; simp [upd1]
    · have : List.count (LOp.next j) [LOp.next i] = 0 := List.count_eq_zero.2 (by simp [hji])
      simp [upd1, hji, List.count_append, this]
  | copy i => exact absurd hlast id
  | copyTransducer i => exact absurd hlast id
  | dropQuery i =>
    refine key _ ?_ (h.dropQuery hlast.1 hlast.2)
    simp [doneBy, made_append, started_append, made, started, List.count_append]
  | dropTransducer t =>
    refine key _ ?_ (h.dropTransducer hlast.1 hlast.2)
    simp [doneBy, made_append, started_append, made, started, List.count_append]
  | dropDictionary =>
    refine key _ ?_ (h.dropDictionary hdes hlast)
    simp [doneBy, made_append, started_append, made, started, List.count_append]

theorem lifeRun_append (p r : List LOp) (w : World R) :
    lifeRun paddr saddr iaddr first upd dflt root fuel (p ++ r) w =
      (lifeRun paddr saddr iaddr first upd dflt root fuel p w).bind fun w =>
        lifeRun paddr saddr iaddr first upd dflt root fuel r w := by
  induction p generalizing w with
  | nil => rfl
  | cons op p ih =>
    simp only [List.cons_append, lifeRun, bind]
    cases lifeStep paddr saddr iaddr first upd dflt root fuel op w with
    | error e => rfl
    | ok w => exact ih w

theorem lifeRun_ok (hA : SAlloc paddr saddr) (hI : IAlloc iaddr) (ht : Tree sgn h1.mem root nd F)
    (hZ : Closed h1.mem (Reaches h1.mem root))
    (hdes : destroyDawg fuel h1 d = .ok h2) (hm : m0.Finite) (hi : im0.Finite) (hf : F.wt + 3 ≤ fuel) (rops : List LOp)
    (hok : LifeOk rops.reverse) :
    ∃ w, lifeRun paddr saddr iaddr first upd dflt root fuel rops.reverse ⟨h1, m0, im0, some d, [], []⟩ = .ok w ∧
      LifeInv upd root nd F m0 im0 h1 h2 d (doneBy rops.reverse) w := by
  induction rops with
  | nil =>
    exact ⟨_, rfl, WAcc.refl hm hi, by simp, by simp [doneBy], rfl, by simp [doneBy], by simp [doneBy, made], rfl,
      by simp [doneBy], by simp [doneBy, started]⟩
  | cons op rops ih =>
    rw [List.reverse_cons] at hok ⊢
    obtain ⟨w, e, hinv⟩ := ih hok.prefix
    obtain ⟨w', e', hinv'⟩ := hinv.step (first := first) (dflt := dflt) hA hI ht hZ hdes hok hf
    refine ⟨w', ?_, hinv'⟩
    rw [lifeRun_append, e]
    simp [Except.bind, lifeRun, e', bind]

end

end Lev
