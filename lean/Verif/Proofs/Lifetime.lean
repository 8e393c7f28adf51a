import Verif.Proofs.Session
import Verif.Proofs.DictSem
import Verif.Spec.Lifetime

/-!
Queries with pointers to intersections are the queries of `Verif/Model/Query.lean`.
-/

namespace Lev

open Spec

/-- Length of the path. -/
def Inter.depth {S : Type} : Inter S → Nat
  | root _ _ => 0
  | child _ _ _ p => p.depth + 1

section
variable {S : Type}

/-- In memory `im` the intersection at `a` is `I`; its path is in `own` and begins with `t`. -/
inductive IRep (im : IMem S) (t : Nat) (own : List Nat) : Nat → Inter S → Prop
  | root {l : UInt8} {n : Nat} {s : S} : t ∈ own → im.cell t = some ⟨l, n, s, 0⟩ → IRep im t own t (.root n s)
  | child {a p : Nat} {l : UInt8} {n : Nat} {s : S} {P : Inter S} : a ∈ own → im.cell a = some ⟨l, n, s, p⟩ → p ≠ 0 →
      IRep im t own p P → IRep im t own a (.child l n s P)

theorem IRep.mono {im im' : IMem S} {t : Nat} {own own' : List Nat} {a : Nat} {I : Inter S} (h : IRep im t own a I)
    (ho : ∀ x ∈ own, x ∈ own') (hk : ∀ x ∈ own, im'.cell x = im.cell x) : IRep im' t own' a I := by
  induction h with
  | root h1 h2 => exact .root (ho _ h1) (by rw [hk _ h1]; exact h2)
  | child h1 h2 h3 _ ih => exact .child (ho _ h1) (by rw [hk _ h1]; exact h2) h3 ih

theorem IRep.cell {im : IMem S} {t : Nat} {own : List Nat} {a : Nat} {I : Inter S} (h : IRep im t own a I) :
    ∃ c, im.cell a = some c ∧ c.node = I.node ∧ c.state = I.state := by
  cases h with
  | root h1 h2 => exact ⟨_, h2, rfl, rfl⟩
  | child h1 h2 h3 _ => exact ⟨_, h2, rfl, rfl⟩

theorem IRep.own {im : IMem S} {t : Nat} {own : List Nat} {a : Nat} {I : Inter S} (h : IRep im t own a I) : a ∈ own := by
  cases h <;> assumption

theorem IRep.str {im : IMem S} {t : Nat} {own : List Nat} {a : Nat} {I : Inter S} (h : IRep im t own a I) (fuel : Nat)
    (hf : I.depth < fuel) : interStr im fuel a = .ok I.str := by
  induction h generalizing fuel with
  | root h1 h2 =>
    obtain ⟨f, rfl⟩ : ∃ f, fuel = f + 1 := ⟨fuel - 1, by omega⟩
    simp [interStr, getInter, h2, bind, Except.bind, Inter.str]
  | child h1 h2 h3 _ ih =>
    simp only [Inter.depth] at hf
    obtain ⟨f, rfl⟩ : ∃ f, fuel = f + 1 := ⟨fuel - 1, by omega⟩
    simp [interStr, getInter, h2, bind, Except.bind, Inter.str, h3, ih f (by omega)]

/-- The state of the intersection at `a`. -/
def stateOf (im : IMem Nat) (a : Nat) : Nat := ((im.cell a).map (·.state)).getD 0

end

/-- Memory has grown: the intersections `o'` are `o` and new ones. -/
structure IGrow {S : Type} (im im' : IMem S) (o o' : List Nat) (new : List Nat) : Prop where
  eq : o' = o ++ new
  nodup : new.Nodup
  fresh : ∀ a ∈ new, a ≠ 0 ∧ im.cell a = none ∧ ∃ c, im'.cell a = some c
  same : ∀ a, a ∉ new → im'.cell a = im.cell a
  finite : im.Finite → im'.Finite
  count : im.count ≤ im'.count

theorem IGrow.refl {S : Type} (im : IMem S) (o : List Nat) : IGrow im im o o [] :=
  ⟨by simp, by simp, by simp, by simp, id, Nat.le_refl _⟩

theorem IGrow.trans {S : Type} {im im' im'' : IMem S} {o o' o'' new new' : List Nat} (h : IGrow im im' o o' new)
    (h' : IGrow im' im'' o' o'' new') : IGrow im im'' o o'' (new ++ new') := by
  have hd : ∀ a ∈ new, a ∉ new' := fun a ha hc => by
    obtain ⟨_, _, c, h1⟩ := h.fresh a ha
    rw [(h'.fresh a hc).2.1] at h1
    cases h1
  refine ⟨by rw [h'.eq, h.eq, List.append_assoc], List.nodup_append.2 ⟨h.nodup, h'.nodup, ?_⟩, ?_, ?_, h'.finite ∘ h.finite,
    Nat.le_trans h.count h'.count⟩
  · rintro a ha b hb rfl
    exact hd a ha hb
  · intro a ha
    rcases List.mem_append.1 ha with ha | ha
    · obtain ⟨h1, h2, c, h3⟩ := h.fresh a ha
      exact ⟨h1, h2, c, by rw [h'.same a (hd a ha)]; exact h3⟩
    · obtain ⟨h1, h2, c, h3⟩ := h'.fresh a ha
      refine ⟨h1, ?_, c, h3⟩
      rw [← h.same a fun hc => hd a hc ha]
      exact h2
  · intro a ha
    simp only [List.mem_append, not_or] at ha
    rw [h'.same a ha.2, h.same a ha.1]

theorem newInter_grow {S : Type} {iaddr : IMem S → Nat} (hA : IAlloc iaddr) {im : IMem S} (hf : im.Finite) (c : ICell S)
    (o : List Nat) : IGrow im (newInter iaddr c im).2 o (o ++ [(newInter iaddr c im).1]) [(newInter iaddr c im).1] := by
  obtain ⟨h0, hn⟩ := hA im hf
  refine ⟨rfl, by simp, ?_, ?_, ?_, by simp [newInter]⟩
  · simp only [newInter, List.mem_singleton, forall_eq]
    exact ⟨h0, hn, c, by simp⟩
  · intro a ha
    simp only [newInter, List.mem_singleton] at ha ⊢
    exact upd1_ne _ _ ha
  · rintro ⟨L, h1, h2⟩
    refine ⟨iaddr im :: L, by simp [newInter]; omega, fun a c' hc => ?_⟩
    by_cases ha : a = iaddr im
    · simp [ha]
    · simp only [newInter] at hc
      rw [upd1_ne _ _ ha] at hc
      simp [h2 a c' hc]

theorem AllPairs.isEmpty {α β : Type} {r : α → β → Prop} {l : List α} {l' : List β} (h : AllPairs r l l') :
    l.isEmpty = l'.isEmpty := by
  cases h <;> rfl

/-- The query `PQ` with pointers into `im` is `Q`; `t` is the intersection of the transducer; the nodes are in `Z`. -/
structure QRel {R : Type} (Z : Nat → Prop) (im : IMem Nat) (t : Nat) (PQ : PQuery R) (Q : Query Nat R) : Prop where
  tnz : t ≠ 0
  onz : ∀ a ∈ PQ.owned, a ≠ 0
  alive : ∀ a ∈ t :: PQ.owned, ∃ c, im.cell a = some c
  pending : AllPairs (fun a I => IRep im t (t :: PQ.owned) a I ∧ I.depth ≤ im.count) PQ.pending Q.pending
  cur : ∀ I, Q.cur = some I → IRep im t (t :: PQ.owned) PQ.cur I ∧ I.depth ≤ im.count
  owned : Q.owned = PQ.owned.map (stateOf im)
  edges : PQ.edges = Q.edges
  complete : PQ.complete = Q.complete
  cand : PQ.cand = Q.cand
  term : PQ.term = Q.term
  maxD : PQ.maxD = Q.maxD
  a : PQ.a = Q.a
  k : PQ.k = Q.k
  i : PQ.i = Q.i
  nodes : ∀ x ∈ t :: PQ.owned, ∀ c, im.cell x = some c → Z c.node
  targets : ∀ c b, (c, b) ∈ PQ.edges → Z b
  rootFirst : t ∈ PQ.pending → PQ.pending = [t] ∧ PQ.edges = []

/-- Nothing the query refers to has changed. -/
theorem QRel.frame {R : Type} {Z : Nat → Prop} {im im' : IMem Nat} {t : Nat} {PQ : PQuery R} {Q : Query Nat R} (h : QRel Z im t PQ Q)
    (hk : ∀ x ∈ t :: PQ.owned, im'.cell x = im.cell x) (hc : im.count ≤ im'.count) : QRel Z im' t PQ Q where
  tnz := h.tnz
  onz := h.onz
  alive a ha := by rw [hk a ha]; exact h.alive a ha
  pending := forall₂_imp_mem h.pending fun a _ I hI => ⟨hI.1.mono (fun _ h => h) hk, Nat.le_trans hI.2 hc⟩
  cur I hI := ⟨(h.cur I hI).1.mono (fun _ h => h) hk, Nat.le_trans (h.cur I hI).2 hc⟩
  owned := by
    rw [h.owned]
    refine List.map_congr_left fun a ha => ?_
    simp only [stateOf, hk a (by simp [ha])]
  edges := h.edges
  complete := h.complete
  cand := h.cand
  term := h.term
  maxD := h.maxD
  a := h.a
  k := h.k
  i := h.i
  nodes x hx c hc := h.nodes x hx c (by rw [← hk x hx]; exact hc)
  targets := h.targets
  rootFirst := h.rootFirst

section
variable {R : Type} {B : Backend SMem Nat} {iaddr : IMem Nat → Nat} {mem : Mem} {upd : Str → Nat → R}
  {Z : Nat → Prop}

theorem ptrIter_sim (hA : IAlloc iaddr) (hZ : Closed mem Z) {m m' : SMem} {im : IMem Nat} (hfin : im.Finite) {t : Nat} {PQ : PQuery R}
    {Q Q' : Query Nat R} {stop : Bool} (h : QRel Z im t PQ Q) (e : queryIter B mem upd m Q = .ok (m', Q', stop)) :
    ∃ im' PQ' new, ptrIter B iaddr mem upd m im PQ = .ok (m', im', PQ', stop) ∧ QRel Z im' t PQ' Q' ∧
      IGrow im im' PQ.owned PQ'.owned new := by
  unfold queryIter at e
  unfold ptrIter
  rw [h.edges]
  cases hes : Q.edges with
  | nil =>
    rw [hes] at e
    have hp := h.pending
    cases hpq : Q.pending with
    | nil => rw [hpq] at e; simp at e
    | cons I rest =>
      rw [hpq] at e hp
      simp only at e
      generalize hpp : PQ.pending = pp at hp
      cases hp with
      | @cons a _ pr _ hI hrest =>
        obtain ⟨c, hc, hcn, hcs⟩ := hI.1.cell
        simp only [getInter, hc, bind, Except.bind, hcs, hcn]
        cases hh : B.headIdx m I.state with
        | error er => rw [hh] at e; simp [bind, Except.bind] at e
        | ok i =>
          cases hd : deref mem I.node with
          | error er => rw [hh, hd] at e; simp [bind, Except.bind] at e
          | ok nd =>
            rw [hh, hd] at e
            simp only [bind, Except.bind, pure, Except.pure, Except.ok.injEq, Prod.mk.injEq] at e
            obtain ⟨rfl, rfl, rfl⟩ := e
            refine ⟨im, _, [], rfl, ?_, IGrow.refl _ _⟩
            refine ⟨h.tnz, h.onz, h.alive, hrest, ?_, h.owned, rfl, h.complete, h.cand, h.term, h.maxD, h.a, ?_, rfl, h.nodes, ?_,
              fun hc => ?_⟩
            · rintro J ⟨⟩
              exact hI
            · simp only [h.a, h.term]
            · obtain ⟨nd', hm, hcl⟩ := hZ _ (h.nodes a hI.1.own c hc)
              rw [hcn] at hm
              have : nd = nd' := by
                simp only [deref, hm] at hd
                simpa using hd.symm
              rw [this]
              exact hcl
            · have := (h.rootFirst (by rw [hpp]; exact List.mem_cons_of_mem _ hc)).1
              rw [hpp] at this
              simp only [List.cons.injEq] at this
              simp only [this.2] at hc
              cases hc
  | cons ed es =>
    obtain ⟨label, target⟩ := ed
    rw [hes] at e
    simp only at e ⊢
    cases hcur : Q.cur with
    | none => rw [hcur] at e; simp at e
    | some I =>
      rw [hcur] at e
      simp only at e
      obtain ⟨hI, hdep⟩ := h.cur I hcur
      obtain ⟨c, hc, hcn, hcs⟩ := hI.cell
      have htp : t ∉ PQ.pending := fun hm => by
        have := (h.rootFirst hm).2
        rw [h.edges, hes] at this
        cases this
      simp only [getInter, hc, bind, Except.bind, hcs, h.term, h.k, h.i]
      cases hcv : charVec label Q.term Q.k Q.i with
      | error er => rw [hcv] at e; simp [bind, Except.bind] at e
      | ok cv =>
        rw [hcv] at e
        simp only [bind, Except.bind] at e ⊢
        cases htr : B.trans m I.state cv with
        | error er => rw [htr] at e; simp at e
        | ok r =>
          obtain ⟨m1, next⟩ := r
          rw [htr] at e
          simp only at e ⊢
          cases next with
          | none =>
            simp only [pure, Except.pure, Except.ok.injEq, Prod.mk.injEq] at e
            obtain ⟨rfl, rfl, rfl⟩ := e
            refine ⟨im, _, [], rfl, ?_, IGrow.refl _ _⟩
            exact ⟨h.tnz, h.onz, h.alive, h.pending, fun J hJ => h.cur J (hcur.trans hJ), h.owned, rfl, h.complete, h.cand, rfl,
              h.maxD, h.a, rfl, rfl, h.nodes, fun c b hm => h.targets c b (by rw [h.edges, hes]; exact List.mem_cons_of_mem _ hm),
              fun hm => absurd hm htp⟩
          | some s =>
            simp only at e ⊢
            generalize hci : ({ label := label, node := target, state := s, parent := PQ.cur } : ICell Nat) = ci
            have hg := newInter_grow hA hfin ci PQ.owned
            have hcell : (newInter iaddr ci im).2.cell (newInter iaddr ci im).1 = some ci := by simp [newInter]
            have hcount : (newInter iaddr ci im).2.count = im.count + 1 := rfl
            generalize newInter iaddr ci im = w at hg hcell hcount
            obtain ⟨j, im1⟩ := w
            simp only at hg hcell hcount ⊢
            obtain ⟨hj0, hjn, _⟩ := hg.fresh j (by simp)
            have hold : ∀ x ∈ t :: PQ.owned, im1.cell x = im.cell x := by
              intro x hx
              refine hg.same x fun hc' => ?_
              simp only [List.mem_singleton] at hc'
              subst hc'
              obtain ⟨c', hc'⟩ := h.alive x hx
              rw [hjn] at hc'; cases hc'
            have hfr := h.frame hold hg.count
            have hsub : ∀ x ∈ t :: PQ.owned, x ∈ t :: (PQ.owned ++ [j]) := by
              intro x hx; simp only [List.mem_cons, List.mem_append] at hx ⊢; grind
            have hcurnz : PQ.cur ≠ 0 := by
              rcases List.mem_cons.1 hI.own with h' | h'
              · rw [h']; exact h.tnz
              · exact h.onz _ h'
            have hJ : IRep im1 t (t :: (PQ.owned ++ [j])) j (.child label target s I) := by
              subst hci
              exact .child (by simp) hcell hcurnz (hI.mono hsub hold)
            have hrel : ∀ (PQ' : PQuery R) (Q'' : Query Nat R), PQ'.pending = PQ.pending ++ [j] →
                Q''.pending = Q.pending ++ [.child label target s I] → PQ'.owned = PQ.owned ++ [j] →
                Q''.owned = Q.owned ++ [s] → PQ'.cur = PQ.cur → Q''.cur = Q.cur → PQ'.edges = Q''.edges →
                PQ'.complete = Q''.complete → PQ'.cand = Q''.cand → PQ'.term = Q''.term → PQ'.maxD = Q''.maxD →
                PQ'.a = Q''.a → PQ'.k = Q''.k → PQ'.i = Q''.i → PQ'.edges = es → QRel Z im1 t PQ' Q'' := by
              intro PQ' Q'' e1 e2 e3 e4 e5 e6 e7 e8 e9 e10 e11 e12 e13 e14 e15
              refine ⟨h.tnz, ?_, ?_, ?_, ?_, ?_, e7, e8, e9, e10, e11, e12, e13, e14, ?_, ?_, fun hm => ?_⟩
              · rw [e3]
                intro a ha
                rcases List.mem_append.1 ha with ha | ha
                · exact h.onz a ha
                · simp only [List.mem_singleton] at ha; subst ha; exact hj0
              · rw [e3]
                intro a ha
                rw [← List.cons_append] at ha
                rcases List.mem_append.1 ha with ha | ha
                · exact hfr.alive a ha
                · simp only [List.mem_singleton] at ha; subst ha; exact ⟨_, hcell⟩
              · rw [e1, e2, e3]
                refine forall₂_snoc (forall₂_imp_mem hfr.pending fun a _ J hJ' =>
                  ⟨hJ'.1.mono hsub fun _ _ => rfl, hJ'.2⟩) ⟨hJ, ?_⟩
                simp only [Inter.depth, hcount]
                omega
              · rw [e3, e5, e6]
                intro J hJ'
                exact ⟨(hfr.cur J hJ').1.mono hsub fun _ _ => rfl, (hfr.cur J hJ').2⟩
              · rw [e3, e4, List.map_append, ← hfr.owned]
                subst hci
                simp [stateOf, hcell]
              · rw [e3]
                intro a ha c' hc'
                rw [← List.cons_append] at ha
                rcases List.mem_append.1 ha with ha | ha
                · exact hfr.nodes a ha c' hc'
                · simp only [List.mem_singleton] at ha
                  subst ha
                  rw [hcell] at hc'
                  obtain rfl := Option.some.inj hc'
                  subst hci
                  exact h.targets label target (by rw [h.edges, hes]; simp)
              · rw [e15]
                intro c' b hm
                exact h.targets c' b (by rw [h.edges, hes]; exact List.mem_cons_of_mem _ hm)
              · rw [e1] at hm
                rcases List.mem_append.1 hm with hm | hm
                · exact absurd hm htp
                · simp only [List.mem_singleton] at hm
                  obtain ⟨c', hc'⟩ := h.alive t (by simp)
                  rw [hm, hjn] at hc'; cases hc'
            cases hd : deref mem target with
            | error er => rw [hd] at e; simp at e
            | ok nd =>
              rw [hd] at e
              simp only at e ⊢
              split at e
              · rename_i hfn
                rw [if_pos hfn]
                cases hds : B.dist m1 s Q.term.length with
                | error er => rw [hds] at e; simp at e
                | ok d =>
                  rw [hds] at e
                  simp only [h.maxD] at e ⊢
                  split at e
                  · rename_i hle
                    rw [if_pos hle, hJ.str im1.steps (by simp only [Inter.depth, IMem.steps, hcount]; omega)]
                    simp only [pure, Except.pure, Except.ok.injEq, Prod.mk.injEq] at e ⊢
                    obtain ⟨rfl, rfl, rfl⟩ := e
                    exact ⟨im1, _, [j], ⟨rfl, rfl, rfl, rfl⟩, hrel _ _ rfl rfl rfl rfl rfl hcur.symm rfl rfl rfl rfl rfl h.a rfl rfl rfl, hg⟩
                  · rename_i hle
                    rw [if_neg hle]
                    simp only [pure, Except.pure, Except.ok.injEq, Prod.mk.injEq] at e ⊢
                    obtain ⟨rfl, rfl, rfl⟩ := e
                    exact ⟨im1, _, [j], ⟨rfl, rfl, rfl, rfl⟩, hrel _ _ rfl rfl rfl rfl rfl hcur.symm rfl h.complete h.cand rfl rfl h.a rfl rfl rfl, hg⟩
              · rename_i hfn
                rw [if_neg hfn]
                simp only [pure, Except.pure, Except.ok.injEq, Prod.mk.injEq] at e ⊢
                obtain ⟨rfl, rfl, rfl⟩ := e
                exact ⟨im1, _, [j], ⟨rfl, rfl, rfl, rfl⟩, hrel _ _ rfl rfl rfl rfl rfl hcur.symm rfl h.complete h.cand rfl h.maxD h.a rfl rfl rfl, hg⟩

theorem ptrLoop_sim (hA : IAlloc iaddr) (hZ : Closed mem Z) (fuel : Nat) {m m' : SMem} {im : IMem Nat} (hfin : im.Finite) {t : Nat}
    {PQ : PQuery R} {Q Q' : Query Nat R} (h : QRel Z im t PQ Q) (e : queryLoop B mem upd fuel m Q = .ok (m', Q')) :
    ∃ im' PQ' new, ptrLoop B iaddr mem upd fuel m im PQ = .ok (m', im', PQ') ∧ QRel Z im' t PQ' Q' ∧
      IGrow im im' PQ.owned PQ'.owned new := by
  induction fuel generalizing m im PQ Q with
  | zero => simp [queryLoop] at e
  | succ fuel ih =>
    rw [queryLoop] at e
    cases hi : queryIter B mem upd m Q with
    | error er => rw [hi] at e; simp [bind, Except.bind] at e
    | ok r =>
      obtain ⟨m1, Q1, stop⟩ := r
      obtain ⟨im1, PQ1, new, e1, hrel, hg⟩ := ptrIter_sim hA hZ hfin h hi
      rw [hi] at e
      simp only [bind, Except.bind] at e
      rw [ptrLoop, e1]
      simp only [bind, Except.bind]
      cases stop with
      | true =>
        simp only [if_true, pure, Except.pure, Except.ok.injEq, Prod.mk.injEq] at e ⊢
        obtain ⟨rfl, rfl⟩ := e
        exact ⟨im1, PQ1, new, ⟨rfl, rfl, rfl⟩, hrel, hg⟩
      | false =>
        have hemp : PQ1.pending.isEmpty = Q1.pending.isEmpty := by
          exact hrel.pending.isEmpty
        simp only [Bool.false_eq_true, if_false] at e ⊢
        rw [hrel.edges, hemp]
        split at e
        · rename_i hc
          rw [if_pos hc]
          simp only [pure, Except.pure, Except.ok.injEq, Prod.mk.injEq] at e ⊢
          obtain ⟨rfl, rfl⟩ := e
          exact ⟨im1, PQ1, new, ⟨rfl, rfl, rfl⟩, hrel, hg⟩
        · rename_i hc
          rw [if_neg hc]
          obtain ⟨im2, PQ2, new2, e2, hrel2, hg2⟩ := ih (hg.finite hfin) hrel e
          exact ⟨im2, PQ2, _, e2, hrel2, hg.trans hg2⟩

theorem QRel.mark {im : IMem Nat} {t : Nat} {PQ : PQuery R} {Q : Query Nat R} (h : QRel Z im t PQ Q) :
    QRel Z im t { PQ with complete := true } { Q with complete := true } :=
  ⟨h.tnz, h.onz, h.alive, h.pending, h.cur, h.owned, h.edges, rfl, h.cand, h.term, h.maxD, h.a, h.k, h.i, h.nodes, h.targets, h.rootFirst⟩

theorem ptrAdvance_sim (hA : IAlloc iaddr) (hZ : Closed mem Z) (fuel : Nat) {m m' : SMem} {im : IMem Nat} (hfin : im.Finite) {t : Nat}
    {PQ : PQuery R} {Q Q' : Query Nat R} (h : QRel Z im t PQ Q) (e : queryAdvance B mem upd fuel m Q = .ok (m', Q')) :
    ∃ im' PQ' new, ptrAdvance B iaddr mem upd fuel m im PQ = .ok (m', im', PQ') ∧ QRel Z im' t PQ' Q' ∧
      IGrow im im' PQ.owned PQ'.owned new := by
  unfold queryAdvance at e
  unfold ptrAdvance
  have hemp : (PQ.edges.isEmpty && PQ.pending.isEmpty) = (Q.edges.isEmpty && Q.pending.isEmpty) := by
    rw [h.edges, h.pending.isEmpty]
  split at e
  · rename_i hc
    rw [if_pos (by rw [hemp]; exact hc)]
    simp only [pure, Except.pure, Except.ok.injEq, Prod.mk.injEq] at e ⊢
    obtain ⟨rfl, rfl⟩ := e
    exact ⟨im, _, [], ⟨rfl, rfl, rfl⟩, h.mark, IGrow.refl _ _⟩
  · rename_i hc
    rw [if_neg (by rw [hemp]; exact hc)]
    exact ptrLoop_sim hA hZ fuel hfin h.mark e

theorem ptrBegin_sim (hA : IAlloc iaddr) (hZ : Closed mem Z) (fuel : Nat) {m m' : SMem} {im : IMem Nat} (hfin : im.Finite) {t root s0 : Nat}
    {l : UInt8} {dflt : R} (ht : t ≠ 0) (hr : Z root) (hc : im.cell t = some ⟨l, root, s0, 0⟩) {q : Str} {n : Nat} {Q' : Query Nat R}
    (e : queryBegin B mem upd fuel dflt m root s0 q n = .ok (m', Q')) :
    ∃ im' PQ' new, ptrBegin B iaddr mem upd fuel dflt m im t q n = .ok (m', im', PQ') ∧ QRel Z im' t PQ' Q' ∧
      IGrow im im' [] PQ'.owned new := by
  unfold queryBegin at e
  unfold ptrBegin
  simp only [getInter, hc, bind, Except.bind] at e ⊢
  cases hd : deref mem root with
  | error er => rw [hd] at e; simp at e
  | ok nd =>
    rw [hd] at e
    simp only at e ⊢
    have hrel : ∀ r : R, QRel Z im t
        { pending := [t], edges := [], owned := [], complete := false, cur := 0, cand := r, term := q, maxD := n,
          a := windowMax n, k := 0, i := 0 }
        { pending := [Inter.root root s0], edges := [], owned := [], complete := false, cur := none, cand := r, term := q,
          maxD := n, a := windowMax n, k := 0, i := 0 } := by
      intro r
      refine ⟨ht, by simp, ?_, .cons ⟨.root (by simp) hc, by simp [Inter.depth]⟩ .nil, by simp, rfl, rfl, rfl, rfl, rfl, rfl,
        rfl, rfl, rfl, ?_, by simp, by simp⟩
      · intro a ha
        simp only [List.mem_singleton] at ha
        exact ⟨_, by rw [ha]; exact hc⟩
      · intro a ha c hc'
        simp only [List.mem_singleton] at ha
        rw [ha, hc] at hc'
        obtain rfl := Option.some.inj hc'
        exact hr
    split at e
    · rename_i hcn
      rw [if_pos hcn]
      simp only [pure, Except.pure, Except.ok.injEq, Prod.mk.injEq] at e ⊢
      obtain ⟨rfl, rfl⟩ := e
      exact ⟨im, _, [], ⟨rfl, rfl, rfl⟩, hrel _, IGrow.refl _ _⟩
    · rename_i hcn
      rw [if_neg hcn]
      exact ptrAdvance_sim hA hZ fuel hfin (hrel dflt) e

end

end Lev
