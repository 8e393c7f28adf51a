import Verif.Proofs.ThreadsOwn
import Verif.Proofs.LifetimeRun

/-!
Threads that run queries: the invariant of `Verif/Proofs/Threads.lean` holds when they start, and what it says when they have
finished.
-/

namespace Lev

open Spec

theorem ownOp_threadOp {nt nq : Nat} {op : LOp} (h : OwnOp nt nq op) : ThreadOp op := by
  cases op <;> first | trivial | exact h

section
variable {R : Type} {upd : Str → Nat → R} {dflt : R} {paddr saddr : SMem → Nat} {iaddr : IMem Nat → Nat}
  {root fuel : Nat} {first : Bool}

/-- The first `nt` transducers and `nq` queries are what they were. -/
structure Kept (nt nq : Nat) (w w' : World R) : Prop where
  tlen : nt ≤ w'.ts.length
  qlen : nq ≤ w'.qs.length
  ts : ∀ t, t < nt → w'.ts[t]? = w.ts[t]?
  qs : ∀ i, i < nq → w'.qs[i]? = w.qs[i]?

theorem lifeStep_kept {nt nq : Nat} {op : LOp} (hop : OwnOp nt nq op) {w0 w w' : World R} (hk : Kept nt nq w0 w)
    (h : lifeStep paddr saddr iaddr first upd dflt root fuel op w = .ok w') : Kept nt nq w0 w' := by
  cases op with
  | copy => exact absurd hop id
  | copyTransducer => exact absurd hop id
  | dropDictionary => exact absurd hop id
  | transducer A =>
    obtain ⟨x, _, h⟩ := ebind_eq_ok h
    cases h
    have := hk.tlen
    refine ⟨by simp; omega, hk.qlen, fun t ht => ?_, hk.qs⟩
    rw [← hk.ts t ht]
    exact List.getElem?_append_left (by omega)
  | start t q n =>
    simp only [lifeStep] at h
    split at h
    · obtain ⟨x, _, h⟩ := ebind_eq_ok h
      cases h
      have := hk.qlen
      refine ⟨hk.tlen, by simp; omega, hk.ts, fun i hi => ?_⟩
      rw [← hk.qs i hi]
      exact List.getElem?_append_left (by omega)
    · cases h
  | next i =>
    simp only [lifeStep] at h
    split at h
    · obtain ⟨x, _, h⟩ := ebind_eq_ok h
      cases h
      refine ⟨hk.tlen, by simpa using hk.qlen, hk.ts, fun j hj => ?_⟩
      rw [← hk.qs j hj]
      have hop : nq ≤ i := hop
      exact List.getElem?_set_ne (by omega)
    · cases h
  | dropQuery i =>
    simp only [lifeStep] at h
    split at h
    · obtain ⟨x, _, h⟩ := ebind_eq_ok h
      cases h
      refine ⟨hk.tlen, by simpa using hk.qlen, hk.ts, fun j hj => ?_⟩
      rw [← hk.qs j hj]
      have hop : nq ≤ i := hop
      exact List.getElem?_set_ne (by omega)
    · cases h
  | dropTransducer i =>
    simp only [lifeStep] at h
    split at h
    · obtain ⟨x, _, h⟩ := ebind_eq_ok h
      cases h
      refine ⟨by simpa using hk.tlen, hk.qlen, fun j hj => ?_, hk.qs⟩
      rw [← hk.ts j hj]
      have hop : nt ≤ i := hop
      exact List.getElem?_set_ne (by omega)
    · cases h

variable {sgn : Bool} {nd : DNode} {F : Forest} {h1 h2 : Heap} {d : SDawg} {m0 : SMem} {im0 : IMem Nat} {w : World R}

theorem Spec.LifeOk.left {p r : List LOp} (h : LifeOk (p ++ r)) : LifeOk p := by
  rintro p' op r' rfl
  exact h p' op (r' ++ r) (by simp)

/-- A thread alone, from the state that `pre` has left, with any allocators. -/
theorem LifeInv.alone (hA : SAlloc paddr saddr) (hI : IAlloc iaddr) (ht : Tree sgn h1.mem root nd F)
    (hZ : Closed h1.mem (Reaches h1.mem root)) (hdes : destroyDawg fuel h1 d = .ok h2) (hf : F.wt + 3 ≤ fuel)
    {nt nq : Nat} {w0 : World R} (hk : Kept nt nq w0 w) {pre ops : List LOp} (hok : LifeOk (pre ++ ops))
    (hop : ∀ op ∈ ops, OwnOp nt nq op) (h : LifeInv upd root nd F m0 im0 h1 h2 d (doneBy pre) w) :
    ∃ w', lifeRun paddr saddr iaddr first upd dflt root fuel ops w = .ok w' ∧
      LifeInv upd root nd F m0 im0 h1 h2 d (doneBy (pre ++ ops)) w' ∧ Kept nt nq w0 w' := by
  induction ops generalizing pre w with
  | nil => exact ⟨w, rfl, by simpa using h, hk⟩
  | cons op ops ih =>
    rw [List.append_cons] at hok ⊢
    obtain ⟨w1, e1, h1'⟩ := h.step (first := first) (dflt := dflt) hA hI ht hZ hdes (Spec.LifeOk.left hok) hf
    obtain ⟨w2, e2, h2', hk2⟩ := ih (lifeStep_kept (hop op (by simp)) hk e1) hok (fun o ho => hop o (by simp [ho])) h1'
    refine ⟨w2, ?_, h2', hk2⟩
    simp only [lifeRun, bind, e1]
    exact e2

/-- Nothing is at the null address. -/
structure NoNull (m : SMem) (im : IMem Nat) : Prop where
  pos : m.pos 0 = none
  st : m.st 0 = none
  inter : im.cell 0 = none

theorem WAcc.noNull {m : SMem} {im : IMem Nat} {O : List Nat} (h : WAcc m0 im0 m im O) (hn : NoNull m0 im0) : NoNull m im := by
  refine ⟨?_, ?_, ?_⟩
  · rw [h.states.pos 0 fun s hs l hl hc => hl.linked.nonnull 0 hc rfl, hn.pos]
  · rw [h.states.st 0 fun hc => (h.states.states 0 hc).1 rfl, hn.st]
  · rw [h.same 0 fun hc => (h.own 0 hc).1 rfl, hn.inter]

/-- What thread `i` ends with. -/
def EndsWith (upd : Str → Nat → R) (root : Nat) (nd : DNode) (F : Forest) (m0 : SMem) (im0 : IMem Nat) (h1 h2 : Heap)
    (d : SDawg) (pre : List LOp) (opss : List (List LOp)) (w0 : World R) (i : Nat) (x : Thr.Objects R) (l : LMem) : Prop :=
  ∃ ops w, opss[i]? = some ops ∧ x = ⟨w.ts, w.qs⟩ ∧ l = ⟨w.sm, w.im⟩ ∧
    LifeInv upd root nd F m0 im0 h1 h2 d (doneBy (pre ++ ops)) w ∧ Kept (made pre).length (started pre).length w0 w

theorem LifeInv.threads (hA : SAlloc paddr saddr) (hI : IAlloc iaddr) (ht : Tree sgn h1.mem root nd F)
    (hZ : Closed h1.mem (Reaches h1.mem root)) (hdes : destroyDawg fuel h1 d = .ok h2) (hf : F.wt + 3 ≤ fuel)
    (hn : NoNull m0 im0) {pre : List LOp} {opss : List (List LOp)} (hok : ThreadsOk pre opss)
    (h : LifeInv upd root nd F m0 im0 h1 h2 d (doneBy pre) w) :
    TInv h1.mem (LMem.at ⟨w.sm, w.im⟩) (EndsWith upd root nd F m0 im0 h1 h2 d pre opss w)
      (HSys.start first upd dflt root fuel w opss) (fun _ => ⟨w.sm, w.im⟩) fun _ _ => False := by
  have hnn := h.acc.noNull hn
  have hheap : w.heap = h1 := (h.dict hok.dict).1
  have hth : ∀ (i : Nat) (t : HThread (Thr.Objects R)), (HSys.start first upd dflt root fuel w opss).threads[i]? = some t → ∃ ops, opss[i]? = some ops ∧
      t = ⟨Thr.lifeRun first upd dflt root fuel ops ⟨w.ts, w.qs⟩, w.sm.count, w.im.count⟩ := by
    intro i t hi
    simp only [HSys.start, List.getElem?_map] at hi
    cases ho : opss[i]? with
    | none => rw [ho] at hi; cases hi
    | some ops => rw [ho] at hi; cases hi; exact ⟨ops, rfl, rfl⟩
  constructor
  · intro i t hi
    obtain ⟨ops, _, rfl⟩ := hth i t hi
    exact ⟨rfl, rfl⟩
  · intro i t hi
    obtain ⟨ops, ho, rfl⟩ := hth i t hi
    obtain ⟨hl, hop⟩ := hok.ops ops (List.mem_of_getElem? ho)
    refine sure_of_run hA hI _ _ fun paddr saddr iaddr hA hI => ?_
    have hk : Kept (made pre).length (started pre).length w w :=
      ⟨by have := h.tlen; simp only [doneBy] at this; omega, by have := h.qlen; simp only [doneBy] at this; omega,
        fun _ _ => rfl, fun _ _ => rfl⟩
    obtain ⟨w', e, hinv, hk'⟩ := h.alone (first := first) (dflt := dflt) hA hI ht hZ hdes hf hk hl hop
    have := run_lifeRun paddr saddr iaddr first upd dflt root fuel ops (fun op ho => ownOp_threadOp (hop op ho)) w
    rw [e, hheap] at this
    exact ⟨_, _, this, ops, w', ho, rfl, rfl, hinv, hk'⟩
  · intro i t hi
    obtain ⟨ops, ho, rfl⟩ := hth i t hi
    obtain ⟨hl, hop⟩ := hok.ops ops (List.mem_of_getElem? ho)
    have hreg : Region (fun _ => False) ⟨w.sm, w.im⟩ := by
      refine ⟨hnn.pos, hnn.st, hnn.inter, ?_, ?_, ?_⟩ <;> exact fun _ _ hc => absurd hc id
    have hobj : ObjOwn (made pre).length (started pre).length (fun _ => False) (⟨w.ts, w.qs⟩ : Thr.Objects R) := by
      constructor
      · intro t A a ht' hc
        have := (List.getElem?_eq_some_iff.1 hc).1
        have := h.tlen
        simp only [doneBy] at *
        omega
      · intro t A a ht' hc
        have := (List.getElem?_eq_some_iff.1 hc).1
        have := h.qlen
        simp only [doneBy] at *
        omega
    exact (good_lifeRun hop hobj _ hreg).imp fun _ _ _ _ => trivial
  · intro i p v _ hb
    exact ⟨hb, id⟩
  · intro i p v _ hb
    rw [← hb]; cases p <;> rfl
  · intro i p _ hl
    exact Or.inl hl
  · intro i j p _ _ _ hb hl
    exact absurd hb hl
  · intro p hp
    left
    intro hb
    apply hp
    rw [← hb]; cases p <;> rfl

/-- When a thread has destroyed all that it has made, it has left nothing in memory. -/
theorem LifeInv.left_nothing {pre ops : List LOp} {w0 : World R} (h0 : LifeInv upd root nd F m0 im0 h1 h2 d (doneBy pre) w0)
    (h : LifeInv upd root nd F m0 im0 h1 h2 d (doneBy (pre ++ ops)) w)
    (hk : Kept (made pre).length (started pre).length w0 w) (hdr : OwnDropped pre ops)
    (hb : ∀ p v, LMem.at ⟨w0.sm, w0.im⟩ p = some v → LMem.at ⟨w.sm, w.im⟩ p = some v) (p : Loc)
    (hp : LMem.at ⟨w.sm, w.im⟩ p ≠ none) : LMem.at ⟨w0.sm, w0.im⟩ p ≠ none := by
  have hO : ∀ a ∈ tOwned w.ts ++ qOwned w.qs, a ∈ tOwned w0.ts ++ qOwned w0.qs := by
    intro a ha
    rcases List.mem_append.1 ha with ha | ha
    · refine List.mem_append_left _ ?_
      unfold tOwned at ha ⊢
      rw [List.mem_flatMap] at ha ⊢
      obtain ⟨x, hx, hxa⟩ := ha
      obtain ⟨t, htl, rfl⟩ := List.getElem_of_mem hx
      have hlen := h.tlen
      simp only [doneBy] at hlen
      rcases Nat.lt_or_ge t (made pre).length with hlt | hge
      · have := hk.ts t hlt
        rw [List.getElem?_eq_getElem htl] at this
        exact ⟨_, List.mem_of_getElem? this.symm, hxa⟩
      · have := h.tdead t (List.mem_append_right _ (hdr.2 t hge (by omega)))
        rw [List.getElem?_eq_getElem htl] at this
        rw [Option.some.inj this] at hxa
        simp at hxa
    · refine List.mem_append_right _ ?_
      unfold qOwned at ha ⊢
      rw [List.mem_flatMap] at ha ⊢
      obtain ⟨x, hx, hxa⟩ := ha
      obtain ⟨t, htl, rfl⟩ := List.getElem_of_mem hx
      have hlen := h.qlen
      simp only [doneBy] at hlen
      rcases Nat.lt_or_ge t (started pre).length with hlt | hge
      · have := hk.qs t hlt
        rw [List.getElem?_eq_getElem htl] at this
        exact ⟨_, List.mem_of_getElem? this.symm, hxa⟩
      · have := h.qdead t (List.mem_append_right _ (hdr.1 t hge (by omega)))
        rw [List.getElem?_eq_getElem htl] at this
        rw [Option.some.inj this] at hxa
        simp at hxa
  have hcell : ∀ a ∈ tOwned w0.ts ++ qOwned w0.qs, w.im.cell a = w0.im.cell a := by
    intro a ha
    obtain ⟨_, _, c, hc⟩ := h0.acc.own a ha
    have := hb (.inter a) (.inter c) (by simp [LMem.at, hc])
    rw [hc]
    simpa [LMem.at] using this
  have hstate : ∀ a ∈ tOwned w0.ts ++ qOwned w0.qs, stateOf w.im a = stateOf w0.im a := by
    intro a ha
    simp only [stateOf, hcell a ha]
  have hst : ∀ a ∈ tOwned w0.ts ++ qOwned w0.qs, ∃ l, IsState w0.sm (stateOf w0.im a) l ∧ IsState w.sm (stateOf w0.im a) l := by
    intro a ha
    obtain ⟨_, _, l, hl, _⟩ := h0.acc.states.states _ (List.mem_map_of_mem ha)
    refine ⟨l, hl, ?_, ?_, hl.nodup⟩
    · have := hb (.st (stateOf w0.im a)) (.st (hd l 0)) (by simp [LMem.at, hl.st])
      simpa [LMem.at] using this
    · refine hl.linked.frame fun x hx => ?_
      obtain ⟨c, hc⟩ := hl.linked.alive x hx
      have := hb (.pos x) (.pos c) (by simp [LMem.at, hc])
      rw [hc]
      simpa [LMem.at] using this
  have hup : ∀ p, LMem.at ⟨m0, im0⟩ p ≠ none → LMem.at ⟨w0.sm, w0.im⟩ p ≠ none := by
    intro p hp
    cases p with
    | pos a =>
      have e := h0.acc.states.pos a
      simp only [LMem.at, ne_eq, Option.map_eq_none_iff] at hp ⊢
      rw [e]
      · exact hp
      · intro s hs l hl hc
        obtain ⟨_, _, l', hl', hn⟩ := h0.acc.states.states s hs
        rw [hl.unique hl'] at hc
        exact hp (hn a hc)
    | st s =>
      simp only [LMem.at, ne_eq, Option.map_eq_none_iff] at hp ⊢
      rw [h0.acc.states.st s fun hc => hp (h0.acc.states.states s hc).2.1]
      exact hp
    | inter a =>
      simp only [LMem.at, ne_eq, Option.map_eq_none_iff] at hp ⊢
      rw [h0.acc.same a fun hc => hp (h0.acc.own a hc).2.1]
      exact hp
  cases p with
  | inter a =>
    by_cases ha : a ∈ tOwned w.ts ++ qOwned w.qs
    · obtain ⟨_, _, c, hc⟩ := h0.acc.own a (hO a ha)
      simp [LMem.at, hc]
    · refine hup _ ?_
      have := h.acc.same a ha
      simpa [LMem.at, this] using hp
  | st s =>
    by_cases hs : s ∈ (tOwned w.ts ++ qOwned w.qs).map (stateOf w.im)
    · obtain ⟨a, ha, rfl⟩ := List.mem_map.1 hs
      rw [hstate a (hO a ha)]
      obtain ⟨l, hl, _⟩ := hst a (hO a ha)
      simp [LMem.at, hl.st]
    · refine hup _ ?_
      have := h.acc.states.st s hs
      simpa [LMem.at, this] using hp
  | pos x =>
    by_cases hx : ∀ s ∈ (tOwned w.ts ++ qOwned w.qs).map (stateOf w.im), ∀ l, IsState w.sm s l → x ∉ addrs l
    · refine hup _ ?_
      have := h.acc.states.pos x hx
      simpa [LMem.at, this] using hp
    · simp only [Classical.not_forall, Classical.not_not] at hx
      obtain ⟨s, hs, l, hl, hx⟩ := hx
      obtain ⟨a, ha, rfl⟩ := List.mem_map.1 hs
      rw [hstate a (hO a ha)] at hl
      obtain ⟨l', h3, h4⟩ := hst a (hO a ha)
      rw [hl.unique h4] at hx
      obtain ⟨c, hc⟩ := h3.linked.alive x hx
      simp [LMem.at, hc]

end

/-! ### Free addresses, progress, termination -/

/-- Beyond some address memory is free. -/
def GMem.Bounded (g : GMem) : Prop := ∃ B, ∀ p, (g.view 0 0).at p ≠ none → (match p with | .pos a | .st a | .inter a => a) < B

theorem le_maxOf {L : List Nat} {a : Nat} (h : a ∈ L) : a ≤ L.foldr max 0 := by
  induction L with
  | nil => cases h
  | cons b L ih =>
    rcases List.mem_cons.1 h with rfl | h
    · simp; omega
    · have := ih h
      simp; omega

theorem bounded_of_finite {m : SMem} {im : IMem Nat} (hm : m.Finite) (hi : im.Finite) : GMem.Bounded ⟨m.pos, m.st, im.cell⟩ := by
  obtain ⟨⟨L1, _, h1⟩, L2, _, h2⟩ := hm
  obtain ⟨L3, _, h3⟩ := hi
  refine ⟨(L1 ++ L2 ++ L3).foldr max 0 + 1, fun p hp => ?_⟩
  refine Nat.lt_succ_of_le (le_maxOf ?_)
  cases p with
  | pos a =>
    simp only [GMem.view, LMem.at, ne_eq, Option.map_eq_none_iff] at hp
    obtain ⟨c, hc⟩ := Option.ne_none_iff_exists'.1 hp
    simp [h1 a c hc]
  | st a =>
    simp only [GMem.view, LMem.at, ne_eq, Option.map_eq_none_iff] at hp
    obtain ⟨c, hc⟩ := Option.ne_none_iff_exists'.1 hp
    simp [h2 a c hc]
  | inter a =>
    simp only [GMem.view, LMem.at, ne_eq, Option.map_eq_none_iff] at hp
    obtain ⟨c, hc⟩ := Option.ne_none_iff_exists'.1 hp
    simp [h3 a c hc]

section
variable {α : Type} {nodes : Mem}

theorem HStep.bounded {s s' : HSys α} (h : HStep nodes s s') (hb : s.mem.Bounded) : s'.mem.Bounded := by
  cases h with
  | step g pre post x k c ic new r l hf hp =>
    obtain ⟨B, hB⟩ := hb
    have key : ∀ q : Loc, ∃ B', ∀ p, l.at p ≠ none → p = q ∨ x.loc new ≠ some p → (match p with | .pos a | .st a | .inter a => a) < B' := by
      intro q
      refine ⟨max B ((match q with | .pos a | .st a | .inter a => a) + 1), fun p hp' hc => ?_⟩
      rcases hc with rfl | hc
      · exact Nat.lt_of_lt_of_le (Nat.lt_succ_self _) (Nat.le_max_right _ _)
      · rw [perform_other hp hc, view_at] at hp'
        exact Nat.lt_of_lt_of_le (hB p hp') (Nat.le_max_left _ _)
    obtain ⟨B', hB'⟩ := key ((x.loc new).getD (.pos 0))
    refine ⟨B', fun p hp' => hB' p ?_ ?_⟩
    · intro hc; apply hp'; rw [← hc]; cases p <;> rfl
    · by_cases hx : x.loc new = some p
      · left; simp [hx]
      · exact Or.inr hx

theorem HSteps.bounded {s s' : HSys α} (h : HSteps nodes s s') (hb : s.mem.Bounded) : s'.mem.Bounded := by
  induction h with
  | refl => exact hb
  | tail _ h ih => exact h.bounded ih

theorem GMem.Bounded.free {g : GMem} (h : g.Bounded) (x : Access) : ∃ new, x.Fresh new (g.view 0 0) := by
  obtain ⟨B, hB⟩ := h
  refine ⟨B + 1, fun hx => ⟨by omega, fun p hp => ?_⟩⟩
  cases hg : (g.view 0 0).at p with
  | none => rfl
  | some v =>
    have := hB p (by simp [hg])
    cases x <;> simp only [Access.isNew, Bool.false_eq_true] at hx <;> cases hp <;> simp only at this <;> omega

variable {b : Loc → Option Val} {Q : Nat → α → LMem → Prop} {s : HSys α} {l : Nat → LMem} {o : Nat → Owned}

/-- A thread that has not finished can go on. -/
theorem TInv.progress (h : TInv nodes b Q s l o) (hb : s.mem.Bounded) {i : Nat} {t : HThread α} (ht : s.threads[i]? = some t) :
    (∃ x, t.prog = .ret x) ∨ ∃ s', HStep nodes s s' ∧ ∀ j, j ≠ i → s'.threads[j]? = s.threads[j]? := by
  obtain ⟨p, c, ic⟩ := t
  cases p with
  | ret x => exact Or.inl ⟨x, rfl⟩
  | fail e => exact absurd (h.sure i _ ht) id
  | act x k =>
    right
    obtain ⟨new, hf⟩ := hb.free x
    have hf' : x.Fresh new (s.mem.view c ic) := fun hx => ⟨(hf hx).1, fun p hp => by rw [view_at]; exact (hf hx).2 p hp⟩
    obtain ⟨r, _, _, _, _, _, g, hg, _⟩ := h.step1 ht hf'
    obtain ⟨hi, he⟩ := List.getElem?_eq_some_iff.1 ht
    have hsplit : s.threads = s.threads.take i ++ ⟨.act x k, c, ic⟩ :: s.threads.drop (i + 1) := by
      rw [← he]; simp
    refine ⟨⟨⟨g.sm.pos, g.sm.st, g.im.cell⟩, s.threads.take i ++ ⟨k r, g.sm.count, g.im.count⟩ :: s.threads.drop (i + 1)⟩, ?_, ?_⟩
    · have := HStep.step (nodes := nodes) s.mem (s.threads.take i) (s.threads.drop (i + 1)) x k c ic new r g hf' hg
      rwa [← hsplit] at this
    · intro j hj
      conv => rhs; rw [hsplit]
      have hl : (s.threads.take i).length = i := by simp; omega
      rcases Nat.lt_or_ge j i with hlt | hge
      · simp only
        rw [List.getElem?_append_left (by omega), List.getElem?_append_left (by omega)]
      · simp only
        rw [List.getElem?_append_right (by omega), List.getElem?_append_right (by omega), hl]
        obtain ⟨e, he⟩ : ∃ e, j - i = e + 1 := ⟨j - i - 1, by omega⟩
        rw [he]; rfl

/-- What is left to a program after one access. -/
def HProg.After (p q : HProg α) : Prop := ∃ x k r, q = .act x k ∧ p = k r

theorem HProg.after_acc (p : HProg α) : Acc HProg.After p := by
  induction p with
  | ret x => exact ⟨_, by rintro _ ⟨_, _, _, h, _⟩; cases h⟩
  | fail e => exact ⟨_, by rintro _ ⟨_, _, _, h, _⟩; cases h⟩
  | act x k ih =>
    refine ⟨_, ?_⟩
    rintro _ ⟨_, _, r, h, rfl⟩
    cases h
    exact ih r

/-- One of the programs makes an access. -/
def OneAfter (ps qs : List (HProg α)) : Prop := ∃ pre post p q, qs = pre ++ q :: post ∧ ps = pre ++ p :: post ∧ HProg.After p q

theorem oneAfter_acc (ps : List (HProg α)) : Acc OneAfter ps := by
  induction ps with
  | nil => exact ⟨_, by rintro _ ⟨pre, post, p, q, h, _⟩; simp at h⟩
  | cons p ps ih =>
    have h1 := p.after_acc
    induction h1 generalizing ps with
    | intro p _ ihp =>
      induction ih with
      | intro ps hps ihps =>
        refine ⟨_, ?_⟩
        rintro _ ⟨pre, post, p', q, h, rfl, hlt⟩
        cases pre with
        | nil =>
          cases h
          exact ihp p' hlt _ ⟨_, hps⟩
        | cons a pre =>
          cases h
          exact ihps _ ⟨pre, post, p', q, rfl, rfl, hlt⟩

/-- There is no infinite execution. -/
theorem HStep.acc (s : HSys α) : Acc (fun s' s => HStep nodes s s') s := by
  generalize hp : s.threads.map HThread.prog = ps
  have := oneAfter_acc ps
  induction this generalizing s with
  | intro ps _ ih =>
    subst hp
    refine ⟨_, fun s' h => ih _ ?_ s' rfl⟩
    cases h with
    | step g pre post x k c ic new r l hf hp =>
      exact ⟨pre.map HThread.prog, post.map HThread.prog, k r, .act x k, by simp, by simp, x, k, r, rfl, rfl⟩

theorem HSteps.head {s s' s'' : HSys α} (h : HStep nodes s s') (h' : HSteps nodes s' s'') : HSteps nodes s s'' := by
  induction h' with
  | refl => exact .tail (.refl _) h
  | tail _ h1 ih => exact .tail ih h1

theorem HSteps.trans {s s' s'' : HSys α} (h : HSteps nodes s s') (h' : HSteps nodes s' s'') : HSteps nodes s s'' := by
  induction h' with
  | refl => exact h
  | tail _ h1 ih => exact .tail ih h1

/-- All threads have finished. -/
def HSys.Done (s : HSys α) : Prop := ∀ t ∈ s.threads, ∃ x, t.prog = .ret x

/-- Every execution can be, and is, continued to the end. -/
theorem TInv.finish (h : ∃ l o, TInv nodes b Q s l o) (hb : s.mem.Bounded) : ∃ s', HSteps nodes s s' ∧ s'.Done := by
  have := HStep.acc (nodes := nodes) s
  induction this with
  | intro s _ ih =>
    by_cases hd : s.Done
    · exact ⟨s, .refl _, hd⟩
    · obtain ⟨l, o, hI⟩ := h
      simp only [HSys.Done, Classical.not_forall] at hd
      obtain ⟨t, ht, hd⟩ := hd
      obtain ⟨i, hi⟩ := List.mem_iff_getElem?.1 ht
      rcases hI.progress hb hi with hr | ⟨s', hs', _⟩
      · exact absurd hr hd
      · obtain ⟨s'', h1, h2⟩ := ih s' hs' (hI.step hs') (hs'.bounded hb)
        exact ⟨s'', .head hs' h1, h2⟩

theorem HStep.length {s s' : HSys α} (h : HStep nodes s s') : s'.threads.length = s.threads.length := by
  cases h; simp

theorem HSteps.length {s s' : HSys α} (h : HSteps nodes s s') : s'.threads.length = s.threads.length := by
  induction h with
  | refl => rfl
  | tail _ h ih => rw [h.length, ih]

end

end Lev
