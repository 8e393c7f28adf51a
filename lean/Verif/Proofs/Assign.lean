import Verif.Spec.Assign
import Verif.Proofs.LifetimeUB

/-!
Destroying objects some of which are copies of others.
-/

namespace Lev

open Spec

variable {R : Type}

theorem owners_eq (w : World R) : owners w = tOwned w.ts ++ qOwned w.qs := by
  unfold owners tOwned qOwned
  congr 1
  · congr 1; funext o; cases o <;> rfl
  · congr 1; funext o; cases o <;> rfl

theorem deleteInters_append (l r : List Nat) (m : SMem) (im : IMem Nat) :
    deleteInters (l ++ r) m im = (deleteInters l m im).bind fun x => deleteInters r x.1 x.2 := by
  induction l generalizing m im with
  | nil => rfl
  | cons a l ih =>
    simp only [List.cons_append, deleteInters, bind, Except.bind]
    cases deleteInter a m im with
    | error => rfl
    | ok x => simp only [ih]; rfl

/-- Deleting the intersections `G`, all of which were made after `im0`: undefined unless all of them are there and none is
twice in `G`. -/
theorem deleteInters_spec {m0 m : SMem} {im0 im : IMem Nat} {P G : List Nat} (h : WAcc m0 im0 m im P)
    (hG : ∀ a ∈ G, a ≠ 0 ∧ im0.cell a = none) :
    (G.Nodup → (∀ a ∈ G, a ∈ P) → ∃ m' im', deleteInters G m im = .ok (m', im') ∧
      WAcc m0 im0 m' im' (P.filter (· ∉ G)) ∧ (∀ x, x ∉ G → im'.cell x = im.cell x)) ∧
    (¬ (G.Nodup ∧ ∀ a ∈ G, a ∈ P) → deleteInters G m im = .error .ub) := by
  induction G generalizing m im P with
  | nil =>
    refine ⟨fun _ _ => ⟨m, im, rfl, ?_, fun _ _ => rfl⟩, fun hn => absurd ⟨List.nodup_nil, by simp⟩ hn⟩
    have : P.filter (· ∉ ([] : List Nat)) = P := by simp
    rw [this]; exact h
  | cons a G ih =>
    by_cases ha : a ∈ P
    · obtain ⟨m1, im1, e1, h1, h2, _, _⟩ := (h.perm (List.perm_cons_erase ha)).delete
      have hmem : ∀ x, x ∈ P.erase a ↔ x ≠ a ∧ x ∈ P := fun x => h.nodup.mem_erase_iff
      obtain ⟨i1, i2⟩ := ih h1 fun x hx => hG x (by simp [hx])
      constructor
      · intro hnd hsub
        have hnd' := List.nodup_cons.1 hnd
        obtain ⟨m', im', e, g1, g2⟩ := i1 hnd'.2 fun x hx =>
          (hmem x).2 ⟨by rintro rfl; exact hnd'.1 hx, hsub x (by simp [hx])⟩
        refine ⟨m', im', by simp only [deleteInters, e1, e, bind, Except.bind], g1.perm ?_, ?_⟩
        · rw [List.perm_ext_iff_of_nodup ((h.nodup.erase a).filter _) (h.nodup.filter _)]
          intro x
          simp only [List.mem_filter, hmem]
          constructor
          · intro q
            have q' : (x ≠ a ∧ x ∈ P) ∧ x ∉ G := by simpa using q
            simpa using ⟨q'.1.2, q'.1.1, q'.2⟩
          · intro q
            have q' : x ∈ P ∧ x ≠ a ∧ x ∉ G := by simpa using q
            simpa using ⟨⟨q'.2.1, q'.1⟩, q'.2.2⟩
        · intro x hx
          simp only [List.mem_cons, not_or] at hx
          rw [g2 x hx.2, h2 x hx.1]
      · intro hn
        have : ¬ (G.Nodup ∧ ∀ x ∈ G, x ∈ P.erase a) := by
          rintro ⟨q1, q2⟩
          refine hn ⟨List.nodup_cons.2 ⟨fun hc => ((hmem a).1 (q2 a hc)).1 rfl, q1⟩, fun x hx => ?_⟩
          rcases List.mem_cons.1 hx with rfl | hx
          · exact ha
          · exact ((hmem x).1 (q2 x hx)).2
        simp only [deleteInters, e1, i2 this, bind, Except.bind]
    · obtain ⟨h0, hn⟩ := hG a (by simp)
      refine ⟨fun _ hsub => absurd (hsub a (by simp)) ha, fun _ => deleteInters_dead h0 ?_⟩
      rw [h.same a ha]; exact hn

theorem flatMap_eq_of {α β : Type} {f g : α → List β} : ∀ {l : List α}, (∀ x ∈ l, f x = g x) → l.flatMap f = l.flatMap g
  | [], _ => rfl
  | x :: l, h => by
    rw [List.flatMap_cons, List.flatMap_cons, h x (by simp), flatMap_eq_of fun y hy => h y (by simp [hy])]

/-- What the destructor of an object deletes. -/
def owed (w : World R) : LOp → List Nat
  | .dropQuery i =>
      match w.qs[i]? with
      | some (some (_, Q)) => Q.owned
      | _ => []
  | .dropTransducer t =>
      match w.ts[t]? with
      | some (some (_, a)) => [a]
      | _ => []
  | _ => []

/-- `op` destroys an object that is there. -/
def Drops (w : World R) (op : LOp) : Prop :=
  (∃ i x, w.qs[i]? = some (some x) ∧ op = .dropQuery i) ∨ ∃ t x, w.ts[t]? = some (some x) ∧ op = .dropTransducer t

section
variable {paddr saddr : SMem → Nat} {iaddr : IMem Nat → Nat} {first : Bool} {upd : Str → Nat → R} {dflt : R} {root fuel : Nat}

/-- Destroying objects means deleting what they own, one after the other. -/
theorem lifeRun_drops : ∀ (ds : List LOp) (w : World R), ds.Nodup → (∀ op ∈ ds, Drops w op) →
    (∀ x, deleteInters (ds.flatMap (owed w)) w.sm w.im = .error x →
      lifeRun paddr saddr iaddr first upd dflt root fuel ds w = .error x) ∧
    ∀ m im, deleteInters (ds.flatMap (owed w)) w.sm w.im = .ok (m, im) →
      ∃ w', lifeRun paddr saddr iaddr first upd dflt root fuel ds w = .ok w' ∧ w'.sm = m ∧ w'.im = im ∧ w'.heap = w.heap
  | [], w, _, _ => by
    refine ⟨fun x e => by simp [deleteInters] at e, fun m im e => ?_⟩
    simp only [List.flatMap_nil, deleteInters, Except.ok.injEq, Prod.mk.injEq] at e
    exact ⟨w, rfl, e.1, e.2, rfl⟩
  | op :: ds, w, hnd, hd => by
    have hno := (List.nodup_cons.1 hnd).1
    replace hnd := (List.nodup_cons.1 hnd).2
    rw [List.flatMap_cons, deleteInters_append]
    rcases hd op (by simp) with ⟨i, ⟨A, Q⟩, hi, rfl⟩ | ⟨t, ⟨A, a⟩, ht, rfl⟩
    · have ho : owed w (.dropQuery i) = Q.owned := by simp only [owed, hi]
      rw [ho]
      cases e : deleteInters Q.owned w.sm w.im with
      | error y =>
        have hs : lifeStep paddr saddr iaddr first upd dflt root fuel (.dropQuery i) w = .error y := by
          simp only [lifeStep, hi, e, bind, Except.bind]
        refine ⟨fun x ex => ?_, fun m im ex => by cases ex⟩
        simp only [Except.bind] at ex
        cases ex
        simp only [lifeRun, hs, bind, Except.bind]
      | ok p =>
        obtain ⟨m1, im1⟩ := p
        have hs : lifeStep paddr saddr iaddr first upd dflt root fuel (.dropQuery i) w =
            .ok { w with sm := m1, im := im1, qs := w.qs.set i none } := by
          simp only [lifeStep, hi, e, bind, Except.bind]
        have hj : ∀ op ∈ ds, Drops w op → Drops { w with sm := m1, im := im1, qs := w.qs.set i none } op ∧
            owed { w with sm := m1, im := im1, qs := w.qs.set i none } op = owed w op := by
          rintro op hop (⟨j, x, hj, rfl⟩ | ⟨t, x, ht, rfl⟩)
          · have hij : i ≠ j := by rintro rfl; exact hno hop
            have hq : (w.qs.set i none)[j]? = some (some x) := by rw [List.getElem?_set_ne hij]; exact hj
            exact ⟨.inl ⟨j, x, hq, rfl⟩, by simp only [owed, hq, hj]⟩
          · exact ⟨.inr ⟨t, x, ht, rfl⟩, rfl⟩
        obtain ⟨i1, i2⟩ := lifeRun_drops ds { w with sm := m1, im := im1, qs := w.qs.set i none } hnd
          fun op hop => (hj op hop (hd op (by simp [hop]))).1
        have hf : ds.flatMap (owed { w with sm := m1, im := im1, qs := w.qs.set i none }) = ds.flatMap (owed w) :=
          flatMap_eq_of fun op hop => (hj op hop (hd op (by simp [hop]))).2
        rw [hf] at i1 i2
        simp only [Except.bind, lifeRun, hs, bind]
        exact ⟨i1, i2⟩
    · have ho : owed w (.dropTransducer t) = [a] := by simp only [owed, ht]
      rw [ho]
      cases e : deleteInter a w.sm w.im with
      | error y =>
        have hs : lifeStep paddr saddr iaddr first upd dflt root fuel (.dropTransducer t) w = .error y := by
          simp only [lifeStep, ht, e, bind, Except.bind]
        have he : deleteInters [a] w.sm w.im = .error y := by simp only [deleteInters, e, bind, Except.bind]
        rw [he]
        refine ⟨fun x ex => ?_, fun m im ex => by cases ex⟩
        simp only [Except.bind] at ex
        cases ex
        simp only [lifeRun, hs, bind, Except.bind]
      | ok p =>
        obtain ⟨m1, im1⟩ := p
        have hs : lifeStep paddr saddr iaddr first upd dflt root fuel (.dropTransducer t) w =
            .ok { w with sm := m1, im := im1, ts := w.ts.set t none } := by
          simp only [lifeStep, ht, e, bind, Except.bind]
        have he : deleteInters [a] w.sm w.im = .ok (m1, im1) := by simp only [deleteInters, e, bind, Except.bind]
        rw [he]
        have hj : ∀ op ∈ ds, Drops w op → Drops { w with sm := m1, im := im1, ts := w.ts.set t none } op ∧
            owed { w with sm := m1, im := im1, ts := w.ts.set t none } op = owed w op := by
          rintro op hop (⟨j, x, hj, rfl⟩ | ⟨s, x, hs', rfl⟩)
          · exact ⟨.inl ⟨j, x, hj, rfl⟩, rfl⟩
          · have hij : t ≠ s := by rintro rfl; exact hno hop
            have hq : (w.ts.set t none)[s]? = some (some x) := by rw [List.getElem?_set_ne hij]; exact hs'
            exact ⟨.inr ⟨s, x, hq, rfl⟩, by simp only [owed, hq, hs']⟩
        obtain ⟨i1, i2⟩ := lifeRun_drops ds { w with sm := m1, im := im1, ts := w.ts.set t none } hnd
          fun op hop => (hj op hop (hd op (by simp [hop]))).1
        have hf : ds.flatMap (owed { w with sm := m1, im := im1, ts := w.ts.set t none }) = ds.flatMap (owed w) :=
          flatMap_eq_of fun op hop => (hj op hop (hd op (by simp [hop]))).2
        rw [hf] at i1 i2
        simp only [Except.bind, lifeRun, hs, bind]
        exact ⟨i1, i2⟩

end

theorem flatMap_range {α β : Type} (f : α → List β) : ∀ l : List α,
    (List.range l.length).flatMap (fun i => ((l[i]?).map f).getD []) = l.flatMap f
  | [] => rfl
  | x :: l => by
    rw [List.length_cons, List.range_succ_eq_map, List.flatMap_cons, List.flatMap_map, List.flatMap_cons, ← flatMap_range f l]
    simp

/-- All objects there ever were. -/
def allDrops (w : World R) : List LOp :=
  (List.range w.ts.length).map .dropTransducer ++ (List.range w.qs.length).map .dropQuery

theorem allDrops_nodup (w : World R) : (allDrops w).Nodup := by
  refine List.nodup_append.2 ⟨?_, ?_, ?_⟩
  · exact List.pairwise_map.2 (List.nodup_range.imp fun h e => h (by injection e))
  · exact List.pairwise_map.2 (List.nodup_range.imp fun h e => h (by injection e))
  · rintro a ha b hb rfl
    obtain ⟨i, _, rfl⟩ := List.mem_map.1 ha
    obtain ⟨j, _, h⟩ := List.mem_map.1 hb
    cases h

theorem allDrops_owed (w : World R) : (allDrops w).flatMap (owed w) = owners w := by
  unfold allDrops owners
  rw [List.flatMap_append, List.flatMap_map, List.flatMap_map, ← flatMap_range _ w.ts, ← flatMap_range _ w.qs]
  congr 1
  · refine flatMap_eq_of fun t _ => ?_
    simp only [owed]
    cases w.ts[t]? with
    | none => rfl
    | some o => cases o <;> rfl
  · refine flatMap_eq_of fun t _ => ?_
    simp only [owed]
    cases w.qs[t]? with
    | none => rfl
    | some o => cases o <;> rfl

theorem flatMap_filter {α β : Type} (f : α → List β) (p : α → Bool) : ∀ l : List α, (∀ x ∈ l, p x = false → f x = []) →
    (l.filter p).flatMap f = l.flatMap f
  | [], _ => rfl
  | x :: l, h => by
    have ih := flatMap_filter f p l fun y hy => h y (by simp [hy])
    rw [List.filter_cons, List.flatMap_cons]
    cases hp : p x with
    | true => simp [ih]
    | false => simp [ih, h x (by simp) hp]

/-- The object is there. -/
def isThere (w : World R) : LOp → Bool
  | .dropQuery i => w.qs[i]?.join.isSome
  | .dropTransducer t => w.ts[t]?.join.isSome
  | _ => false

theorem there_of_join {α : Type} {l : List (Option α)} {i : Nat} (hi : l[i]?.join.isSome) : ∃ x, l[i]? = some (some x) := by
  cases hx : l[i]? with
  | none => simp [hx] at hi
  | some o =>
    cases o with
    | none => simp [hx] at hi
    | some x => exact ⟨x, rfl⟩

theorem mem_there {w : World R} {op : LOp} : op ∈ (allDrops w).filter (isThere w) ↔
    (∃ i x, w.qs[i]? = some (some x) ∧ op = .dropQuery i) ∨ ∃ t x, w.ts[t]? = some (some x) ∧ op = .dropTransducer t := by
  rw [List.mem_filter]
  constructor
  · rintro ⟨_, h2⟩
    cases op with
    | dropQuery i => obtain ⟨x, hx⟩ := there_of_join h2; exact .inl ⟨i, x, hx, rfl⟩
    | dropTransducer t => obtain ⟨x, hx⟩ := there_of_join h2; exact .inr ⟨t, x, hx, rfl⟩
    | _ => simp [isThere] at h2
  · rintro (⟨i, x, hi, rfl⟩ | ⟨t, x, ht, rfl⟩)
    · have := (List.getElem?_eq_some_iff.1 hi).1
      exact ⟨by simp [allDrops, this], by simp [isThere, hi]⟩
    · have := (List.getElem?_eq_some_iff.1 ht).1
      exact ⟨by simp [allDrops, this], by simp [isThere, ht]⟩

theorem destroysAll_there (w : World R) : DestroysAll w ((allDrops w).filter (isThere w)) :=
  ⟨(allDrops_nodup w).filter _, fun _ => mem_there⟩

theorem Spec.DestroysAll.perm {w : World R} {ds : List LOp} (h : DestroysAll w ds) : (ds.flatMap (owed w)).Perm (owners w) := by
  have hp : ds.Perm ((allDrops w).filter (isThere w)) := by
    rw [List.perm_ext_iff_of_nodup h.1 ((allDrops_nodup w).filter _)]
    intro op
    rw [h.2, mem_there]
  refine (hp.flatMap_right _).trans ?_
  rw [flatMap_filter, allDrops_owed]
  intro op _ hf
  cases op with
  | dropQuery i =>
    simp only [owed]
    cases hx : w.qs[i]? with
    | none => rfl
    | some o =>
      cases o with
      | none => rfl
      | some x => simp [isThere, hx] at hf
  | dropTransducer i =>
    simp only [owed]
    cases hx : w.ts[i]? with
    | none => rfl
    | some o =>
      cases o with
      | none => rfl
      | some x => simp [isThere, hx] at hf
  | _ => rfl

/-! ### Copies and assignments only move pointers -/

theorem mem_flatMap_set {α β : Type} {f : α → List β} {l : List α} {i : Nat} {y : α} {b : β}
    (h : b ∈ (l.set i y).flatMap f) : b ∈ l.flatMap f ∨ b ∈ f y := by
  obtain ⟨x, hx, hb⟩ := List.mem_flatMap.1 h
  rcases List.mem_or_eq_of_mem_set hx with hx | rfl
  · exact .inl (List.mem_flatMap.2 ⟨x, hx, hb⟩)
  · exact .inr hb

theorem assignStep_spec {op : AOp} {w w' : World R} (e : assignStep op w = .ok w') :
    w'.sm = w.sm ∧ w'.im = w.im ∧ w'.heap = w.heap ∧ ∀ a ∈ owners w', a ∈ owners w := by
  cases op with
  | copy i =>
    simp only [assignStep] at e
    split at e
    · rename_i A Q hi
      cases e
      refine ⟨rfl, rfl, rfl, fun a ha => ?_⟩
      simp only [owners, List.flatMap_append, List.mem_append, List.flatMap_cons, List.flatMap_nil, List.append_nil] at ha ⊢
      rcases ha with ha | ha | ha
      · exact .inl ha
      · exact .inr ha
      · exact .inr (List.mem_flatMap.2 ⟨_, List.mem_of_getElem? hi, ha⟩)
    · cases e
  | assign i j =>
    simp only [assignStep] at e
    split at e
    · rename_i A Q hi hj
      cases e
      refine ⟨rfl, rfl, rfl, fun a ha => ?_⟩
      simp only [owners, List.mem_append] at ha ⊢
      rcases ha with ha | ha
      · exact .inl ha
      · rcases mem_flatMap_set ha with ha | ha
        · exact .inr ha
        · exact .inr (List.mem_flatMap.2 ⟨_, List.mem_of_getElem? hj, ha⟩)
    · cases e
  | copyTransducer i =>
    simp only [assignStep] at e
    split at e
    · rename_i A Q hi
      cases e
      refine ⟨rfl, rfl, rfl, fun a ha => ?_⟩
      simp only [owners, List.flatMap_append, List.mem_append, List.flatMap_cons, List.flatMap_nil, List.append_nil] at ha ⊢
      rcases ha with (ha | ha) | ha
      · exact .inl ha
      · exact .inl (List.mem_flatMap.2 ⟨_, List.mem_of_getElem? hi, ha⟩)
      · exact .inr ha
    · cases e
  | assignTransducer i j =>
    simp only [assignStep] at e
    split at e
    · rename_i A Q hi hj
      split at e
      · cases e
        refine ⟨rfl, rfl, rfl, fun a ha => ?_⟩
        simp only [owners, List.mem_append] at ha ⊢
        rcases ha with ha | ha
        · rcases mem_flatMap_set ha with ha | ha
          · exact .inl ha
          · exact .inl (List.mem_flatMap.2 ⟨_, List.mem_of_getElem? hj, ha⟩)
        · exact .inr ha
      · cases e
    · cases e

theorem assignRun_spec : ∀ {ops : List AOp} {w w' : World R}, assignRun ops w = .ok w' →
    w'.sm = w.sm ∧ w'.im = w.im ∧ w'.heap = w.heap ∧ ∀ a ∈ owners w', a ∈ owners w
  | [], w, w', e => by
    simp only [assignRun, Except.ok.injEq] at e
    subst e
    exact ⟨rfl, rfl, rfl, fun _ h => h⟩
  | op :: ops, w, w', e => by
    simp only [assignRun, bind, Except.bind] at e
    split at e
    · cases e
    · rename_i w1 h1
      obtain ⟨a1, a2, a3, a4⟩ := assignStep_spec h1
      obtain ⟨b1, b2, b3, b4⟩ := assignRun_spec e
      exact ⟨b1.trans a1, b2.trans a2, b3.trans a3, fun x hx => a4 x (b4 x hx)⟩

section
variable {paddr saddr : SMem → Nat} {iaddr : IMem Nat → Nat} {first : Bool} {upd : Str → Nat → R} {dflt : R} {root fuel : Nat}
  {m0 : SMem} {im0 : IMem Nat} {w w' : World R}

/-- After copies and assignments everything is destroyed. -/
theorem assign_destroy {cops : List AOp} {ds : List LOp} (hacc : WAcc m0 im0 w.sm w.im (owners w))
    (e : assignRun cops w = .ok w') (hd : DestroysAll w' ds) :
    ((owners w').Nodup → ∃ w'', lifeRun paddr saddr iaddr first upd dflt root fuel ds w' = .ok w'' ∧
      WAcc m0 im0 w''.sm w''.im ((owners w).filter (· ∉ owners w')) ∧ w''.heap = w.heap ∧
      ∀ x, x ∉ owners w' → w''.im.cell x = w.im.cell x) ∧
    (¬ (owners w').Nodup → lifeRun paddr saddr iaddr first upd dflt root fuel ds w' = .error .ub) := by
  obtain ⟨a1, a2, a3, a4⟩ := assignRun_spec e
  have hp := hd.perm
  have hacc' := hacc
  rw [← a1, ← a2] at hacc'
  obtain ⟨d1, d2⟩ := deleteInters_spec (G := ds.flatMap (owed w')) hacc' fun a ha =>
    have := hacc.own a (a4 a (hp.mem_iff.1 ha)); ⟨this.1, this.2.1⟩
  obtain ⟨r1, r2⟩ := lifeRun_drops (paddr := paddr) (saddr := saddr) (iaddr := iaddr) (first := first) (upd := upd)
    (dflt := dflt) (root := root) (fuel := fuel) ds w' hd.1 fun op hop => (hd.2 op).1 hop
  constructor
  · intro hn
    obtain ⟨m', im', f1, f2, f3⟩ := d1 (hp.nodup_iff.2 hn) fun a ha => a4 a (hp.mem_iff.1 ha)
    obtain ⟨w'', g1, g2, g3, g4⟩ := r2 _ _ f1
    refine ⟨w'', g1, ?_, g4.trans a3, fun x hx => ?_⟩
    · rw [g2, g3]
      have : (owners w).filter (· ∉ owners w') = (owners w).filter (· ∉ ds.flatMap (owed w')) := by
        congr 1
        funext x
        simp only [hp.mem_iff]
      rw [this]
      exact f2
    · rw [g3, f3 x fun hc => hx (hp.mem_iff.1 hc), a2]
  · intro hn
    exact r1 _ (d2 fun hc => hn (hp.nodup_iff.1 hc.1))

end

end Lev
