import Verif.Spec.Failing
import Verif.Proofs.StateHeapRun
import Verif.Proofs.QueryAll

/-!
Queries that run out of memory.
-/

namespace Lev

open Spec

/-! ### What is missed -/

/-- Some exception in the list makes the query miss `t`. -/
def missed (log : List Thrown) (t : Str) : Bool := log.any fun e => decide (Misses e t)

theorem missed_append (l l' : List Thrown) (t : Str) : missed (l ++ l') t = (missed l t || missed l' t) := by
  simp [missed]

theorem missed_nil (t : Str) : missed [] t = false := rfl

theorem misses_prefix {e : Thrown} {t : Str} (h : Misses e t) : e.path <+: t := by
  unfold Misses at h
  split at h
  · rw [h]; exact List.prefix_refl _
  · exact h

/-- The results left when the exceptions `log` are taken into account. -/
def keptOf (log : List Thrown) (l : List (Str × Nat)) : List (Str × Nat) := l.filter fun r => !missed log r.1

/-- No path in the list is the beginning of another one, and edges are sorted below all of them. -/
structure Apart (sgn : Bool) (L : List Item) : Prop where
  anti : L.Pairwise fun a b => ¬ a.path <+: b.path ∧ ¬ b.path <+: a.path
  sorted : ∀ it ∈ L, it.kids.Sorted sgn

theorem Apart.sublist {sgn : Bool} {L L' : List Item} (h : Apart sgn L) (hs : L'.Sublist L) : Apart sgn L' :=
  ⟨h.anti.sublist hs, fun it hit => h.sorted it (hs.subset hit)⟩

theorem items_sorted {sgn : Bool} {p : Str} {F : Forest} (h : F.Sorted sgn) : ∀ it ∈ F.items p, it.kids.Sorted sgn := by
  induction h with
  | nil => simp [Forest.items]
  | cons hk _ _ _ ih =>
    intro it hit
    simp only [Forest.items, List.mem_cons] at hit
    rcases hit with rfl | hit
    · exact hk
    · exact ih it hit

theorem mem_items_path {p : Str} {F : Forest} {it : Item} (h : it ∈ F.items p) :
    ∃ c, it.path = p ++ [c] ∧ ∃ it' ∈ F.items [], it'.path = [c] := by
  induction F with
  | nil => simp [Forest.items] at h
  | cons l f kids rest _ ih =>
    simp only [Forest.items, List.mem_cons] at h
    rcases h with rfl | h
    · exact ⟨l, rfl, _, List.mem_cons_self, rfl⟩
    · obtain ⟨c, h1, it', h2, h3⟩ := ih h
      exact ⟨c, h1, it', List.mem_cons_of_mem _ h2, h3⟩

theorem items_anti {sgn : Bool} {p : Str} {F : Forest} (h : F.Sorted sgn) :
    (F.items p).Pairwise fun a b => ¬ a.path <+: b.path ∧ ¬ b.path <+: a.path := by
  induction h with
  | nil => simp [Forest.items]
  | @cons l f kids rest _ _ hlt _ ih =>
    simp only [Forest.items]
    refine List.pairwise_cons.2 ⟨fun it hit => ?_, ih⟩
    obtain ⟨c, hc, it', hit', hc'⟩ := mem_items_path hit
    have hne : l ≠ c := by
      rintro rfl
      exact charLt_irrefl (hlt it' hit' l hc')
    simp only [hc]
    constructor
    · intro hp
      have := hp.eq_of_length (by simp)
      simp at this
      exact hne this
    · intro hp
      have := hp.eq_of_length (by simp)
      simp at this
      exact hne this.symm

theorem child_prefix {it c : Item} (h : c ∈ it.children) : it.path <+: c.path ∧ it.path ≠ c.path := by
  obtain ⟨l, hl⟩ := mem_items h
  rw [hl]
  exact ⟨List.prefix_append _ _, fun hc => by
    have := congrArg List.length hc
    simp at this⟩

theorem Apart.children {sgn : Bool} {it : Item} {L : List Item} (h : Apart sgn (it :: L)) : Apart sgn (L ++ it.children) := by
  have hp := List.pairwise_cons.1 h.anti
  have hs := h.sorted it (by simp)
  refine ⟨List.pairwise_append.2 ⟨hp.2, items_anti hs, fun a ha c hc => ?_⟩, fun x hx => ?_⟩
  · obtain ⟨hpre, hne⟩ := child_prefix hc
    have hia := hp.1 a ha
    constructor
    · intro hac
      -- `a` and `it` are both beginnings of `c`
      rcases List.prefix_or_prefix_of_prefix hac hpre with h1 | h1
      · exact hia.2 h1
      · exact hia.1 h1
    · intro hca
      exact hia.1 (hpre.trans hca)
  · rcases List.mem_append.1 hx with hx | hx
    · exact h.sorted x (by simp [hx])
    · exact items_sorted hs x hx

/-- Whatever the walk finds lies below one of the items it starts from. -/
theorem mem_pushes_prefix (L : List Item) : ∀ x ∈ pushes L, ∃ y ∈ L, y.path <+: x.path ∧ y.path ≠ x.path := by
  induction L using queue_induction with
  | nil => simp [pushes_nil]
  | cons it rest ih =>
    intro x hx
    rw [pushes_cons] at hx
    rcases List.mem_append.1 hx with hx | hx
    · exact ⟨it, by simp, child_prefix hx⟩
    · obtain ⟨y, hy, h1, h2⟩ := ih x hx
      rcases List.mem_append.1 hy with hy | hy
      · exact ⟨y, by simp [hy], h1, h2⟩
      · obtain ⟨h3, h4⟩ := child_prefix hy
        refine ⟨it, by simp, h3.trans h1, fun hc => h4 ?_⟩
        have := h3.length_le
        have := h1.length_le
        rw [← hc] at this
        exact h3.eq_of_length (by omega)

/-- `P` is `P'` without some of the items below `p`. -/
inductive PrunedAt (p : Str) : List Item → List Item → Prop
  | nil : PrunedAt p [] []
  | keep {P P' : List Item} (it : Item) : PrunedAt p P P' → PrunedAt p (it :: P) (it :: P')
  | drop {P P' : List Item} {it : Item} : p <+: it.path → PrunedAt p P P' → PrunedAt p P (it :: P')

theorem PrunedAt.refl {p : Str} (P : List Item) : PrunedAt p P P := by
  induction P with
  | nil => exact .nil
  | cons it P ih => exact .keep it ih

theorem PrunedAt.append {p : Str} {P P' L L' : List Item} (h : PrunedAt p P P')
    (h' : PrunedAt p L L') : PrunedAt p (P ++ L) (P' ++ L') := by
  induction h with
  | nil => exact h'
  | keep it _ ih => exact .keep it ih
  | drop hd _ ih => exact .drop hd ih

theorem PrunedAt.all {p : Str} {L : List Item} (h : ∀ it ∈ L, p <+: it.path) : PrunedAt p [] L := by
  induction L with
  | nil => exact .nil
  | cons it L ih => exact .drop (h it (by simp)) (ih fun x hx => h x (by simp [hx]))

theorem PrunedAt.filter {p : Str} {P P' : List Item} (h : PrunedAt p P P') :
    (pushes P).filter (fun it => !decide (p <+: it.path)) = (pushes P').filter (fun it => !decide (p <+: it.path)) := by
  induction P' using queue_induction generalizing P with
  | nil => cases h; rfl
  | cons it rest ih =>
    rw [pushes_cons, List.filter_append]
    cases h with
    | @keep P0 _ _ h =>
      rw [pushes_cons, List.filter_append, ih (h.append (PrunedAt.refl it.children))]
    | drop hd h =>
      have hch : ∀ x ∈ it.children, p <+: x.path := fun x hx => hd.trans (child_prefix hx).1
      have h1 : it.children.filter (fun it => !decide (p <+: it.path)) = [] := by
        rw [List.filter_eq_nil_iff]
        intro x hx
        simp [hch x hx]
      have h2 := ih (P := P ++ []) (h.append (PrunedAt.all hch))
      rw [List.append_nil] at h2
      rw [h1, List.nil_append, h2]

/-- The exceptions concern what is still to be done. -/
def Ahead (P ch : List Item) (log : List Thrown) : Prop :=
  ∀ e ∈ log, (∃ y ∈ ch, y.path <+: e.path) ∨ ∃ y ∈ P, y.path <+: e.path ∧ y.path ≠ e.path

/-- From `P`, `ch` to `P'`, `ch'` the walk reports `pre` and misses what is in `log`. -/
structure Loses (A : Algorithm) (n : Nat) (q : Str) (P ch : List Item) (log : List Thrown) (pre : List (Str × Nat))
    (P' ch' : List Item) : Prop where
  out : ∀ log', Ahead P' ch' log' →
    keptOf (log ++ log') (outOf A n q P ch) = pre ++ keptOf log' (outOf A n q P' ch')
  ahead : ∀ log', Ahead P' ch' log' → Ahead P ch (log ++ log')

theorem Loses.refl (A : Algorithm) (n : Nat) (q : Str) (P ch : List Item) : Loses A n q P ch [] [] P ch :=
  ⟨fun _ _ => rfl, fun _ h => h⟩

theorem Loses.trans {A : Algorithm} {n : Nat} {q : Str} {P ch P' ch' P'' ch'' : List Item} {log log' : List Thrown}
    {pre pre' : List (Str × Nat)} (h : Loses A n q P ch log pre P' ch') (h' : Loses A n q P' ch' log' pre' P'' ch'') :
    Loses A n q P ch (log ++ log') (pre ++ pre') P'' ch'' := by
  refine ⟨fun l hl => ?_, fun l hl => ?_⟩
  · rw [List.append_assoc, h.out _ (h'.ahead l hl), h'.out l hl, List.append_assoc]
  · rw [List.append_assoc]
    exact h.ahead _ (h'.ahead l hl)

/-- The next node of the queue. -/
theorem Loses.open_node (A : Algorithm) (n : Nat) (q : Str) (it : Item) (P : List Item) :
    Loses A n q (it :: P) [] [] [] P it.children := by
  refine ⟨fun l _ => ?_, fun l hl e he => ?_⟩
  · simp only [List.nil_append, outOf, List.append_nil, pushes_cons]
  · rcases hl e he with ⟨y, hy, h⟩ | ⟨y, hy, h, h'⟩
    · right
      obtain ⟨h1, h2⟩ := child_prefix hy
      refine ⟨it, by simp, h1.trans h, fun hc => h2 ?_⟩
      have h3 := h.length_le
      rw [← hc] at h3
      have := h1.length_le
      exact h1.eq_of_length (by omega)
    · exact .inr ⟨y, by simp [hy], h, h'⟩

theorem kept_congr {log : List Thrown} {l : List (Str × Nat)} (h : ∀ r ∈ l, missed log r.1 = false) : keptOf log l = l := by
  unfold keptOf
  rw [List.filter_eq_self]
  intro r hr
  simp [h r hr]

theorem keptOf_cons (e : Thrown) (log : List Thrown) (l : List (Str × Nat)) :
    keptOf (e :: log) l = keptOf log (l.filter fun r => !decide (Misses e r.1)) := by
  unfold keptOf
  rw [List.filter_filter]
  congr 1
  funext r
  simp [missed, Bool.and_comm]

/-- Everything a walk reports lies below the items it starts from. -/
theorem outOf_prefix {A : Algorithm} {n : Nat} {q : Str} {P ch : List Item} {r : Str × Nat} (h : r ∈ outOf A n q P ch) :
    (∃ y ∈ ch, y.path <+: r.1) ∨ ∃ y ∈ P, y.path <+: r.1 ∧ y.path ≠ r.1 := by
  obtain ⟨it, hit, hr⟩ := List.mem_filterMap.1 h
  obtain ⟨_, h2, _⟩ := resultOf_some.1 hr
  rw [← h2]
  rcases List.mem_append.1 hit with hit | hit
  · exact .inl ⟨it, hit, List.prefix_refl _⟩
  · obtain ⟨y, hy, h3⟩ := mem_pushes_prefix _ it hit
    rcases List.mem_append.1 hy with hy | hy
    · exact .inr ⟨y, hy, h3⟩
    · exact .inl ⟨y, hy, h3.1⟩

/-- The next child, which is put into the queue; nothing is missed. -/
theorem Loses.child {sgn : Bool} {A : Algorithm} {n : Nat} {q : Str} {x : Item} {P rest : List Item}
    (ha : Apart sgn (P ++ x :: rest)) :
    Loses A n q P (x :: rest) [] (resultOf A n q x).toList (P ++ [x]) rest := by
  obtain ⟨_, hxr, hPx⟩ := List.pairwise_append.1 ha.anti
  have hxr := (List.pairwise_cons.1 hxr).1
  refine ⟨fun l hl => ?_, fun l hl e he => ?_⟩
  · have hout : outOf A n q P (x :: rest) = (resultOf A n q x).toList ++ outOf A n q (P ++ [x]) rest := by
      unfold outOf
      rw [List.append_assoc, List.singleton_append, List.cons_append, List.filterMap_cons]
      cases resultOf A n q x <;> rfl
    rw [List.nil_append, hout]
    unfold keptOf
    rw [List.filter_append]
    congr 1
    rw [List.filter_eq_self]
    intro r hr
    have hr : resultOf A n q x = some r := by
      cases h : resultOf A n q x with
      | none => rw [h] at hr; simp at hr
      | some r' => rw [h] at hr; simp at hr; rw [hr]
    have hpath := (resultOf_some.1 hr).2.1
    simp only [Bool.not_eq_true', missed, List.any_eq_false, decide_eq_true_eq]
    intro e he hm
    have hm := misses_prefix hm
    rw [← hpath] at hm
    rcases hl e he with ⟨y, hy, h1⟩ | ⟨y, hy, h1, h2⟩
    · exact (hxr y hy).2 (h1.trans hm)
    · rcases List.mem_append.1 hy with hy | hy
      · exact (hPx y hy x (by simp)).1 (h1.trans hm)
      · simp only [List.mem_singleton] at hy
        subst hy
        exact h2 (h1.eq_of_length (Nat.le_antisymm h1.length_le hm.length_le))
  · rw [List.nil_append] at he
    rcases hl e he with ⟨y, hy, h1⟩ | ⟨y, hy, h1, h2⟩
    · exact .inl ⟨y, by simp [hy], h1⟩
    · rcases List.mem_append.1 hy with hy | hy
      · exact .inr ⟨y, hy, h1, h2⟩
      · simp only [List.mem_singleton] at hy
        subst hy
        exact .inl ⟨y, by simp, h1⟩

/-- The next child is put into the queue but not reported. -/
theorem Loses.text {sgn : Bool} {A : Algorithm} {n : Nat} {q : Str} {x : Item} {P rest : List Item}
    (ha : Apart sgn (P ++ x :: rest)) :
    Loses A n q P (x :: rest) [⟨.text, x.path⟩] [] (P ++ [x]) rest := by
  have h := Loses.child (A := A) (n := n) (q := q) ha
  obtain ⟨_, hxr, hPx⟩ := List.pairwise_append.1 ha.anti
  have hxr := (List.pairwise_cons.1 hxr).1
  refine ⟨fun l hl => ?_, fun l hl => ?_⟩
  · have h1 := h.out l hl
    rw [List.nil_append] at h1
    have h2 : keptOf ([⟨.text, x.path⟩] ++ l) (outOf A n q P (x :: rest)) =
        keptOf [⟨.text, x.path⟩] (keptOf l (outOf A n q P (x :: rest))) := by
      unfold keptOf
      rw [List.filter_filter]
      congr 1
      funext r
      simp [missed]
    rw [h2, h1]
    have h3 : keptOf [⟨.text, x.path⟩] (resultOf A n q x).toList = [] := by
      unfold keptOf
      rw [List.filter_eq_nil_iff]
      intro r hr
      have hr : resultOf A n q x = some r := by
        cases h : resultOf A n q x with
        | none => rw [h] at hr; simp at hr
        | some r' => rw [h] at hr; simp at hr; rw [hr]
      have hpath := (resultOf_some.1 hr).2.1
      simp [missed, Misses, hpath]
    have h4 : keptOf [⟨.text, x.path⟩] (keptOf l (outOf A n q (P ++ [x]) rest)) =
        keptOf l (outOf A n q (P ++ [x]) rest) := by
      refine kept_congr fun r hr => ?_
      have hr := (List.mem_filter.1 hr).1
      simp only [missed, Misses, List.any_cons, List.any_nil, if_true, Bool.or_false, decide_eq_false_iff_not]
      intro hc
      rcases outOf_prefix hr with ⟨y, hy, h1⟩ | ⟨y, hy, h1, h2⟩
      · rw [hc] at h1; exact (hxr y hy).2 h1
      · rw [hc] at h1 h2
        rcases List.mem_append.1 hy with hy | hy
        · exact (hPx y hy x (by simp)).1 h1
        · simp only [List.mem_singleton] at hy
          subst hy
          exact h2 rfl
    have h5 : keptOf [⟨.text, x.path⟩] ((resultOf A n q x).toList ++ keptOf l (outOf A n q (P ++ [x]) rest)) =
        keptOf [⟨.text, x.path⟩] (resultOf A n q x).toList ++
          keptOf [⟨.text, x.path⟩] (keptOf l (outOf A n q (P ++ [x]) rest)) := by
      unfold keptOf; rw [List.filter_append]
    rw [h5, h3, h4]
  · intro e he
    rcases List.mem_append.1 he with he | he
    · simp only [List.mem_singleton] at he
      subst he
      exact .inl ⟨x, by simp, List.prefix_refl _⟩
    · exact h.ahead l hl e he

/-- A child that is left out. -/
theorem Loses.skip {sgn : Bool} {A : Algorithm} {n : Nat} {q : Str} {x : Item} {P pre rest : List Item} {f : Fault}
    (hf : f ≠ .text) (ha : Apart sgn (P ++ (pre ++ x :: rest))) :
    Loses A n q P (pre ++ x :: rest) [⟨f, x.path⟩] [] P (pre ++ rest) := by
  have hsub : (P ++ (pre ++ rest)).Sublist (P ++ (pre ++ x :: rest)) :=
    ((List.sublist_cons_self x rest).append_left pre).append_left P
  have hanti : ∀ y ∈ P ++ (pre ++ rest), ¬ x.path <+: y.path ∧ ¬ y.path <+: x.path := by
    have h1 := ha.anti
    rw [← List.append_assoc] at h1
    obtain ⟨_, h2, h3⟩ := List.pairwise_append.1 h1
    intro y hy
    rw [← List.append_assoc] at hy
    rcases List.mem_append.1 hy with hy | hy
    · exact ⟨(h3 y hy x (by simp)).2, (h3 y hy x (by simp)).1⟩
    · exact (List.pairwise_cons.1 h2).1 y hy
  refine ⟨fun l hl => ?_, fun l hl e he => ?_⟩
  · rw [List.singleton_append, keptOf_cons, List.nil_append]
    congr 1
    have hmis : ∀ t : Str, Misses ⟨f, x.path⟩ t ↔ x.path <+: t := fun t => by simp [Misses, hf]
    -- all the rest is not below `x`
    have hrest : ∀ r ∈ outOf A n q P (pre ++ rest), ¬ x.path <+: r.1 := by
      intro r hr hx
      have hbad : ∀ y ∈ P ++ (pre ++ rest), ¬ y.path <+: r.1 := fun y hy hyr => by
        rcases List.prefix_or_prefix_of_prefix hx hyr with h | h
        · exact (hanti y hy).1 h
        · exact (hanti y hy).2 h
      rcases outOf_prefix hr with ⟨y, hy, h1⟩ | ⟨y, hy, h1, _⟩
      · exact hbad y (by simp only [List.mem_append] at hy ⊢; exact .inr hy) h1
      · exact hbad y (by simp [hy]) h1
    have hfil : ∀ L : List Item, (L.filterMap (resultOf A n q)).filter (fun r => !decide (Misses ⟨f, x.path⟩ r.1)) =
        (L.filter fun it => !decide (x.path <+: it.path)).filterMap (resultOf A n q) := by
      intro L
      rw [List.filter_filterMap, List.filterMap_filter]
      congr 1
      funext it
      cases hr : resultOf A n q it with
      | none => simp [Option.filter, Option.guard]
      | some r =>
        have := (resultOf_some.1 hr).2.1
        simp [Option.filter, Option.guard, hmis, ← this]
    have hself : (outOf A n q P (pre ++ rest)).filter (fun r => !decide (Misses ⟨f, x.path⟩ r.1)) =
        outOf A n q P (pre ++ rest) := by
      rw [List.filter_eq_self]
      intro r hr
      simp only [hmis, hrest r hr, decide_false, Bool.not_false]
    rw [← hself]
    unfold outOf
    rw [hfil, hfil]
    congr 1
    have hpr : PrunedAt x.path (P ++ (pre ++ rest)) (P ++ (pre ++ x :: rest)) :=
      (PrunedAt.refl P).append ((PrunedAt.refl pre).append (.drop (List.prefix_refl _) (PrunedAt.refl _)))
    simp only [List.filter_append, hpr.filter]
    congr 1
    simp
  · rw [List.singleton_append] at he
    rcases List.mem_cons.1 he with rfl | he
    · exact .inl ⟨x, by simp, List.prefix_refl _⟩
    · rcases hl e he with ⟨y, hy, h1⟩ | h
      · refine .inl ⟨y, ?_, h1⟩
        rcases List.mem_append.1 hy with hy | hy <;> simp [hy]
      · exact .inr h

/-- A dead child. -/
theorem Loses.dead {A : Algorithm} {n : Nat} {q : Str} {x : Item} {P rest : List Item} (hd : Dead A n q x) :
    Loses A n q P (x :: rest) [] [] P rest := by
  refine ⟨fun l _ => ?_, fun l hl e he => ?_⟩
  · rw [List.nil_append, List.nil_append]
    congr 1
    unfold outOf
    rw [List.cons_append, List.filterMap_cons, hd.result, List.filterMap_append, List.filterMap_append]
    have hpr : Pruned A n q (P ++ rest) (P ++ x :: rest) := (Pruned.refl P).append (.drop hd (Pruned.refl _))
    rw [hpr.results]
  · rcases hl e he with ⟨y, hy, h1⟩ | h
    · exact .inl ⟨y, by simp [hy], h1⟩
    · exact .inr h

/-- The last children are left out. -/
theorem Loses.cut {sgn : Bool} {A : Algorithm} {n : Nat} {q : Str} {P pre rest : List Item} {f : Fault}
    (hf : f ≠ .text) (ha : Apart sgn (P ++ (pre ++ rest))) :
    Loses A n q P (pre ++ rest) (rest.map fun x => ⟨f, x.path⟩) [] P pre := by
  induction rest with
  | nil => rw [List.append_nil]; exact Loses.refl A n q P pre
  | cons x rest ih =>
    have h1 := Loses.skip (A := A) (n := n) (q := q) hf ha
    have hsub : (P ++ (pre ++ rest)).Sublist (P ++ (pre ++ x :: rest)) :=
      ((List.sublist_cons_self x rest).append_left pre).append_left P
    exact h1.trans (ih (ha.sublist hsub))

/-! ### Backends -/

/-- `B` implements the list operations on states, and a failed transition leaves all states as they are. -/
structure FBackendOk {σ S : Type} (A : Algorithm) (n len : Nat) (B : FBackend σ S)
    (Rep : σ → S → List Pos → Prop) : Prop extends BackendOk A n len B.toBackend Rep where
  fail : ∀ {m s l cv r}, Rep m s l → stateTrans A n len l cv = .ok r → ∀ j, ∃ o, B.transFail m s cv j = .ok o ∧
    ∀ m', o = some m' → ∀ s' l', Rep m s' l' → Rep m' s' l'

/-- A property of the exceptions so far, the memory and the list of states of the query that every iteration of the loop
maintains. -/
structure FStable {σ S : Type} (A : Algorithm) (n len : Nat) (B : FBackend σ S) (Rep : σ → S → List Pos → Prop)
    (I : List Thrown → σ → List S → Prop) : Prop where
  stuck : ∀ {log m s l cv m' o}, Rep m s l → stateTrans A n len l cv = .ok none → B.trans m s cv = .ok (m', none) →
    I log m o → I log m' o
  made : ∀ {log m s l cv l' m' s' o}, Rep m s l → stateTrans A n len l cv = .ok (some l') →
    B.trans m s cv = .ok (m', some s') → I log m o → I log m' (o ++ [s'])
  fail : ∀ {log m s l cv r j m' o p}, Rep m s l → stateTrans A n len l cv = .ok r → B.transFail m s cv j = .ok (some m') →
    I log m o → I (log ++ [⟨.trans j, p⟩]) m' o
  lost : ∀ {log m s l cv l' m' s' o f p}, Rep m s l → stateTrans A n len l cv = .ok (some l') →
    B.trans m s cv = .ok (m', some s') → f = .inter ∨ f = .push → I log m o → I (log ++ [⟨f, p⟩]) m' o
  free : ∀ {log m o f p}, ¬ Leaves f → I log m o → I (log ++ [⟨f, p⟩]) m o

/-- From memory `m` to `m'`, where the states of the query were `o` and are `o'` and `log` was thrown, all states were kept,
and so was whatever iterations maintain. -/
structure FGrow {σ S : Type} (A : Algorithm) (n len : Nat) (B : FBackend σ S) (Rep : σ → S → List Pos → Prop)
    (log : List Thrown) (m m' : σ) (o o' : List S) : Prop where
  keep : ∀ s l, Rep m s l → Rep m' s l
  inv : ∀ I, FStable A n len B Rep I → ∀ log0, I log0 m o → I (log0 ++ log) m' o'

section
variable {σ S : Type} {A : Algorithm} {n len : Nat} {B : FBackend σ S} {Rep : σ → S → List Pos → Prop}

theorem FGrow.refl (m : σ) (o : List S) : FGrow A n len B Rep [] m m o o :=
  ⟨fun _ _ h => h, fun _ _ _ h => by rwa [List.append_nil]⟩

theorem FGrow.trans {m m' m'' : σ} {o o' o'' : List S} {log log' : List Thrown} (h : FGrow A n len B Rep log m m' o o')
    (h' : FGrow A n len B Rep log' m' m'' o' o'') : FGrow A n len B Rep (log ++ log') m m'' o o'' :=
  ⟨fun s l hr => h'.keep s l (h.keep s l hr), fun I hI l0 hm => by
    rw [← List.append_assoc]; exact h'.inv I hI _ (h.inv I hI l0 hm)⟩

theorem FGrow.free (m : σ) (o : List S) {log : List Thrown} (h : ∀ e ∈ log, ¬ Leaves e.fault) :
    FGrow A n len B Rep log m m o o := by
  refine ⟨fun _ _ h => h, fun I hI => ?_⟩
  induction log with
  | nil => intro l0 h0; rwa [List.append_nil]
  | cons e log ih =>
    intro l0 h0
    have := ih (fun x hx => h x (by simp [hx])) (l0 ++ [e]) (hI.free (h e (by simp)) h0)
    rwa [List.append_assoc] at this

end

/-- The first edges. -/
theorem unf_take {mem : Mem} {es : List (UInt8 × Nat)} {F : Forest} (h : Unf mem es F) (j : Nat) (p : Str) :
    ∃ F' D, Unf mem (es.take j) F' ∧ F.items p = F'.items p ++ D ∧ F'.height ≤ F.height ∧
      (∀ f : Fault, ((es.drop j).map fun e => (⟨f, p ++ [e.1]⟩ : Thrown)) = D.map fun x => ⟨f, x.path⟩) := by
  induction h generalizing j with
  | nil => exact ⟨.nil, [], by simpa using .nil, by simp, Nat.le_refl _, by simp⟩
  | @cons l a nd es kids rest hm hk hr _ ih =>
    cases j with
    | zero =>
      refine ⟨.nil, Forest.items p (.cons l nd.final kids rest), .nil, by simp [Forest.items], by simp [Forest.height], ?_⟩
      intro f
      obtain ⟨F', D, h1, h2, _, h4⟩ := ih 0
      simp only [List.take_zero] at h1
      cases h1
      simp only [Forest.items, List.nil_append] at h2
      have := h4 f
      simp only [List.drop_zero] at this ⊢
      simp only [List.map_cons, Forest.items, this, h2]
    | succ j =>
      obtain ⟨F', D, h1, h2, h3, h4⟩ := ih j
      refine ⟨.cons l nd.final kids F', D, .cons hm hk h1, by simp [Forest.items, h2], ?_, h4⟩
      simp only [Forest.height]
      omega

section
variable {σ S R : Type} {A : Algorithm} {n : Nat} {q : Str} {B : FBackend σ S}
  {Rep : σ → S → List Pos → Prop} {mem : Mem} {upd : Str → Nat → R} {s0 : S} {D : Nat} {sgn : Bool}

/-- What an iteration of the loop of `advance` does. -/
structure Stepped (A : Algorithm) (n : Nat) (q : Str) (B : FBackend σ S) (Rep : σ → S → List Pos → Prop) (mem : Mem)
    (upd : Str → Nat → R) (s0 : S) (D : Nat) (sgn : Bool) (m m' : σ) (Q Q' : Query S R) (P ch P' ch' : List Item)
    (log : List Thrown) (pre : List (Str × Nat)) : Prop where
  inv : QueryInv A n q Rep mem s0 D m' Q' P' ch'
  apart : Apart sgn (P' ++ ch')
  work : workOf P' ch' < workOf P ch
  grow : FGrow A n q.length B Rep log m m' Q.owned Q'.owned
  loses : Loses A n q P ch log pre P' ch'
  cand : (pre = [] ∧ Q'.complete = Q.complete ∧ Q'.cand = Q.cand) ∨
    (log = [] ∧ Q'.complete = false ∧ ∃ t d, pre = [(t, d)] ∧ Q'.cand = upd t d)

/-- The end of an iteration is in accordance with what was reported and thrown. -/
def EndsAs (e : Ending) (log : List Thrown) (pre : List (Str × Nat)) : Prop :=
  (e = .go ∧ log = [] ∧ pre = []) ∨ (e = .stop ∧ log = [] ∧ pre ≠ []) ∨ (e = .thrown log ∧ log ≠ [] ∧ pre = [])

theorem queryIterF_spec (hB : FBackendOk A n q.length B Rep) (hn : n ≤ sizeMax) (hq : Spec.QueryFits n q)
    (hD : D < 2 ^ 62) (f : Option Fault) {m : σ} {Q : Query S R} {P ch : List Item}
    (h : QueryInv A n q Rep mem s0 D m Q P ch) (ha : Apart sgn (P ++ ch)) (hne : Q.edges ≠ [] ∨ Q.pending ≠ []) :
    ∃ m' Q' e P' ch' log pre, queryIterF B mem upd f m Q = .ok (m', Q', e) ∧
      Stepped A n q B Rep mem upd s0 D sgn m m' Q Q' P ch P' ch' log pre ∧ EndsAs e log pre := by
  cases hes : Q.edges with
  | nil =>
    have hch : ch = [] := by
      rcases h.cur with hc | ⟨I, it, F, hd, tl, h1, h2, h3, h4, h5, _⟩
      · exact hc.2
      · rw [hes] at h4; cases h4; rw [h5]; rfl
    subst hch
    have hpend := h.pending
    cases hp : Q.pending with
    | nil => rw [hes, hp] at hne; simp at hne
    | cons I rest =>
      rw [hp] at hpend
      cases hpend with
      | @cons _ it _ P0 hI hrest =>
        obtain ⟨l, hl, hsem⟩ := hI.state
        obtain ⟨nd, hmn, hfin, hunf⟩ := hI.node
        rw [List.append_nil] at ha
        cases l with
        | nil => exact absurd rfl hsem.inv.ne
        | cons hd tl =>
          have hh := hB.head hl
          have hdr : deref mem I.node = .ok nd := by unfold deref; rw [hmn]
          have hinv : ∀ (Q' : Query S R) (F : Forest), Q'.term = Q.term → Q'.maxD = Q.maxD → Q'.a = Q.a →
              Q'.i = hd.index → Q'.owned = Q.owned →
              Q'.k = (if Q.a < wsub Q.term.length hd.index then Q.a else wsub Q.term.length hd.index) →
              Q'.cur = some I → Unf mem Q'.edges F → F.height ≤ it.kids.height → Q'.pending = rest →
              QueryInv A n q Rep mem s0 D m Q' P0 (F.items it.path) := by
            intro Q' F e1 e2 e3 e4 e5 e6 e7 e8 e9 e10
            refine ⟨e1.trans h.term, e2.trans h.maxD, e3.trans h.a, by rw [e10]; exact hrest, ?_, .inr ?_⟩
            · intro J hJ
              rw [e10] at hJ
              rw [e5]
              exact h.pendingOwn J (by rw [hp]; simp [hJ])
            · refine ⟨I, it, F, hd, tl, e7, hI, ?_, e8, rfl, ?_, hl, hsem, e4, ?_⟩
              · rw [e5]; exact h.pendingOwn I (by rw [hp]; simp)
              · have := hI.height; omega
              · rw [e6, h.a, h.term]
          have hwk : ∀ X : List Item, X.Sublist it.children → workOf P0 X < workOf (it :: P0) [] := by
            intro X hX
            have h1 := items_length_wt it.path it.kids
            have h2 : itemsWt X ≤ itemsWt it.children := by
              clear h1
              generalize it.children = Y at hX
              induction hX with
              | slnil => exact Nat.le_refl _
              | cons a _ ih => rw [itemsWt_cons]; omega
              | cons_cons a _ ih => rw [itemsWt_cons, itemsWt_cons]; omega
            have h3 := hX.length_le
            simp only [workOf, itemsWt_cons, Item.wt]
            simp only [Item.children] at h2 h3
            simp only [itemsWt, List.map_nil, List.sum_nil, List.length_nil] at *
            omega
          have hok := ha.children
          by_cases hj : ∃ j, f = some (.edges j) ∧ j < nd.edges.length
          · obtain ⟨j, rfl, hj⟩ := hj
            obtain ⟨F', X, t1, t2, t3, t4⟩ := unf_take hunf j it.path
            have heq : queryIterF B mem upd (some (.edges j)) m Q = .ok (m, { Q with
                pending := rest, cur := some I, i := hd.index,
                k := if Q.a < wsub Q.term.length hd.index then Q.a else wsub Q.term.length hd.index,
                edges := nd.edges.take j },
                .thrown ((nd.edges.drop j).map fun e => ⟨.edges j, I.str ++ [e.1]⟩)) := by
              simp only [queryIterF, hes, hp, hh, hdr, bind, Except.bind, if_pos hj]
              rfl
            have hch : it.children = F'.items it.path ++ X := t2
            have hsubl : (F'.items it.path).Sublist it.children := by rw [hch]; exact List.sublist_append_left _ _
            refine ⟨_, _, _, P0, F'.items it.path, X.map fun x => ⟨.edges j, x.path⟩, [], heq, ⟨?_, ?_, ?_, ?_, ?_, ?_⟩, ?_⟩
            · exact hinv _ F' rfl rfl rfl rfl rfl rfl rfl t1 t3 rfl
            · exact hok.sublist (hsubl.append_left P0)
            · exact hwk _ hsubl
            · refine FGrow.free _ _ fun e he => ?_
              obtain ⟨x, _, rfl⟩ := List.mem_map.1 he
              exact id
            · have h1 := Loses.open_node A n q it P0
              rw [hch] at h1 hok
              exact h1.trans (Loses.cut (by simp) hok)
            · exact .inl ⟨rfl, rfl, rfl⟩
            · refine .inr (.inr ⟨?_, ?_, rfl⟩)
              · rw [← t4, hI.str]
              · rw [← t4]
                intro hc
                have := congrArg List.length hc
                simp at this
                omega
          · have heq : queryIterF B mem upd f m Q = .ok (m, { Q with
                pending := rest, cur := some I, i := hd.index,
                k := if Q.a < wsub Q.term.length hd.index then Q.a else wsub Q.term.length hd.index,
                edges := nd.edges }, .go) := by
              simp only [queryIterF, hes, hp, hh, hdr, bind, Except.bind]
              split
              · next j =>
                rw [if_neg (fun hc => hj ⟨j, rfl, hc⟩)]
                rfl
              · rfl
            refine ⟨_, _, _, P0, it.children, [], [], heq, ⟨?_, hok, hwk _ (List.Sublist.refl _), FGrow.refl _ _,
              Loses.open_node A n q it P0, .inl ⟨rfl, rfl, rfl⟩⟩, .inl ⟨rfl, rfl, rfl⟩⟩
            exact hinv _ it.kids rfl rfl rfl rfl rfl rfl rfl hunf (Nat.le_refl _) rfl
  | cons e es =>
    obtain ⟨label, target⟩ := e
    rcases h.cur with hc | ⟨I, it, F, hd, tl, h1, h2, h3, h4, h5, h6, h7, h8, h9, h10⟩
    · rw [hes] at hc; simp at hc
    · rw [hes] at h4
      cases h4 with
      | @cons _ _ nd _ kids rest hmt hkids hrest =>
        have hlen : it.path.length < 2 ^ 62 := by have := h2.height; omega
        have hsm : Small n q it.path.length := ⟨hn, hq, hlen⟩
        have hhd := h8.inv.ok hd (by simp)
        obtain ⟨cv, hcv, hwin⟩ := charVec_window (x := label) hsm hhd.index_le
          (by have := hhd.behind; have := hhd.errors_le; omega)
        have hcv' : charVec label Q.term Q.k Q.i = .ok cv := by rw [h.term, h9, h10]; exact hcv
        have hch : ch = ⟨it.path ++ [label], nd.final, kids⟩ :: rest.items it.path := by rw [h5]; rfl
        have hheight : it.path.length + rest.height ≤ D := by simp only [Forest.height] at h6; omega
        have hheight' : (it.path ++ [label]).length + kids.height ≤ D := by
          simp only [Forest.height] at h6; simp; omega
        subst hch
        generalize hx : (⟨it.path ++ [label], nd.final, kids⟩ : Item) = x at *
        have hxp : x.path = it.path ++ [label] := by rw [← hx]
        have hwdrop : workOf P (rest.items it.path) < workOf P (x :: rest.items it.path) := by
          simp only [workOf, itemsWt_cons, List.length_cons]
          omega
        have hadrop : Apart sgn (P ++ rest.items it.path) :=
          ha.sublist ((List.sublist_cons_self x _).append_left P)
        -- the query without the edge
        have hdrop : ∀ (m' : σ) (Q' : Query S R), (∀ s l, Rep m s l → Rep m' s l) → Q'.term = Q.term → Q'.maxD = Q.maxD →
            Q'.a = Q.a → Q'.i = Q.i → Q'.k = Q.k → Q'.cur = Q.cur → Q'.edges = es → Q'.pending = Q.pending →
            (∀ s ∈ Q.owned, s ∈ Q'.owned) → QueryInv A n q Rep mem s0 D m' Q' P (rest.items it.path) := by
          intro m' Q' hpres e1 e2 e3 e4 e5 e6 e7 e8 e9
          have hfr := h.frame (m' := m') (fun s l _ => hpres s l)
          refine ⟨e1.trans h.term, e2.trans h.maxD, e3.trans h.a, by rw [e8]; exact hfr.pending, ?_, .inr ?_⟩
          · intro J hJ
            rw [e8] at hJ
            exact (h.pendingOwn J hJ).imp_right (e9 _)
          · exact ⟨I, it, rest, hd, tl, e6.trans h1, h2.frame (hpres _), h3.imp_right (e9 _), by rw [e7]; exact hrest,
              rfl, hheight, hpres _ _ h7, h8, e4.trans h9, e5.trans h10⟩
        have hskip : ∀ fl : Fault, fl ≠ .text →
            Loses A n q P (x :: rest.items it.path) [⟨fl, it.path ++ [label]⟩] [] P (rest.items it.path) := by
          intro fl hfl
          have := Loses.skip (A := A) (n := n) (q := q) (pre := []) hfl ha
          rw [hxp] at this
          exact this
        obtain ⟨r, hr⟩ : ∃ r, stateTrans A n q.length (hd :: tl) cv = .ok r := by
          rcases h8.trans q.length hsm hwin with ⟨ht, _⟩ | ⟨l', ht, _⟩
          · exact ⟨_, ht⟩
          · exact ⟨_, ht⟩
        by_cases hv : f = some .vector
        · subst hv
          have heq : queryIterF B mem upd (some .vector) m Q = .ok (m, { Q with edges := es },
              .thrown [⟨.vector, I.str ++ [label]⟩]) := by
            simp only [queryIterF, hes, h1, if_true]
          refine ⟨_, _, _, P, rest.items it.path, [⟨.vector, it.path ++ [label]⟩], [], heq, ⟨?_, hadrop, hwdrop, ?_,
            hskip _ (by simp), .inl ⟨rfl, rfl, rfl⟩⟩, .inr (.inr ⟨by rw [h2.str], by simp, rfl⟩)⟩
          · exact hdrop m _ (fun _ _ h => h) rfl rfl rfl rfl rfl rfl rfl rfl (fun _ h => h)
          · exact FGrow.free _ _ (by simp [Leaves])
        -- either the transition fails, or it is made
        have hcase : (∃ j m', f = some (.trans j) ∧ B.transFail m I.state cv j = .ok (some m') ∧
              (∀ s' l', Rep m s' l' → Rep m' s' l') ∧
              queryIterF B mem upd f m Q = .ok (m', { Q with edges := es }, .thrown [⟨.trans j, I.str ++ [label]⟩])) ∨
            queryIterF B mem upd f m Q = (do
              let (m', next) ← B.trans m I.state cv
              queryStateF B mem upd f label target I m' next { Q with edges := es }) := by
          by_cases hj : ∃ j, f = some (.trans j)
          · obtain ⟨j, rfl⟩ := hj
            obtain ⟨o, ho, hk⟩ := hB.fail h7 hr j
            cases o with
            | none =>
              right
              simp only [queryIterF, hes, h1, reduceCtorEq, if_false, hcv', bind, Except.bind, ho, Option.some.injEq]
            | some m' =>
              left
              refine ⟨j, m', rfl, ho, hk m' rfl, ?_⟩
              simp only [queryIterF, hes, h1, reduceCtorEq, if_false, hcv', bind, Except.bind, ho, Option.some.injEq]
              rfl
          · right
            simp only [queryIterF, hes, h1, hv, if_false, hcv', bind, Except.bind]
            split
            · next j => exact absurd ⟨j, rfl⟩ hj
            · rfl
        rcases hcase with ⟨j, m', rfl, hfail, hk, heq⟩ | heq
        · refine ⟨_, _, _, P, rest.items it.path, [⟨.trans j, it.path ++ [label]⟩], [], heq, ⟨?_, hadrop, hwdrop, ?_,
            hskip _ (by simp), .inl ⟨rfl, rfl, rfl⟩⟩, .inr (.inr ⟨by rw [h2.str], by simp, rfl⟩)⟩
          · exact hdrop m' _ hk rfl rfl rfl rfl rfl rfl rfl rfl (fun _ h => h)
          · exact ⟨hk, fun I' hI l0 h0 => hI.fail h7 hr hfail h0⟩
        · rcases h8.trans q.length hsm hwin with ⟨ht, hdead⟩ | ⟨l', ht, hsem'⟩
          · obtain ⟨m', htr, hpres⟩ := hB.trans_none h7 ht
            simp only [htr, bind, Except.bind, queryStateF] at heq
            refine ⟨_, _, _, P, rest.items it.path, [], [], heq, ⟨?_, hadrop, hwdrop, ?_, ?_, .inl ⟨rfl, rfl, rfl⟩⟩,
              .inl ⟨rfl, rfl, rfl⟩⟩
            · exact hdrop m' _ hpres rfl rfl rfl rfl rfl rfl rfl rfl (fun _ h => h)
            · exact ⟨hpres, fun I' hI l0 h0 => by rw [List.append_nil]; exact hI.stuck h7 ht htr h0⟩
            · have hd' : Dead A n q x := by
                intro u c hc hal
                rw [hxp] at hal
                exact hdead u c hc hal
              exact Loses.dead hd'
          · obtain ⟨m', s', htr, hrep, hpres⟩ := hB.trans_some h7 ht
            simp only [htr, bind, Except.bind] at heq
            have hstr : (Inter.child label target s' I).str = it.path ++ [label] := by simp only [Inter.str, h2.str]
            -- lost between the transition and the queue
            have hlost : ∀ fl : Fault, fl = .inter ∨ fl = .push → f = some fl →
                ∃ m' Q' e P' ch' log pre, queryIterF B mem upd f m Q = .ok (m', Q', e) ∧
                  Stepped A n q B Rep mem upd s0 D sgn m m' Q Q' P (x :: rest.items it.path) P' ch' log pre ∧
                  EndsAs e log pre := by
              intro fl hfl hf
              have heq' : queryIterF B mem upd f m Q = .ok (m', { Q with edges := es },
                  .thrown [⟨fl, (Inter.child label target s' I).str⟩]) := by
                rw [heq]
                rcases hfl with rfl | rfl <;> rw [hf] <;> rfl
              rw [hstr] at heq'
              refine ⟨_, _, _, P, rest.items it.path, _, [], heq', ⟨?_, hadrop, hwdrop, ?_,
                hskip _ (by rcases hfl with rfl | rfl <;> simp), .inl ⟨rfl, rfl, rfl⟩⟩,
                .inr (.inr ⟨rfl, by simp, rfl⟩)⟩
              · exact hdrop m' _ hpres rfl rfl rfl rfl rfl rfl rfl rfl (fun _ h => h)
              · exact ⟨hpres, fun I' hI l0 h0 => hI.lost h7 ht htr hfl h0⟩
            by_cases hi : f = some .inter
            · exact hlost _ (.inl rfl) hi
            by_cases hpu : f = some .push
            · exact hlost _ (.inr rfl) hpu
            by_cases hqu : f = some .queue
            · subst hqu
              have heq' : queryIterF B mem upd (some .queue) m Q = .ok (m', { Q with edges := es, owned := Q.owned ++ [s'] },
                  .thrown [⟨.queue, (Inter.child label target s' I).str⟩]) := by
                rw [heq]; rfl
              rw [hstr] at heq'
              refine ⟨_, _, _, P, rest.items it.path, _, [], heq', ⟨?_, hadrop, hwdrop, ?_,
                hskip _ (by simp), .inl ⟨rfl, rfl, rfl⟩⟩, .inr (.inr ⟨rfl, by simp, rfl⟩)⟩
              · exact hdrop m' _ hpres rfl rfl rfl rfl rfl rfl rfl rfl (fun s hs => by simp [hs])
              · exact ⟨hpres, fun I' hI l0 h0 => hI.free (by simp [Leaves]) (hI.made h7 ht htr h0)⟩
            have hdr : deref mem target = .ok nd := by unfold deref; rw [hmt]
            have hlen' : (it.path ++ [label]).length < 2 ^ 62 := by omega
            have hsm' : Small n q (it.path ++ [label]).length := ⟨hn, hq, hlen'⟩
            have hdist := hsem'.dist hsm' (cost_spec A q (it.path ++ [label]))
            have hfr := h.frame (m' := m') (fun s l _ => hpres s l)
            have hinv : ∀ (Q' : Query S R), Q'.term = Q.term → Q'.maxD = Q.maxD → Q'.a = Q.a → Q'.i = Q.i →
                Q'.k = Q.k → Q'.cur = Q.cur → Q'.edges = es →
                Q'.pending = Q.pending ++ [Inter.child label target s' I] → Q'.owned = Q.owned ++ [s'] →
                QueryInv A n q Rep mem s0 D m' Q' (P ++ [x]) (rest.items it.path) := by
              intro Q' e1 e2 e3 e4 e5 e6 e7 e8 e9
              refine ⟨e1.trans h.term, e2.trans h.maxD, e3.trans h.a, ?_, ?_, .inr ?_⟩
              · rw [e8]
                refine forall₂_snoc hfr.pending ?_
                rw [← hx]
                exact ⟨hstr, ⟨l', hrep, hsem'⟩, ⟨nd, hmt, rfl, hkids⟩, hheight'⟩
              · intro J hJ
                rw [e8] at hJ
                rw [e9]
                rcases List.mem_append.1 hJ with hJ | hJ
                · rcases h.pendingOwn J hJ with h' | h'
                  · exact .inl h'
                  · exact .inr (by simp [h'])
                · simp only [List.mem_singleton] at hJ
                  subst hJ
                  exact .inr (by simp [Inter.state])
              · refine ⟨I, it, rest, hd, tl, e6.trans h1, h2.frame (hpres _), ?_, by rw [e7]; exact hrest, rfl, hheight,
                  hpres _ _ h7, h8, e4.trans h9, e5.trans h10⟩
                rw [e9]
                rcases h3 with h' | h'
                · exact .inl h'
                · exact .inr (by simp [h'])
            have hwork : workOf (P ++ [x]) (rest.items it.path) < workOf P (x :: rest.items it.path) := by
              simp only [workOf, itemsWt_append, itemsWt_cons, List.length_cons]
              simp only [itemsWt, List.map_nil, List.sum_nil]
              omega
            have hgrow : FGrow A n q.length B Rep [] m m' Q.owned (Q.owned ++ [s']) :=
              ⟨hpres, fun I' hI l0 h0 => by rw [List.append_nil]; exact hI.made h7 ht htr h0⟩
            have hap : Apart sgn (P ++ [x] ++ rest.items it.path) := by
              rw [List.append_assoc]; exact ha
            have hlose := Loses.child (A := A) (n := n) (q := q) ha
            have hstate : ∀ m'' (Q0 : Query S R), queryStateF B mem upd f label target I m'' (some s') Q0 = (do
                let nd ← deref mem target
                if nd.final then
                  let d ← B.dist m'' s' Q0.term.length
                  if d ≤ Q0.maxD then
                    if f = some .text then return (m'', { Q0 with pending := Q0.pending ++ [Inter.child label target s' I], owned := Q0.owned ++ [s'] }, .thrown [⟨.text, (Inter.child label target s' I).str⟩])
                    else return (m'', { Q0 with pending := Q0.pending ++ [Inter.child label target s' I], owned := Q0.owned ++ [s'], cand := upd (Inter.child label target s' I).str d, complete := false }, .stop)
                  else return (m'', { Q0 with pending := Q0.pending ++ [Inter.child label target s' I], owned := Q0.owned ++ [s'] }, .go)
                else return (m'', { Q0 with pending := Q0.pending ++ [Inter.child label target s' I], owned := Q0.owned ++ [s'] }, .go)) := by
              intro m'' Q0
              unfold queryStateF
              split
              · next hc => cases hc
              · next s hs =>
                cases hs
                cases f with
                | none => rfl
                | some fl => cases fl <;> first | rfl | exact absurd rfl hi | exact absurd rfl hpu | exact absurd rfl hqu
            rw [hstate] at heq
            by_cases hfin : nd.final = true
            · by_cases hle : cost A q (it.path ++ [label]) ≤ n
              · have hsd := hdist.1 hle
                have hres : resultOf A n q x = some (it.path ++ [label], cost A q (it.path ++ [label])) := by
                  simp only [← hx, resultOf, hfin, hle, and_self, if_true]
                by_cases htx : f = some .text
                · have heq' : queryIterF B mem upd f m Q = .ok (m', { Q with
                      edges := es, pending := Q.pending ++ [Inter.child label target s' I], owned := Q.owned ++ [s'] },
                      .thrown [⟨.text, it.path ++ [label]⟩]) := by
                    rw [heq]
                    simp only [bind, Except.bind, hdr, hfin, if_true, h.term, hB.dist hrep, hsd, h.maxD, if_pos hle, htx, hstr]
                    rfl
                  refine ⟨_, _, _, P ++ [x], rest.items it.path, _, [], heq', ⟨?_, hap, hwork, ?_, ?_,
                    .inl ⟨rfl, rfl, rfl⟩⟩, .inr (.inr ⟨rfl, by simp, rfl⟩)⟩
                  · exact hinv _ rfl rfl rfl rfl rfl rfl rfl rfl rfl
                  · exact hgrow.trans (FGrow.free _ _ (by simp [Leaves]))
                  · rw [← hxp]; exact Loses.text ha
                · have heq' : queryIterF B mem upd f m Q = .ok (m', { Q with
                      edges := es, pending := Q.pending ++ [Inter.child label target s' I], owned := Q.owned ++ [s'],
                      cand := upd (it.path ++ [label]) (cost A q (it.path ++ [label])), complete := false }, .stop) := by
                    rw [heq]
                    simp only [bind, Except.bind, hdr, hfin, if_true, h.term, hB.dist hrep, hsd, h.maxD, if_pos hle, htx,
                      if_false, hstr]
                    rfl
                  refine ⟨_, _, _, P ++ [x], rest.items it.path, [], _, heq', ⟨?_, hap, hwork, hgrow, hlose, ?_⟩, ?_⟩
                  · exact hinv _ rfl rfl rfl rfl rfl rfl rfl rfl rfl
                  · exact .inr ⟨rfl, rfl, _, _, by rw [hres]; rfl, rfl⟩
                  · exact .inr (.inl ⟨rfl, rfl, by rw [hres]; simp⟩)
              · have hsd := hdist.2 hle
                have hres : resultOf A n q x = none := by
                  simp only [← hx, resultOf, hfin, hle, and_false, if_false]
                have heq' : queryIterF B mem upd f m Q = .ok (m', { Q with
                    edges := es, pending := Q.pending ++ [Inter.child label target s' I],
                    owned := Q.owned ++ [s'] }, .go) := by
                  rw [heq]
                  simp only [bind, Except.bind, hdr, hfin, if_true, h.term, hB.dist hrep, h.maxD, if_neg hsd]
                  rfl
                rw [hres] at hlose
                refine ⟨_, _, _, P ++ [x], rest.items it.path, [], _, heq', ⟨?_, hap, hwork, hgrow, hlose,
                  .inl ⟨rfl, rfl, rfl⟩⟩, .inl ⟨rfl, rfl, rfl⟩⟩
                exact hinv _ rfl rfl rfl rfl rfl rfl rfl rfl rfl
            · have hres : resultOf A n q x = none := by
                simp only [← hx, resultOf, hfin, false_and, if_false, Bool.false_eq_true]
              have heq' : queryIterF B mem upd f m Q = .ok (m', { Q with
                  edges := es, pending := Q.pending ++ [Inter.child label target s' I],
                  owned := Q.owned ++ [s'] }, .go) := by
                rw [heq]
                simp only [bind, Except.bind, hdr, hfin, if_false, Bool.false_eq_true]
                rfl
              rw [hres] at hlose
              refine ⟨_, _, _, P ++ [x], rest.items it.path, [], _, heq', ⟨?_, hap, hwork, hgrow, hlose,
                .inl ⟨rfl, rfl, rfl⟩⟩, .inl ⟨rfl, rfl, rfl⟩⟩
              exact hinv _ rfl rfl rfl rfl rfl rfl rfl rfl rfl

/-- What a call of `advance` does. -/
structure Called (A : Algorithm) (n : Nat) (q : Str) (B : FBackend σ S) (Rep : σ → S → List Pos → Prop) (mem : Mem)
    (s0 : S) (D : Nat) (sgn : Bool) (m m' : σ) (Q Q' : Query S R) (P ch P' ch' : List Item)
    (log : List Thrown) (pre : List (Str × Nat)) : Prop where
  inv : QueryInv A n q Rep mem s0 D m' Q' P' ch'
  apart : Apart sgn (P' ++ ch')
  grow : FGrow A n q.length B Rep log m m' Q.owned Q'.owned
  loses : Loses A n q P ch log pre P' ch'

theorem Called.trans {m m' m'' : σ} {Q Q' Q'' : Query S R} {P ch P' ch' P'' ch'' : List Item} {log log' : List Thrown}
    {pre pre' : List (Str × Nat)} (h : Called A n q B Rep mem s0 D sgn m m' Q Q' P ch P' ch' log pre)
    (h' : Called A n q B Rep mem s0 D sgn m' m'' Q' Q'' P' ch' P'' ch'' log' pre') :
    Called A n q B Rep mem s0 D sgn m m'' Q Q'' P ch P'' ch'' (log ++ log') (pre ++ pre') :=
  ⟨h'.inv, h'.apart, h.grow.trans h'.grow, h.loses.trans h'.loses⟩

/-- How a call ends: with an exception, with the next candidate, or at the end. -/
def CallEnd (upd : Str → Nat → R) (Q Q' : Query S R) (P ch P' ch' : List Item) (log : List Thrown)
    (pre : List (Str × Nat)) : Prop :=
  (log ≠ [] ∧ pre = [] ∧ Q'.complete = true ∧ Q'.cand = Q.cand ∧ workOf P' ch' < workOf P ch) ∨
  (log = [] ∧ Q'.complete = false ∧ workOf P' ch' < workOf P ch ∧ ∃ t d, pre = [(t, d)] ∧ Q'.cand = upd t d) ∨
  (log = [] ∧ pre = [] ∧ Q'.complete = true ∧ Q'.cand = Q.cand ∧ P' = [] ∧ ch' = [])

theorem queryLoopF_spec (hB : FBackendOk A n q.length B Rep) (hn : n ≤ sizeMax) (hq : Spec.QueryFits n q)
    (hD : D < 2 ^ 62) (fuel : Nat) (fs : List (Option Fault)) {m : σ} {Q : Query S R} {P ch : List Item}
    (h : QueryInv A n q Rep mem s0 D m Q P ch) (ha : Apart sgn (P ++ ch)) (hne : Q.edges ≠ [] ∨ Q.pending ≠ [])
    (hc : Q.complete = true) (hf : workOf P ch < fuel) :
    ∃ fs' m' Q' P' ch' log pre, queryLoopF B mem upd fuel fs m Q = .ok (fs', m', Q', log) ∧
      Called A n q B Rep mem s0 D sgn m m' Q Q' P ch P' ch' log pre ∧ CallEnd upd Q Q' P ch P' ch' log pre := by
  induction fuel generalizing m Q P ch fs with
  | zero => omega
  | succ fuel ih =>
    obtain ⟨m1, Q1, e, P1, ch1, log, pre, heq, hst, hend⟩ :=
      queryIterF_spec (upd := upd) hB hn hq hD (fs.headD none) h ha hne
    have hcall : Called A n q B Rep mem s0 D sgn m m1 Q Q1 P ch P1 ch1 log pre := ⟨hst.inv, hst.apart, hst.grow, hst.loses⟩
    have hwork := hst.work
    rcases hend with ⟨rfl, rfl, rfl⟩ | ⟨rfl, rfl, hpre⟩ | ⟨rfl, hlog, rfl⟩
    · have hcand : Q1.complete = Q.complete ∧ Q1.cand = Q.cand := by
        rcases hst.cand with ⟨_, h2⟩ | ⟨_, _, t, d, h2, _⟩
        · exact h2
        · exact absurd h2 (by simp)
      by_cases he : (Q1.edges.isEmpty && Q1.pending.isEmpty) = true
      · obtain ⟨rfl, rfl⟩ := hst.inv.done he
        refine ⟨fs.tail, m1, Q1, [], [], [], [], ?_, hcall, .inr (.inr ⟨rfl, rfl, by rw [hcand.1, hc], hcand.2, rfl, rfl⟩)⟩
        rw [queryLoopF, heq]
        simp only [bind, Except.bind, he, if_true]
        rfl
      · obtain ⟨fs2, m2, Q2, P2, ch2, log2, pre2, heq2, hcall2, hend2⟩ :=
          ih fs.tail hst.inv hst.apart (QueryInv.more he) (by rw [hcand.1, hc]) (by omega)
        refine ⟨fs2, m2, Q2, P2, ch2, log2, pre2, ?_, hcall.trans hcall2, ?_⟩
        · rw [queryLoopF, heq]
          simp only [bind, Except.bind, he, Bool.false_eq_true, if_false]
          exact heq2
        · rcases hend2 with ⟨a, b, c, d, e⟩ | ⟨a, b, c, d⟩ | ⟨a, b, c, d, e⟩
          · exact .inl ⟨a, b, c, d.trans hcand.2, by omega⟩
          · exact .inr (.inl ⟨a, b, by omega, d⟩)
          · exact .inr (.inr ⟨a, b, c, d.trans hcand.2, e⟩)
    · refine ⟨fs.tail, m1, Q1, P1, ch1, [], pre, ?_, hcall, .inr (.inl ?_)⟩
      · rw [queryLoopF, heq]; rfl
      · rcases hst.cand with ⟨h1, _⟩ | ⟨_, h2, h3⟩
        · exact absurd h1 hpre
        · exact ⟨rfl, h2, hwork, h3⟩
    · refine ⟨fs.tail, m1, Q1, P1, ch1, log, [], ?_, hcall, .inl ?_⟩
      · rw [queryLoopF, heq]; rfl
      · rcases hst.cand with ⟨_, h2, h3⟩ | ⟨h1, _⟩
        · exact ⟨hlog, rfl, by rw [h2, hc], h3, hwork⟩
        · exact absurd h1 hlog

theorem queryAdvanceF_spec (hB : FBackendOk A n q.length B Rep) (hn : n ≤ sizeMax) (hq : Spec.QueryFits n q)
    (hD : D < 2 ^ 62) (fuel : Nat) (fs : List (Option Fault)) {m : σ} {Q : Query S R} {P ch : List Item}
    (h : QueryInv A n q Rep mem s0 D m Q P ch) (ha : Apart sgn (P ++ ch)) (hf : workOf P ch < fuel) :
    ∃ fs' m' Q' P' ch' log pre, queryAdvanceF B mem upd fuel fs m Q = .ok (fs', m', Q', log) ∧
      Called A n q B Rep mem s0 D sgn m m' Q Q' P ch P' ch' log pre ∧ CallEnd upd Q Q' P ch P' ch' log pre := by
  have h' : QueryInv A n q Rep mem s0 D m { Q with complete := true } P ch :=
    ⟨h.term, h.maxD, h.a, h.pending, h.pendingOwn, h.cur⟩
  unfold queryAdvanceF
  by_cases he : (Q.edges.isEmpty && Q.pending.isEmpty) = true
  · obtain ⟨rfl, rfl⟩ := h.done he
    rw [if_pos he]
    exact ⟨_, _, _, [], [], [], [], rfl, ⟨h', ha, FGrow.refl _ _, Loses.refl _ _ _ _ _⟩,
      .inr (.inr ⟨rfl, rfl, rfl, rfl, rfl, rfl⟩)⟩
  · rw [if_neg he]
    obtain ⟨fs2, m2, Q2, P2, ch2, log, pre, heq2, hcall, hend⟩ :=
      queryLoopF_spec (upd := upd) hB hn hq hD fuel fs h' ha (QueryInv.more he) rfl hf
    exact ⟨fs2, m2, Q2, P2, ch2, log, pre, heq2, ⟨hcall.inv, hcall.apart, hcall.grow, hcall.loses⟩, hend⟩

theorem queryRetryF_spec (hB : FBackendOk A n q.length B Rep) (hn : n ≤ sizeMax) (hq : Spec.QueryFits n q)
    (hD : D < 2 ^ 62) (inner fuel : Nat) (fs : List (Option Fault)) {m : σ} {Q : Query S R} {P ch : List Item}
    (h : QueryInv A n q Rep mem s0 D m Q P ch) (ha : Apart sgn (P ++ ch)) (hi : workOf P ch < inner)
    (hf : workOf P ch < fuel) :
    ∃ fs' m' Q' P' ch' log pre, queryRetryF B mem upd inner fuel fs m Q = .ok (fs', m', Q', log) ∧
      Called A n q B Rep mem s0 D sgn m m' Q Q' P ch P' ch' log pre ∧
      ((Q'.complete = false ∧ workOf P' ch' < workOf P ch ∧ ∃ t d, pre = [(t, d)] ∧ Q'.cand = upd t d) ∨
        (pre = [] ∧ Q'.complete = true ∧ Q'.cand = Q.cand ∧ P' = [] ∧ ch' = [])) := by
  induction fuel generalizing m Q P ch fs with
  | zero => omega
  | succ fuel ih =>
    obtain ⟨fs1, m1, Q1, P1, ch1, log, pre, heq, hcall, hend⟩ :=
      queryAdvanceF_spec (upd := upd) hB hn hq hD inner fs h ha hi
    rcases hend with ⟨a, b, c, d, e⟩ | ⟨a, b, c, d⟩ | ⟨a, b, c, d, e, f⟩
    · obtain ⟨fs2, m2, Q2, P2, ch2, log2, pre2, heq2, hcall2, hend2⟩ :=
        ih fs1 hcall.inv hcall.apart (by omega) (by omega)
      subst b
      refine ⟨fs2, m2, Q2, P2, ch2, log ++ log2, pre2, ?_, hcall.trans hcall2, ?_⟩
      · rw [queryRetryF, heq]
        simp only [bind, Except.bind, List.isEmpty_iff, a, if_false, heq2]
        rfl
      · rcases hend2 with ⟨x, y, z⟩ | ⟨x, y, z, w⟩
        · exact .inl ⟨x, by omega, z⟩
        · exact .inr ⟨x, y, z.trans d, w⟩
    · subst a
      refine ⟨fs1, m1, Q1, P1, ch1, [], pre, ?_, hcall, .inl ⟨b, c, d⟩⟩
      rw [queryRetryF, heq]; rfl
    · subst a
      refine ⟨fs1, m1, Q1, P1, ch1, [], pre, ?_, hcall, .inr ⟨b, c, d, e, f⟩⟩
      rw [queryRetryF, heq]; rfl

theorem ahead_nil (P ch : List Item) : Ahead P ch [] := fun e he => by simp at he

theorem keptOf_nil (l : List (Str × Nat)) : keptOf [] l = l := kept_congr fun _ _ => rfl

/-- The caller that tries again. -/
theorem queryCollectF_spec (hB : FBackendOk A n q.length B Rep) (hn : n ≤ sizeMax) (hq : Spec.QueryFits n q)
    (hD : D < 2 ^ 62) (fuel : Nat) (fs : List (Option Fault)) {m : σ} {Q : Query S R} {P ch : List Item}
    (h : QueryInv A n q Rep mem s0 D m Q P ch) (ha : Apart sgn (P ++ ch)) (hf1 : 1 ≤ fuel) (hf : Q.complete = false → workOf P ch + 2 ≤ fuel) :
    ∃ m' Q' log, queryCollectF B mem upd fuel fs m Q = .ok (m', Q', (if Q.complete = true then [] else
      Q.cand :: (keptOf log (outOf A n q P ch)).map (fun r => upd r.1 r.2)), log) ∧ (Q.complete = true → log = []) ∧
      Ahead P ch log ∧ Q'.complete = true ∧ FGrow A n q.length B Rep log m m' Q.owned Q'.owned := by
  induction fuel generalizing m Q P ch fs with
  | zero => omega
  | succ fuel ih =>
    by_cases hc : Q.complete = true
    · refine ⟨m, Q, [], ?_, fun _ => rfl, ahead_nil _ _, hc, FGrow.refl _ _⟩
      rw [queryCollectF, if_pos hc, if_pos hc]
      rfl
    · have hf := hf (by simpa using hc)
      obtain ⟨fs1, m1, Q1, P1, ch1, log, pre, heq, hcall, hend⟩ :=
        queryRetryF_spec (upd := upd) hB hn hq hD fuel fuel fs h ha (by omega) (by omega)
      rcases hend with ⟨a, b, t, d, c, e⟩ | ⟨a, b, c, rfl, rfl⟩
      · obtain ⟨m2, Q2, log2, heq2, _, hah, hcm, hg⟩ := ih fs1 hcall.inv hcall.apart (by omega) (fun _ => by omega)
        rw [if_neg (by simp [a])] at heq2
        refine ⟨m2, Q2, log ++ log2, ?_, fun h' => absurd h' hc, hcall.loses.ahead _ hah, hcm, hcall.grow.trans hg⟩
        rw [queryCollectF, if_neg hc, if_neg hc]
        simp only [heq, heq2, bind, Except.bind, hcall.loses.out _ hah, c, e]
        rfl
      · obtain ⟨m2, Q2, log2, heq2, hl, hah, hcm, hg⟩ := ih fs1 hcall.inv hcall.apart (by omega)
          (fun hx => by simp [b] at hx)
        rw [if_pos b] at heq2
        have hl := hl b
        subst hl
        refine ⟨m2, Q2, log ++ [], ?_, fun h' => absurd h' hc, hcall.loses.ahead _ hah, hcm, hcall.grow.trans hg⟩
        rw [queryCollectF, if_neg hc, if_neg hc]
        simp only [heq, heq2, bind, Except.bind, hcall.loses.out _ hah, a]
        rw [outOf_nil]
        rfl

/-- The caller that goes on with the test for the end. -/
theorem queryCollectStop_spec (hB : FBackendOk A n q.length B Rep) (hn : n ≤ sizeMax) (hq : Spec.QueryFits n q)
    (hD : D < 2 ^ 62) (fuel : Nat) (fs : List (Option Fault)) {m : σ} {Q : Query S R} {P ch : List Item}
    (h : QueryInv A n q Rep mem s0 D m Q P ch) (ha : Apart sgn (P ++ ch)) (hf1 : 1 ≤ fuel) (hf : Q.complete = false → workOf P ch + 2 ≤ fuel) :
    ∃ m' Q' rs log, queryCollectStop B mem upd fuel fs m Q = .ok (m', Q', rs, log) ∧ Q'.complete = true ∧
      rs <+: (if Q.complete = true then [] else Q.cand :: (outOf A n q P ch).map (fun r => upd r.1 r.2)) ∧
      (Q.complete = false → rs ≠ []) ∧ FGrow A n q.length B Rep log m m' Q.owned Q'.owned ∧ (Q.complete = true → log = []) ∧
      (log = [] → rs = if Q.complete = true then [] else Q.cand :: (outOf A n q P ch).map (fun r => upd r.1 r.2)) := by
  induction fuel generalizing m Q P ch fs with
  | zero => omega
  | succ fuel ih =>
    by_cases hc : Q.complete = true
    · refine ⟨m, Q, [], [], ?_, hc, by simp, by simp [hc], FGrow.refl _ _, fun _ => rfl, fun _ => by rw [if_pos hc]⟩
      rw [queryCollectStop, if_pos hc]
      rfl
    · have hf := hf (by simpa using hc)
      obtain ⟨fs1, m1, Q1, P1, ch1, log, pre, heq, hcall, hend⟩ :=
        queryAdvanceF_spec (upd := upd) hB hn hq hD fuel fs h ha (by omega)
      have hout := hcall.loses.out [] (ahead_nil _ _)
      rw [List.append_nil, keptOf_nil] at hout
      have hf' : Q1.complete = false → workOf P1 ch1 + 2 ≤ fuel := fun hx => by
        rcases hend with ⟨_, _, _, _, e⟩ | ⟨_, _, e, _⟩ | ⟨_, _, e, _⟩
        · omega
        · omega
        · simp [e] at hx
      obtain ⟨m2, Q2, rs2, log2, heq2, hcm, hpre, _, hg, _, hall⟩ := ih fs1 hcall.inv hcall.apart (by omega) hf'
      refine ⟨m2, Q2, Q.cand :: rs2, log ++ log2, ?_, hcm, ?_, by simp, hcall.grow.trans hg, fun h' => absurd h' hc, fun hl => ?_⟩
      · rw [queryCollectStop, if_neg hc]
        simp only [heq, heq2, bind, Except.bind]
        rfl
      · rw [if_neg hc, List.prefix_cons_inj]
        rcases hend with ⟨_, _, c, _⟩ | ⟨rfl, b, _, t, d, c, e⟩ | ⟨_, _, c, _⟩
        · rw [if_pos c] at hpre
          rw [List.prefix_nil.1 hpre]
          exact List.nil_prefix
        · rw [if_neg (by simp [b]), e] at hpre
          rw [keptOf_nil] at hout
          rw [hout, c]
          exact hpre
        · rw [if_pos c] at hpre
          rw [List.prefix_nil.1 hpre]
          exact List.nil_prefix
      · obtain ⟨rfl, rfl⟩ := List.append_eq_nil_iff.1 hl
        have hall := hall rfl
        rw [keptOf_nil] at hout
        rw [if_neg hc, hall]
        rcases hend with ⟨c, _⟩ | ⟨_, b, _, t, d, c, e⟩ | ⟨_, p, c, _, rfl, rfl⟩
        · exact absurd rfl c
        · rw [if_neg (by simp [b]), e, hout, c]; rfl
        · rw [if_pos c, hout, p, outOf_nil]; rfl

theorem Tree.apart {root : Nat} {nd : DNode} {F : Forest} (h : Tree sgn mem root nd F) : Apart sgn ([rootItem nd F] ++ []) :=
  ⟨by simp, fun it hit => by
    simp only [List.append_nil, List.mem_singleton] at hit
    subst hit
    exact h.sorted⟩

/-- The constructor. -/
theorem queryBeginF_spec (hB : FBackendOk A n q.length B Rep) (hn : n ≤ sizeMax) (hq : Spec.QueryFits n q)
    (fuel : Nat) (fs : List (Option Fault)) (dflt : R) {m : σ} {root : Nat} {nd : DNode} {F : Forest}
    (ht : Tree sgn mem root nd F) (hs : Rep m s0 initialState) (hf : F.wt + 1 < fuel) :
    ∃ fs' m' Q log, queryBeginF B mem upd fuel fs dflt m root s0 q n = .ok (fs', m', Q, log) ∧
      FGrow A n q.length B Rep log m m' [] Q.owned ∧
      (log = [] → ∃ P ch, QueryInv A n q Rep mem s0 F.height m' Q P ch ∧ Apart sgn (P ++ ch) ∧ workOf P ch ≤ F.wt + 1 ∧
        ((Q.complete = false ∧ ∃ t d, allOut A n q nd F = (t, d) :: outOf A n q P ch ∧ Q.cand = upd t d ∧
            ∀ log', Ahead P ch log' → keptOf log' (allOut A n q nd F) = (t, d) :: keptOf log' (outOf A n q P ch)) ∨
          (Q.complete = true ∧ allOut A n q nd F = [] ∧ P = [] ∧ ch = []))) := by
  have hm := ht.node
  have hu := ht.unf
  have hinv : ∀ (Q : Query S R), Q.term = q → Q.maxD = n → Q.a = windowMax n → Q.edges = [] →
      Q.pending = [Inter.root root s0] → QueryInv A n q Rep mem s0 F.height m Q [rootItem nd F] [] := by
    intro Q h1 h2 h3 h4 h5
    refine ⟨h1, h2, h3, ?_, ?_, .inl ⟨h4, rfl⟩⟩
    · rw [h5]
      refine .cons ⟨rfl, ⟨_, hs, initialState_sem A n q⟩, ⟨nd, hm, rfl, hu⟩, ?_⟩ .nil
      simp only [rootItem, List.length_nil, Nat.zero_add]
      exact Nat.le_refl _
    · rw [h5]
      intro I hI
      simp only [List.mem_singleton] at hI
      subst hI
      exact .inl rfl
  have hdr : deref mem root = .ok nd := by unfold deref; rw [hm]
  have hwork : workOf [rootItem nd F] [] = F.wt + 1 := by
    simp [workOf, itemsWt, Item.wt, rootItem]; omega
  have hout : outOf A n q [rootItem nd F] [] = (pushes [rootItem nd F]).filterMap (resultOf A n q) := by
    simp [outOf]
  unfold queryBeginF
  simp only [hdr, bind, Except.bind]
  by_cases hc : (nd.final && decide (q.length ≤ n)) = true
  · rw [if_pos hc]
    refine ⟨fs, m, _, [], rfl, FGrow.refl _ _, fun _ => ⟨[rootItem nd F], [], hinv _ rfl rfl rfl rfl rfl, ht.apart, by omega,
      .inl ⟨rfl, [], q.length, ?_, rfl, ?_⟩⟩⟩
    · rw [hout, allOut, List.filterMap_cons]
      simp only [Bool.and_eq_true, decide_eq_true_eq] at hc
      have : resultOf A n q (rootItem nd F) = some ([], q.length) := by
        simp only [resultOf, rootItem, cost_nil, hc, and_self, if_true]
      rw [this]
    · intro log' hl
      have h1 : allOut A n q nd F = ([], q.length) :: outOf A n q [rootItem nd F] [] := by
        rw [hout, allOut, List.filterMap_cons]
        simp only [Bool.and_eq_true, decide_eq_true_eq] at hc
        have : resultOf A n q (rootItem nd F) = some ([], q.length) := by
          simp only [resultOf, rootItem, cost_nil, hc, and_self, if_true]
        rw [this]
      rw [h1, keptOf, List.filter_cons_of_pos]
      · rfl
      · simp only [Bool.not_eq_true', missed, List.any_eq_false, decide_eq_true_eq]
        intro e he hmis
        have hmis := List.prefix_nil.1 (misses_prefix hmis)
        rcases hl e he with ⟨y, hy, _⟩ | ⟨y, hy, h2, h3⟩
        · simp at hy
        · rw [hmis] at h2 h3
          exact h3 (List.prefix_nil.1 h2)
  · rw [if_neg hc]
    obtain ⟨fs1, m1, Q1, P1, ch1, log, pre, heq, hcall, hend⟩ :=
      queryAdvanceF_spec (upd := upd) hB hn hq ht.height fuel fs
        (hinv { pending := [Inter.root root s0], edges := [], owned := [], complete := false, cur := none,
                cand := dflt, term := q, maxD := n, a := windowMax n, k := 0, i := 0 } rfl rfl rfl rfl rfl) ht.apart
        (by omega)
    have hall : allOut A n q nd F = outOf A n q [rootItem nd F] [] := by
      rw [hout, allOut, List.filterMap_cons]
      have : resultOf A n q (rootItem nd F) = none := by
        simp only [Bool.and_eq_true, decide_eq_true_eq] at hc
        simp only [resultOf, rootItem, cost_nil, hc, if_false]
      rw [this]
    refine ⟨fs1, m1, Q1, log, heq, hcall.grow, fun hl => ?_⟩
    subst hl
    refine ⟨P1, ch1, hcall.inv, hcall.apart, ?_⟩
    rcases hend with ⟨a, _⟩ | ⟨_, b, c, t, d, e, f⟩ | ⟨_, b, c, d, rfl, rfl⟩
    · exact absurd rfl a
    · refine ⟨by omega, .inl ⟨b, t, d, ?_, f, ?_⟩⟩
      · have := hcall.loses.out [] (ahead_nil _ _)
        rw [List.append_nil, keptOf_nil, keptOf_nil, e] at this
        rw [hall, this]; rfl
      · intro log' hl'
        have := hcall.loses.out log' hl'
        rw [List.nil_append, e] at this
        rw [hall, this]; rfl
    · refine ⟨by simp [workOf, itemsWt], .inr ⟨c, ?_, rfl, rfl⟩⟩
      have := hcall.loses.out [] (ahead_nil _ _)
      rw [List.append_nil, keptOf_nil, keptOf_nil, b, outOf_nil] at this
      rw [hall, this]; rfl

end

/-! ### The backends -/

theorem listBackendF_ok (A : Algorithm) (n len : Nat) :
    FBackendOk A n len (listBackendF A n len) (fun _ s l => s = l) where
  toBackendOk := listBackend_ok A n len
  fail _ _ _ := ⟨_, rfl, fun _ _ _ _ h => h⟩

/-- `m'` has all that `m` has. -/
structure Extends (m m' : SMem) : Prop where
  finite : m'.Finite
  pos : ∀ {a c}, m.pos a = some c → m'.pos a = some c
  st : ∀ {s h}, m.st s = some h → m'.st s = some h

theorem Extends.refl {m : SMem} (h : m.Finite) : Extends m m := ⟨h, id, id⟩

theorem Extends.trans {m m' m'' : SMem} (h : Extends m m') (h' : Extends m' m'') : Extends m m'' :=
  ⟨h'.finite, fun e => h'.pos (h.pos e), fun e => h'.st (h.st e)⟩

theorem StBuilt.extends {m0 m : SMem} {s : Nat} {l : Cells} (h : StBuilt m0 m s l) : Extends m0 m :=
  ⟨h.finite,
    fun {a _} e => by rw [h.pos a fun hc => by rw [h.new a hc] at e; cases e]; exact e,
    fun {s' _} e => by rw [h.st s' fun hc => by rw [hc, h.fresh] at e; cases e]; exact e⟩

theorem Extends.isState {m m' : SMem} (h : Extends m m') {s : Nat} {l : Cells} (hs : IsState m s l) : IsState m' s l :=
  ⟨h.st hs.st, PLinked.frame hs.linked fun a ha => by
    obtain ⟨c, hc⟩ := hs.linked.alive a ha
    rw [hc, h.pos hc], hs.nodup⟩

theorem Extends.rep {m m' : SMem} (h : Extends m m') {s : Nat} {l : List Pos} (hs : HRep m s l) : HRep m' s l := by
  obtain ⟨_, c, h1, h2⟩ := hs
  exact ⟨h.finite, c, h.isState h1, h2⟩

theorem newPos_extends {paddr saddr : SMem → Nat} (hA : SAlloc paddr saddr) {m : SMem} (hf : m.Finite) (p : Pos) :
    Extends m (newPos paddr p m).2 := by
  obtain ⟨h0, hn⟩ := hA.pos m hf
  refine ⟨?_, fun {a c} h => ?_, fun h => h⟩
  · obtain ⟨⟨L, hL, hm⟩, L', hL', hm'⟩ := hf
    refine ⟨⟨paddr m :: L, by simp only [newPos, List.length_cons]; omega, ?_⟩, L', by simp only [newPos]; omega, hm'⟩
    intro a c hc
    by_cases he : a = paddr m
    · simp [he]
    · simp only [newPos, upd1_ne _ _ he] at hc
      exact List.mem_cons_of_mem _ (hm a c hc)
  · have : a ≠ paddr m := by rintro rfl; rw [hn] at h; cases h
    simp only [newPos, upd1_ne _ _ this]
    exact h

/-- Positions that could all be allocated, or some of them. -/
theorem newPositionsF_ok {paddr saddr : SMem → Nat} (hA : SAlloc paddr saddr) (j : Nat) (ps : List Pos) {m : SMem}
    (hf : m.Finite) : (∃ m', newPositionsF paddr j ps m = .inl m' ∧ Extends m m' ∧ m'.st = m.st) ∨
      ∃ j', newPositionsF paddr j ps m = .inr ((newPositions paddr ps m).1, (newPositions paddr ps m).2, j') := by
  induction ps generalizing m j with
  | nil => cases j <;> exact .inr ⟨_, rfl⟩
  | cons p ps ih =>
    cases j with
    | zero => exact .inl ⟨m, rfl, Extends.refl hf, rfl⟩
    | succ j =>
      have h1 := newPos_extends hA hf p
      rcases ih j h1.finite with ⟨m', e, h2, h3⟩ | ⟨j', e⟩
      · refine .inl ⟨m', ?_, h1.trans h2, h3.trans rfl⟩
        simp only [newPositionsF, e]
      · refine .inr ⟨j', ?_⟩
        simp only [newPositionsF, e]
        rfl

theorem newPositions_extends {paddr saddr : SMem → Nat} (hA : SAlloc paddr saddr) (ps : List Pos) {m : SMem} (hf : m.Finite) :
    Extends m (newPositions paddr ps m).2 ∧ (newPositions paddr ps m).2.st = m.st := by
  induction ps generalizing m with
  | nil => exact ⟨Extends.refl hf, rfl⟩
  | cons p ps ih =>
    have h1 := newPos_extends hA hf p
    obtain ⟨h2, h3⟩ := ih h1.finite
    exact ⟨h1.trans h2, h3.trans rfl⟩

/-- `m'` has all that `m` has, and one more state. -/
structure Leaks (m m' : SMem) (next : Nat) : Prop extends Extends m m' where
  fresh : m.st next = none
  there : m'.st next ≠ none
  others : ∀ s, s ≠ next → m'.st s = m.st s

theorem StBuilt.leaks {m0 m m' : SMem} {s : Nat} {l : Cells} (h : StBuilt m0 m s l) (ha : Extends m m') (hs : m'.st = m.st) :
    Leaks m0 m' s where
  toExtends := h.extends.trans ha
  fresh := h.fresh
  there := by rw [hs, h.isState.st]; simp
  others s' hs' := by rw [hs, h.st s' hs']

theorem transLoopF_ok {paddr saddr : SMem → Nat} (hA : SAlloc paddr saddr) {A : Algorithm} {n : Nat} {cv : List Bool}
    {offset : Nat} {m0 m : SMem} {s next fuel pv : Nat} {rest l : Cells} {res : List Pos} (hr : PLinked m0.pos rest 0)
    (h : StBuilt m0 m next l) (hfu : rest.length < fuel) (ht : transLoop A n cv offset (poss rest) (poss l) = .ok res)
    (j : Nat) :
    ∃ o, transLoopF paddr A n cv offset next fuel j (iterAt s rest pv) m = .ok o ∧ ∀ m', o = some m' → Leaks m0 m' next := by
  induction fuel generalizing m rest l pv j with
  | zero => omega
  | succ fuel ih =>
    have hkeep : ∀ {m'' : SMem} {l'' : Cells}, StBuilt m0 m'' next l'' → PLinked m''.pos rest 0 := by
      intro m'' l'' hb
      refine PLinked.frame hr fun a ha => hb.pos a fun hc => ?_
      obtain ⟨c, hc'⟩ := hr.alive a ha
      rw [hb.new a hc] at hc'
      cases hc'
    cases rest with
    | nil => exact ⟨none, by simp [transLoopF], by simp⟩
    | cons x rest =>
      obtain ⟨x, p⟩ := x
      have hx := hkeep h
      have h1 : getCell m (iterAt s ((x, p) :: rest) pv).curr = .ok ⟨p, hd rest 0⟩ := getCell_ok hx.2.1
      simp only [poss_cons, transLoop] at ht
      cases hp : posTrans A n p cv offset with
      | error e => rw [hp] at ht; cases ht
      | ok ps =>
        simp only [hp, bind, Except.bind] at ht
        rcases newPositionsF_ok hA j ps h.finite with ⟨m', e, ha, hs⟩ | ⟨j', e⟩
        · refine ⟨some m', ?_, ?_⟩
          · simp only [transLoopF, iterAt_notEnd hr.1, Bool.false_eq_true, if_false, h1, hp, e, bind, Except.bind]
          · rintro _ ⟨⟩
            exact h.leaks ha hs
        · obtain ⟨ha, hs⟩ := newPositions_extends hA ps h.finite
          have hvec : newVectorF ((newPositions paddr ps m).1, (newPositions paddr ps m).2, j') =
                .inl (newPositions paddr ps m).2 ∨
              ∃ j'', newVectorF ((newPositions paddr ps m).1, (newPositions paddr ps m).2, j') =
                .inr ((newPositions paddr ps m).1, (newPositions paddr ps m).2, j'') := by
            cases (newPositions paddr ps m).1 with
            | nil => exact .inr ⟨j', rfl⟩
            | cons a as =>
              cases j' with
              | zero => exact .inl rfl
              | succ j' => exact .inr ⟨j', rfl⟩
          rcases hvec with hv | ⟨j'', hv⟩
          · refine ⟨some (newPositions paddr ps m).2, ?_, ?_⟩
            · simp only [transLoopF, iterAt_notEnd hr.1, Bool.false_eq_true, if_false, h1, hp, e, hv, bind, Except.bind]
            · rintro _ ⟨⟩
              exact h.leaks ha hs
          · obtain ⟨m1, l1, e1, e2, e3⟩ := h.merge hA (A := A) ps
            rw [← e3] at ht
            obtain ⟨o, f1, f2⟩ := ih (pv := x) hr.2.2 e2 (by simp only [List.length_cons] at hfu; omega) ht j''
            refine ⟨o, ?_, f2⟩
            simp only [transLoopF, iterAt_notEnd hr.1, Bool.false_eq_true, if_false, h1, hp, e, hv, e1, bind, Except.bind,
              siterAdvance_ok (hkeep e2), f1]

/-- A transition that runs out of memory. -/
theorem stateTransFail_ok {paddr saddr : SMem → Nat} (hA : SAlloc paddr saddr) {A : Algorithm} {n len : Nat}
    {m : SMem} {s : Nat} {l : List Pos} {cv : List Bool} {r : Option (List Pos)} (h : HRep m s l)
    (ht : stateTrans A n len l cv = .ok r) (j : Nat) :
    ∃ o, stateTransFail paddr saddr A n s cv j m = .ok o ∧
      ∀ m', o = some m' → (j = 0 ∧ m' = m) ∨ (0 < j ∧ ∃ next, Leaks m m' next) := by
  cases l with
  | nil => cases ht
  | cons hdp tl =>
    simp only [stateTrans] at ht
    cases htl : transLoop A n cv hdp.index (hdp :: tl) [] with
    | error e => rw [htl] at ht; cases ht
    | ok res =>
      obtain ⟨hf, c, hs, hc⟩ := h
      cases c with
      | nil => cases hc
      | cons x c =>
        obtain ⟨x, p⟩ := x
        simp only [poss_cons, List.cons.injEq] at hc
        obtain ⟨rfl, rfl⟩ := hc
        have hst : m.st s = some x := hs.st
        have hx : m.pos x = some ⟨p, hd c 0⟩ := hs.linked.2.1
        cases j with
        | zero =>
          refine ⟨some m, ?_, ?_⟩
          · simp only [stateTransFail, getHead_ok hst, getCell_ok hx, bind, Except.bind]
          · rintro _ ⟨⟩; exact .inl ⟨rfl, rfl⟩
        | succ j =>
          have hb := newState_built hA hf
          have hs' := hb.keep hs
          have hlen := hs'.length hb.finite
          obtain ⟨o, e1, e2⟩ := transLoopF_ok (s := s) (pv := 0) (fuel := (newState saddr m).2.steps) hA hs.linked hb
            (by unfold SMem.steps; omega) (by simpa using htl) j
          refine ⟨o, ?_, fun m' hm' => .inr ⟨by omega, _, e2 m' hm'⟩⟩
          simp only [stateTransFail, getHead_ok hst, getCell_ok hx, bind, Except.bind]
          rw [show newState saddr m = ((newState saddr m).1, (newState saddr m).2) from rfl]
          simp only [siterBegin_ok hs']
          exact e1

theorem heapBackendF_ok {paddr saddr : SMem → Nat} (hA : SAlloc paddr saddr) (first : Bool) (A : Algorithm) (n len : Nat) :
    FBackendOk A n len (heapBackendF paddr saddr first A n len) HRep where
  toBackendOk := heapBackend_ok hA first A n len
  fail h ht j := by
    obtain ⟨o, e, h'⟩ := stateTransFail_ok hA h ht j
    refine ⟨o, e, fun m' hm' s' l' hl => ?_⟩
    rcases h' m' hm' with ⟨_, rfl⟩ | ⟨_, next, hl'⟩
    · exact hl
    · exact hl'.toExtends.rep hl

/-! ### What is left behind -/

/-- `m0` with what is in `m'` but not in `m`. -/
def withNew (m0 m m' : SMem) : SMem :=
  ⟨fun a => if m.pos a = none then m'.pos a else m0.pos a, fun s => if m.st s = none then m'.st s else m0.st s, m'.count⟩

theorem Accounted.leak {m0 m m' : SMem} {o : List Nat} (h : Accounted m0 m o) (ha : Extends m m') :
    Accounted (withNew m0 m m') m' o := by
  have hst : ∀ {s l}, IsState m s l → m.st s ≠ none := fun hs => by rw [hs.st]; simp
  have hpos : ∀ {s l}, IsState m s l → ∀ a ∈ addrs l, m.pos a ≠ none := fun hs a ha => by
    obtain ⟨c, hc⟩ := hs.linked.alive a ha
    rw [hc]; simp
  have hback : ∀ s ∈ o, ∀ l, IsState m' s l → IsState m s l := by
    intro s hs l hl
    obtain ⟨_, _, l', h1, _⟩ := h.states s hs
    rw [hl.unique (ha.isState h1)]
    exact h1
  refine ⟨ha.finite, h.nodup, fun s hs => ?_, fun s h1 s' h2 hne l l' i1 i2 => ?_, fun s hs => ?_, fun a hna => ?_⟩
  · obtain ⟨h0, h1, l, h2, h3⟩ := h.states s hs
    refine ⟨h0, ?_, l, ha.isState h2, fun a hal => ?_⟩
    · simp only [withNew, if_neg (hst h2)]; exact h1
    · simp only [withNew, if_neg (hpos h2 a hal)]; exact h3 a hal
  · exact h.disjoint s h1 s' h2 hne l l' (hback s h1 l i1) (hback s' h2 l' i2)
  · simp only [withNew]
    split
    · rfl
    · next hc =>
      rw [← h.st s hs]
      cases e : m.st s with
      | none => exact absurd e hc
      | some x => exact ha.st e
  · simp only [withNew]
    split
    · rfl
    · next hc =>
      rw [← h.pos a fun s hs l hl => hna s hs l (ha.isState hl)]
      cases e : m.pos a with
      | none => exact absurd e hc
      | some x => exact ha.pos e

theorem Spec.LeftBehind.refl (m0 : SMem) : LeftBehind m0 m0 [] :=
  ⟨id, id, ⟨[], by simp, rfl, fun s => by simp⟩, fun _ => ⟨rfl, rfl⟩⟩

theorem Spec.LeftBehind.free {m0 g : SMem} {log : List Thrown} (h : LeftBehind m0 g log) {f : Fault} (hf : ¬ Leaves f) (p : Str) :
    LeftBehind m0 g (log ++ [⟨f, p⟩]) := by
  obtain ⟨h1, h2, h3, h4⟩ := h
  refine ⟨h1, h2, ?_, fun hc => h4 fun e he => hc e (by simp [he])⟩
  simpa [hf] using h3

theorem Spec.LeftBehind.leak {m0 g m m' : SMem} {log : List Thrown} {o : List Nat} {next : Nat} (h : LeftBehind m0 g log)
    (hacc : Accounted g m o) (hl : Leaks m m' next) {f : Fault} (hf : Leaves f) (p : Str) :
    LeftBehind m0 (withNew g m m') (log ++ [⟨f, p⟩]) := by
  have hgs : ∀ s, g.st s ≠ none → m.st s = g.st s := fun s hs => hacc.st s fun hc => hs (hacc.states s hc).2.1
  have hgp : ∀ a, g.pos a ≠ none → m.pos a = g.pos a := fun a ha => hacc.pos a fun s hs l hl hc => by
    obtain ⟨_, _, l', h1, h2⟩ := hacc.states s hs
    rw [hl.unique h1] at hc
    exact ha (h2 a hc)
  obtain ⟨h1, h2, ⟨L, h3, h4, h5⟩, _⟩ := h
  refine ⟨fun {a c} hc => ?_, fun {s x} hs => ?_, ⟨L ++ [next], ?_, ?_, fun s => ?_⟩, fun hc => ?_⟩
  · have := h1 hc
    simp only [withNew]
    rw [if_neg (by rw [hgp a (by rw [this]; simp), this]; simp)]
    exact this
  · have := h2 hs
    simp only [withNew]
    rw [if_neg (by rw [hgs s (by rw [this]; simp), this]; simp)]
    exact this
  · refine List.nodup_append.2 ⟨h3, by simp, ?_⟩
    rintro a ha b hb rfl
    simp only [List.mem_singleton] at hb
    subst hb
    have := (h5 a).1 ha
    have h6 := hgs a this.2
    rw [hl.fresh] at h6
    exact this.2 h6.symm
  · simp [h4, hf]
  · simp only [List.mem_append, List.mem_singleton, h5]
    constructor
    · rintro (⟨a, b⟩ | rfl)
      · refine ⟨a, ?_⟩
        simp only [withNew]
        rw [if_neg (by rw [hgs s b]; exact b)]
        exact b
      · refine ⟨?_, ?_⟩
        · cases e : m0.st s with
          | none => rfl
          | some x =>
            have h6 := h2 e
            have h7 := hgs s (by rw [h6]; simp)
            rw [hl.fresh, h6] at h7
            cases h7
        · simp only [withNew, if_pos hl.fresh]
          exact hl.there
    · rintro ⟨a, b⟩
      by_cases hs : s = next
      · exact .inr hs
      · left
        refine ⟨a, fun hc => b ?_⟩
        simp only [withNew]
        split
        · next hn => rw [hl.others s hs]; exact hn
        · exact hc
  · exact absurd hf (hc ⟨f, p⟩ (by simp))

/-- Iterations keep the accounts, but for what is left behind. -/
theorem garbage_stable {paddr saddr : SMem → Nat} (hA : SAlloc paddr saddr) (first : Bool) (A : Algorithm) (n len : Nat)
    (m0 : SMem) (others : List Nat) : FStable A n len (heapBackendF paddr saddr first A n len) HRep
      (fun log m o => ∃ g, LeftBehind m0 g log ∧ Accounted g m (others ++ o)) where
  stuck := by
    rintro log m s l cv m' o h ht htr ⟨g, h1, h2⟩
    exact ⟨g, h1, (accounted_stable hA first A n len g others).none h ht htr h2⟩
  made := by
    rintro log m s l cv l' m' s' o h ht htr ⟨g, h1, h2⟩
    exact ⟨g, h1, (accounted_stable hA first A n len g others).some h ht htr h2⟩
  fail := by
    rintro log m s l cv r j m' o p h ht htr ⟨g, h1, h2⟩
    obtain ⟨x, e, h'⟩ := stateTransFail_ok (len := len) hA h ht j
    have : x = some m' := by
      have := e.symm.trans htr
      simpa using this
    rcases h' m' this with ⟨rfl, rfl⟩ | ⟨hj, next, hl⟩
    · exact ⟨g, h1.free (by simp [Leaves]) p, h2⟩
    · exact ⟨_, h1.leak h2 hl (f := .trans j) hj p, h2.leak hl.toExtends⟩
  lost := by
    rintro log m s l cv l' m' s' o f p h ht htr hf ⟨g, h1, h2⟩
    obtain ⟨m1, next, c, e1, e2, e3⟩ := stateTransH_some (paddr := paddr) (saddr := saddr) hA first h ht
    have := e1.symm.trans htr
    simp only [Except.ok.injEq, Prod.mk.injEq, Option.some.injEq] at this
    obtain ⟨rfl, rfl⟩ := this
    have hl : Leaks m m1 next := e2.leaks (Extends.refl e2.finite) rfl
    exact ⟨_, h1.leak h2 hl (by rcases hf with rfl | rfl <;> trivial) p, h2.leak hl.toExtends⟩
  free := by
    rintro log m o f p hf ⟨g, h1, h2⟩
    exact ⟨g, h1.free hf p, h2⟩

/-! ### No exceptions -/

section
variable {σ S R : Type} (B : FBackend σ S) (mem : Mem) (upd : Str → Nat → R)

theorem queryIterF_none (m : σ) (Q : Query S R) : queryIterF B mem upd none m Q =
    (queryIter B.toBackend mem upd m Q).map fun r => (r.1, r.2.1, if r.2.2 then .stop else .go) := by
  unfold queryIterF queryIter
  cases hes : Q.edges with
  | nil =>
    cases hp : Q.pending with
    | nil => rfl
    | cons I rest =>
      simp only [bind, Except.bind]
      cases B.headIdx m I.state with
      | error e => rfl
      | ok i =>
        simp only []
        cases deref mem I.node with
        | error e => rfl
        | ok nd => rfl
  | cons e es =>
    obtain ⟨label, target⟩ := e
    cases hc : Q.cur with
    | none => rfl
    | some I =>
      simp only [reduceCtorEq, if_false, bind, Except.bind]
      cases charVec label Q.term Q.k Q.i with
      | error e => rfl
      | ok cv =>
        simp only []
        cases B.trans m I.state cv with
        | error e => rfl
        | ok r =>
          obtain ⟨m', next⟩ := r
          cases next with
          | none => simp only [queryStateF, hc]; rfl
          | some s =>
            simp only [queryStateF, bind, Except.bind, hc]
            cases deref mem target with
            | error e => rfl
            | ok nd =>
              simp only []
              by_cases hf : nd.final = true
              · simp only [hf, if_true]
                cases B.dist m' s Q.term.length with
                | error e => rfl
                | ok d =>
                  simp only []
                  by_cases hd : d ≤ Q.maxD
                  · simp only [hd, if_true, reduceCtorEq, if_false]; rfl
                  · simp only [hd, if_false]; rfl
              · simp only [hf]; rfl

theorem queryLoopF_none (fuel : Nat) (m : σ) (Q : Query S R) : queryLoopF B mem upd fuel [] m Q =
    (queryLoop B.toBackend mem upd fuel m Q).map fun r => ([], r.1, r.2, []) := by
  induction fuel generalizing m Q with
  | zero => rfl
  | succ fuel ih =>
    simp only [queryLoopF, queryLoop, List.headD_nil, List.tail_nil, queryIterF_none]
    cases queryIter B.toBackend mem upd m Q with
    | error e => rfl
    | ok r =>
      obtain ⟨m', Q', b⟩ := r
      cases b with
      | true => rfl
      | false =>
        simp only [Except.map, bind, Except.bind, Bool.false_eq_true, if_false]
        split
        · rfl
        · exact ih m' Q'

theorem queryAdvanceF_none (fuel : Nat) (m : σ) (Q : Query S R) : queryAdvanceF B mem upd fuel [] m Q =
    (queryAdvance B.toBackend mem upd fuel m Q).map fun r => ([], r.1, r.2, []) := by
  unfold queryAdvanceF queryAdvance
  split
  · rfl
  · exact queryLoopF_none B mem upd fuel m _

theorem queryBeginF_none (fuel : Nat) (dflt : R) (m : σ) (root : Nat) (s0 : S) (q : Str) (n : Nat) :
    queryBeginF B mem upd fuel [] dflt m root s0 q n =
      (queryBegin B.toBackend mem upd fuel dflt m root s0 q n).map fun r => ([], r.1, r.2, []) := by
  unfold queryBeginF queryBegin
  cases deref mem root with
  | error e => rfl
  | ok nd =>
    simp only [bind, Except.bind]
    split
    · rfl
    · exact queryAdvanceF_none B mem upd fuel m _

end

end Lev
