import Verif.Proofs.Align

/-!
# Sequences of operations against alignments: the factor 3/2

A sequence of `k` insertions, deletions, substitutions and swaps of neighbours turns `v` into `w`. Every character of `w`
then either was inserted or comes from a character of `v`: the *trace*. The cost of a trace (characters inserted,
deleted, changed, and pairs whose order was reversed) is at most `k`; and a trace of cost `K` gives an alignment of cost
at most `3 / 2 * K`.
-/

namespace Lev.Spec

variable {α : Type}

/-- The number of pairs that stand in the wrong order. -/
def inversions : List Nat → Nat
  | [] => 0
  | a :: l => l.countP (· < a) + inversions l

/-- The tags of the characters that come from the left string. -/
abbrev tags (ps : List (α × Option Nat)) : List Nat := ps.filterMap (·.2)

/-- Characters of the right string that were inserted. -/
def nIns (ps : List (α × Option Nat)) : Nat := ps.countP (fun x => x.2.isNone)

/-- Characters of the left string that were deleted. -/
def nDel (vs : List (α × Nat)) (l : List Nat) : Nat := vs.countP (fun x => decide (x.2 ∉ l))

open Classical in
/-- Characters that were changed. -/
noncomputable def nSub (vs : List (α × Nat)) (ps : List (α × Option Nat)) : Nat :=
  ps.countP (fun x => decide (∃ t ∈ x.2, (x.1, t) ∉ vs))

/-- The cost of a trace: characters inserted, deleted, changed, and pairs reversed. -/
noncomputable def traceCost (vs : List (α × Nat)) (ps : List (α × Option Nat)) : Nat :=
  nIns ps + nDel vs (tags ps) + nSub vs ps + inversions (tags ps)

/-- `ps` is a trace on `vs`: the tags of `vs` increase, and those of `ps` are distinct tags of `vs`. -/
structure IsTrace (vs : List (α × Nat)) (ps : List (α × Option Nat)) : Prop where
  sorted : vs.Pairwise (fun x y => x.2 < y.2)
  nodup : (tags ps).Nodup
  sub : ∀ t ∈ tags ps, t ∈ vs.map (·.2)

/-! ## The parts of the cost -/

@[simp] theorem nIns_nil : nIns ([] : List (α × Option Nat)) = 0 := rfl
@[simp] theorem nIns_append (p s : List (α × Option Nat)) : nIns (p ++ s) = nIns p + nIns s := by simp [nIns]
@[simp] theorem nIns_none (a : α) (s : List (α × Option Nat)) : nIns ((a, none) :: s) = nIns s + 1 := by
  simp [nIns]
@[simp] theorem nIns_some (a : α) (t : Nat) (s : List (α × Option Nat)) : nIns ((a, some t) :: s) = nIns s := by
  simp [nIns]

@[simp] theorem nDel_nil (l : List Nat) : nDel ([] : List (α × Nat)) l = 0 := rfl
@[simp] theorem nDel_append (v v' : List (α × Nat)) (l : List Nat) : nDel (v ++ v') l = nDel v l + nDel v' l := by
  simp only [nDel, List.countP_append]
theorem nDel_cons (x : α × Nat) (v : List (α × Nat)) (l : List Nat) :
    nDel (x :: v) l = nDel v l + if x.2 ∈ l then 0 else 1 := by
  simp only [nDel, List.countP_cons]; congr 1; by_cases h : x.2 ∈ l <;> simp [h]

theorem nDel_mono {vs : List (α × Nat)} {l l' : List Nat} (h : ∀ x ∈ vs, x.2 ∈ l → x.2 ∈ l') :
    nDel vs l' ≤ nDel vs l := by
  refine List.countP_mono_left fun x hx hp => ?_
  simp only [decide_eq_true_eq] at hp ⊢
  exact fun hl => hp (h x hx hl)

theorem nDel_congr {vs : List (α × Nat)} {l l' : List Nat} (h : ∀ x ∈ vs, x.2 ∈ l ↔ x.2 ∈ l') :
    nDel vs l = nDel vs l' :=
  Nat.le_antisymm (nDel_mono fun x hx => (h x hx).2) (nDel_mono fun x hx => (h x hx).1)

theorem nDel_eq_length {vs : List (α × Nat)} {l : List Nat} (h : ∀ x ∈ vs, x.2 ∉ l) : nDel vs l = vs.length := by
  rw [nDel, List.countP_eq_length]
  simpa using h

/-- Dropping a tag makes at most one more deletion. -/
theorem nDel_untag {vs : List (α × Nat)} (hs : vs.Pairwise (fun x y => x.2 < y.2)) {l l' : List Nat} {t : Nat}
    (h : ∀ u, u ∈ l → u ∈ l' ∨ u = t) : nDel vs l' ≤ nDel vs l + 1 := by
  induction vs with
  | nil => simp
  | cons z vs ih =>
    rw [List.pairwise_cons] at hs
    rw [nDel_cons, nDel_cons]
    by_cases hz : z.2 = t
    · have : nDel vs l' ≤ nDel vs l := by
        refine nDel_mono fun y hy hl => ?_
        have h1 := hs.1 y hy
        rcases h y.2 hl with h2 | h2
        · exact h2
        · omega
      split <;> split <;> omega
    · have h1 := ih hs.2
      have h2 := h z.2
      by_cases hp : z.2 ∈ l'
      · simp [hp]; omega
      · have : z.2 ∉ l := fun h3 => by rcases h2 h3 with h2 | h2 <;> contradiction
        simp [hp, this]; omega

@[simp] theorem nSub_nil (vs : List (α × Nat)) : nSub vs ([] : List (α × Option Nat)) = 0 := rfl
@[simp] theorem nSub_append (vs : List (α × Nat)) (p s : List (α × Option Nat)) :
    nSub vs (p ++ s) = nSub vs p + nSub vs s := by simp [nSub]
@[simp] theorem nSub_none (vs : List (α × Nat)) (a : α) (s : List (α × Option Nat)) :
    nSub vs ((a, none) :: s) = nSub vs s := by simp [nSub]

open Classical in
theorem nSub_some (vs : List (α × Nat)) (a : α) (t : Nat) (s : List (α × Option Nat)) :
    nSub vs ((a, some t) :: s) = nSub vs s + if (a, t) ∈ vs then 0 else 1 := by
  simp only [nSub, List.countP_cons]; congr 1; by_cases h : (a, t) ∈ vs <;> simp [h]

theorem nSub_cons_le (vs : List (α × Nat)) (x : α × Option Nat) (s : List (α × Option Nat)) :
    nSub vs s ≤ nSub vs (x :: s) ∧ nSub vs (x :: s) ≤ nSub vs s + 1 := by
  obtain ⟨a, _ | t⟩ := x
  · simp
  · rw [nSub_some]; split <;> omega

theorem nSub_mono {vs vs' : List (α × Nat)} {ps : List (α × Option Nat)}
    (h : ∀ c, ∀ t ∈ tags ps, (c, t) ∈ vs → (c, t) ∈ vs') : nSub vs' ps ≤ nSub vs ps := by
  refine List.countP_mono_left fun x hx hp => ?_
  simp only [decide_eq_true_eq] at hp ⊢
  obtain ⟨t, ht, hp⟩ := hp
  refine ⟨t, ht, fun hv => hp (h _ t ?_ hv)⟩
  exact List.mem_filterMap.2 ⟨x, hx, ht⟩

theorem inversions_append (p s : List Nat) : inversions p + inversions s ≤ inversions (p ++ s) := by
  induction p with
  | nil => simp [inversions]
  | cons b p ih => simp only [List.cons_append, inversions, List.countP_append]; omega

theorem inversions_remove (p s : List Nat) (a : Nat) :
    inversions (p ++ s) + p.countP (a < ·) + s.countP (· < a) = inversions (p ++ a :: s) := by
  induction p with
  | nil => simp [inversions]; omega
  | cons b p ih =>
    simp only [List.cons_append, inversions, List.countP_append, List.countP_cons, ← ih, decide_eq_true_eq]
    omega

theorem inversions_swap (p s : List Nat) (a b : Nat) : inversions (p ++ b :: a :: s) ≤ inversions (p ++ a :: b :: s) + 1 := by
  induction p with
  | nil => simp only [List.nil_append, inversions, List.countP_cons]; split <;> split <;> omega
  | cons c p ih => simp only [List.cons_append, inversions, List.countP_append, List.countP_cons]; omega

/-! ## What one operation does to the cost -/

/-- Forgetting where a character comes from. -/
theorem IsTrace.untag {vs : List (α × Nat)} {P S : List (α × Option Nat)} {x : α} {t : Nat}
    (h : IsTrace vs (P ++ (x, some t) :: S)) : IsTrace vs (P ++ (x, none) :: S) ∧
      traceCost vs (P ++ (x, none) :: S) + ((tags P).countP (t < ·) + (tags S).countP (· < t)) ≤
        traceCost vs (P ++ (x, some t) :: S) + 2 := by
  obtain ⟨h1, h2, h3⟩ := h
  have e1 : tags (P ++ (x, none) :: S) = tags P ++ tags S := by simp [tags]
  have e2 : tags (P ++ (x, some t) :: S) = tags P ++ t :: tags S := by simp [tags]
  rw [e2] at h2 h3
  have hsub : (tags P ++ tags S).Sublist (tags P ++ t :: tags S) := (List.sublist_cons_self _ _).append_left _
  refine ⟨⟨h1, ?_, ?_⟩, ?_⟩
  · rw [e1]; exact hsub.nodup h2
  · rw [e1]; exact fun u hu => h3 u (hsub.mem hu)
  · have hd := nDel_untag h1 (l := tags P ++ t :: tags S) (l' := tags P ++ tags S) (t := t)
      (by intro u hu; simp at hu ⊢; grind)
    have hi := inversions_remove (tags P) (tags S) t
    have hs := nSub_cons_le vs (x, some t) S
    simp only [traceCost, e1, e2, nIns_append, nIns_none, nIns_some, nSub_append, nSub_none]
    omega

theorem Step.trace {vs : List (α × Nat)} {ps : List (α × Option Nat)} (h : IsTrace vs ps) {w : List α}
    (hs : Step .transposition (ps.map (·.1)) w) :
    ∃ ps', ps'.map (·.1) = w ∧ IsTrace vs ps' ∧ traceCost vs ps' ≤ traceCost vs ps + 1 := by
  generalize hu : ps.map (·.1) = u at hs
  cases hs with
  | ins p s a =>
    obtain ⟨P, S, rfl, rfl, rfl⟩ := List.map_eq_append_iff.1 hu
    have ht : tags (P ++ (a, none) :: S) = tags (P ++ S) := by simp [tags]
    refine ⟨P ++ (a, none) :: S, by simp, ⟨h.sorted, ht ▸ h.nodup, ht ▸ h.sub⟩, ?_⟩
    simp only [traceCost, ht, nIns_append, nIns_none, nSub_append, nSub_none]; omega
  | del p s a =>
    obtain ⟨P, S', rfl, rfl, hS⟩ := List.map_eq_append_iff.1 hu
    obtain ⟨⟨a', o⟩, S, rfl, rfl, rfl⟩ := List.map_eq_cons_iff.1 hS
    have key : ∀ {a : α} {P S : List (α × Option Nat)}, IsTrace vs (P ++ (a, none) :: S) →
        IsTrace vs (P ++ S) ∧ traceCost vs (P ++ S) + 1 = traceCost vs (P ++ (a, none) :: S) := by
      intro a P S h
      have ht : tags (P ++ (a, none) :: S) = tags (P ++ S) := by simp [tags]
      refine ⟨⟨h.sorted, ht ▸ h.nodup, ht ▸ h.sub⟩, ?_⟩
      simp only [traceCost, ht, nIns_append, nIns_none, nSub_append, nSub_none]; omega
    refine ⟨P ++ S, by simp, ?_⟩
    cases o with
    | none => obtain ⟨h1, h2⟩ := key h; exact ⟨h1, by omega⟩
    | some t =>
      obtain ⟨h0, h3⟩ := h.untag
      obtain ⟨h1, h2⟩ := key h0; exact ⟨h1, by omega⟩
  | sub p s a b =>
    obtain ⟨P, S', rfl, rfl, hS⟩ := List.map_eq_append_iff.1 hu
    obtain ⟨⟨a', o⟩, S, rfl, rfl, rfl⟩ := List.map_eq_cons_iff.1 hS
    obtain ⟨h1, h2, h3⟩ := h
    have ht : tags (P ++ (b, o) :: S) = tags (P ++ (a', o) :: S) := by simp [tags, List.filterMap_cons]
    refine ⟨P ++ (b, o) :: S, by simp, ⟨h1, ht ▸ h2, ht ▸ h3⟩, ?_⟩
    have i1 := nSub_cons_le vs (a', o) S
    have i2 := nSub_cons_le vs (b, o) S
    have i3 : nIns ((b, o) :: S) = nIns ((a', o) :: S) := by cases o <;> simp
    simp only [traceCost, ht, nIns_append, nSub_append, i3]
    omega
  | swap _ p s a b =>
    obtain ⟨P, S', rfl, rfl, hS⟩ := List.map_eq_append_iff.1 hu
    obtain ⟨⟨a', o⟩, S'', rfl, rfl, hS2⟩ := List.map_eq_cons_iff.1 hS
    obtain ⟨⟨b', o'⟩, S, rfl, rfl, rfl⟩ := List.map_eq_cons_iff.1 hS2
    obtain ⟨h1, h2, h3⟩ := h
    have hp : (P ++ (b', o') :: (a', o) :: S).Perm (P ++ (a', o) :: (b', o') :: S) := (List.Perm.swap _ _ _).append_left _
    have ht := hp.filterMap (·.2)
    refine ⟨P ++ (b', o') :: (a', o) :: S, by simp, ⟨h1, ht.nodup_iff.2 h2, fun t h => h3 t (ht.mem_iff.1 h)⟩, ?_⟩
    have hi : inversions (tags (P ++ (b', o') :: (a', o) :: S)) ≤ inversions (tags (P ++ (a', o) :: (b', o') :: S)) + 1 := by
      cases o <;> cases o' <;> simp [tags]
      exact inversions_swap _ _ _ _
    have hd : nDel vs (tags (P ++ (b', o') :: (a', o) :: S)) = nDel vs (tags (P ++ (a', o) :: (b', o') :: S)) :=
      nDel_congr fun x _ => ht.mem_iff
    have hn : nIns (P ++ (b', o') :: (a', o) :: S) = nIns (P ++ (a', o) :: (b', o') :: S) := hp.countP_eq _
    have hc : nSub vs (P ++ (b', o') :: (a', o) :: S) = nSub vs (P ++ (a', o) :: (b', o') :: S) := hp.countP_eq _
    simp only [traceCost, hd, hn, hc]
    omega
  | merge h => cases h
  | split h => cases h

theorem Reach.trace {vs : List (α × Nat)} {ps : List (α × Option Nat)} (h : IsTrace vs ps) {w : List α} {k : Nat}
    (hr : Reach .transposition k (ps.map (·.1)) w) :
    ∃ ps', ps'.map (·.1) = w ∧ IsTrace vs ps' ∧ traceCost vs ps' ≤ traceCost vs ps + k := by
  generalize hu : ps.map (·.1) = u at hr
  induction hr generalizing ps with
  | refl v => exact ⟨ps, hu, h, by omega⟩
  | step hs _ ih =>
    subst hu
    obtain ⟨p1, h1, h2, h3⟩ := hs.trace h
    obtain ⟨p2, h4, h5, h6⟩ := ih h2 h1
    exact ⟨p2, h4, h5, by omega⟩

/-! ## From a trace to an alignment -/

/-- Cutting off a block at the left. -/
theorem IsTrace.cut {V W : List (α × Nat)} {P S : List (α × Option Nat)} (h : IsTrace (V ++ W) (P ++ S))
    (hS : ∀ t ∈ tags S, t ∈ W.map (·.2)) (hP : ∀ t ∈ tags P, t ∉ W.map (·.2)) : IsTrace W S ∧
      traceCost W S + nIns P + nDel V (tags (P ++ S)) + nSub (V ++ W) P + inversions (tags P) ≤
        traceCost (V ++ W) (P ++ S) := by
  obtain ⟨h1, h2, h3⟩ := h
  rw [List.pairwise_append] at h1
  have e : tags (P ++ S) = tags P ++ tags S := by simp [tags]
  rw [e] at h2 h3 ⊢
  refine ⟨⟨h1.2.1, (List.sublist_append_right _ _).nodup h2, hS⟩, ?_⟩
  have i1 := inversions_append (tags P) (tags S)
  have i2 : nSub W S ≤ nSub (V ++ W) S := by
    refine nSub_mono fun c t ht hc => ?_
    rcases List.mem_append.1 hc with hc | hc
    · obtain ⟨x, hx, hxt⟩ := List.mem_map.1 (hS t ht)
      have := h1.2.2 _ hc _ hx
      simp at this; omega
    · exact hc
  have i3 : nDel W (tags P ++ tags S) = nDel W (tags S) := by
    refine nDel_congr fun x hx => ?_
    rw [List.mem_append]
    constructor
    · rintro (h | h)
      · exact absurd (List.mem_map.2 ⟨x, hx, rfl⟩) (hP _ h)
      · exact h
    · exact .inr
  simp only [traceCost, e, nIns_append, nDel_append, nSub_append, i3]
  omega

theorem AlignLe.del_prefix {A : Algorithm} {v w : List α} {c : Nat} (p : List α) (h : AlignLe A v w c) :
    AlignLe A (p ++ v) w (c + p.length) := by
  induction p with
  | nil => exact h
  | cons a p ih => exact .del a ih (by simp; omega)

theorem AlignLe.ins_prefix {A : Algorithm} {v w : List α} {c : Nat} (p : List α) (h : AlignLe A v w c) :
    AlignLe A v (p ++ w) (c + p.length) := by
  induction p with
  | nil => exact h
  | cons a p ih => exact .ins a ih (by simp; omega)

theorem nIns_of_tags_nil {ps : List (α × Option Nat)} (h : tags ps = []) : nIns ps = ps.length := by
  rw [nIns, List.countP_eq_length]
  intro x hx
  rw [List.filterMap_eq_nil_iff] at h
  simp [h x hx]

open Classical in
theorem trace_align (N : Nat) : ∀ {vs : List (α × Nat)} {ps : List (α × Option Nat)},
    vs.length + ps.length + (tags ps).length ≤ N → IsTrace vs ps →
      ∃ c, AlignLe .transposition (vs.map (·.1)) (ps.map (·.1)) c ∧ 2 * c ≤ 3 * traceCost vs ps := by
  induction N with
  | zero =>
    intro vs ps hN h
    obtain rfl : vs = [] := List.length_eq_zero_iff.1 (by omega)
    obtain rfl : ps = [] := List.length_eq_zero_iff.1 (by omega)
    exact ⟨0, .nil, by omega⟩
  | succ N ih =>
    intro vs ps hN h
    -- an inserted character in front
    cases hps : ps with
    | nil =>
      subst hps
      cases vs with
      | nil => exact ⟨0, .nil, by omega⟩
      | cons y V =>
        obtain ⟨h1, h2⟩ := IsTrace.cut (V := [y]) (W := V) (P := []) (S := []) h (by simp) (by simp)
        obtain ⟨c, h3, h4⟩ := ih (by simp at hN ⊢; omega) h1
        refine ⟨c + 1, .del _ h3 (by omega), ?_⟩
        simp [nDel_cons] at h2
        omega
    | cons x S =>
      subst hps
      obtain ⟨x, _ | j⟩ := x
      · obtain ⟨h1, h2⟩ := IsTrace.cut (V := []) (W := vs) (P := [(x, none)]) (S := S) h
          (fun t ht => h.sub t (by simpa [tags] using ht)) (by simp)
        obtain ⟨c, h3, h4⟩ := ih (by simp [tags] at hN ⊢; omega) h1
        refine ⟨c + 1, .ins _ h3 (by omega), ?_⟩
        simp at h2
        omega
      · cases vs with
        | nil => have := h.sub j (by simp [tags]); simp at this
        | cons y V =>
          obtain ⟨y, z⟩ := y
          have hsort := h.sorted
          rw [List.pairwise_cons] at hsort
          have hVz : ∀ t ∈ V.map (·.2), z < t := by
            intro t ht; obtain ⟨u, hu, rfl⟩ := List.mem_map.1 ht; exact hsort.1 u hu
          by_cases hz : z ∈ tags ((x, some j) :: S)
          · by_cases hj : j = z
            · -- the first characters belong together
              subst hj
              have hnd := h.nodup
              simp only [tags, List.filterMap_cons, List.nodup_cons] at hnd
              obtain ⟨h1, h2⟩ := IsTrace.cut (V := [(y, j)]) (W := V) (P := [(x, some j)]) (S := S) h
                (fun t ht => by
                  have h5 := h.sub t (by simp only [tags, List.filterMap_cons]; exact List.mem_cons_of_mem _ ht)
                  simp only [List.map_cons, List.mem_cons] at h5
                  rcases h5 with rfl | h5
                  · exact absurd ht hnd.1
                  · exact h5)
                (fun t ht hV => by
                  have := hVz t hV; simp [tags] at ht; omega)
              obtain ⟨c, h3, h4⟩ := ih (by simp [tags] at hN ⊢; omega) h1
              by_cases hxy : x = y
              · subst hxy
                simp only [List.cons_append, List.nil_append] at h2
                exact ⟨c, .keep _ h3, by omega⟩
              · refine ⟨c + 1, .sub _ _ h3 (by omega), ?_⟩
                have hm : (x, j) ∉ (y, j) :: V := by
                  intro hm
                  rcases List.mem_cons.1 hm with hm | hm
                  · simp at hm; exact hxy hm
                  · have := hVz j (List.mem_map.2 ⟨_, hm, rfl⟩); omega
                have : nSub ((y, j) :: V) [(x, some j)] = 1 := by rw [nSub_some]; simp [hm]
                simp only [List.cons_append, List.nil_append] at h2
                omega
            · -- they do not
              have hz' : z ∈ tags S := by
                simp only [tags, List.filterMap_cons, List.mem_cons] at hz
                rcases hz with hz | hz
                · exact absurd hz.symm hj
                · exact hz
              obtain ⟨⟨w, o⟩, hw, ho⟩ := List.mem_filterMap.1 hz'
              simp at ho; subst ho
              obtain ⟨P, T, rfl⟩ := List.append_of_mem hw
              have htg : tags ((x, some j) :: (P ++ (w, some z) :: T)) = j :: (tags P ++ z :: tags T) := by simp [tags]
              have hjz : z < j := by
                have h5 := h.sub j (by simp [tags])
                simp only [List.map_cons, List.mem_cons] at h5
                rcases h5 with h5 | h5
                · exact absurd h5 hj
                · exact hVz j h5
              have hnd := h.nodup
              rw [htg] at hnd
              have hall : ∀ t ∈ tags P ++ tags T, z < t := by
                intro t ht
                have hne : t ≠ z := by
                  intro he; subst he
                  have := (List.nodup_cons.1 hnd).2
                  rw [List.nodup_append] at this
                  rw [List.nodup_cons] at this
                  rcases List.mem_append.1 ht with ht | ht
                  · exact this.2.2 _ ht _ (by simp) rfl
                  · exact this.2.1.1 ht
                have h5 := h.sub t (by rw [htg]; simp at ht ⊢; grind)
                simp only [List.map_cons, List.mem_cons] at h5
                rcases h5 with h5 | h5
                · exact absurd h5 hne
                · exact hVz t h5
              by_cases hP : tags P = []
              · by_cases hT : (tags T).countP (· < j) = 0
                · -- a swap, possibly with characters inserted and deleted in between
                  have hT' : ∀ t ∈ tags T, j < t := by
                    intro t ht
                    have h5 := (List.countP_eq_zero.1 hT) t ht
                    have h6 : t ≠ j := by
                      rintro rfl
                      have := (List.nodup_cons.1 hnd).1
                      exact this (by simp [ht])
                    simp at h5; omega
                  have h5 := h.sub j (by simp [tags])
                  simp only [List.map_cons, List.mem_cons] at h5
                  obtain ⟨⟨y', j'⟩, h7, h6⟩ := List.mem_map.1 (h5.resolve_left hj)
                  simp at h6; subst h6
                  obtain ⟨V1, V2, rfl⟩ := List.append_of_mem h7
                  have hs2 := hsort.2
                  rw [List.pairwise_append, List.pairwise_cons] at hs2
                  have hcut := IsTrace.cut (V := (y, z) :: (V1 ++ [(y', j')])) (W := V2)
                    (P := (x, some j') :: (P ++ [(w, some z)])) (S := T) (by simpa using h)
                    (fun t ht => by
                      have h7 := hT' t ht
                      have h8 := h.sub t (by rw [htg]; simp [ht])
                      simp only [List.map_cons, List.map_append, List.mem_cons, List.mem_append] at h8
                      rcases h8 with h8 | h8 | h8 | h8
                      · omega
                      · obtain ⟨u, hu, rfl⟩ := List.mem_map.1 h8
                        have := hs2.2.2 u hu (y', j') (by simp)
                        simp at this; omega
                      · omega
                      · exact h8)
                    (fun t ht hV => by
                      have h7 : t = j' ∨ t = z := by
                        have : tags ((x, some j') :: (P ++ [(w, some z)])) = j' :: (tags P ++ [z]) := by simp [tags]
                        rw [this, hP] at ht; simpa using ht
                      obtain ⟨u, hu, rfl⟩ := List.mem_map.1 hV
                      have := hs2.2.1.1 u hu
                      simp at this
                      omega)
                  obtain ⟨h1, h2⟩ := hcut
                  have hlen : nIns ((x, some j') :: (P ++ [(w, some z)])) = P.length := by
                    simp [nIns_of_tags_nil hP]
                  have hinv : inversions (tags ((x, some j') :: (P ++ [(w, some z)]))) = 1 := by
                    have : tags ((x, some j') :: (P ++ [(w, some z)])) = j' :: (tags P ++ [z]) := by simp [tags]
                    rw [this, hP]; simp [inversions, hjz]
                  have hdel : V1.length ≤ nDel ((y, z) :: (V1 ++ [(y', j')]))
                      (tags ((x, some j') :: (P ++ [(w, some z)]) ++ T)) := by
                    have : nDel V1 (tags ((x, some j') :: (P ++ [(w, some z)]) ++ T)) = V1.length := by
                      refine nDel_eq_length fun u hu hm => ?_
                      have e : tags ((x, some j') :: (P ++ [(w, some z)]) ++ T) = j' :: (tags P ++ z :: tags T) := by
                        simp [tags]
                      rw [e, hP] at hm
                      have h7 := hs2.2.2 u hu (y', j') (by simp)
                      have h8 := hsort.1 u (by simp [hu])
                      simp only [List.nil_append, List.mem_cons] at hm
                      simp at h7 h8
                      rcases hm with hm | hm | hm
                      · omega
                      · omega
                      · have := hT' _ hm; omega
                    rw [nDel_cons, nDel_append]; omega
                  rw [hlen, hinv] at h2
                  have e1 : (y, z) :: (V1 ++ [(y', j')]) ++ V2 = (y, z) :: (V1 ++ (y', j') :: V2) := by simp
                  have e2 : (x, some j') :: (P ++ [(w, some z)]) ++ T = (x, some j') :: (P ++ (w, some z) :: T) := by simp
                  rw [e1, e2] at h2
                  rw [e2] at hdel
                  obtain ⟨c, h3, h4⟩ := ih (by simp [tags] at hN ⊢; omega) h1
                  by_cases hsw : V1 = [] ∧ P = [] ∧ x = y' ∧ w = y
                  · obtain ⟨rfl, rfl, rfl, rfl⟩ := hsw
                    refine ⟨c + 1, .swap rfl _ _ h3 (by omega), by simp only [List.nil_append] at h2 ⊢; omega⟩
                  · refine ⟨c + (1 + P.length + V1.length + 1), ?_, ?_⟩
                    · simp only [List.map_cons, List.map_append]
                      have a1 := AlignLe.sub y' w h3 (Nat.le_refl _)
                      have a2 := AlignLe.ins_prefix (P.map (·.1)) a1
                      have a3 := AlignLe.del_prefix (V1.map (·.1)) a2
                      exact AlignLe.sub y x a3 (by simp; omega)
                    · by_cases hab : V1 = [] ∧ P = []
                      · obtain ⟨rfl, rfl⟩ := hab
                        have hsb : 1 ≤ nSub ((y, z) :: ([] ++ (y', j') :: V2)) ((x, some j') :: ([] ++ [(w, some z)])) := by
                          simp only [List.nil_append]
                          rw [nSub_some, nSub_some]
                          by_cases hx : x = y'
                          · have hw' : w ≠ y := fun hw' => hsw ⟨rfl, rfl, hx, hw'⟩
                            have : (w, z) ∉ (y, z) :: (y', j') :: V2 := by
                              intro hm
                              rcases List.mem_cons.1 hm with hm | hm
                              · simp at hm; exact hw' hm
                              · have := hsort.1 _ hm; simp at this
                            simp [this]
                          · have : (x, j') ∉ (y, z) :: (y', j') :: V2 := by
                              intro hm
                              rcases List.mem_cons.1 hm with hm | hm
                              · simp at hm; omega
                              · rcases List.mem_cons.1 hm with hm | hm
                                · simp at hm; exact hx hm
                                · have := hs2.2.1.1 _ hm; simp at this
                            simp [this]
                        simp only [List.length_nil]
                        omega
                      · have : 1 ≤ V1.length + P.length := by
                          rcases V1 with _ | ⟨_, V1⟩ <;> rcases P with _ | ⟨_, P⟩ <;> simp at hab ⊢ <;> omega
                        omega
                · -- the first character has been moved past two
                  obtain ⟨h1, h2⟩ := IsTrace.untag (P := []) (x := x) (t := j) (S := P ++ (w, some z) :: T) h
                  have hc : 2 ≤ (tags (P ++ (w, some z) :: T)).countP (· < j) := by
                    have : tags (P ++ (w, some z) :: T) = tags P ++ z :: tags T := by simp [tags]
                    rw [this, List.countP_append, List.countP_cons]; simp only [hjz, decide_true, if_true]; omega
                  obtain ⟨c, h3, h4⟩ := ih (by simp [tags] at hN ⊢; omega) h1
                  refine ⟨c, by simpa using h3, ?_⟩
                  simp only [List.nil_append] at h2 h4
                  omega
              · -- two have been moved past the first character
                obtain ⟨h1, h2⟩ := IsTrace.untag (P := (x, some j) :: P) (x := w) (t := z) (S := T) h
                have hc : 2 ≤ (tags ((x, some j) :: P)).countP (z < ·) := by
                  have : tags ((x, some j) :: P) = j :: tags P := by simp [tags]
                  rw [this, List.countP_eq_length.2 (by
                    intro t ht
                    rcases List.mem_cons.1 ht with rfl | ht
                    · simpa using hjz
                    · simpa using hall t (by simp [ht]))]
                  have := List.length_pos_iff.2 hP
                  simp only [List.length_cons]; omega
                obtain ⟨c, h3, h4⟩ := ih (by simp [tags] at hN ⊢; omega) h1
                refine ⟨c, by simpa using h3, ?_⟩
                simp only [List.cons_append] at h2 h4
                omega
          · -- the first character of the left string was deleted
            obtain ⟨h1, h2⟩ := IsTrace.cut (V := [(y, z)]) (W := V) (P := []) (S := (x, some j) :: S) h
              (fun t ht => by
                have h5 := h.sub t ht
                simp only [List.map_cons, List.mem_cons] at h5
                rcases h5 with rfl | h5
                · exact absurd ht hz
                · exact h5) (by simp)
            obtain ⟨c, h3, h4⟩ := ih (by simp at hN ⊢; omega) h1
            refine ⟨c + 1, .del _ h3 (by omega), ?_⟩
            rw [nDel_cons] at h2
            simp only [List.nil_append, hz, if_false, List.cons_append] at h2
            omega

/-- `k` operations, swaps of neighbours among them, give an alignment of cost at most `3 / 2 * k`. -/
theorem reach_alignLe_three_halves {v w : List α} {k : Nat} (h : Reach .transposition k v w) :
    ∃ c, AlignLe .transposition v w c ∧ 2 * c ≤ 3 * k := by
  let vs : List (α × Nat) := v.zipIdx
  let ps : List (α × Option Nat) := vs.map fun x => (x.1, some x.2)
  have hv : vs.map (·.1) = v := List.zipIdx_map_fst 0 v
  have hp : ps.map (·.1) = v := by rw [← hv]; simp [ps, Function.comp_def]
  have ht : tags ps = vs.map (·.2) := by simp [ps, tags, List.filterMap_map, Function.comp_def]
  have hs : vs.Pairwise (fun x y => x.2 < y.2) := by
    rw [← List.pairwise_map (f := Prod.snd) (R := (· < ·))]
    simp [vs, List.zipIdx_map_snd, List.pairwise_lt_range']
  have htr : IsTrace vs ps := ⟨hs, by
    rw [ht]; exact (List.pairwise_map.2 hs).imp (fun h => Nat.ne_of_lt h), by rw [ht]; exact fun t h => h⟩
  have hinv : ∀ l : List Nat, l.Pairwise (· < ·) → inversions l = 0 := by
    intro l hl
    induction l with
    | nil => rfl
    | cons a l ih =>
      rw [List.pairwise_cons] at hl
      simp only [inversions, ih hl.2, Nat.add_zero, List.countP_eq_zero]
      intro b hb; have := hl.1 b hb; simp; omega
  have hc : traceCost vs ps = 0 := by
    have h1 : nIns ps = 0 := by simp [nIns, ps, List.countP_map, Function.comp_def]
    have h2 : nDel vs (tags ps) = 0 := by
      rw [nDel, List.countP_eq_zero]; intro x hx
      have : x.2 ∈ tags ps := by rw [ht]; exact List.mem_map.2 ⟨x, hx, rfl⟩
      simp only [this]; simp
    have h3 : nSub vs ps = 0 := by
      rw [nSub, List.countP_eq_zero]; intro x hx
      obtain ⟨y, hy, rfl⟩ := List.mem_map.1 hx
      simp [hy]
    rw [traceCost, h1, h2, h3, hinv _ (by rw [ht]; exact List.pairwise_map.2 hs)]
  rw [← hp] at h
  obtain ⟨ps', h1, h2, h3⟩ := h.trace htr
  obtain ⟨c, h4, h5⟩ := trace_align _ (Nat.le_refl _) h2
  rw [hv, h1] at h4
  exact ⟨c, h4, by omega⟩

end Lev.Spec
