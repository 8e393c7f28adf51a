import Verif.Proofs.Resume
import Verif.Proofs.Demo

/-!
Dictionaries that nobody is adding to, without mention of the allocator: what comes next may be allocated anywhere that is free.
-/

namespace Lev

open Spec

/-! ### Another allocator -/

theorem filter_length_ge {l R : List Nat} (hl : l.Nodup) : l.length ≤ (l.filter fun a => decide (a ∉ R)).length + R.length := by
  induction R generalizing l with
  | nil =>
    rw [List.filter_eq_self.2 fun a _ => by simp]
    exact Nat.le_add_right _ _
  | cons x R ih =>
    have h1 := ih hl
    have h2 : (l.filter fun a => decide (a ∉ R)).length ≤ (l.filter fun a => decide (a ∉ x :: R)).length + 1 := by
      have hn : (l.filter fun a => decide (a ∉ R)).Nodup := hl.filter _
      have := hn.length_le_of_subset (l₂ := x :: l.filter fun a => decide (a ∉ x :: R)) fun a ha => by
        simp only [List.mem_filter, decide_eq_true_eq, List.mem_cons, not_or] at ha ⊢
        by_cases hx : a = x
        · exact .inl hx
        · exact .inr ⟨ha.1, hx, ha.2⟩
      simpa using this
    simp only [List.length_cons]
    omega

/-- Addresses from the `n`-th on, and before them those of a list. -/
theorem reindex {addr : Nat → Nat} (h : AddrOk addr) {n : Nat} {R : List Nat} (hnd : R.Nodup) (h0 : 0 ∉ R)
    (hd : ∀ j, n ≤ j → addr j ∉ R) (hl : R.length ≤ n) :
    ∃ addr', AddrOk addr' ∧ (∀ j, n ≤ j → addr' j = addr j) ∧
      ∀ a, (∃ j, n - R.length ≤ j ∧ j < n ∧ a = addr' j) ↔ a ∈ R := by
  let S := (((List.range n).map addr).filter fun a => decide (a ∉ R)).take (n - R.length)
  have hbase : ((List.range n).map addr).Nodup := by
    rw [List.Nodup, List.pairwise_map]
    exact List.nodup_range.imp fun hne he => hne (h.2 _ _ he)
  have hSl : S.length = n - R.length := by
    have := filter_length_ge (R := R) hbase
    simp only [List.length_map, List.length_range] at this
    simp only [S, List.length_take]
    omega
  have hS : ∀ a ∈ S, a ∉ R ∧ ∃ j < n, a = addr j := by
    intro a ha
    have := List.mem_of_mem_take ha
    simp only [List.mem_filter, List.mem_map, List.mem_range, decide_eq_true_eq] at this
    obtain ⟨⟨j, h1, rfl⟩, h2⟩ := this
    exact ⟨h2, j, h1, rfl⟩
  have hSn : S.Nodup := (List.take_sublist _ _).nodup (hbase.filter _)
  have hT : (S ++ R).Nodup := List.nodup_append.2 ⟨hSn, hnd, fun a ha b hb he => (hS a ha).1 (he ▸ hb)⟩
  have hTl : (S ++ R).length = n := by rw [List.length_append, hSl]; omega
  have hTm : ∀ a ∈ S ++ R, a ≠ 0 ∧ ∀ j, n ≤ j → a ≠ addr j := by
    intro a ha
    rcases List.mem_append.1 ha with ha | ha
    · obtain ⟨_, j, h1, rfl⟩ := hS a ha
      exact ⟨h.1 j, fun k hk he => by have := h.2 _ _ he; omega⟩
    · exact ⟨fun he => h0 (he ▸ ha), fun j hj he => hd j hj (he ▸ ha)⟩
  let f : Nat → Nat := fun j => if hj : j < (S ++ R).length then (S ++ R)[j] else addr j
  have flo : ∀ j (hj : j < (S ++ R).length), f j = (S ++ R)[j] := fun j hj => by simp only [f]; rw [dif_pos hj]
  have fhi : ∀ j, n ≤ j → f j = addr j := fun j hj => by simp only [f]; rw [dif_neg (by omega)]
  refine ⟨f, ⟨fun k => ?_, fun j k hjk => ?_⟩, fhi, fun a => ⟨?_, fun ha => ?_⟩⟩
  · by_cases hk : k < n
    · rw [flo k (by omega)]; exact (hTm _ (List.getElem_mem _)).1
    · rw [fhi k (by omega)]; exact h.1 k
  · by_cases hj : j < n <;> by_cases hk : k < n
    · rw [flo j (by omega), flo k (by omega)] at hjk
      exact (List.getElem_inj hT).1 hjk
    · rw [flo j (by omega), fhi k (by omega)] at hjk
      exact absurd hjk ((hTm _ (List.getElem_mem _)).2 k (by omega))
    · rw [fhi j (by omega), flo k (by omega)] at hjk
      exact absurd hjk.symm ((hTm _ (List.getElem_mem _)).2 j (by omega))
    · rw [fhi j (by omega), fhi k (by omega)] at hjk
      exact h.2 _ _ hjk
  · rintro ⟨j, h1, h2, rfl⟩
    rw [flo j (by omega), List.getElem_append_right (by omega)]
    exact List.getElem_mem _
  · obtain ⟨i, hi, rfl⟩ := List.getElem_of_mem ha
    refine ⟨S.length + i, by omega, by omega, ?_⟩
    rw [flo _ (by omega), List.getElem_append_right (by omega)]
    simp

/-! ### Whole dictionaries without an allocator -/

/-- A dictionary that nobody is adding to: `L` is what it accepts, and memory is `m0` and its nodes. -/
structure Settled (sgn : Bool) (m0 : Mem) (L : Str → Prop) (h : Heap) (d : SDawg) : Prop where
  ptrs : d.unchecked = none ∧ d.minimized = none ∧ d.floating = none
  null : h.mem 0 = none
  other : ∀ a, ¬ Reaches h.mem d.root a → h.mem a = m0 a
  own : ∀ a, Reaches h.mem d.root a → m0 a = none
  few : ∃ R : List Nat, R.Nodup ∧ (∀ a, a ∈ R ↔ Reaches h.mem d.root a) ∧ R.length ≤ h.count
  dict : ∃ nd F, h.mem d.root = some nd ∧ Unf h.mem nd.edges F ∧ F.Trim ∧ F.Sorted sgn ∧
    DictNode sgn h.mem (F.height + 1) d.root
  accepts : ∀ t, Accepts h.mem d.root t ↔ L t

section
variable {sgn : Bool} {addr : Nat → Nat} {c0 r : Nat} {m0 : Mem} {L : Str → Prop} {h : Heap} {d : SDawg}

theorem Whole.settled (haddr : AddrOk addr) (hf : Whole sgn addr c0 r m0 L h d) (hfresh : ∀ j, c0 ≤ j → m0 (addr j) = none) :
    Settled sgn m0 L h d := by
  classical
  refine ⟨hf.ptrs, hf.null, fun a ha => ?_, fun a ha => ?_, ?_, hf.dict, hf.accepts⟩
  · by_cases hr : InRange addr c0 h a
    · have : h.mem a = none := Classical.byContradiction fun hn => ha ((hf.alive a hr).1 hn)
      rw [this]
      obtain ⟨j, h6, _, rfl⟩ := hr
      exact (hfresh j h6).symm
    · exact hf.old a hr
  · obtain ⟨j, h6, _, rfl⟩ := hf.range a ha
    exact hfresh j h6
  · refine ⟨((List.range h.count).map addr).filter fun a => decide (Reaches h.mem d.root a), ?_, fun a => ?_, ?_⟩
    · refine List.Pairwise.filter _ ?_
      rw [List.pairwise_map]
      exact List.nodup_range.imp fun hne he => hne (haddr.2 _ _ he)
    · simp only [List.mem_filter, List.mem_map, List.mem_range, decide_eq_true_eq]
      refine ⟨fun h => h.2, fun ha => ⟨?_, ha⟩⟩
      obtain ⟨j, _, h6, rfl⟩ := hf.range a ha
      exact ⟨j, h6, rfl⟩
    · exact Nat.le_trans (List.length_filter_le _ _) (by simp)

theorem Settled.whole (hf : Settled sgn m0 L h d) (ha : Allocator addr h) :
    ∃ addr' c0 r, AddrOk addr' ∧ (∀ j, h.count ≤ j → addr j = addr' j) ∧ Whole sgn addr' c0 r m0 L h d ∧
      ∀ j, c0 ≤ j → m0 (addr' j) = none := by
  obtain ⟨R, hnd, hR, hle⟩ := hf.few
  obtain ⟨nd, F, h1, h2, h3, h4, h5⟩ := hf.dict
  have hcl := DictNode.closed h5
  have hal : ∀ a, Reaches h.mem d.root a → h.mem a ≠ none := fun a ha => by
    obtain ⟨nd, h6, _⟩ := hcl a ha; rw [h6]; simp
  obtain ⟨addr', g1, g2, g3⟩ := reindex (addr := addr) ⟨ha.nonnull, ha.inj⟩ hnd (fun h0 => hal 0 ((hR 0).1 h0) hf.null)
    (fun j hj hm => hal _ ((hR _).1 hm) (ha.fresh j hj)) hle
  have hin : ∀ a, InRange addr' (h.count - R.length) h a ↔ Reaches h.mem d.root a := fun a => (g3 a).trans (hR a)
  obtain ⟨r, hr1, hr2, hr3⟩ := (hin d.root).2 .refl
  refine ⟨addr', h.count - R.length, r, g1, fun j hj => (g2 j hj).symm,
    ⟨hr3, hr1, hr2, hf.ptrs, hf.null, fun j hj => ?_, fun a hn => ?_, fun a hn => ?_, fun a hn => ?_, hf.dict, hf.accepts⟩,
    fun j hj => ?_⟩
  · rw [g2 j hj]; exact ha.fresh j hj
  · exact hf.other a fun h' => hn ((hin a).2 h')
  · exact ⟨fun _ => (hin a).1 hn, fun _ => hal a ((hin a).1 hn)⟩
  · exact (hin a).2 hn
  · by_cases hj' : j < h.count
    · exact hf.own _ ((hin _).1 ⟨j, hj, hj', rfl⟩)
    · rw [g2 j (by omega), ← hf.other _ fun h' => hal _ h' (ha.fresh j (by omega))]
      exact ha.fresh j (by omega)

theorem Settled.destroy_count (hf : Settled sgn m0 L h d) :
    ∃ h', Ends (fun fuel => destroyDawg fuel h d) h' ∧ h'.count = h.count ∧ ∀ a, h'.mem a = m0 a := by
  obtain ⟨nd, F, h1, h2, h3, h4, h5⟩ := hf.dict
  obtain ⟨h', hrun, hcount, hdead, hold⟩ := deleteReach_spec h1 h2 hf.null (DictNode.closed h5)
  refine ⟨h', hrun.congr fun n => ?_, hcount, fun a => ?_⟩
  · simp only [destroyDawg, cleanUp, hf.ptrs.2.2, bind, Except.bind]
  · by_cases ha : Reaches h.mem d.root a
    · rw [hdead a ha, hf.own a ha]
    · rw [hold a ha, hf.other a ha]

theorem Settled.destroy (hf : Settled sgn m0 L h d) :
    ∃ h', Ends (fun fuel => destroyDawg fuel h d) h' ∧ ∀ a, h'.mem a = m0 a := by
  obtain ⟨h', h1, _, h2⟩ := hf.destroy_count
  exact ⟨h', h1, h2⟩

theorem Settled.dictionary (hf : Settled sgn m0 L h d) (hb : ∀ t, L t → t.length < 2 ^ 62) : Dictionary sgn h.mem d.root := by
  obtain ⟨nd, F, h1, h2, h3, h4, h5⟩ := hf.dict
  refine ⟨_, ?_, h5⟩
  by_cases hne : F = .nil
  · subst hne; simp [Forest.height]
  · obtain ⟨t, h6, h7⟩ := h3.long hne
    have := hb t ((hf.accepts t).1 ((accepts_iff h1 h2 t).2 (.inr h6)))
    omega

/-! ### Only the addresses to come matter -/

theorem pushSuffix_congr {addr addr' : Nat → Nat} (rest : Str) {a : Nat} {h : Heap} {d : SDawg}
    (ha : ∀ j, h.count ≤ j → addr j = addr' j) : pushSuffix addr a rest h d = pushSuffix addr' a rest h d := by
  induction rest generalizing a h d with
  | nil => rfl
  | cons c rest ih =>
    simp only [pushSuffix]
    split
    · have : newNode addr h = newNode addr' h := by simp only [newNode, ha h.count (Nat.le_refl _)]
      rw [this]
      exact ih fun j hj => ha j (by simp only [newNode] at hj; omega)
    · rfl

theorem addTerm_congr {addr addr' : Nat → Nat} {fuel : Nat} {t : Str} {h : Heap} {d : SDawg}
    (ha : ∀ j, h.count ≤ j → addr j = addr' j) : addTerm sgn addr fuel t h d = addTerm sgn addr' fuel t h d := by
  simp only [addTerm]
  split
  · rfl
  · split
    · rfl
    · cases hm : minimize sgn fuel (commonPrefix t d.prev) h d with
      | error => rfl
      | ok x =>
        obtain ⟨h1, d1⟩ := x
        have hc := minimize_count hm
        simp only [bind, Except.bind]
        cases suffixSource d1 with
        | error => rfl
        | ok s =>
          simp only
          rw [pushSuffix_congr (addr' := addr') _ fun j hj => ha j (by omega)]

theorem makeNodes_congr {addr addr' : Nat → Nat} (finals ids : List Nat) {nodes : List (Nat × Nat)} {h : Heap}
    (ha : ∀ j, h.count ≤ j → addr j = addr' j) : makeNodes addr finals ids nodes h = makeNodes addr' finals ids nodes h := by
  induction ids generalizing nodes h with
  | nil => rfl
  | cons id ids ih =>
    simp only [makeNodes]
    split
    · exact ih ha
    · rw [ha h.count (Nat.le_refl _)]
      exact ih fun j hj => ha j (by simp only at hj; omega)

theorem fromProto_congr {addr addr' : Nat → Nat} {msg : Msg} {h : Heap} (ha : ∀ j, h.count ≤ j → addr j = addr' j) :
    fromProto sgn addr msg h = fromProto sgn addr' msg h := by
  simp only [fromProto, makeNodes_congr _ _ ha]

end

end Lev
