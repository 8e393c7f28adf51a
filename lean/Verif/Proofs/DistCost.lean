import Verif.Spec.DistCost
import Verif.Proofs.Distance

/-!
Number of accesses to the memo: every miss adds a pair of suffixes that was not there.
-/

namespace Lev

open Spec

def Memo.keys (m : Memo) : List SymPair := m.map (·.1)

theorem Memo.get_none {m : Memo} {key : SymPair} (h : m.get key = none) : key ∉ m.keys := by
  induction m with
  | nil => simp [Memo.keys]
  | cons e m ih =>
    obtain ⟨k, d⟩ := e
    simp only [Memo.get] at h
    split at h
    · cases h
    · rename_i hk
      rw [SymPair.matches_iff] at hk
      simp only [Memo.keys, List.map_cons, List.mem_cons, not_or]
      exact ⟨fun he => hk he.symm, ih h⟩

theorem Memo.set_new {m : Memo} {key : SymPair} {d : Nat} (h : key ∉ m.keys) : m.set key d = m ++ [(key, d)] := by
  induction m with
  | nil => rfl
  | cons e m ih =>
    obtain ⟨k, x⟩ := e
    simp only [Memo.keys, List.map_cons, List.mem_cons, not_or] at h
    have : ¬ SymPair.matches key k = true := fun hk => h.1 ((SymPair.matches_iff _ _).1 hk).symm
    simp only [Memo.set, this, if_neg, Bool.false_eq_true, not_false_eq_true, ih h.2, List.cons_append]

theorem Prog.run_bind {R S : Type} (p : Prog R) (f : R → Prog S) (m : Memo) :
    (p.bind f).run m = (f (p.run m).1).run (p.run m).2 := by
  induction p generalizing m with
  | ret r => rfl
  | get key k ih => exact ih _ m
  | set key d k ih => exact ih _

theorem Prog.gets_bind {R S : Type} (p : Prog R) (f : R → Prog S) (m : Memo) :
    (p.bind f).gets m = p.gets m + (f (p.run m).1).gets (p.run m).2 := by
  induction p generalizing m with
  | ret r => simp [Prog.bind, Prog.gets, Prog.run]
  | get key k ih => simp only [Prog.bind, Prog.gets, Prog.run, ih]; omega
  | set key d k ih => simp only [Prog.bind, Prog.gets, Prog.run, ih]

theorem Prog.sets_bind {R S : Type} (p : Prog R) (f : R → Prog S) (m : Memo) :
    (p.bind f).sets m = p.sets m + (f (p.run m).1).sets (p.run m).2 := by
  induction p generalizing m with
  | ret r => simp [Prog.bind, Prog.sets, Prog.run]
  | get key k ih => simp only [Prog.bind, Prog.sets, Prog.run, ih]
  | set key d k ih => simp only [Prog.bind, Prog.sets, Prog.run, ih]; omega

/-- The keys added by running `p` on `m` are `new`, none of which was there before. -/
structure Adds (p : Prog Nat) (m : Memo) (S : SymPair → Prop) (new : List SymPair) : Prop where
  keys : (p.run m).2.keys = m.keys ++ new
  nodup : new.Nodup
  fresh : ∀ k ∈ new, k ∉ m.keys
  ok : ∀ k ∈ new, S k
  sets : p.sets m = new.length

/-- What a call of `between` does. -/
def CallCost (K : Nat) (S : SymPair → Prop) (key : SymPair) (p : Prog Nat) : Prop :=
  ∀ m, ∃ new, Adds p m S new ∧ key ∈ (p.run m).2.keys ∧ p.gets m ≤ 1 + K * new.length ∧
    (key ∈ m.keys → new = [] ∧ p.gets m = 1)

/-- What is left to do after the miss of `key`, with at most `c` calls. -/
def BodyCost (K : Nat) (S : SymPair → Prop) (key : SymPair) (c : Nat) (p : Prog Nat) : Prop :=
  ∀ m, key ∉ m.keys → ∃ new, Adds p m S new ∧ key ∈ new ∧ p.gets m + K ≤ c + K * new.length

variable {K : Nat} {S T : SymPair → Prop} {key : SymPair}

theorem BodyCost.setRet (hs : S key) (c d : Nat) : BodyCost K S key c (setRet key d) := by
  intro m hm
  refine ⟨[key], ⟨?_, by simp, by simpa using hm, by simpa using hs, rfl⟩, by simp, ?_⟩
  · simp [Lev.setRet, Prog.run, Memo.set_new hm, Memo.keys]
  · simp [Lev.setRet, Prog.gets]

theorem BodyCost.bind {key' : SymPair} {p : Prog Nat} {f : Nat → Prog Nat} {c : Nat} (hp : CallCost K T key' p)
    (hT : ∀ k, T k → S k ∧ k ≠ key) (hf : ∀ d, BodyCost K S key c (f d)) : BodyCost K S key (c + 1) (p.bind f) := by
  intro m hm
  obtain ⟨new, h1, h2, h3, _⟩ := hp m
  have hm' : key ∉ (p.run m).2.keys := by
    rw [h1.keys, List.mem_append, not_or]
    exact ⟨hm, fun h => (hT key (h1.ok key h)).2 rfl⟩
  obtain ⟨new', g1, g2, g3⟩ := hf (p.run m).1 (p.run m).2 hm'
  refine ⟨new ++ new', ⟨?_, ?_, ?_, ?_, ?_⟩, by simp [g2], ?_⟩
  · rw [Prog.run_bind, g1.keys, h1.keys, List.append_assoc]
  · refine List.nodup_append.2 ⟨h1.nodup, g1.nodup, fun a ha b hb he => ?_⟩
    subst he
    have := g1.fresh a hb
    rw [h1.keys] at this
    exact this (by simp [ha])
  · intro k hk
    rcases List.mem_append.1 hk with hk | hk
    · exact h1.fresh k hk
    · have := g1.fresh k hk
      rw [h1.keys] at this
      exact fun h => this (by simp [h])
  · intro k hk
    rcases List.mem_append.1 hk with hk | hk
    · exact (hT k (h1.ok k hk)).1
    · exact g1.ok k hk
  · rw [Prog.sets_bind, h1.sets, g1.sets, List.length_append]
  · rw [Prog.gets_bind, List.length_append, Nat.mul_add]
    omega

theorem CallCost.get {f : Option Nat → Prog Nat} (hs : ∀ d, f (some d) = .ret d) (hn : BodyCost K S key K (f none)) :
    CallCost K S key (.get key f) := by
  intro m
  cases hg : m.get key with
  | some d =>
    have hk : key ∈ m.keys := List.mem_map.2 ⟨_, Memo.get_mem hg, rfl⟩
    refine ⟨[], ⟨?_, by simp, by simp, by simp, ?_⟩, ?_, ?_, fun _ => ⟨rfl, ?_⟩⟩
    · simp [Prog.run, hg, hs]
    · simp [Prog.sets, hg, hs]
    · simpa [Prog.run, hg, hs] using hk
    · simp [Prog.gets, hg, hs]
    · simp [Prog.gets, hg, hs]
  | none =>
    obtain ⟨new, h1, h2, h3⟩ := hn m (Memo.get_none hg)
    refine ⟨new, ⟨?_, h1.nodup, h1.fresh, h1.ok, ?_⟩, ?_, ?_, fun h => absurd h (Memo.get_none hg)⟩
    · simpa [Prog.run, hg] using h1.keys
    · simpa [Prog.sets, hg] using h1.sets
    · have : key ∈ ((f none).run m).2.keys := by rw [h1.keys]; simp [h2]
      simpa [Prog.run, hg] using this
    · simp only [Prog.gets, hg]; omega

theorem BodyCost.mono {c c' : Nat} {p : Prog Nat} (h : BodyCost K S key c p) (hc : c ≤ c') : BodyCost K S key c' p := by
  intro m hm
  obtain ⟨new, h1, h2, h3⟩ := h m hm
  exact ⟨new, h1, h2, by omega⟩

/-- A pair of suffixes. -/
def SuffixPair (v w : Str) (k : SymPair) : Prop := ∃ x y, x <:+ v ∧ y <:+ w ∧ k = SymPair.make x y

def SymPair.total (k : SymPair) : Nat := k.first.length + k.second.length

theorem SymPair.total_make (x y : Str) : (SymPair.make x y).total = x.length + y.length := by
  unfold SymPair.make SymPair.total
  split <;> simp <;> omega

theorem SuffixPair.self (v w : Str) : SuffixPair v w (SymPair.make v w) :=
  ⟨v, w, List.suffix_refl _, List.suffix_refl _, rfl⟩

theorem SuffixPair.sub {v w x y : Str} (hx : x <:+ v) (hy : y <:+ w) (hl : x.length + y.length < v.length + w.length)
    (k : SymPair) (h : SuffixPair x y k) : SuffixPair v w k ∧ k ≠ SymPair.make v w := by
  obtain ⟨p, q, h1, h2, rfl⟩ := h
  refine ⟨⟨p, q, h1.trans hx, h2.trans hy, rfl⟩, fun he => ?_⟩
  have := congrArg SymPair.total he
  rw [SymPair.total_make, SymPair.total_make] at this
  have := h1.length_le
  have := h2.length_le
  omega

theorem discard_suffix (a : UInt8) (s : Str) (b : UInt8) (t : Str) :
    (discard a s b t).1 :: (discard a s b t).2.1 <:+ a :: s ∧
    (discard a s b t).2.2.1 :: (discard a s b t).2.2.2 <:+ b :: t := by
  induction s generalizing a b t with
  | nil => simp [discard]
  | cons a' s ih =>
    cases t with
    | nil => simp [discard]
    | cons b' t =>
      simp only [discard]
      split
      · exact ⟨(ih a' b' t).1.trans (List.suffix_cons _ _), (ih a' b' t).2.trans (List.suffix_cons _ _)⟩
      · simp

theorem stdBetween_cost (v w : Str) : CallCost 3 (SuffixPair v w) (SymPair.make v w) (stdBetween v w) := by
  induction hn : v.length + w.length using Nat.strongRecOn generalizing v w with
  | _ n ih =>
  subst hn
  rw [stdBetween.eq_def]
  have hself := SuffixPair.self v w
  refine CallCost.get (fun d => rfl) ?_
  match v, w, ih, hself with
  | [], w, _, hself => exact .setRet hself _ _
  | a :: v, [], _, hself => exact .setRet hself _ _
  | a0 :: s0, b0 :: t0, ih, hself =>
    dsimp only
    have hl := discard_suffix a0 s0 b0 t0
    generalize discard a0 s0 b0 t0 = r at hl ⊢
    obtain ⟨a, x, b, y⟩ := r
    simp only at hl ⊢
    obtain ⟨hv, hw⟩ := hl
    have hv' := (List.suffix_cons a x).trans hv
    have hw' := (List.suffix_cons b y).trans hw
    have lv := hv.length_le
    have lw := hw.length_le
    simp only [List.length_cons] at lv lw
    have key : ∀ {p q : Str} {f : Nat → Prog Nat} {c : Nat}, p <:+ a0 :: s0 → q <:+ b0 :: t0 →
        p.length + q.length < (a0 :: s0).length + (b0 :: t0).length →
        (∀ d, BodyCost 3 (SuffixPair (a0 :: s0) (b0 :: t0)) (SymPair.make (a0 :: s0) (b0 :: t0)) c (f d)) →
        BodyCost 3 (SuffixPair (a0 :: s0) (b0 :: t0)) (SymPair.make (a0 :: s0) (b0 :: t0)) (c + 1) ((stdBetween p q).bind f) :=
      fun hp hq hl hf => .bind (ih _ hl _ _ rfl) (SuffixPair.sub hp hq hl) hf
    split
    · split <;> exact .setRet hself _ _
    refine key hv' hw (by simp only [List.length_cons]; omega) fun d => ?_
    split
    · exact .setRet hself _ _
    refine key hv hw' (by simp only [List.length_cons]; omega) fun d => ?_
    split
    · exact .setRet hself _ _
    refine key (c := 0) hv' hw' (by simp only [List.length_cons]; omega) fun d => ?_
    split <;> exact .setRet hself _ _

theorem suffixF_cons (a : UInt8) (x : Str) : suffixF (a :: x) 1 <:+ x ∧ (x ≠ [] → (suffixF (a :: x) 1).length < x.length) := by
  rw [suffixF_one]
  refine ⟨List.drop_suffix _ _, fun h => ?_⟩
  have := List.length_pos_iff.2 h
  rw [List.length_drop]; omega

theorem transBetween_cost (v w : Str) : CallCost 4 (SuffixPair v w) (SymPair.make v w) (transBetween v w) := by
  induction hn : v.length + w.length using Nat.strongRecOn generalizing v w with
  | _ n ih =>
  subst hn
  rw [transBetween.eq_def]
  have hself := SuffixPair.self v w
  refine CallCost.get (fun d => rfl) ?_
  match v, w, ih, hself with
  | [], w, _, hself => exact .setRet hself _ _
  | a :: v, [], _, hself => exact .setRet hself _ _
  | a0 :: s0, b0 :: t0, ih, hself =>
    dsimp only
    have hl := discard_suffix a0 s0 b0 t0
    generalize discard a0 s0 b0 t0 = r at hl ⊢
    obtain ⟨a, x, b, y⟩ := r
    simp only at hl ⊢
    obtain ⟨hv, hw⟩ := hl
    have hv' := (List.suffix_cons a x).trans hv
    have hw' := (List.suffix_cons b y).trans hw
    have lv := hv.length_le
    have lw := hw.length_le
    simp only [List.length_cons] at lv lw
    have key : ∀ {p q : Str} {f : Nat → Prog Nat} {c : Nat}, p <:+ a0 :: s0 → q <:+ b0 :: t0 →
        p.length + q.length < (a0 :: s0).length + (b0 :: t0).length →
        (∀ d, BodyCost 4 (SuffixPair (a0 :: s0) (b0 :: t0)) (SymPair.make (a0 :: s0) (b0 :: t0)) c (f d)) →
        BodyCost 4 (SuffixPair (a0 :: s0) (b0 :: t0)) (SymPair.make (a0 :: s0) (b0 :: t0)) (c + 1) ((transBetween p q).bind f) :=
      fun hp hq hl hf => .bind (ih _ hl _ _ rfl) (SuffixPair.sub hp hq hl) hf
    split
    · split <;> exact .setRet hself _ _
    refine key hv' hw (by simp only [List.length_cons]; omega) fun d => ?_
    split
    · exact .setRet hself _ _
    refine key hv hw' (by simp only [List.length_cons]; omega) fun d => ?_
    split
    · exact .setRet hself _ _
    refine key hv' hw' (by simp only [List.length_cons]; omega) fun d => ?_
    split
    · exact .setRet hself _ _
    split
    · have h1 := (suffixF_cons a x).1
      have h2 := (suffixF_cons b y).1
      have l1 := h1.length_le
      have l2 := h2.length_le
      refine key (c := 0) (h1.trans hv') (h2.trans hw') (by simp only [List.length_cons]; omega) fun d => ?_
      split <;> exact .setRet hself _ _
    · exact .setRet hself _ _

theorem msBetween_cost (v w : Str) : CallCost 5 (SuffixPair v w) (SymPair.make v w) (msBetween v w) := by
  induction hn : v.length + w.length using Nat.strongRecOn generalizing v w with
  | _ n ih =>
  subst hn
  rw [msBetween.eq_def]
  have hself := SuffixPair.self v w
  refine CallCost.get (fun d => rfl) ?_
  match v, w, ih, hself with
  | [], w, _, hself => exact .setRet hself _ _
  | a :: v, [], _, hself => exact .setRet hself _ _
  | a0 :: s0, b0 :: t0, ih, hself =>
    dsimp only
    have hl := discard_suffix a0 s0 b0 t0
    generalize discard a0 s0 b0 t0 = r at hl ⊢
    obtain ⟨a, x, b, y⟩ := r
    simp only at hl ⊢
    obtain ⟨hv, hw⟩ := hl
    have hv' := (List.suffix_cons a x).trans hv
    have hw' := (List.suffix_cons b y).trans hw
    have lv := hv.length_le
    have lw := hw.length_le
    simp only [List.length_cons] at lv lw
    have h1 := (suffixF_cons a x).1
    have h2 := (suffixF_cons b y).1
    have l1 := h1.length_le
    have l2 := h2.length_le
    have key : ∀ {p q : Str} {f : Nat → Prog Nat} {c : Nat}, p <:+ a0 :: s0 → q <:+ b0 :: t0 →
        p.length + q.length < (a0 :: s0).length + (b0 :: t0).length →
        (∀ d, BodyCost 5 (SuffixPair (a0 :: s0) (b0 :: t0)) (SymPair.make (a0 :: s0) (b0 :: t0)) c (f d)) →
        BodyCost 5 (SuffixPair (a0 :: s0) (b0 :: t0)) (SymPair.make (a0 :: s0) (b0 :: t0)) (c + 1) ((msBetween p q).bind f) :=
      fun hp hq hl hf => .bind (ih _ hl _ _ rfl) (SuffixPair.sub hp hq hl) hf
    split
    · split <;> exact .setRet hself _ _
    refine key hv' hw (by simp only [List.length_cons]; omega) fun d => ?_
    split
    · exact .setRet hself _ _
    refine key hv hw' (by simp only [List.length_cons]; omega) fun d => ?_
    split
    · exact .setRet hself _ _
    refine key hv' hw' (by simp only [List.length_cons]; omega) fun d => ?_
    split
    · exact .setRet hself _ _
    split
    · refine key hv' (h2.trans hw') (by simp only [List.length_cons]; omega) fun d => ?_
      split
      · exact .setRet hself _ _
      split
      · refine key (c := 0) (h1.trans hv') hw' (by simp only [List.length_cons]; omega) fun d => ?_
        split <;> exact .setRet hself _ _
      · exact .setRet hself _ _
    · split
      · refine key (c := 1) (h1.trans hv') hw' (by simp only [List.length_cons]; omega) fun d => ?_
        split <;> exact .setRet hself _ _
      · exact .setRet hself _ _

theorem between_cost (A : Algorithm) (v w : Str) :
    CallCost (branches A) (SuffixPair v w) (SymPair.make v w) (between A v w) := by
  cases A
  · exact stdBetween_cost v w
  · exact transBetween_cost v w
  · exact msBetween_cost v w

/-- The pairs of suffixes of two strings. -/
def suffixPairs (v w : Str) : List SymPair :=
  (List.range (v.length + 1)).flatMap fun i => (List.range (w.length + 1)).map fun j => SymPair.make (v.drop i) (w.drop j)

theorem suffixPairs_length (v w : Str) : (suffixPairs v w).length = (v.length + 1) * (w.length + 1) := by
  have : ∀ l : List Nat, (l.flatMap fun i => (List.range (w.length + 1)).map fun j =>
      SymPair.make (v.drop i) (w.drop j)).length = l.length * (w.length + 1) := by
    intro l
    induction l with
    | nil => simp
    | cons a l ih => rw [List.flatMap_cons, List.length_append, ih, List.length_cons, Nat.succ_mul]; simp; omega
  rw [suffixPairs, this, List.length_range]

theorem SuffixPair.mem {v w : Str} {k : SymPair} (h : SuffixPair v w k) : k ∈ suffixPairs v w := by
  obtain ⟨x, y, hx, hy, rfl⟩ := h
  have h1 := hx.length_le
  have h2 := hy.length_le
  refine List.mem_flatMap.2 ⟨v.length - x.length, List.mem_range.2 (by omega), List.mem_map.2
    ⟨w.length - y.length, List.mem_range.2 (by omega), ?_⟩⟩
  rw [← List.suffix_iff_eq_drop.1 hx, ← List.suffix_iff_eq_drop.1 hy]

theorem Adds.length {p : Prog Nat} {m : Memo} {v w : Str} {new : List SymPair} (h : Adds p m (SuffixPair v w) new) :
    (p.run m).2.length = m.length + p.sets m ∧ p.sets m ≤ (v.length + 1) * (w.length + 1) := by
  have h1 := congrArg List.length h.keys
  simp only [Memo.keys, List.length_map, List.length_append] at h1
  have h2 := h.nodup.length_le_of_subset fun k hk => (h.ok k hk).mem
  rw [suffixPairs_length] at h2
  rw [h.sets]
  exact ⟨h1, h2⟩

/-! ### Several calls -/

theorem callSeq_cost (A : Algorithm) (calls : List (Str × Str)) (m : Memo) :
    ((callSeq A calls).run m).2.length = m.length + (callSeq A calls).sets m ∧
    (callSeq A calls).sets m ≤ (calls.map fun c => (c.1.length + 1) * (c.2.length + 1)).sum ∧
    (callSeq A calls).gets m ≤ calls.length + branches A * (callSeq A calls).sets m ∧
    (∀ k ∈ m.keys, k ∈ ((callSeq A calls).run m).2.keys) ∧
    (∀ c ∈ calls, SymPair.make c.1 c.2 ∈ ((callSeq A calls).run m).2.keys) := by
  induction calls generalizing m with
  | nil => simp [callSeq, Prog.run, Prog.sets, Prog.gets]
  | cons c calls ih =>
    obtain ⟨v, w⟩ := c
    obtain ⟨new, h1, h2, h3, _⟩ := between_cost A v w m
    obtain ⟨h5, h6⟩ := h1.length
    obtain ⟨g1, g2, g3, g4, g5⟩ := ih ((between A v w).run m).2
    have hs := h1.sets
    simp only [callSeq, Prog.run_bind, Prog.sets_bind, Prog.gets_bind, Prog.run, Prog.sets, Prog.gets, List.map_cons,
      List.sum_cons, List.length_cons, List.mem_cons, forall_eq_or_imp, Nat.add_zero]
    refine ⟨by omega, by omega, by rw [hs, Nat.mul_add]; omega, fun k hk => g4 k ?_, g4 _ h2, g5⟩
    rw [h1.keys]; simp [hk]

/-! ### The bound is attained -/

/-- The key of the strings of `i` letters `a` and `j` letters `b`. -/
def abKey (i j : Nat) : SymPair := SymPair.make (List.replicate i 97) (List.replicate j 98)

theorem abKey_inj {i j i' j' : Nat} (h : abKey i j = abKey i' j') : i = i' ∧ j = j' := by
  have hc : ∀ (c : UInt8) (i j : Nat), (abKey i j).first.count c + (abKey i j).second.count c =
      (List.replicate i (97 : UInt8)).count c + (List.replicate j (98 : UInt8)).count c := by
    intro c i j
    unfold abKey SymPair.make
    split <;> simp only <;> omega
  have h1 := hc 97 i j
  have h2 := hc 98 i j
  rw [h, hc] at h1 h2
  simp [List.count_replicate] at h1 h2
  omega

/-- With the key of a pair the keys of the three pairs it is computed from are there. -/
def AbClosed (m : Memo) : Prop := ∀ i j, abKey (i + 1) (j + 1) ∈ m.keys →
  abKey i (j + 1) ∈ m.keys ∧ abKey (i + 1) j ∈ m.keys ∧ abKey i j ∈ m.keys

theorem ab_distance {i j d : Nat} (h : IsMinCost .standard (List.replicate i (97 : UInt8)) (List.replicate j 98) d)
    (h0 : 0 = d) : i = 0 ∧ j = 0 := by
  subst h0
  have he := h.1.eq_of_zero
  have hl := congrArg List.length he
  simp only [List.length_replicate] at hl
  subst hl
  cases i with
  | zero => exact ⟨rfl, rfl⟩
  | succ i => simp [List.replicate_succ] at he

theorem Memo.mem_keys_set {m : Memo} {key k : SymPair} {d : Nat} : k ∈ (m.set key d).keys ↔ k ∈ m.keys ∨ k = key := by
  induction m with
  | nil => simp [Memo.set, Memo.keys]
  | cons e m ih =>
    obtain ⟨k', x⟩ := e
    simp only [Memo.keys] at ih
    simp only [Memo.set, Memo.keys]
    split
    · rename_i hk
      have := (SymPair.matches_iff _ _).1 hk
      simp only [List.map_cons, List.mem_cons]
      grind
    · simp only [List.map_cons, List.mem_cons, ih]
      grind

theorem discard_ab (i j : Nat) : discard 97 (List.replicate i 97) 98 (List.replicate j 98) =
    (97, List.replicate i 97, 98, List.replicate j 98) := by
  cases i <;> cases j <;> simp [discard, List.replicate_succ]

theorem AbClosed.setRet {m : Memo} (h : AbClosed m) {i j d : Nat} (hk : ∀ i' j', i = i' + 1 → j = j' + 1 →
    abKey i' (j' + 1) ∈ m.keys ∧ abKey (i' + 1) j' ∈ m.keys ∧ abKey i' j' ∈ m.keys) :
    AbClosed ((setRet (abKey i j) d).run m).2 := by
  intro i' j' hm
  simp only [Lev.setRet, Prog.run, Memo.mem_keys_set] at hm ⊢
  have : abKey i' (j' + 1) ∈ m.keys ∧ abKey (i' + 1) j' ∈ m.keys ∧ abKey i' j' ∈ m.keys := by
    rcases hm with hm | hm
    · exact h i' j' hm
    · obtain ⟨h1, h2⟩ := abKey_inj hm
      exact hk i' j' h1.symm h2.symm
  exact ⟨.inl this.1, .inl this.2.1, .inl this.2.2⟩

theorem std_ab (i j : Nat) {m : Memo} (hg : m.Good (GoodEntry .standard)) (hc : AbClosed m) :
    AbClosed ((stdBetween (List.replicate i 97) (List.replicate j 98)).run m).2 := by
  induction hn : i + j using Nat.strongRecOn generalizing i j m with
  | _ n ih =>
  subst hn
  rw [stdBetween.eq_def]
  simp only [Prog.run]
  cases hget : m.get (SymPair.make (List.replicate i 97) (List.replicate j 98)) with
  | some d => simpa [Prog.run] using hc
  | none =>
  cases i with
  | zero =>
    simp only [List.replicate_zero]
    exact hc.setRet (i := 0) (j := j) (by omega)
  | succ i =>
  cases j with
  | zero =>
    simp only [List.replicate_zero, List.replicate_succ]
    exact hc.setRet (i := i + 1) (j := 0) (by omega)
  | succ j =>
    have step : ∀ (i' j' : Nat) {m : Memo}, i' + j' < i + 1 + (j + 1) → m.Good (GoodEntry .standard) → AbClosed m →
        ∃ d m', (stdBetween (List.replicate i' 97) (List.replicate j' 98)).run m = (d, m') ∧
          IsMinCost .standard (List.replicate i' (97 : UInt8)) (List.replicate j' 98) d ∧
          m'.Good (GoodEntry .standard) ∧ AbClosed m' ∧ abKey i' j' ∈ m'.keys ∧ ∀ k ∈ m.keys, k ∈ m'.keys := by
      intro i' j' m hlt hg hc
      have h1 := (stdBetween_correct (List.replicate i' 97) (List.replicate j' 98)).run hg
      obtain ⟨new, h2, h3, _⟩ := stdBetween_cost (List.replicate i' 97) (List.replicate j' 98) m
      exact ⟨_, _, rfl, h1.1, h1.2, ih _ hlt i' j' hg hc rfl, h3, fun k hk => by rw [h2.keys]; simp [hk]⟩
    simp only [List.replicate_succ, discard_ab]
    rw [if_neg (by decide), Prog.run_bind]
    obtain ⟨d1, m1, e1, q1, g1, c1, k1, s1⟩ := step i (j + 1) (by omega) hg hc
    simp only [List.replicate_succ] at e1
    rw [e1]
    simp only
    rw [if_neg (fun h0 => by have := ab_distance q1 h0; omega), Prog.run_bind]
    obtain ⟨d2, m2, e2, q2, g2, c2, k2, s2⟩ := step (i + 1) j (by omega) g1 c1
    simp only [List.replicate_succ] at e2
    rw [e2]
    simp only
    rw [if_neg (fun h0 => by have := ab_distance q2 h0; omega), Prog.run_bind]
    obtain ⟨d3, m3, e3, q3, g3, c3, k3, s3⟩ := step i j (by omega) g2 c2
    rw [e3]
    simp only
    have hfin : ∀ i' j', i + 1 = i' + 1 → j + 1 = j' + 1 →
        abKey i' (j' + 1) ∈ m3.keys ∧ abKey (i' + 1) j' ∈ m3.keys ∧ abKey i' j' ∈ m3.keys := by
      rintro i' j' h1 h2
      obtain rfl : i = i' := by omega
      obtain rfl : j = j' := by omega
      exact ⟨s3 _ (s2 _ k1), s3 _ k2, k3⟩
    split
    · exact c3.setRet (i := i + 1) (j := j + 1) hfin
    · exact c3.setRet (i := i + 1) (j := j + 1) hfin

theorem AbClosed.all {m : Memo} (h : AbClosed m) {n k : Nat} (hk : abKey (n + 1) (k + 1) ∈ m.keys) :
    ∀ i j, i ≤ n + 1 → j ≤ k + 1 → abKey i j ∈ m.keys := by
  have hrow : ∀ i, i ≤ n → abKey (n + 1 - i) (k + 1) ∈ m.keys := by
    intro i hi
    induction i with
    | zero => simpa using hk
    | succ i ih =>
      have := (h (n - i) k (by have := ih (by omega); rwa [show n + 1 - i = n - i + 1 by omega] at this)).1
      rwa [show n + 1 - (i + 1) = n - i by omega]
  have hcol : ∀ i j, 1 ≤ i → i ≤ n + 1 → j ≤ k → abKey i (k + 1 - j) ∈ m.keys := by
    intro i j hi hi' hj
    induction j with
    | zero => have := hrow (n + 1 - i) (by omega); rwa [show n + 1 - (n + 1 - i) = i by omega] at this
    | succ j ih =>
      have := ih (by omega)
      rw [show k + 1 - j = k - j + 1 by omega, show i = i - 1 + 1 by omega] at this
      have := (h _ _ this).2.1
      rwa [show k + 1 - (j + 1) = k - j by omega, show i = i - 1 + 1 by omega]
  have hin : ∀ i j, 1 ≤ i → i ≤ n + 1 → 1 ≤ j → j ≤ k + 1 → abKey i j ∈ m.keys := by
    intro i j h1 h2 h3 h4
    have := hcol i (k + 1 - j) h1 h2 (by omega)
    rwa [show k + 1 - (k + 1 - j) = j by omega] at this
  intro i j hi hj
  rcases Nat.eq_zero_or_pos i with rfl | hi0 <;> rcases Nat.eq_zero_or_pos j with rfl | hj0
  · exact (h 0 0 (hin 1 1 (by omega) (by omega) (by omega) (by omega))).2.2
  · obtain ⟨j, rfl⟩ : ∃ j', j = j' + 1 := ⟨j - 1, by omega⟩
    exact (h 0 j (hin 1 (j + 1) (by omega) (by omega) (by omega) hj)).1
  · obtain ⟨i, rfl⟩ : ∃ i', i = i' + 1 := ⟨i - 1, by omega⟩
    exact (h i 0 (hin (i + 1) 1 (by omega) hi (by omega) (by omega))).2.1
  · exact hin i j hi0 hi hj0 hj

/-- Two strings without common letters: every pair of suffixes is computed. -/
theorem std_ab_sets (n k : Nat) :
    (stdBetween (List.replicate (n + 1) 97) (List.replicate (k + 1) 98)).sets [] = (n + 2) * (k + 2) := by
  obtain ⟨new, h1, h2, _⟩ := stdBetween_cost (List.replicate (n + 1) 97) (List.replicate (k + 1) 98) []
  have h3 := h1.length.2
  simp only [List.length_replicate] at h3
  refine Nat.le_antisymm h3 ?_
  have hcl := std_ab (n + 1) (k + 1) (m := []) (by simp [Memo.Good]) (by simp [AbClosed, Memo.keys])
  have hall := hcl.all h2
  rw [h1.keys] at hall
  rw [h1.sets]
  have hnd : ((List.range (n + 2)).flatMap fun i => (List.range (k + 2)).map fun j => abKey i j).Nodup := by
    refine List.pairwise_flatMap.2 ⟨fun i _ => List.pairwise_map.2 ?_, ?_⟩
    · exact List.nodup_range.imp fun hne he => hne (abKey_inj he).2
    · refine List.nodup_range.imp fun hne => ?_
      intro x hx y hy he
      obtain ⟨j, _, rfl⟩ := List.mem_map.1 hx
      obtain ⟨j', _, rfl⟩ := List.mem_map.1 hy
      exact hne (abKey_inj he).1
  have hle := hnd.length_le_of_subset (l₂ := new) fun x hx => by
    obtain ⟨i, hi, hx⟩ := List.mem_flatMap.1 hx
    obtain ⟨j, hj, rfl⟩ := List.mem_map.1 hx
    rw [List.mem_range] at hi hj
    simpa [Memo.keys] using hall i j (by omega) (by omega)
  have hlen : ∀ l : List Nat, (l.flatMap fun i => (List.range (k + 2)).map fun j => abKey i j).length = l.length * (k + 2) := by
    intro l
    induction l with
    | nil => simp
    | cons a l ih => rw [List.flatMap_cons, List.length_append, ih, List.length_cons, Nat.succ_mul]; simp; omega
  rw [hlen, List.length_range] at hle
  exact hle

end Lev
