import Verif.Proofs.LongHash
import Verif.Props.Distance

/-!
# C97: words of any length
-/

namespace Lev.Props

open Spec

/-! ### The hash function -/

/-- C97: `MurmurHash64A(s.c_str(), (int)s.length(), seed)` is defined unless the lowest 32 bits of the length, as a signed
number, are -8 or less; otherwise it is undefined behaviour. -/
theorem c97_hash_defined (s : Str) (seed : UInt64) :
    ((∃ c, hashString s seed = .ok c) ↔ ¬ BadLength s.length) ∧ (hashString s seed = .error .ub ↔ BadLength s.length) := by
  by_cases h : BadLength s.length
  · simp [hashString_bad h, h]
  · obtain ⟨c, hc⟩ := hashString_good h seed
    simp [hc, h]

/-- C97: for strings below `2^31` bytes it is the function used in the other properties. -/
theorem c97_hash_short {s : Str} (h : s.length < 2 ^ 31) (seed : UInt64) : hashString s seed = .ok (murmur64A s seed) :=
  hashString_short h seed

/-- C97: it reads the number of bytes given by the lowest 31 bits of the length only: longer strings that begin alike have the
same hash code. -/
theorem c97_hash_first {s t : Str} (hl : s.length = t.length) (h31 : s.length % 2 ^ 32 < 2 ^ 31)
    (ht : s.take (s.length % 2 ^ 32) = t.take (s.length % 2 ^ 32)) (seed : UInt64) : hashString s seed = hashString t seed := by
  refine hashString_first hl ?_ seed
  have : bytesRead (toInt32 s.length) = s.length % 2 ^ 32 := by
    unfold toInt32 bytesRead
    rw [if_pos h31]
    split <;> omega
  rw [this]
  exact ht

/-- C97: all pairs of strings of `2^32` bytes have the same hash code. -/
theorem c97_hash_4GiB {p q : SymPair} (h1 : p.first.length = 2 ^ 32) (h2 : p.second.length = 2 ^ 32)
    (h3 : q.first.length = 2 ^ 32) (h4 : q.second.length = 2 ^ 32) : p.hashFull = q.hashFull := by
  have key : ∀ {s t : Str}, s.length = 2 ^ 32 → t.length = 2 ^ 32 → ∀ seed, hashString s seed = hashString t seed :=
    fun hs ht seed => c97_hash_first (hs.trans ht.symm) (by rw [hs]; decide) (by rw [hs]; simp) seed
  unfold SymPair.hashFull
  rw [key h1 h3]
  congr 1
  funext c
  exact key h2 h4 c

/-! ### Distances -/

theorem allMin_get {A : Algorithm} {calls : List (Str × Str)} {ds : List Nat} (h : AllMin A calls ds) :
    ds.length = calls.length ∧ ∀ (i : Nat) v w d, calls[i]? = some (v, w) → ds[i]? = some d → IsMinCost A v w d := by
  induction calls generalizing ds with
  | nil =>
    cases ds with
    | nil => simp
    | cons _ _ => exact absurd h id
  | cons c calls ih =>
    obtain ⟨v, w⟩ := c
    cases ds with
    | nil => exact absurd h id
    | cons d ds =>
      obtain ⟨h1, h2⟩ := h
      obtain ⟨h3, h4⟩ := ih h2
      refine ⟨by simp [h3], fun i v' w' d' hc hd => ?_⟩
      cases i with
      | zero => simp at hc hd; obtain ⟨rfl, rfl⟩ := hc; subst hd; exact h1
      | succ i => exact h4 i v' w' d' (by simpa using hc) (by simpa using hd)

/-- C97: calls of `between` on one object, for words of any lengths: if no call is undefined, all answers are right, whatever
the hash codes are. -/
theorem c97_right (A : Algorithm) {calls : List (Str × Str)} {ds : List Nat} {m : HMemo}
    (h : (callSeq A calls).runFull [] = .ok (ds, m)) :
    ds.length = calls.length ∧ ∀ (i : Nat) v w d, calls[i]? = some (v, w) → ds[i]? = some d → IsMinCost A v w d := by
  obtain ⟨h1, _⟩ := runFull_run (m := []) ⟨rfl, by simp⟩ h
  rw [← h1]
  exact allMin_get ((callSeq_correct A calls).run (m := []) (fun _ h => by cases h)).1

/-- C97: for words below `2^31` bytes no call is undefined. -/
theorem c97_defined (A : Algorithm) {calls : List (Str × Str)} (h : ∀ c ∈ calls, c.1.length < 2 ^ 31 ∧ c.2.length < 2 ^ 31) :
    ∃ ds m, (callSeq A calls).runFull [] = .ok (ds, m) := by
  refine runFull_ok ((callSeq_keys A calls).mono ?_) []
  rintro k ⟨c, hc, x, y, hx, hy, rfl⟩
  refine hashFull_good ?_
  rw [make_lengths x y BadLength]
  have := h c hc
  have := hx.length_le
  have := hy.length_le
  rintro (⟨h1, h2⟩ | ⟨h1, h2⟩)
  · rw [Nat.mod_eq_of_lt (by omega)] at h1; omega
  · rw [Nat.mod_eq_of_lt (by omega)] at h1; omega

/-- C97: a call with a word whose length cannot be hashed is undefined behaviour, whatever the other word and the calls
before. -/
theorem c97_undefined (A : Algorithm) {v w : Str} (h : BadLength v.length ∨ BadLength w.length) (m : HMemo) :
    (between A v w).runFull m = .error .ub := by
  obtain ⟨k, hk⟩ := between_get A v w
  rw [hk, Prog.runFull, hashFull_bad ((make_lengths v w BadLength).2 h)]

/-- C97: these are the only lengths for which the distance from the empty string is undefined. -/
theorem c97_empty (A : Algorithm) (v : Str) :
    (∃ m, (between A v []).runFull [] = .ok (v.length, m)) ↔ ¬ BadLength v.length := by
  constructor
  · rintro ⟨m, hm⟩ hb
    rw [c97_undefined A (.inl hb)] at hm
    cases hm
  · intro hb
    have hk : ∃ c, (SymPair.make v []).hashFull = .ok c :=
      hashFull_good (by rw [make_lengths v [] BadLength]; exact fun h => h.elim hb (by simp [BadLength]))
    obtain ⟨c, hc⟩ := hk
    have key : ∃ k : Option Nat → Prog Nat, between A v [] = .get (SymPair.make v []) k ∧ k none = setRet (SymPair.make v []) v.length := by
      cases A
      · refine ⟨_, stdBetween.eq_def v [], ?_⟩
        cases v <;> rfl
      · refine ⟨_, transBetween.eq_def v [], ?_⟩
        cases v <;> rfl
      · refine ⟨_, msBetween.eq_def v [], ?_⟩
        cases v <;> rfl
    obtain ⟨k, e1, e2⟩ := key
    rw [e1, Prog.runFull, hc]
    simp only [HMemo.get, e2]
    rw [setRet, Prog.runFull, hc]
    exact ⟨_, rfl⟩

/-- The limits. -/
example : ¬ BadLength (2 ^ 31 - 1) ∧ BadLength (2 ^ 31) ∧ BadLength (2 ^ 32 - 8) ∧ ¬ BadLength (2 ^ 32 - 7) ∧
    ¬ BadLength (2 ^ 32) ∧ BadLength (2 ^ 32 + 2 ^ 31) := by unfold BadLength; decide

/-- `between(std::string(1ul << 31, 'a'), "")` is undefined behaviour. -/
example : (between .standard (List.replicate (2 ^ 31) 97) []).runFull [] = .error .ub :=
  c97_undefined .standard (.inl (by rw [List.length_replicate]; unfold BadLength; decide)) []

/-- A short call with real hash codes. -/
example : ((callSeq .standard [([97, 98], [98]), ([98], [97, 98])]).runFull []).map Prod.fst = .ok [1, 1] := by
  decide +kernel

end Lev.Props
