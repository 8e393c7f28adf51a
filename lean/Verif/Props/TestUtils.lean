import Verif.Model.TestUtils
import Verif.Spec.TestUtils
import Verif.Proofs.Text
import Verif.Proofs.TestRun

/-!
# Property C88: the helpers of the tests

Names of temporary files, what becomes of the files, and the settings that are handed to RapidCheck.
-/

namespace Lev.Props

open Lev Spec

/-! ### Random names -/

/-- The characters that can occur: all of `charset` but its last one, `z`. -/
def drawn : Str := charset.take 61

theorem charset_split : charset = drawn ++ [122] ∧ drawn.length = 61 ∧ (122 : UInt8) ∉ drawn := by decide +kernel

theorem randChar_eq (r : Nat) : ∃ c ∈ drawn, randChar r = .ok c ∧ drawn[r % 61]? = some c := by
  have hlen : charset.length - 1 = 61 := by decide +kernel
  have hlt : r % 61 < drawn.length := by rw [charset_split.2.1]; exact Nat.mod_lt _ (by decide)
  refine ⟨drawn[r % 61], List.getElem_mem _, ?_, List.getElem?_eq_getElem _⟩
  simp only [randChar, hlen]
  rw [charset_split.1, List.getElem?_append_left hlt, List.getElem?_eq_getElem hlt]

theorem genRandStr_spec (rand : Nat → Nat) (calls n : Nat) :
    ∃ s, genRandStr rand calls n = .ok s ∧ s.length = n ∧ ∀ c ∈ s, c ∈ drawn := by
  induction n generalizing calls with
  | zero => exact ⟨[], rfl, rfl, by simp⟩
  | succ n ih =>
    obtain ⟨c, hc, e, _⟩ := randChar_eq (rand calls)
    obtain ⟨s, h1, h2, h3⟩ := ih (calls + 1)
    refine ⟨c :: s, by simp only [genRandStr, e, h1, bind, Except.bind], by simp [h2], fun x hx => ?_⟩
    rcases List.mem_cons.1 hx with rfl | hx
    · exact hc
    · exact h3 x hx

theorem mem_charset (c : UInt8) : c ∈ charset ↔ AlphaNum c := by
  have h : ∀ n, n < 256 → (UInt8.ofNat n ∈ charset ↔ AlphaNum (UInt8.ofNat n)) := by decide +kernel
  have := h c.toNat c.toNat_lt
  rwa [UInt8.ofNat_toNat] at this

/-- C88: a random string has the length asked for and consists of digits and letters; of these the character `z` never
occurs. -/
theorem c88_random (rand : Nat → Nat) (calls n : Nat) :
    ∃ s, genRandStr rand calls n = .ok s ∧ s.length = n ∧ ∀ c ∈ s, AlphaNum c ∧ c ≠ 122 := by
  obtain ⟨s, h1, h2, h3⟩ := genRandStr_spec rand calls n
  obtain ⟨g1, _, g3⟩ := charset_split
  refine ⟨s, h1, h2, fun c hc => ⟨?_, fun h => g3 (h ▸ h3 c hc)⟩⟩
  rw [← mem_charset, g1]
  exact List.mem_append_left _ (h3 c hc)

/-- C88: every string of the other characters does occur, with random numbers that any `rand()` can return. -/
theorem c88_random_all (s : Str) (hs : ∀ c ∈ s, AlphaNum c ∧ c ≠ 122) (calls : Nat) :
    ∃ rand : Nat → Nat, (∀ k, rand k < 61) ∧ genRandStr rand calls s.length = .ok s := by
  induction s generalizing calls with
  | nil => exact ⟨fun _ => 0, fun _ => Nat.zero_lt_succ _, rfl⟩
  | cons c s ih =>
    obtain ⟨rand, h1, h2⟩ := ih (fun x hx => hs x (List.mem_cons_of_mem _ hx)) (calls + 1)
    have hc : c ∈ drawn := by
      have := hs c (by simp)
      rw [← mem_charset, charset_split.1] at this
      simpa [this.2] using this.1
    obtain ⟨i, hi, rfl⟩ := List.getElem_of_mem hc
    have hi' : i < 61 := by rw [charset_split.2.1] at hi; exact hi
    refine ⟨fun k => if k = calls then i else rand k, fun k => ?_, ?_⟩
    · by_cases hk : k = calls
      · simp [hk, hi']
      · simp [hk, h1 k]
    · have hlater : ∀ n m, calls < m → genRandStr (fun k => if k = calls then i else rand k) m n = genRandStr rand m n := by
        intro n
        induction n with
        | zero => intro m _; rfl
        | succ n ihn =>
          intro m hm
          simp only [genRandStr, if_neg (by omega : m ≠ calls), ihn (m + 1) (by omega)]
      obtain ⟨c', _, e1, e2⟩ := randChar_eq i
      rw [Nat.mod_eq_of_lt hi', List.getElem?_eq_getElem hi] at e2
      cases e2
      simp only [List.length_cons, genRandStr, if_true, e1, hlater _ _ (Nat.lt_succ_self _), h2, bind, Except.bind]

example : ∀ c ∈ lit "a0B9", AlphaNum c ∧ c ≠ 122 := by decide +kernel

/-! ### Temporary files -/

section
variable {dir pre ext : Str} {rand : Nat → Nat} {fs : Files}

/-- The name that is tried when `calls` numbers have been drawn. -/
def Tried (dir : Str) (rand : Nat → Nat) (pre ext : Str) (calls : Nat) (p : Str) : Prop :=
  ∃ s, genRandStr rand calls 10 = .ok s ∧ p = joinPath dir (fileNym pre s ext)

theorem tried_exists (dir : Str) (rand : Nat → Nat) (pre ext : Str) (calls : Nat) : ∃ p, Tried dir rand pre ext calls p := by
  obtain ⟨s, h, _⟩ := genRandStr_spec rand calls 10
  exact ⟨_, s, h, rfl⟩

theorem Tried.one {calls : Nat} {p q : Str} (hp : Tried dir rand pre ext calls p) (hq : Tried dir rand pre ext calls q) : p = q := by
  obtain ⟨s, h1, rfl⟩ := hp
  obtain ⟨t, h2, rfl⟩ := hq
  rw [h1] at h2
  cases h2
  rfl

theorem tempLoop_ok {fuel calls : Nat} {p : Str} {k : Nat} (h : tempLoop dir rand fs pre ext fuel calls = .ok (p, k)) :
    fs.read p = none ∧ ∃ i, Tried dir rand pre ext (calls + 10 * i) p := by
  induction fuel generalizing calls with
  | zero => cases h
  | succ fuel ih =>
    obtain ⟨s, hs, _⟩ := genRandStr_spec rand calls 10
    simp only [tempLoop, hs, bind, Except.bind] at h
    split at h
    · obtain ⟨h1, i, h2⟩ := ih h
      exact ⟨h1, i + 1, by rw [show calls + 10 * (i + 1) = calls + 10 + 10 * i by omega]; exact h2⟩
    · next hn =>
      cases h
      exact ⟨by simpa using hn, 0, s, hs, rfl⟩

theorem tempLoop_ends {calls i : Nat} {p : Str} (hp : Tried dir rand pre ext (calls + 10 * i) p) (hn : fs.read p = none) :
    ∃ r, ∀ fuel, i < fuel → tempLoop dir rand fs pre ext fuel calls = .ok r := by
  induction i generalizing calls with
  | zero =>
    obtain ⟨s, hs, rfl⟩ := hp
    refine ⟨(joinPath dir (fileNym pre s ext), calls + 10), fun fuel hf => ?_⟩
    obtain ⟨k, rfl⟩ : ∃ k, fuel = k + 1 := ⟨fuel - 1, by omega⟩
    simp only [Nat.mul_zero, Nat.add_zero] at hs
    simp only [tempLoop, hs, bind, Except.bind, hn, Option.isSome_none, Bool.false_eq_true, if_false]
  | succ i ih =>
    obtain ⟨s, hs, _⟩ := genRandStr_spec rand calls 10
    by_cases hx : (fs.read (joinPath dir (fileNym pre s ext))).isSome = true
    · obtain ⟨r, hr⟩ := ih (calls := calls + 10) (by rw [show calls + 10 + 10 * i = calls + 10 * (i + 1) by omega]; exact hp)
      refine ⟨r, fun fuel hf => ?_⟩
      obtain ⟨k, rfl⟩ : ∃ k, fuel = k + 1 := ⟨fuel - 1, by omega⟩
      simp only [tempLoop, hs, bind, Except.bind, hx, if_true]
      exact hr k (by omega)
    · refine ⟨(joinPath dir (fileNym pre s ext), calls + 10), fun fuel hf => ?_⟩
      obtain ⟨k, rfl⟩ : ∃ k, fuel = k + 1 := ⟨fuel - 1, by omega⟩
      simp only [tempLoop, hs, bind, Except.bind, hx]
      simp

theorem tempLoop_taken {calls : Nat} (h : ∀ i p, Tried dir rand pre ext (calls + 10 * i) p → fs.read p ≠ none) (fuel : Nat) :
    tempLoop dir rand fs pre ext fuel calls = .error .diverge := by
  induction fuel generalizing calls with
  | zero => rfl
  | succ fuel ih =>
    obtain ⟨s, hs, _⟩ := genRandStr_spec rand calls 10
    have hx : (fs.read (joinPath dir (fileNym pre s ext))).isSome = true := by
      have := h 0 _ ⟨s, hs, rfl⟩
      cases hr : fs.read (joinPath dir (fileNym pre s ext)) with
      | none => exact absurd hr this
      | some => rfl
    simp only [tempLoop, hs, bind, Except.bind, hx, if_true]
    exact ih fun i p hp => h (i + 1) p (by rw [show calls + 10 * (i + 1) = calls + 10 + 10 * i by omega]; exact hp)

/-- C88: the name that `gen_temp_path` returns is not that of a file; between prefix and extension it has ten digits and letters, and a
dot unless the extension is empty or has one; it is noted for removal, and the first call registers the handler. -/
theorem c88_temp_path {fuel : Nat} {st st' : TempState} {p : Str} (h : genTempPath dir rand fuel fs pre ext st = .ok (p, st')) :
    fs.read p = none ∧
    (∃ s, s.length = 10 ∧ (∀ c ∈ s, AlphaNum c) ∧
      InDir dir (pre ++ s ++ if ext = [] ∨ ext.head? = some 46 then ext else 46 :: ext) p) ∧
    st'.gend = st.gend ++ [p] ∧ st'.handlers = if st.gend = [] then st.handlers + 1 else st.handlers := by
  simp only [genTempPath, bind, Except.bind] at h
  split at h
  · cases h
  · next r hr =>
    obtain ⟨q, k⟩ := r
    cases h
    obtain ⟨h1, i, s, h2, h3⟩ := tempLoop_ok hr
    obtain ⟨s', g1, g2, g3⟩ := c88_random rand (st.calls + 10 * i) 10
    rw [h2] at g1
    cases g1
    refine ⟨h1, ⟨s, g2, fun c hc => (g3 c hc).1, ?_⟩, rfl, ?_⟩
    · have hin : ∀ name, InDir dir name (joinPath dir name) := by
        intro name
        unfold joinPath InDir
        split
        · next h => exact .inl ⟨h, rfl⟩
        · next h =>
          split
          · next h' => exact .inr (.inl ⟨h, h', rfl⟩)
          · next h' => exact .inr (.inr ⟨h, fun e => h' (.inl e), fun e => h' (.inr e), by simp⟩)
      rw [h3]
      suffices he : fileNym pre s ext = pre ++ s ++ if ext = [] ∨ ext.head? = some 46 then ext else 46 :: ext by
        rw [he]; exact hin _
      rw [fileNym]
      cases ext with
      | nil => simp
      | cons e ext =>
        by_cases he : e = 46
        · simp [he, List.findIdx?_cons]
        · have : List.findIdx? (fun x => decide (x = 46)) (e :: ext) ≠ some 0 := by
            simp [List.findIdx?_cons, he]
          simp [this, he, lit]
    · cases st.gend <;> simp

/-- C88: it ends exactly if a name that is free turns up. -/
theorem c88_temp_ends (st : TempState) :
    (∃ r, Ends (fun fuel => genTempPath dir rand fuel fs pre ext st) r) ↔
      ∃ i p, Tried dir rand pre ext (st.calls + 10 * i) p ∧ fs.read p = none := by
  constructor
  · rintro ⟨r, N, hN⟩
    have h := hN N (Nat.le_refl _)
    simp only [genTempPath, bind, Except.bind] at h
    split at h
    · cases h
    · next r hr =>
      obtain ⟨h1, i, h2⟩ := tempLoop_ok hr
      exact ⟨i, _, h2, h1⟩
  · rintro ⟨i, p, hp, hn⟩
    obtain ⟨r, hr⟩ := tempLoop_ends (dir := dir) (rand := rand) (pre := pre) (ext := ext) hp hn
    exact ⟨_, i + 1, fun fuel hf => by simp only [genTempPath, hr fuel hf, bind, Except.bind]; rfl⟩

/-- C88: and searches for ever otherwise. -/
theorem c88_temp_endless {st : TempState} (h : ∀ i p, Tried dir rand pre ext (st.calls + 10 * i) p → fs.read p ≠ none)
    (fuel : Nat) : genTempPath dir rand fuel fs pre ext st = .error .diverge := by
  simp only [genTempPath, tempLoop_taken h fuel, bind, Except.bind]

end

-- both happen with a generator that returns the same number again and again
example (st : TempState) (i : Nat) : Tried (lit "/tmp") (fun _ => 7) (lit "x") (lit "pb") (st.calls + 10 * i)
    (lit "/tmp/x7777777777.pb") := ⟨lit "7777777777", rfl, by decide +kernel⟩

/-- C88: the same name can be returned twice if no file was written in between; so a name is unique only once the file is
there (then `c88_temp_path` applies). -/
theorem c88_temp_twice : ∃ (rand : Nat → Nat) (fs : Files) (p : Str) (st st' : TempState),
    genTempPath (lit "/tmp") rand 1 fs (lit "x") (lit "pb") .initial = .ok (p, st) ∧
    genTempPath (lit "/tmp") rand 1 fs (lit "x") (lit "pb") st = .ok (p, st') ∧ p = lit "/tmp/x0000000000.pb" :=
  ⟨fun _ => 0, ⟨fun _ => none, fun _ => true⟩, lit "/tmp/x0000000000.pb", ⟨[lit "/tmp/x0000000000.pb"], 1, 10⟩,
    ⟨[lit "/tmp/x0000000000.pb", lit "/tmp/x0000000000.pb"], 1, 20⟩, by rfl, by rfl, rfl⟩

/-! ### What is left behind -/

theorem removeAll_read (fs : Files) (ps : List Str) (p : Str) :
    (removeAll fs ps).read p = if p ∈ ps then none else fs.read p := by
  induction ps generalizing fs with
  | nil => simp [removeAll]
  | cons q ps ih =>
    rw [removeAll]
    split
    · rw [ih]
      by_cases h : p = q <;> simp [Files.remove, h]
    · next hn =>
      rw [ih]
      by_cases h : p = q
      · have : fs.read q = none := by simpa using hn
        simp [h, this]
      · simp [h]

theorem testSerializer_files {sgn : Bool} {addr : Nat → Nat} {fuel : Nat} {terms : List Str} {path : Str} {fs fs' : Files}
    {h h' : Heap} (hok : testSerializer sgn addr fuel terms path fs h = .ok (fs', h')) (p : Str) (hp : p ≠ path) :
    fs'.read p = fs.read p := by
  simp only [testSerializer, bind, Except.bind] at hok
  split at hok
  · cases hok
  · split at hok
    · cases hok
    · split at hok
      · cases hok
      · next _ _ expected _ r hr =>
        have hfs : r.1.read p = fs.read p := by
          simp only [serializeFile, bind, Except.bind, use] at hr
          split at hr
          · next a ha =>
            cases hr
            split at ha
            · cases ha
            · split at ha <;> cases ha
              · simp [hp]
              · rfl
          · cases hr
        split at hok
        · cases hok
        · split at hok
          · cases hok
          · split at hok
            · cases hok
            · split at hok
              · cases hok
              · split at hok
                · cases hok
                · split at hok
                  · cases hok
                  · split at hok
                    · cases hok
                    · cases hok
                      exact hfs

/-- C88: whatever sets of terms RapidCheck tries, when all runs of the serializer's test have passed and the program has ended,
the files are as before. -/
theorem c88_tidy {sgn : Bool} {addr : Nat → Nat} {dir : Str} {rand : Nat → Nat} {fuel : Nat} {cases : List (List Str)}
    {fs fs' : Files} {h h' : Heap} {st : TempState}
    (hok : testRestoresAll sgn addr dir rand fuel cases fs h .initial = .ok (fs', h', st)) :
    st.gend.length = cases.length ∧ st.handlers = (if cases = [] then 0 else 1) ∧
    (∀ p ∈ st.gend, fs.read p = none) ∧ ∀ p, (atExit st fs' st.handlers).read p = fs.read p := by
  suffices key : ∀ (fs1 : Files) (h : Heap) (st1 : TempState) (n : Nat),
      testRestoresAll sgn addr dir rand fuel cases fs1 h st1 = .ok (fs', h', st) →
      st1.gend.length = n → (st1.handlers = if n = 0 then 0 else 1) → (∀ p ∈ st1.gend, fs.read p = none) →
      (∀ p, p ∉ st1.gend → fs1.read p = fs.read p) →
      st.gend.length = n + cases.length ∧ (st.handlers = if n + cases.length = 0 then 0 else 1) ∧
      (∀ p ∈ st.gend, fs.read p = none) ∧ ∀ p, p ∉ st.gend → fs'.read p = fs.read p by
    obtain ⟨h1, h2, h3, h4⟩ := key fs h .initial 0 hok rfl rfl (by simp [TempState.initial]) fun _ _ => rfl
    rw [Nat.zero_add] at h1 h2
    refine ⟨h1, by rw [h2]; simp [List.length_eq_zero_iff], h3, fun p => ?_⟩
    by_cases hc : cases.length = 0
    · rw [h2, if_pos hc]
      rw [hc, List.length_eq_zero_iff] at h1
      exact h4 p (by simp [h1])
    · rw [h2, if_neg hc]
      simp only [atExit]
      rw [removeAll_read]
      by_cases hp : p ∈ st.gend
      · rw [if_pos hp, h3 p hp]
      · rw [if_neg hp, h4 p hp]
  clear hok
  induction cases with
  | nil =>
    intro fs1 h st1 n hok h1 h2 h3 h4
    cases hok
    exact ⟨h1, h2, h3, h4⟩
  | cons terms rest ih =>
    intro fs1 h st1 n hok h1 h2 h3 h4
    simp only [testRestoresAll, bind, Except.bind] at hok
    split at hok
    · cases hok
    · next r hr =>
      obtain ⟨fs2, hp2, st2⟩ := r
      simp only [testRestores, bind, Except.bind] at hr
      split at hr
      · cases hr
      · next q hq =>
        obtain ⟨path, st3⟩ := q
        simp only [use] at hq
        split at hq
        · next q' hgen =>
          cases hq
          simp only at hr
          split at hr
          · cases hr
          · next r2 hs =>
            obtain ⟨fs3, hp3⟩ := r2
            cases hr
            obtain ⟨g1, _, g2, g3⟩ := c88_temp_path hgen
            have := ih _ _ _ (n + 1) hok (by rw [g2]; simp [h1]) ?_ ?_ ?_
            · simpa [Nat.add_assoc, Nat.add_comm 1] using this
            · rw [g3, h2]
              cases hg : st1.gend with
              | nil => simp [hg] at h1; simp [← h1]
              | cons x xs =>
                have : n ≠ 0 := by rw [← h1, hg]; simp
                simp [this]
            · intro p hp
              rw [g2, List.mem_append, List.mem_singleton] at hp
              rcases hp with hp | rfl
              · exact h3 p hp
              · by_cases hg : p ∈ st1.gend
                · exact h3 p hg
                · rw [← h4 p hg]; exact g1
            · intro p hp
              rw [g2, List.mem_append, List.mem_singleton, not_or] at hp
              rw [testSerializer_files hs p hp.2, h4 p hp.1]
        · cases hq

/-! ### Settings -/

/-- One setting. -/
def settingText (config : Str → Option Str) (key : Str) : Str :=
  match config key with
  | some v => key ++ 61 :: (v ++ [32])
  | none => []

theorem foldl_putSetting (config : Str → Option Str) (keys : List Str) (out : Str) :
    keys.foldl (fun out key => putSetting config key out) out = out ++ keys.flatMap (settingText config) := by
  induction keys generalizing out with
  | nil => simp
  | cons k keys ih =>
    rw [List.foldl_cons, ih, List.flatMap_cons]
    cases hc : config k <;> simp [putSetting, settingText, hc, lit]

theorem settings_inj {config config' : Str → Option Str} (keys : List Str) (hk : keys.Nodup) (h61 : ∀ k ∈ keys, (61 : UInt8) ∉ k)
    (hv : ∀ k v, config k = some v → (32 : UInt8) ∉ v) (hv' : ∀ k v, config' k = some v → (32 : UInt8) ∉ v)
    (h : keys.flatMap (settingText config) = keys.flatMap (settingText config')) : ∀ k ∈ keys, config k = config' k := by
  -- a text that is not empty begins with a key
  have first : ∀ (c : Str → Option Str) (ks : List Str), ks.flatMap (settingText c) = [] ∨
      ∃ k ∈ ks, ∃ r, ks.flatMap (settingText c) = k ++ 61 :: r := by
    intro c ks
    induction ks with
    | nil => exact .inl rfl
    | cons k ks ih =>
      rw [List.flatMap_cons]
      cases hc : c k with
      | none =>
        simp only [settingText, hc, List.nil_append]
        rcases ih with ih | ⟨k', h1, r, h2⟩
        · exact .inl ih
        · exact .inr ⟨k', List.mem_cons_of_mem _ h1, r, h2⟩
      | some v =>
        refine .inr ⟨k, by simp, v ++ [32] ++ ks.flatMap (settingText c), ?_⟩
        simp [settingText, hc]
  have clash : ∀ (c : Str → Option Str) (ks : List Str) (k r : Str), k ∉ ks → (61 : UInt8) ∉ k → (∀ x ∈ ks, (61 : UInt8) ∉ x) →
      ks.flatMap (settingText c) ≠ k ++ 61 :: r := by
    intro c ks k r hn hk hks he
    rcases first c ks with h | ⟨k', h1, r', h2⟩
    · rw [h] at he; simp at he
    · rw [h2] at he
      exact hn ((until_inj (hks k' h1) hk he).1 ▸ h1)
  induction keys with
  | nil => simp
  | cons k keys ih =>
    obtain ⟨hn, hnd⟩ := List.nodup_cons.1 hk
    have h61k := h61 k (by simp)
    have h61s := fun x hx => h61 x (List.mem_cons_of_mem _ hx)
    rw [List.flatMap_cons, List.flatMap_cons] at h
    suffices config k = config' k ∧ keys.flatMap (settingText config) = keys.flatMap (settingText config') by
      intro x hx
      rcases List.mem_cons.1 hx with rfl | hx
      · exact this.1
      · exact ih hnd h61s this.2 x hx
    cases hc : config k with
    | none =>
      cases hc' : config' k with
      | none => simpa [settingText, hc, hc'] using h
      | some v =>
        simp only [settingText, hc, hc', List.nil_append, List.append_assoc, List.cons_append] at h
        exact absurd h (clash config keys k _ hn h61k h61s)
    | some v =>
      cases hc' : config' k with
      | none =>
        simp only [settingText, hc, hc', List.nil_append, List.append_assoc, List.cons_append] at h
        exact absurd h.symm (clash config' keys k _ hn h61k h61s)
      | some v' =>
        simp only [settingText, hc, hc', List.append_assoc, List.cons_append, List.append_cancel_left_eq, List.cons.injEq,
          true_and, List.nil_append] at h
        obtain ⟨rfl, h2⟩ := until_inj (hv k v hc) (hv' k v' hc') h
        exact ⟨rfl, h2⟩

/-- C88: the text handed to RapidCheck determines all eight settings, if no value contains a space or a zero byte. -/
theorem c88_settings {config config' : Str → Option Str} (hv : ∀ k v, config k = some v → (32 : UInt8) ∉ v ∧ (0 : UInt8) ∉ v)
    (hv' : ∀ k v, config' k = some v → (32 : UInt8) ∉ v ∧ (0 : UInt8) ∉ v) :
    rcParams config = rcParams config' ↔ ∀ k ∈ settingNames, config (lit k) = config' (lit k) := by
  have hnames : settingKeys = settingNames.map lit := rfl
  rw [show (∀ k ∈ settingNames, config (lit k) = config' (lit k)) ↔ ∀ k ∈ settingKeys, config k = config' k by
    rw [hnames]; simp]
  have hno : ∀ (c : Str → Option Str), (∀ k v, c k = some v → (32 : UInt8) ∉ v ∧ (0 : UInt8) ∉ v) →
      rcParams c = settingKeys.flatMap (settingText c) := by
    intro c hc
    rw [rcParams, parseSettings, foldl_putSetting, List.nil_append]
    refine takeWhile_all fun x hx => ?_
    obtain ⟨k, hk, hx⟩ := List.mem_flatMap.1 hx
    have hk0 : (0 : UInt8) ∉ k := (by decide +kernel : ∀ k ∈ settingKeys, (0 : UInt8) ∉ k) k hk
    simp only [decide_eq_true_eq]
    rintro rfl
    cases hck : c k with
    | none => simp [settingText, hck] at hx
    | some v => simp [settingText, hck, hk0, (hc k v hck).2] at hx
  rw [hno config hv, hno config' hv']
  constructor
  · exact settings_inj settingKeys (by decide +kernel) (by decide +kernel) (fun k v h => (hv k v h).1) fun k v h => (hv' k v h).1
  · intro h
    rw [List.flatMap_def, List.flatMap_def]
    congr 1
    refine List.map_congr_left fun k hk => ?_
    simp [settingText, h k hk]

/-- C88: with a space in a value, two different configurations give the same text. -/
theorem c88_settings_space : ∃ config config' : Str → Option Str, rcParams config = rcParams config' ∧
    config (lit "max_size") ≠ config' (lit "max_size") :=
  ⟨fun k => if k = lit "seed" then some (lit "1 max_size=2") else none,
    fun k => if k = lit "seed" then some (lit "1") else if k = lit "max_size" then some (lit "2") else none,
    by decide +kernel, by decide +kernel⟩

/-- The configuration in the repository. -/
def exConfig (k : Str) : Option Str :=
  if k = lit "max_success" then some (lit "256") else if k = lit "max_size" then some (lit "32")
  else if k = lit "verbose_progress" ∨ k = lit "verbose_shrinking" then some (lit "1") else none

example : rcParams exConfig = lit "max_success=256 max_size=32 verbose_progress=1 verbose_shrinking=1 " := by decide +kernel

example : ∀ k v, exConfig k = some v → (32 : UInt8) ∉ v ∧ (0 : UInt8) ∉ v := by
  intro k v h
  unfold exConfig at h
  split at h
  · cases h; decide +kernel
  · split at h
    · cases h; decide +kernel
    · split at h
      · cases h; decide +kernel
      · cases h

-- a run of the serializer's test for two sets of terms, in a directory with a file that has the first name tried
example : (testRestoresAll true (fun k => k + 1) (lit "/tmp") (fun k => k / 20) 30 [[[97]], [[98], [99]]]
      ⟨fun p => if p = lit "/tmp/liblevenshtein-0000000000.pb" then some [1] else none, fun _ => true⟩
      { mem := fun _ => none, count := 0 } .initial).map (fun r => (r.2.2.gend, r.2.2.handlers,
        (r.1.read (lit "/tmp/liblevenshtein-1111111111.pb")).isSome,
        (r.1.read (lit "/tmp/liblevenshtein-0000000000.pb")))) =
    .ok ([lit "/tmp/liblevenshtein-1111111111.pb", lit "/tmp/liblevenshtein-2222222222.pb"], 1, true, some [1]) := by
  decide +kernel

end Lev.Props
