import Verif.Model.LongHash
import Verif.Proofs.DistCost
import Verif.Spec.LongHash

/-!
Hashing strings of any length.
-/

namespace Lev

open Spec

theorem readBytes_ok {buf : List UInt8} {i n : Nat} (h : i + n ≤ buf.length) :
    readBytes buf i n = .ok ((buf.drop i).take n) := by
  induction n generalizing i with
  | zero => simp [readBytes]
  | succ n ih =>
    have hi : i < buf.length := by omega
    rw [readBytes, List.getElem?_eq_getElem hi]
    simp only [ih (i := i + 1) (by omega), bind, Except.bind]
    rw [List.drop_eq_getElem_cons hi, List.take_succ_cons]

/-- The words as a function of the bytes. -/
def wordsOf {α : Type} (round : α → List UInt8 → α) : Nat → List UInt8 → α → α
  | 0, _, h => h
  | n + 1, l, h => wordsOf round n (l.drop 8) (round h (l.take 8))

section

variable {α : Type} {round last : α → List UInt8 → α}

theorem hashWords_ok {buf : List UInt8} {n i : Nat} {h : α} (hl : i + 8 * n ≤ buf.length) :
    hashWords round buf n i h = .ok (wordsOf round n (buf.drop i) h) := by
  induction n generalizing i h with
  | zero => rfl
  | succ n ih =>
    rw [hashWords, readBytes_ok (by omega)]
    simp only [bind, Except.bind]
    rw [ih (by omega), wordsOf, List.drop_drop]

theorem wordsOf_append {n : Nat} {l r : List UInt8} {h : α} (hl : 8 * n ≤ l.length) :
    wordsOf round n (l ++ r) h = wordsOf round n l h := by
  induction n generalizing l h with
  | zero => rfl
  | succ n ih =>
    rw [wordsOf, wordsOf, List.take_append_of_le_length (by omega), List.drop_append_of_le_length (by omega),
      ih (by rw [List.length_drop]; omega)]

theorem murmurBlocks_eq {l : List UInt8} {n : Nat} {h : α} (hn : n = l.length / 8) :
    murmurBlocks round last l h =
      if l.drop (8 * n) = [] then wordsOf round n l h else last (wordsOf round n l h) (l.drop (8 * n)) := by
  induction n generalizing l h with
  | zero =>
    have : l.length < 8 := by omega
    simp only [wordsOf, Nat.mul_zero, List.drop_zero]
    match l, this with
    | [], _ => rfl
    | [_], _ | [_, _], _ | [_, _, _], _ | [_, _, _, _], _ | [_, _, _, _, _], _ | [_, _, _, _, _, _], _
    | [_, _, _, _, _, _, _], _ => simp [murmurBlocks]
    | _ :: _ :: _ :: _ :: _ :: _ :: _ :: _ :: _, h => simp at h; omega
  | succ n ih =>
    match l, hn with
    | b0 :: b1 :: b2 :: b3 :: b4 :: b5 :: b6 :: b7 :: rest, hn =>
      rw [murmurBlocks, ih (by simp at hn; omega)]
      have e : 8 * (n + 1) = 8 * n + 8 := by omega
      simp only [wordsOf, e, List.drop_succ_cons, List.take_succ_cons, List.take_zero, List.drop_zero]
    | [], hn | [_], hn | [_, _], hn | [_, _, _], hn | [_, _, _, _], hn | [_, _, _, _, _], hn | [_, _, _, _, _, _], hn
    | [_, _, _, _, _, _, _], hn => simp at hn

end

theorem tdiv8 (n : Int) : n.tdiv 8 = if 0 ≤ n then n / 8 else -((-n) / 8) := by
  split
  · next h => exact Int.tdiv_eq_ediv_of_nonneg h
  · next h =>
    rw [← Int.tdiv_eq_ediv_of_nonneg (by omega), Int.neg_tdiv, Int.neg_neg]

/-- Lengths for which the hash function is undefined. -/
theorem murmurInt_neg {buf : List UInt8} {len : Int} {seed : UInt64} (h : len ≤ -8) : murmurInt buf len seed = .error .ub := by
  have : len.tdiv 8 < 0 := by rw [tdiv8]; split <;> omega
  simp only [murmurInt, if_pos this]

/-- The number of bytes read. -/
def bytesRead (len : Int) : Nat := if 0 ≤ len then len.toNat else (len + 8).toNat

theorem murmurInt_ok {buf : List UInt8} {len : Int} {seed : UInt64} (h : -8 < len) (hl : bytesRead len ≤ buf.length) :
    murmurInt buf len seed =
      (let t := buf.take (bytesRead len)
       let n := (len.tdiv 8).toNat
       let h := wordsOf (fun h k => murmurRound h (leWord k)) n t (seed ^^^ (UInt64.ofInt len * murmurM))
       let h := if t.drop (8 * n) = [] then h else (h ^^^ leWord (t.drop (8 * n))) * murmurM
       let h := h ^^^ (h >>> 47)
       let h := h * murmurM
       .ok (h ^^^ (h >>> 47))) := by
  have hneg : ¬ len.tdiv 8 < 0 := by rw [tdiv8]; split <;> omega
  have hsplit : bytesRead len = 8 * (len.tdiv 8).toNat + (len.emod 8).toNat := by
    have : len.emod 8 = len % 8 := rfl
    rw [tdiv8, bytesRead, this]
    split <;> omega
  simp only [murmurInt, if_neg hneg]
  rw [hashWords_ok (by omega), readBytes_ok (by omega)]
  simp only [bind, Except.bind, List.drop_zero]
  have e1 : wordsOf (fun h k => murmurRound h (leWord k)) (len.tdiv 8).toNat buf (seed ^^^ (UInt64.ofInt len * murmurM)) =
      wordsOf (fun h k => murmurRound h (leWord k)) (len.tdiv 8).toNat (buf.take (bytesRead len)) (seed ^^^ (UInt64.ofInt len * murmurM)) := by
    conv => lhs; rw [← List.take_append_drop (bytesRead len) buf]
    exact wordsOf_append (by rw [List.length_take]; omega)
  have e2 : (buf.drop (8 * (len.tdiv 8).toNat)).take (len.emod 8).toNat = (buf.take (bytesRead len)).drop (8 * (len.tdiv 8).toNat) := by
    rw [List.drop_take]
    congr 1
    omega
  rw [e1, e2]

theorem toInt32_bad (n : Nat) : toInt32 n ≤ -8 ↔ BadLength n := by
  unfold toInt32 BadLength
  split <;> omega

theorem bytesRead_le (n : Nat) : bytesRead (toInt32 n) ≤ n ∨ BadLength n := by
  unfold toInt32 BadLength bytesRead
  split <;> split <;> omega

theorem hashString_bad {s : Str} (h : BadLength s.length) (seed : UInt64) : hashString s seed = .error .ub :=
  murmurInt_neg ((toInt32_bad _).2 h)

theorem hashString_good {s : Str} (h : ¬ BadLength s.length) (seed : UInt64) : ∃ c, hashString s seed = .ok c := by
  have h1 : -8 < toInt32 s.length := by
    have := mt (toInt32_bad s.length).1 h
    omega
  have h2 := (bytesRead_le s.length).resolve_right h
  rw [hashString, murmurInt_ok h1 (by rw [List.length_append, List.length_singleton]; omega)]
  exact ⟨_, rfl⟩

/-- Only the first bytes matter. -/
theorem hashString_first {s t : Str} (hl : s.length = t.length) (ht : s.take (bytesRead (toInt32 s.length)) = t.take (bytesRead (toInt32 s.length)))
    (seed : UInt64) : hashString s seed = hashString t seed := by
  by_cases hb : BadLength s.length
  · rw [hashString_bad hb, hashString_bad (hl ▸ hb)]
  · have h1 : -8 < toInt32 s.length := by
      have := mt (toInt32_bad s.length).1 hb
      omega
    have h2 := (bytesRead_le s.length).resolve_right hb
    unfold hashString
    rw [← hl, murmurInt_ok h1 (by rw [List.length_append, List.length_singleton]; omega),
      murmurInt_ok h1 (by rw [List.length_append, List.length_singleton]; omega),
      List.take_append_of_le_length h2, List.take_append_of_le_length (by omega), ht]

theorem hashString_short {s : Str} (h : s.length < 2 ^ 31) (seed : UInt64) : hashString s seed = .ok (murmur64A s seed) := by
  have hm : s.length % 2 ^ 32 = s.length := Nat.mod_eq_of_lt (by omega)
  have hi : toInt32 s.length = (s.length : Int) := by
    unfold toInt32
    rw [hm, if_pos h]
  have hb : bytesRead (s.length : Int) = s.length := by
    unfold bytesRead
    split <;> omega
  have hd : ((s.length : Int).tdiv 8).toNat = s.length / 8 := by
    rw [tdiv8, if_pos (by omega)]
    omega
  have ho : UInt64.ofInt (s.length : Int) = UInt64.ofNat s.length := by
    have : ((s.length : Int) % 2 ^ 64).toNat = s.length := by omega
    rw [UInt64.ofInt, this]
  unfold hashString
  rw [hi, murmurInt_ok (by omega) (by rw [hb, List.length_append]; omega), hb, hd, ho,
    List.take_left' rfl]
  simp only [murmur64A, murmurBody]
  rw [murmurBlocks_eq rfl]

/-! ### The distances -/

theorem hashFull_bad {p : SymPair} (h : BadLength p.first.length ∨ BadLength p.second.length) : p.hashFull = .error .ub := by
  unfold SymPair.hashFull
  by_cases h1 : BadLength p.first.length
  · rw [hashString_bad h1]; rfl
  · obtain ⟨c, hc⟩ := hashString_good h1 0xDEADBEEF
    rw [hc]
    exact hashString_bad (h.resolve_left h1) c

theorem hashFull_good {p : SymPair} (h : ¬ (BadLength p.first.length ∨ BadLength p.second.length)) :
    ∃ c, p.hashFull = .ok c := by
  unfold SymPair.hashFull
  obtain ⟨c, hc⟩ := hashString_good (fun hb => h (.inl hb)) 0xDEADBEEF
  rw [hc]
  exact hashString_good (fun hb => h (.inr hb)) c

/-- The map with hash codes and the map without. -/
def HMemo.Is (hm : HMemo) (m : Memo) : Prop := hm.map Prod.snd = m ∧ ∀ e ∈ hm, e.2.1.hashFull = .ok e.1

theorem SymPair.eq_iff (p q : SymPair) : SymPair.eq p q = true ↔ p = q := by
  cases p; cases q
  simp [SymPair.eq]

attribute [local irreducible] SymPair.hashFull

theorem HMemo.Is.cons {e : UInt64} {k : SymPair} {d : Nat} {hm : HMemo} {m : Memo} :
    HMemo.Is ((e, k, d) :: hm) m ↔ ∃ m', m = (k, d) :: m' ∧ k.hashFull = .ok e ∧ HMemo.Is hm m' := by
  unfold HMemo.Is
  constructor
  · rintro ⟨rfl, h⟩
    exact ⟨_, rfl, h (e, k, d) (by simp), rfl, fun x hx => h x (List.mem_cons_of_mem _ hx)⟩
  · rintro ⟨m', rfl, h1, rfl, h2⟩
    refine ⟨rfl, fun x hx => ?_⟩
    rcases List.mem_cons.1 hx with rfl | hx
    · exact h1
    · exact h2 x hx

theorem code_matches {e c : UInt64} {k key : SymPair} (hk : k.hashFull = .ok e) (hc : key.hashFull = .ok c) :
    (e == c && SymPair.eq k key) = SymPair.matches key k := by
  rw [Bool.eq_iff_iff, SymPair.matches_iff, Bool.and_eq_true, SymPair.eq_iff]
  constructor
  · exact fun h => h.2
  · rintro rfl
    rw [hk] at hc
    cases hc
    simp

theorem HMemo.Is.get {hm : HMemo} {m : Memo} (h : hm.Is m) {key : SymPair} {c : UInt64} (hc : key.hashFull = .ok c) :
    hm.get c key = m.get key := by
  induction hm generalizing m with
  | nil => obtain ⟨rfl, _⟩ := h; rfl
  | cons x hm ih =>
    obtain ⟨e, k, d⟩ := x
    obtain ⟨m', rfl, h1, h2⟩ := HMemo.Is.cons.1 h
    rw [HMemo.get, Memo.get, code_matches h1 hc, ih h2]

theorem HMemo.Is.set {hm : HMemo} {m : Memo} (h : hm.Is m) {key : SymPair} {c : UInt64} (hc : key.hashFull = .ok c) (d : Nat) :
    (hm.set c key d).Is (m.set key d) := by
  induction hm generalizing m with
  | nil =>
    obtain ⟨rfl, _⟩ := h
    exact HMemo.Is.cons.2 ⟨[], rfl, hc, rfl, by simp⟩
  | cons x hm ih =>
    obtain ⟨e, k, y⟩ := x
    obtain ⟨m', rfl, h1, h2⟩ := HMemo.Is.cons.1 h
    rw [HMemo.set, Memo.set, code_matches h1 hc]
    split
    · exact HMemo.Is.cons.2 ⟨_, rfl, h1, h2⟩
    · exact HMemo.Is.cons.2 ⟨_, rfl, h1, ih h2⟩

/-- Where the hash function is defined, it does not matter. -/
theorem runFull_run {R : Type} {p : Prog R} {hm hm' : HMemo} {m : Memo} {r : R} (h : hm.Is m)
    (hr : p.runFull hm = .ok (r, hm')) : (p.run m).1 = r ∧ hm'.Is (p.run m).2 := by
  induction p generalizing hm m with
  | ret x => simp only [Prog.runFull, Except.ok.injEq, Prod.mk.injEq] at hr; obtain ⟨rfl, rfl⟩ := hr; exact ⟨rfl, h⟩
  | get key k ih =>
    simp only [Prog.runFull] at hr
    cases hc : key.hashFull with
    | error e => rw [hc] at hr; cases hr
    | ok c =>
      rw [hc] at hr
      simp only [h.get hc] at hr
      exact ih _ h hr
  | set key d k ih =>
    simp only [Prog.runFull] at hr
    cases hc : key.hashFull with
    | error e => rw [hc] at hr; cases hr
    | ok c =>
      rw [hc] at hr
      exact ih (h.set hc d) hr

/-- All keys that are looked up or stored. -/
def Prog.Keys {R : Type} (P : SymPair → Prop) : Prog R → Prop
  | .ret _ => True
  | .get key k => P key ∧ ∀ o, (k o).Keys P
  | .set key _ k => P key ∧ k.Keys P

theorem Prog.Keys.bind {R S : Type} {P : SymPair → Prop} {p : Prog R} {f : R → Prog S} (hp : p.Keys P)
    (hf : ∀ r, (f r).Keys P) : (p.bind f).Keys P := by
  induction p with
  | ret r => exact hf r
  | get key k ih => exact ⟨hp.1, fun o => ih o (hp.2 o)⟩
  | set key d k ih => exact ⟨hp.1, ih hp.2⟩

theorem Prog.Keys.mono {R : Type} {P Q : SymPair → Prop} {p : Prog R} (hp : p.Keys P) (h : ∀ k, P k → Q k) : p.Keys Q := by
  induction p with
  | ret r => trivial
  | get key k ih => exact ⟨h _ hp.1, fun o => ih o (hp.2 o)⟩
  | set key d k ih => exact ⟨h _ hp.1, ih hp.2⟩

theorem runFull_ok {R : Type} {p : Prog R} (hp : p.Keys fun k => ∃ c, k.hashFull = .ok c) (hm : HMemo) :
    ∃ r hm', p.runFull hm = .ok (r, hm') := by
  induction p generalizing hm with
  | ret r => exact ⟨r, hm, rfl⟩
  | get key k ih =>
    obtain ⟨⟨c, hc⟩, hk⟩ := hp
    simp only [Prog.runFull, hc]
    exact ih _ (hk _) hm
  | set key d k ih =>
    obtain ⟨⟨c, hc⟩, hk⟩ := hp
    simp only [Prog.runFull, hc]
    exact ih hk _

theorem stdBetween_keys (v w : Str) : (stdBetween v w).Keys (SuffixPair v w) := by
  induction hn : v.length + w.length using Nat.strongRecOn generalizing v w with
  | _ n ih =>
  subst hn
  rw [stdBetween.eq_def]
  have hself := SuffixPair.self v w
  refine ⟨hself, fun o => ?_⟩
  cases o with
  | some d => trivial
  | none =>
  match v, w, ih, hself with
  | [], w, _, hself => exact ⟨hself, trivial⟩
  | a :: v, [], _, hself => exact ⟨hself, trivial⟩
  | a0 :: s0, b0 :: t0, ih, hself =>
    dsimp only
    have hl := discard_suffix a0 s0 b0 t0
    generalize discard a0 s0 b0 t0 = r at hl ⊢
    obtain ⟨a, x, b, y⟩ := r
    simp only at hl ⊢
    obtain ⟨hv, hw⟩ := hl
    have hv' := (List.suffix_cons a x).trans hv
    have hw' := (List.suffix_cons b y).trans hw
    have lv := hv.length_le
    have lw := hw.length_le
    simp only [List.length_cons] at lv lw
    have key : ∀ {p q : Str} {f : Nat → Prog Nat}, p <:+ a0 :: s0 → q <:+ b0 :: t0 →
        p.length + q.length < (a0 :: s0).length + (b0 :: t0).length →
        (∀ d, (f d).Keys (SuffixPair (a0 :: s0) (b0 :: t0))) →
        ((stdBetween p q).bind f).Keys (SuffixPair (a0 :: s0) (b0 :: t0)) :=
      fun hp hq hl hf => .bind ((ih _ hl _ _ rfl).mono fun k hk => (SuffixPair.sub hp hq hl k hk).1) hf
    split
    · split <;> exact ⟨hself, trivial⟩
    refine key hv' hw (by simp only [List.length_cons]; omega) fun d => ?_
    split
    · exact ⟨hself, trivial⟩
    refine key hv hw' (by simp only [List.length_cons]; omega) fun d => ?_
    split
    · exact ⟨hself, trivial⟩
    refine key hv' hw' (by simp only [List.length_cons]; omega) fun d => ?_
    split <;> exact ⟨hself, trivial⟩

theorem transBetween_keys (v w : Str) : (transBetween v w).Keys (SuffixPair v w) := by
  induction hn : v.length + w.length using Nat.strongRecOn generalizing v w with
  | _ n ih =>
  subst hn
  rw [transBetween.eq_def]
  have hself := SuffixPair.self v w
  refine ⟨hself, fun o => ?_⟩
  cases o with
  | some d => trivial
  | none =>
  match v, w, ih, hself with
  | [], w, _, hself => exact ⟨hself, trivial⟩
  | a :: v, [], _, hself => exact ⟨hself, trivial⟩
  | a0 :: s0, b0 :: t0, ih, hself =>
    dsimp only
    have hl := discard_suffix a0 s0 b0 t0
    generalize discard a0 s0 b0 t0 = r at hl ⊢
    obtain ⟨a, x, b, y⟩ := r
    simp only at hl ⊢
    obtain ⟨hv, hw⟩ := hl
    have hv' := (List.suffix_cons a x).trans hv
    have hw' := (List.suffix_cons b y).trans hw
    have lv := hv.length_le
    have lw := hw.length_le
    simp only [List.length_cons] at lv lw
    have key : ∀ {p q : Str} {f : Nat → Prog Nat}, p <:+ a0 :: s0 → q <:+ b0 :: t0 →
        p.length + q.length < (a0 :: s0).length + (b0 :: t0).length →
        (∀ d, (f d).Keys (SuffixPair (a0 :: s0) (b0 :: t0))) →
        ((transBetween p q).bind f).Keys (SuffixPair (a0 :: s0) (b0 :: t0)) :=
      fun hp hq hl hf => .bind ((ih _ hl _ _ rfl).mono fun k hk => (SuffixPair.sub hp hq hl k hk).1) hf
    split
    · split <;> exact ⟨hself, trivial⟩
    refine key hv' hw (by simp only [List.length_cons]; omega) fun d => ?_
    split
    · exact ⟨hself, trivial⟩
    refine key hv hw' (by simp only [List.length_cons]; omega) fun d => ?_
    split
    · exact ⟨hself, trivial⟩
    refine key hv' hw' (by simp only [List.length_cons]; omega) fun d => ?_
    split
    · exact ⟨hself, trivial⟩
    split
    · have h1 := (suffixF_cons a x).1
      have h2 := (suffixF_cons b y).1
      have l1 := h1.length_le
      have l2 := h2.length_le
      refine key (h1.trans hv') (h2.trans hw') (by simp only [List.length_cons]; omega) fun d => ?_
      split <;> exact ⟨hself, trivial⟩
    · exact ⟨hself, trivial⟩

theorem msBetween_keys (v w : Str) : (msBetween v w).Keys (SuffixPair v w) := by
  induction hn : v.length + w.length using Nat.strongRecOn generalizing v w with
  | _ n ih =>
  subst hn
  rw [msBetween.eq_def]
  have hself := SuffixPair.self v w
  refine ⟨hself, fun o => ?_⟩
  cases o with
  | some d => trivial
  | none =>
  match v, w, ih, hself with
  | [], w, _, hself => exact ⟨hself, trivial⟩
  | a :: v, [], _, hself => exact ⟨hself, trivial⟩
  | a0 :: s0, b0 :: t0, ih, hself =>
    dsimp only
    have hl := discard_suffix a0 s0 b0 t0
    generalize discard a0 s0 b0 t0 = r at hl ⊢
    obtain ⟨a, x, b, y⟩ := r
    simp only at hl ⊢
    obtain ⟨hv, hw⟩ := hl
    have hv' := (List.suffix_cons a x).trans hv
    have hw' := (List.suffix_cons b y).trans hw
    have lv := hv.length_le
    have lw := hw.length_le
    simp only [List.length_cons] at lv lw
    have h1 := (suffixF_cons a x).1
    have h2 := (suffixF_cons b y).1
    have l1 := h1.length_le
    have l2 := h2.length_le
    have key : ∀ {p q : Str} {f : Nat → Prog Nat}, p <:+ a0 :: s0 → q <:+ b0 :: t0 →
        p.length + q.length < (a0 :: s0).length + (b0 :: t0).length →
        (∀ d, (f d).Keys (SuffixPair (a0 :: s0) (b0 :: t0))) →
        ((msBetween p q).bind f).Keys (SuffixPair (a0 :: s0) (b0 :: t0)) :=
      fun hp hq hl hf => .bind ((ih _ hl _ _ rfl).mono fun k hk => (SuffixPair.sub hp hq hl k hk).1) hf
    split
    · split <;> exact ⟨hself, trivial⟩
    refine key hv' hw (by simp only [List.length_cons]; omega) fun d => ?_
    split
    · exact ⟨hself, trivial⟩
    refine key hv hw' (by simp only [List.length_cons]; omega) fun d => ?_
    split
    · exact ⟨hself, trivial⟩
    refine key hv' hw' (by simp only [List.length_cons]; omega) fun d => ?_
    split
    · exact ⟨hself, trivial⟩
    split
    · refine key hv' (h2.trans hw') (by simp only [List.length_cons]; omega) fun d => ?_
      split
      · exact ⟨hself, trivial⟩
      split
      · refine key (h1.trans hv') hw' (by simp only [List.length_cons]; omega) fun d => ?_
        split <;> exact ⟨hself, trivial⟩
      · exact ⟨hself, trivial⟩
    · split
      · refine key (h1.trans hv') hw' (by simp only [List.length_cons]; omega) fun d => ?_
        split <;> exact ⟨hself, trivial⟩
      · exact ⟨hself, trivial⟩

theorem between_keys (A : Algorithm) (v w : Str) : (between A v w).Keys (SuffixPair v w) := by
  cases A
  · exact stdBetween_keys v w
  · exact transBetween_keys v w
  · exact msBetween_keys v w

theorem between_get (A : Algorithm) (v w : Str) : ∃ k, between A v w = .get (SymPair.make v w) k := by
  cases A
  · exact ⟨_, stdBetween.eq_def v w⟩
  · exact ⟨_, transBetween.eq_def v w⟩
  · exact ⟨_, msBetween.eq_def v w⟩

theorem make_lengths (v w : Str) (P : Nat → Prop) :
    (P (SymPair.make v w).first.length ∨ P (SymPair.make v w).second.length) ↔ P v.length ∨ P w.length := by
  unfold SymPair.make
  split
  · rfl
  · exact or_comm

theorem callSeq_keys (A : Algorithm) (calls : List (Str × Str)) :
    (callSeq A calls).Keys fun k => ∃ c ∈ calls, SuffixPair c.1 c.2 k := by
  induction calls with
  | nil => trivial
  | cons c calls ih =>
    obtain ⟨v, w⟩ := c
    refine ((between_keys A v w).mono fun k hk => ⟨(v, w), by simp, hk⟩).bind fun d => ?_
    exact (ih.mono fun k ⟨c, hc, hk⟩ => ⟨c, List.mem_cons_of_mem _ hc, hk⟩).bind fun ds => trivial

end Lev
