import Verif.Spec.WireGrammar
import Verif.Proofs.Wire

/-!
The parser of messages accepts what the description says.
-/

namespace Lev

open Spec

theorem Number.ne {k v : Nat} {bs : List UInt8} (h : Number k bs v) : bs ≠ [] := by
  obtain ⟨init, last, rfl, _⟩ := h.shape
  simp

theorem Tag.ne {num wire : Nat} {bs : List UInt8} (h : Tag bs num wire) : bs ≠ [] := by
  obtain ⟨v, hv, _⟩ := h.bits
  exact Number.ne hv

theorem readVarintN_iff {k v : Nat} {bs rest : List UInt8} :
    readVarintN k bs = some (v, rest) ↔ ∃ ns, bs = ns ++ rest ∧ Number k ns v := by
  induction k generalizing bs v with
  | zero =>
    simp only [readVarintN, reduceCtorEq, false_iff]
    rintro ⟨ns, _, h⟩
    exact Number.ne h (List.eq_nil_of_length_eq_zero (by have := h.short; omega))
  | succ k ih =>
    cases bs with
    | nil =>
      simp only [readVarintN, reduceCtorEq, false_iff]
      rintro ⟨ns, h1, h⟩
      exact Number.ne h (List.append_eq_nil_iff.1 h1.symm).1
    | cons b bs =>
      simp only [readVarintN]
      by_cases hb : b.toNat < 128
      · rw [if_pos hb]
        simp only [Option.some.injEq, Prod.mk.injEq]
        constructor
        · rintro ⟨rfl, rfl⟩
          exact ⟨[b], rfl, by simp, ⟨[], b, rfl, by simp, hb⟩, by simp [base128]; omega⟩
        · rintro ⟨ns, h1, h⟩
          obtain ⟨init, last, rfl, hi, hl⟩ := h.shape
          cases init with
          | nil =>
            simp only [List.nil_append, List.cons_append, List.cons.injEq] at h1
            obtain ⟨rfl, rfl⟩ := h1
            refine ⟨?_, rfl⟩
            rw [h.value]
            simp [base128]; omega
          | cons c init =>
            simp only [List.cons_append, List.cons.injEq] at h1
            have := hi c (by simp)
            rw [← h1.1] at this
            omega
      · rw [if_neg hb]
        constructor
        · intro h
          split at h
          · cases h
          · next v' rest' hv =>
            simp only [Option.some.injEq, Prod.mk.injEq] at h
            obtain ⟨rfl, rfl⟩ := h
            obtain ⟨ns, rfl, hn⟩ := ih.1 hv
            obtain ⟨init, last, rfl, hi, hl⟩ := hn.shape
            refine ⟨b :: (init ++ [last]), rfl, by have := hn.short; simp at this ⊢; omega, ⟨b :: init, last, rfl, ?_, hl⟩, ?_⟩
            · intro c hc
              rcases List.mem_cons.1 hc with rfl | hc
              · omega
              · exact hi c hc
            · rw [hn.value]
              have := b.toNat_lt
              simp only [base128]
              omega
        · rintro ⟨ns, h1, h⟩
          obtain ⟨init, last, rfl, hi, hl⟩ := h.shape
          cases init with
          | nil =>
            simp only [List.nil_append, List.cons_append, List.cons.injEq] at h1
            rw [h1.1] at hb
            exact absurd hl hb
          | cons c init =>
            simp only [List.cons_append, List.cons.injEq] at h1
            obtain ⟨rfl, rfl⟩ := h1
            have hs := h.short
            have hr : readVarintN k (init ++ [last] ++ rest) = some (base128 (init ++ [last]), rest) :=
              ih.2 ⟨init ++ [last], rfl, by simp at hs ⊢; omega, ⟨init, last, rfl, fun x hx => hi x (by simp [hx]), hl⟩, rfl⟩
            rw [hr]
            simp only [Option.some.injEq, Prod.mk.injEq, and_true]
            rw [h.value]
            have := b.toNat_lt
            simp only [List.cons_append, base128]
            omega

theorem readTag_iff {bs rest : List UInt8} {tag : Nat} : readTag bs = some (tag, rest) ↔
    ∃ ts v, bs = ts ++ rest ∧ Number 5 ts v ∧ tag = v % 2 ^ 32 := by
  simp only [readTag, Option.map_eq_some_iff, Prod.exists, Prod.mk.injEq]
  constructor
  · rintro ⟨v, r, h, rfl, rfl⟩
    obtain ⟨ts, h1, h2⟩ := readVarintN_iff.1 h
    exact ⟨ts, v, h1, h2, rfl⟩
  · rintro ⟨ts, v, h1, h2, rfl⟩
    exact ⟨v, rest, readVarintN_iff.2 ⟨ts, h1, h2⟩, rfl, rfl⟩

theorem readTag_of {ts rest : List UInt8} {num wire : Nat} (h : Tag ts num wire) :
    readTag (ts ++ rest) = some (8 * num + wire, rest) := by
  obtain ⟨v, h1, h2⟩ := h.bits
  exact readTag_iff.2 ⟨ts, v, rfl, h1, h2.symm⟩

theorem tag_of {bs rest : List UInt8} {tag : Nat} (h : readTag bs = some (tag, rest)) (h0 : tag / 8 ≠ 0) :
    ∃ ts, bs = ts ++ rest ∧ Tag ts (tag / 8) (tag % 8) := by
  obtain ⟨ts, v, h1, h2, h3⟩ := readTag_iff.1 h
  exact ⟨ts, h1, ⟨v, h2, by omega⟩, by omega, h0⟩

theorem takeN_iff {n : Nat} {bs a b : List UInt8} : takeN n bs = some (a, b) ↔ bs = a ++ b ∧ a.length = n := by
  unfold takeN
  split
  · next h =>
    simp only [Option.some.injEq, Prod.mk.injEq]
    constructor
    · rintro ⟨rfl, rfl⟩
      exact ⟨(List.take_append_drop ..).symm, by simp; omega⟩
    · rintro ⟨rfl, rfl⟩
      simp
  · next h =>
    simp only [reduceCtorEq, false_iff]
    rintro ⟨rfl, rfl⟩
    simp at h

theorem readPlain_iff {wire : Nat} {bs rest : List UInt8} {p : Payload} :
    readPlain wire bs = some (p, rest) ↔ ∃ ps, bs = ps ++ rest ∧ Plain wire ps p := by
  constructor
  · intro h
    unfold readPlain at h
    split at h
    · simp only [readVarint, Option.map_eq_some_iff, Prod.exists, Prod.mk.injEq] at h
      obtain ⟨v, r, ⟨v', r', h1, rfl, rfl⟩, rfl, rfl⟩ := h
      obtain ⟨ns, h2, h3⟩ := readVarintN_iff.1 h1
      exact ⟨ns, h2, .varint h3⟩
    · simp only [Option.map_eq_some_iff, Prod.exists, Prod.mk.injEq] at h
      obtain ⟨a, b, h1, rfl, rfl⟩ := h
      obtain ⟨h2, h3⟩ := takeN_iff.1 h1
      exact ⟨a, h2, .eight h3⟩
    · split at h
      · cases h
      · next len r hl =>
        simp only [Option.map_eq_some_iff, Prod.exists, Prod.mk.injEq] at h
        obtain ⟨a, b, h1, rfl, rfl⟩ := h
        obtain ⟨rfl, h3⟩ := takeN_iff.1 h1
        obtain ⟨ls, h4, h5⟩ := readVarintN_iff.1 hl
        exact ⟨ls ++ a, by rw [h4, List.append_assoc], .bytes (by rw [h3]; exact h5)⟩
    · simp only [Option.map_eq_some_iff, Prod.exists, Prod.mk.injEq] at h
      obtain ⟨a, b, h1, rfl, rfl⟩ := h
      obtain ⟨h2, h3⟩ := takeN_iff.1 h1
      exact ⟨a, h2, .four h3⟩
    · cases h
  · rintro ⟨ps, rfl, h⟩
    cases h with
    | @varint _ v h =>
      have := (readVarintN_iff (rest := rest)).2 ⟨ps, rfl, h⟩
      simp only [readPlain, readVarint, this, Option.map_some]
    | eight h =>
      have := (takeN_iff (b := rest)).2 ⟨rfl, h⟩
      simp only [readPlain, this, Option.map_some]
    | @bytes ls bs h =>
      have h1 := (readVarintN_iff (rest := bs ++ rest)).2 ⟨ls, rfl, h⟩
      have h2 := (takeN_iff (b := rest)).2 ⟨rfl, (rfl : bs.length = bs.length)⟩
      simp only [readPlain, List.append_assoc, h1, h2, Option.map_some]
    | four h =>
      have := (takeN_iff (b := rest)).2 ⟨rfl, h⟩
      simp only [readPlain, this, Option.map_some]

theorem Plain.wire {wire : Nat} {ps : List UInt8} {p : Payload} (h : Plain wire ps p) : wire ≠ 3 ∧ wire ≠ 4 := by
  cases h <;> decide

/-! ### Groups -/

theorem skipGroup_sound {fuel d num : Nat} {bs rest : List UInt8} (h : skipGroup fuel d num bs = some rest) :
    ∃ inner us gs, bs = inner ++ us ++ rest ∧ Fields d inner gs ∧ Tag us num 4 := by
  induction fuel generalizing d num bs rest with
  | zero => cases h
  | succ fuel ih =>
    simp only [skipGroup] at h
    split at h
    · cases h
    · next tag r ht =>
      by_cases h0 : tag / 8 = 0
      · rw [if_pos h0] at h; cases h
      rw [if_neg h0] at h
      obtain ⟨ts, rfl, htag⟩ := tag_of ht h0
      by_cases h4 : tag % 8 = 4
      · rw [if_pos h4] at h
        split at h
        · next hn =>
          cases h
          rw [h4, hn] at htag
          exact ⟨[], ts, [], rfl, .nil, htag⟩
        · cases h
      · rw [if_neg h4] at h
        by_cases h3 : tag % 8 = 3
        · rw [if_pos h3] at h
          split at h
          · cases h
          · next d' =>
            split at h
            · cases h
            · next r' hr =>
              obtain ⟨i1, u1, g1, rfl, hf1, ht1⟩ := ih hr
              obtain ⟨i2, u2, g2, rfl, hf2, ht2⟩ := ih h
              rw [h3] at htag
              exact ⟨ts ++ i1 ++ u1 ++ i2, u2, _, by simp only [List.append_assoc], .group htag hf1 ht1 hf2, ht2⟩
        · rw [if_neg h3] at h
          split at h
          · cases h
          · next p r' hp =>
            obtain ⟨ps, rfl, hps⟩ := readPlain_iff.1 hp
            obtain ⟨i2, u2, g2, rfl, hf2, ht2⟩ := ih h
            exact ⟨ts ++ ps ++ i2, u2, _, by simp only [List.append_assoc], .plain htag hps hf2, ht2⟩

theorem skipGroup_complete {d num : Nat} {inner us : List UInt8} {gs : List (Nat × Payload)} (hf : Fields d inner gs)
    (hu : Tag us num 4) (rest : List UInt8) (fuel : Nat) (hfuel : inner.length < fuel) :
    skipGroup fuel d num (inner ++ us ++ rest) = some rest := by
  induction hf generalizing fuel num us rest with
  | nil =>
    obtain ⟨fuel, rfl⟩ : ∃ k, fuel = k + 1 := ⟨fuel - 1, by omega⟩
    have := hu.num
    simp only [List.nil_append, skipGroup, readTag_of hu]
    rw [if_neg (by omega), if_pos (by omega), if_pos (by omega)]
  | @plain d num' wire ts ps rest' p fs ht hp _ ih =>
    obtain ⟨fuel, rfl⟩ : ∃ k, fuel = k + 1 := ⟨fuel - 1, by omega⟩
    have h1 := ht.num
    have h2 := ht.wire
    have h3 := Plain.wire hp
    have hl : 0 < ts.length := List.length_pos_iff.2 (Tag.ne ht)
    have hr := (readPlain_iff (rest := rest' ++ us ++ rest)).2 ⟨ps, rfl, hp⟩
    have e : ts ++ ps ++ rest' ++ us ++ rest = ts ++ (ps ++ (rest' ++ us ++ rest)) := by simp only [List.append_assoc]
    simp only [skipGroup, e, readTag_of ht]
    rw [if_neg (by omega), if_neg (by omega), if_neg (by omega), show (8 * num' + wire) % 8 = wire by omega, hr]
    exact ih hu rest fuel (by simp only [List.length_append] at hfuel; omega)
  | @group d num' ts inner vs rest' gs fs ht _ hv _ ih1 ih2 =>
    obtain ⟨fuel, rfl⟩ : ∃ k, fuel = k + 1 := ⟨fuel - 1, by omega⟩
    have h1 := ht.num
    have hl : 0 < ts.length := List.length_pos_iff.2 (Tag.ne ht)
    simp only [List.length_append] at hfuel
    have e : ts ++ inner ++ vs ++ rest' ++ us ++ rest = ts ++ (inner ++ vs ++ (rest' ++ us ++ rest)) := by
      simp only [List.append_assoc]
    simp only [skipGroup, e, readTag_of ht]
    rw [if_neg (by omega), if_neg (by omega), if_pos (by omega), show (8 * num' + 3) / 8 = num' by omega,
      ih1 hv _ fuel (by omega)]
    exact ih2 hu rest fuel (by omega)

/-! ### Fields -/

theorem readFields_sound {d fuel : Nat} {bs : List UInt8} {fs : List (Nat × Payload)} (h : readFields d fuel bs = some fs) :
    Fields d bs fs := by
  induction fuel generalizing bs fs with
  | zero =>
    cases bs with
    | nil => simp only [readFields, Option.some.injEq] at h; subst h; exact .nil
    | cons b bs => cases h
  | succ fuel ih =>
    cases bs with
    | nil => simp only [readFields, Option.some.injEq] at h; subst h; exact .nil
    | cons b bs =>
      simp only [readFields] at h
      generalize b :: bs = cs at h
      split at h
      · cases h
      · next num p rest hr =>
        simp only [Option.map_eq_some_iff] at h
        obtain ⟨fs, h, rfl⟩ := h
        have hf := ih h
        simp only [readField] at hr
        split at hr
        · cases hr
        · next tag r ht =>
          by_cases h0 : tag / 8 = 0
          · rw [if_pos h0] at hr; cases hr
          rw [if_neg h0] at hr
          obtain ⟨ts, rfl, htag⟩ := tag_of ht h0
          by_cases h3 : tag % 8 = 3
          · rw [if_pos h3] at hr
            split at hr
            · cases hr
            · next d' =>
              simp only [Option.map_eq_some_iff, Prod.mk.injEq] at hr
              obtain ⟨r', hr, rfl, rfl, rfl⟩ := hr
              obtain ⟨inner, us, gs, rfl, hg, hu⟩ := skipGroup_sound hr
              rw [h3] at htag
              have := Fields.group htag hg hu hf
              simpa only [List.append_assoc] using this
          · rw [if_neg h3] at hr
            simp only [Option.map_eq_some_iff, Prod.exists, Prod.mk.injEq] at hr
            obtain ⟨p', r', hr, rfl, rfl, rfl⟩ := hr
            obtain ⟨ps, rfl, hps⟩ := readPlain_iff.1 hr
            have := Fields.plain htag hps hf
            simpa only [List.append_assoc] using this

theorem readFields_complete {d : Nat} {bs : List UInt8} {fs : List (Nat × Payload)} (h : Fields d bs fs) (fuel : Nat)
    (hfuel : bs.length ≤ fuel) : readFields d fuel bs = some fs := by
  induction h generalizing fuel with
  | nil => exact readFields_nil ..
  | @plain d num wire ts ps rest p fs ht hp _ ih =>
    have h1 := ht.num
    have h2 := ht.wire
    have h3 := Plain.wire hp
    have hl : 0 < ts.length := List.length_pos_iff.2 (Tag.ne ht)
    simp only [List.length_append] at hfuel
    have hr := (readPlain_iff (rest := rest)).2 ⟨ps, rfl, hp⟩
    have hfield : readField d (ts ++ ps ++ rest) = some (num, p, rest) := by
      simp only [readField, List.append_assoc, readTag_of ht]
      rw [if_neg (by omega), if_neg (by omega), show (8 * num + wire) % 8 = wire by omega, hr]
      simp only [Option.map_some, Option.some.injEq, Prod.mk.injEq, and_true]
      omega
    obtain ⟨fuel, rfl⟩ : ∃ k, fuel = k + 1 := ⟨fuel - 1, by omega⟩
    have hne : ts ++ ps ++ rest ≠ [] := by simp [Tag.ne ht]
    obtain ⟨b, bs, e⟩ := List.exists_cons_of_ne_nil hne
    rw [e] at hfield ⊢
    simp only [readFields, hfield, ih fuel (by omega), Option.map_some]
  | @group d num ts inner us rest gs fs ht hi hu _ _ ih =>
    have h1 := ht.num
    have hl : 0 < ts.length := List.length_pos_iff.2 (Tag.ne ht)
    have hl' : 0 < us.length := List.length_pos_iff.2 (Tag.ne hu)
    simp only [List.length_append] at hfuel
    have hs := skipGroup_complete hi hu rest (inner ++ us ++ rest).length (by simp only [List.length_append]; omega)
    have hfield : readField (d + 1) (ts ++ inner ++ us ++ rest) = some (num, .group, rest) := by
      have e : ts ++ inner ++ us ++ rest = ts ++ (inner ++ us ++ rest) := by simp only [List.append_assoc]
      simp only [readField, e, readTag_of ht]
      rw [if_neg (by omega), if_pos (by omega), show (8 * num + 3) / 8 = num by omega, hs]
      rfl
    obtain ⟨fuel, rfl⟩ : ∃ k, fuel = k + 1 := ⟨fuel - 1, by omega⟩
    have hne : ts ++ inner ++ us ++ rest ≠ [] := by simp [Tag.ne ht]
    obtain ⟨b, bs, e⟩ := List.exists_cons_of_ne_nil hne
    rw [e] at hfield ⊢
    simp only [readFields, hfield, ih fuel (by omega), Option.map_some]

theorem readFields_iff {d : Nat} {bs : List UInt8} {fs : List (Nat × Payload)} :
    readFields d bs.length bs = some fs ↔ Fields d bs fs :=
  ⟨readFields_sound, fun h => readFields_complete h _ (Nat.le_refl _)⟩

/-! ### Messages -/

theorem readPacked_sound {fuel : Nat} {bs : List UInt8} {vs : List Nat} (h : readPacked fuel bs = some vs) : Packed bs vs := by
  induction fuel generalizing bs vs with
  | zero =>
    cases bs with
    | nil => simp only [readPacked, Option.some.injEq] at h; subst h; exact .nil
    | cons b bs => cases h
  | succ fuel ih =>
    cases bs with
    | nil => simp only [readPacked, Option.some.injEq] at h; subst h; exact .nil
    | cons b bs =>
      simp only [readPacked] at h
      generalize b :: bs = cs at h
      split at h
      · cases h
      · next v rest hr =>
        simp only [Option.map_eq_some_iff] at h
        obtain ⟨vs, h, rfl⟩ := h
        simp only [readVarint, Option.map_eq_some_iff, Prod.exists, Prod.mk.injEq] at hr
        obtain ⟨v', r', hr, rfl, rfl⟩ := hr
        obtain ⟨ns, rfl, hn⟩ := readVarintN_iff.1 hr
        exact .cons hn (ih h)

theorem readPacked_complete {bs : List UInt8} {vs : List Nat} (h : Packed bs vs) (fuel : Nat) (hfuel : bs.length ≤ fuel) :
    readPacked fuel bs = some vs := by
  induction h generalizing fuel with
  | nil => exact readPacked_nil _
  | @cons ns rest v vs hn _ ih =>
    have hl : 0 < ns.length := List.length_pos_iff.2 (Number.ne hn)
    simp only [List.length_append] at hfuel
    have hr : readVarint (ns ++ rest) = some (v % 2 ^ 64, rest) := by
      simp only [readVarint, readVarintN_iff.2 ⟨ns, rfl, hn⟩, Option.map_some]
    obtain ⟨fuel, rfl⟩ : ∃ k, fuel = k + 1 := ⟨fuel - 1, by omega⟩
    have hne : ns ++ rest ≠ [] := by simp [Number.ne hn]
    obtain ⟨b, bs, e⟩ := List.exists_cons_of_ne_nil hne
    rw [e] at hr ⊢
    simp only [readPacked, hr, ih fuel (by omega), Option.map_some]

theorem readPacked_iff {bs : List UInt8} {vs : List Nat} : readPacked bs.length bs = some vs ↔ Packed bs vs :=
  ⟨readPacked_sound, fun h => readPacked_complete h _ (Nat.le_refl _)⟩

/-- The last number among the fields, `d` without one. -/
def lastNumberOr (d k : Nat) (fs : List (Nat × Payload)) : Nat :=
  ((fs.filterMap fun f => match f.2 with
    | .varint v => if f.1 = k then some v else none
    | _ => none).getLast?).getD d

theorem lastNumberOr_cons (d k : Nat) (f : Nat × Payload) (fs : List (Nat × Payload)) :
    lastNumberOr d k (f :: fs) = lastNumberOr (match f.2 with
      | .varint v => if f.1 = k then v else d
      | _ => d) k fs := by
  obtain ⟨num, p⟩ := f
  have key : ∀ (v : Nat) (l : List Nat), (v :: l).getLast?.getD d = l.getLast?.getD v := by
    intro v l
    cases l with
    | nil => rfl
    | cons w l => rw [List.getLast?_cons_cons, List.getLast?_eq_some_getLast (by simp)]; rfl
  cases p with
  | varint v =>
    by_cases hk : num = k
    · simp only [lastNumberOr, List.filterMap_cons, hk, if_true]
      exact key v _
    · simp only [lastNumberOr, List.filterMap_cons, hk, if_false]
  | bytes bs => simp only [lastNumberOr, List.filterMap_cons]
  | fixed bs => simp only [lastNumberOr, List.filterMap_cons]
  | group => simp only [lastNumberOr, List.filterMap_cons]

theorem foldl_applyEdge (fs : List (Nat × Payload)) (e : MsgEdge) (n : Nat) (hn : e.label = UInt32.ofNat n) :
    fs.foldl applyEdge e = ⟨lastNumberOr e.source 1 fs, UInt32.ofNat (lastNumberOr n 2 fs), lastNumberOr e.target 3 fs⟩ := by
  induction fs generalizing e n with
  | nil => obtain ⟨a, b, c⟩ := e; simp only at hn; subst hn; rfl
  | cons f fs ih =>
    obtain ⟨num, p⟩ := f
    rw [List.foldl_cons]
    cases p with
    | varint v =>
      by_cases h1 : num = 1
      · subst h1; rw [show applyEdge e (1, .varint v) = { e with source := v } from rfl, ih { e with source := v } n hn]; simp [lastNumberOr_cons]
      by_cases h2 : num = 2
      · subst h2
        rw [show applyEdge e (2, .varint v) = { e with label := UInt32.ofNat v } from rfl, ih _ v rfl]
        simp [lastNumberOr_cons]
      by_cases h3 : num = 3
      · subst h3; rw [show applyEdge e (3, .varint v) = { e with target := v } from rfl, ih { e with target := v } n hn]; simp [lastNumberOr_cons]
      have : applyEdge e (num, .varint v) = e := by
        unfold applyEdge
        split
        · next h => cases h; exact absurd rfl h1
        · next h => cases h; exact absurd rfl h2
        · next h => cases h; exact absurd rfl h3
        · rfl
      rw [this, ih e n hn]
      simp only [lastNumberOr_cons, h1, h2, h3, if_false]
    | bytes bs => rw [show applyEdge e (num, .bytes bs) = e by unfold applyEdge; split <;> first | rfl | (next h => cases h), ih e n hn]; simp only [lastNumberOr_cons]
    | fixed bs => rw [show applyEdge e (num, .fixed bs) = e by unfold applyEdge; split <;> first | rfl | (next h => cases h), ih e n hn]; simp only [lastNumberOr_cons]
    | group => rw [show applyEdge e (num, .group) = e by unfold applyEdge; split <;> first | rfl | (next h => cases h), ih e n hn]; simp only [lastNumberOr_cons]

theorem decodeEdge_iff {bs : List UInt8} {e : MsgEdge} : decodeEdge bs = some e ↔ EdgeBytes bs e := by
  simp only [decodeEdge, Option.map_eq_some_iff]
  constructor
  · rintro ⟨fs, h, rfl⟩
    refine ⟨fs, readFields_iff.1 h, ?_⟩
    rw [foldl_applyEdge fs ⟨0, 0, 0⟩ 0 rfl]
    exact ⟨rfl, rfl, rfl⟩
  · rintro ⟨fs, h, h1, h2, h3⟩
    refine ⟨fs, readFields_iff.2 h, ?_⟩
    rw [foldl_applyEdge fs ⟨0, 0, 0⟩ 0 rfl]
    obtain ⟨a, b, c⟩ := e
    simp only at h1 h2 h3
    subst h1 h2 h3
    rfl

/-! ### The fields of a dictionary -/

section
variable {k num v : Nat} {p : Payload} {bs : List UInt8} {fs : List (Nat × Payload)} {vs : List Nat} {es : List MsgEdge}

theorem repeated_skip (h : num = k → p = .group ∨ ∃ bs, p = .fixed bs) :
    Repeated k ((num, p) :: fs) vs ↔ Repeated k fs vs := by
  refine ⟨fun hr => ?_, .other h⟩
  cases hr with
  | one => rcases h rfl with h | ⟨_, h⟩ <;> cases h
  | many => rcases h rfl with h | ⟨_, h⟩ <;> cases h
  | other _ hr => exact hr

theorem repeated_one : Repeated k ((k, .varint v) :: fs) vs ↔ ∃ vs', Repeated k fs vs' ∧ vs = v :: vs' := by
  constructor
  · intro hr
    cases hr with
    | one hr => exact ⟨_, hr, rfl⟩
    | other h _ => rcases h rfl with h | ⟨_, h⟩ <;> cases h
  · rintro ⟨vs', h, rfl⟩
    exact .one h

theorem repeated_many : Repeated k ((k, .bytes bs) :: fs) vs ↔
    ∃ us vs', Packed bs us ∧ Repeated k fs vs' ∧ vs = us ++ vs' := by
  constructor
  · intro hr
    cases hr with
    | many hp hr => exact ⟨_, _, hp, hr, rfl⟩
    | other h _ => rcases h rfl with h | ⟨_, h⟩ <;> cases h
  · rintro ⟨us, vs', hp, h, rfl⟩
    exact .many hp h

theorem edgeFields_skip (h : num = 3 → ∀ bs, p ≠ .bytes bs) : EdgeFields ((num, p) :: fs) es ↔ EdgeFields fs es := by
  refine ⟨fun hr => ?_, .other h⟩
  cases hr with
  | edge => exact absurd rfl (h rfl _)
  | other _ hr => exact hr

theorem edgeFields_edge : EdgeFields ((3, .bytes bs) :: fs) es ↔ ∃ e es', EdgeBytes bs e ∧ EdgeFields fs es' ∧ es = e :: es' := by
  constructor
  · intro hr
    cases hr with
    | edge he hr => exact ⟨_, _, he, hr, rfl⟩
    | other h _ => exact absurd rfl (h rfl _)
  · rintro ⟨e, es', he, h, rfl⟩
    exact .edge he h

/-- What the fields add to a message. -/
structure MsgAdds (m : Msg) (fs : List (Nat × Payload)) (m' : Msg) : Prop where
  ids : ∃ vs, Repeated 1 fs vs ∧ m'.nodeIds = m.nodeIds ++ vs
  fins : ∃ vs, Repeated 2 fs vs ∧ m'.finalIds = m.finalIds ++ vs
  edges : ∃ es, EdgeFields fs es ∧ m'.edges = m.edges ++ es
  root : m'.rootId = lastNumberOr m.rootId 4 fs
  size : m'.size = lastNumberOr m.size 5 fs

theorem adds_iff {m m' : Msg} : MsgAdds m fs m' ↔ (∃ vs, Repeated 1 fs vs ∧ m'.nodeIds = m.nodeIds ++ vs) ∧
    (∃ vs, Repeated 2 fs vs ∧ m'.finalIds = m.finalIds ++ vs) ∧ (∃ es, EdgeFields fs es ∧ m'.edges = m.edges ++ es) ∧
    m'.rootId = lastNumberOr m.rootId 4 fs ∧ m'.size = lastNumberOr m.size 5 fs :=
  ⟨fun ⟨a, b, c, d, e⟩ => ⟨a, b, c, d, e⟩, fun ⟨a, b, c, d, e⟩ => ⟨a, b, c, d, e⟩⟩

theorem adds_skip {m m' : Msg} (h1 : num = 1 → p = .group ∨ ∃ bs, p = .fixed bs) (h2 : num = 2 → p = .group ∨ ∃ bs, p = .fixed bs)
    (h3 : num = 3 → ∀ bs, p ≠ .bytes bs) (h4 : num = 4 → ∀ v, p ≠ .varint v) (h5 : num = 5 → ∀ v, p ≠ .varint v) :
    MsgAdds m ((num, p) :: fs) m' ↔ MsgAdds m fs m' := by
  have hl : ∀ d k, (num = k → ∀ v, p ≠ .varint v) → lastNumberOr d k ((num, p) :: fs) = lastNumberOr d k fs := by
    intro d k h
    rw [lastNumberOr_cons]
    cases p with
    | varint v =>
      have : num ≠ k := fun hk => h hk v rfl
      simp only [this, if_false]
    | bytes bs => rfl
    | fixed bs => rfl
    | group => rfl
  simp only [adds_iff, repeated_skip h1, repeated_skip h2, edgeFields_skip h3, hl _ 4 h4, hl _ 5 h5]

theorem adds_cons {m m' : Msg} : MsgAdds m ((num, p) :: fs) m' ↔ ∃ m1, applyField m (num, p) = some m1 ∧ MsgAdds m1 fs m' := by
  have skip : (num = 1 → p = .group ∨ ∃ bs, p = .fixed bs) → (num = 2 → p = .group ∨ ∃ bs, p = .fixed bs) →
      (num = 3 → ∀ bs, p ≠ .bytes bs) → (num = 4 → ∀ v, p ≠ .varint v) → (num = 5 → ∀ v, p ≠ .varint v) →
      applyField m (num, p) = some m →
      (MsgAdds m ((num, p) :: fs) m' ↔ ∃ m1, applyField m (num, p) = some m1 ∧ MsgAdds m1 fs m') := by
    intro h1 h2 h3 h4 h5 h
    rw [adds_skip h1 h2 h3 h4 h5, h]
    simp
  have hno : ∀ {num : Nat} {p : Payload}, (∀ v, p ≠ .varint v) → (∀ bs, p ≠ .bytes bs) → applyField m (num, p) = some m := by
    intro num p h1 h2
    unfold applyField
    split <;> first
      | rfl
      | (next h => cases h; exact absurd rfl (h1 _))
      | (next h => cases h; exact absurd rfl (h2 _))
  cases p with
  | group => exact skip (fun _ => .inl rfl) (fun _ => .inl rfl) (by simp) (by simp) (by simp) (hno (by simp) (by simp))
  | fixed bs =>
    exact skip (fun _ => .inr ⟨_, rfl⟩) (fun _ => .inr ⟨_, rfl⟩) (by simp) (by simp) (by simp) (hno (by simp) (by simp))
  | varint v =>
    by_cases h1 : num = 1
    · subst h1
      rw [show applyField m (1, .varint v) = some { m with nodeIds := m.nodeIds ++ [v] } from rfl]
      simp only [adds_iff, repeated_one, repeated_skip (k := 2) (num := 1) (by simp), edgeFields_skip (num := 1) (by simp),
        lastNumberOr_cons, Option.some.injEq, exists_eq_left']
      refine and_congr ⟨?_, ?_⟩ (and_congr .rfl (and_congr .rfl (and_congr (by simp) (by simp))))
      · rintro ⟨_, ⟨vs', h, rfl⟩, e⟩; exact ⟨vs', h, by simpa using e⟩
      · rintro ⟨vs', h, e⟩; exact ⟨_, ⟨vs', h, rfl⟩, by simpa using e⟩
    by_cases h2 : num = 2
    · subst h2
      rw [show applyField m (2, .varint v) = some { m with finalIds := m.finalIds ++ [v] } from rfl]
      simp only [adds_iff, repeated_one, repeated_skip (k := 1) (num := 2) (by simp), edgeFields_skip (num := 2) (by simp),
        lastNumberOr_cons, Option.some.injEq, exists_eq_left']
      refine and_congr .rfl (and_congr ⟨?_, ?_⟩ (and_congr .rfl (and_congr (by simp) (by simp))))
      · rintro ⟨_, ⟨vs', h, rfl⟩, e⟩; exact ⟨vs', h, by simpa using e⟩
      · rintro ⟨vs', h, e⟩; exact ⟨_, ⟨vs', h, rfl⟩, by simpa using e⟩
    by_cases h4 : num = 4
    · subst h4
      rw [show applyField m (4, .varint v) = some { m with rootId := v } from rfl]
      simp only [adds_iff, repeated_skip (k := 1) (num := 4) (by simp), repeated_skip (k := 2) (num := 4) (by simp),
        edgeFields_skip (num := 4) (by simp), lastNumberOr_cons, Option.some.injEq, exists_eq_left']
      simp
    by_cases h5 : num = 5
    · subst h5
      rw [show applyField m (5, .varint v) = some { m with size := v } from rfl]
      simp only [adds_iff, repeated_skip (k := 1) (num := 5) (by simp), repeated_skip (k := 2) (num := 5) (by simp),
        edgeFields_skip (num := 5) (by simp), lastNumberOr_cons, Option.some.injEq, exists_eq_left']
      simp
    refine skip (fun h => absurd h h1) (fun h => absurd h h2) (by simp) (fun h => absurd h h4) (fun h => absurd h h5) ?_
    unfold applyField
    split <;> first
      | rfl
      | (next h => cases h; first | exact absurd rfl h1 | exact absurd rfl h2 | exact absurd rfl h4 | exact absurd rfl h5)
      | (next h => cases h)
  | bytes bs =>
    by_cases h1 : num = 1
    · subst h1
      have e : ∀ m1, applyField m (1, .bytes bs) = some m1 ↔ ∃ us, Packed bs us ∧ m1 = { m with nodeIds := m.nodeIds ++ us } := by
        intro m1
        rw [show applyField m (1, .bytes bs) =
          (readPacked bs.length bs).map (fun vs => { m with nodeIds := m.nodeIds ++ vs }) from rfl]
        simp only [Option.map_eq_some_iff, readPacked_iff]
        exact ⟨fun ⟨x, h, e⟩ => ⟨x, h, e.symm⟩, fun ⟨x, h, e⟩ => ⟨x, h, e.symm⟩⟩
      simp only [e]
      simp only [adds_iff, repeated_many, repeated_skip (k := 2) (num := 1) (by simp), edgeFields_skip (num := 1) (by simp),
        lastNumberOr_cons]
      constructor
      · rintro ⟨⟨_, ⟨us, vs', hp, h, rfl⟩, e⟩, hrest⟩
        exact ⟨_, ⟨us, hp, rfl⟩, ⟨vs', h, by simpa using e⟩, hrest⟩
      · rintro ⟨_, ⟨us, hp, rfl⟩, ⟨vs', h, e⟩, hrest⟩
        exact ⟨⟨_, ⟨us, vs', hp, h, rfl⟩, by simpa using e⟩, hrest⟩
    by_cases h2 : num = 2
    · subst h2
      have e : ∀ m1, applyField m (2, .bytes bs) = some m1 ↔ ∃ us, Packed bs us ∧ m1 = { m with finalIds := m.finalIds ++ us } := by
        intro m1
        rw [show applyField m (2, .bytes bs) =
          (readPacked bs.length bs).map (fun vs => { m with finalIds := m.finalIds ++ vs }) from rfl]
        simp only [Option.map_eq_some_iff, readPacked_iff]
        exact ⟨fun ⟨x, h, e⟩ => ⟨x, h, e.symm⟩, fun ⟨x, h, e⟩ => ⟨x, h, e.symm⟩⟩
      simp only [e]
      simp only [adds_iff, repeated_many, repeated_skip (k := 1) (num := 2) (by simp), edgeFields_skip (num := 2) (by simp),
        lastNumberOr_cons]
      constructor
      · rintro ⟨h0, ⟨_, ⟨us, vs', hp, h, rfl⟩, e⟩, hrest⟩
        exact ⟨_, ⟨us, hp, rfl⟩, h0, ⟨vs', h, by simpa using e⟩, hrest⟩
      · rintro ⟨_, ⟨us, hp, rfl⟩, h0, ⟨vs', h, e⟩, hrest⟩
        exact ⟨h0, ⟨_, ⟨us, vs', hp, h, rfl⟩, by simpa using e⟩, hrest⟩
    by_cases h3 : num = 3
    · subst h3
      have e : ∀ m1, applyField m (3, .bytes bs) = some m1 ↔ ∃ x, EdgeBytes bs x ∧ m1 = { m with edges := m.edges ++ [x] } := by
        intro m1
        rw [show applyField m (3, .bytes bs) = (decodeEdge bs).map (fun x => { m with edges := m.edges ++ [x] }) from rfl]
        simp only [Option.map_eq_some_iff, decodeEdge_iff]
        exact ⟨fun ⟨x, h, e⟩ => ⟨x, h, e.symm⟩, fun ⟨x, h, e⟩ => ⟨x, h, e.symm⟩⟩
      simp only [e]
      simp only [adds_iff, edgeFields_edge, repeated_skip (k := 1) (num := 3) (by simp),
        repeated_skip (k := 2) (num := 3) (by simp), lastNumberOr_cons]
      constructor
      · rintro ⟨h0, h0', ⟨_, ⟨x, es', hp, h, rfl⟩, e⟩, hrest⟩
        exact ⟨_, ⟨x, hp, rfl⟩, h0, h0', ⟨es', h, by simpa using e⟩, hrest⟩
      · rintro ⟨_, ⟨x, hp, rfl⟩, h0, h0', ⟨es', h, e⟩, hrest⟩
        exact ⟨h0, h0', ⟨_, ⟨x, es', hp, h, rfl⟩, by simpa using e⟩, hrest⟩
    refine skip (fun h => absurd h h1) (fun h => absurd h h2) (fun h => absurd h h3) (by simp) (by simp) ?_
    unfold applyField
    split <;> first
      | rfl
      | (next h => cases h; first | exact absurd rfl h1 | exact absurd rfl h2 | exact absurd rfl h3)
      | (next h => cases h)

end

theorem applyFields_iff {m m' : Msg} {fs : List (Nat × Payload)} : applyFields m fs = some m' ↔ MsgAdds m fs m' := by
  induction fs generalizing m with
  | nil =>
    simp only [applyFields, Option.some.injEq]
    constructor
    · rintro rfl
      exact ⟨⟨[], .nil, by simp⟩, ⟨[], .nil, by simp⟩, ⟨[], .nil, by simp⟩, rfl, rfl⟩
    · rintro ⟨⟨vs, h1, e1⟩, ⟨us, h2, e2⟩, ⟨es, h3, e3⟩, e4, e5⟩
      cases h1; cases h2; cases h3
      obtain ⟨a, b, c, d, e⟩ := m
      obtain ⟨a', b', c', d', e'⟩ := m'
      simp only [List.append_nil] at e1 e2 e3 e4 e5
      subst e1 e2 e3
      simp only [lastNumberOr, List.filterMap_nil, List.getLast?_nil, Option.getD_none] at e4 e5
      subst e4 e5
      rfl
  | cons f fs ih =>
    have hstep : applyFields m (f :: fs) = some m' ↔ ∃ m1, applyField m f = some m1 ∧ applyFields m1 fs = some m' := by
      simp only [applyFields]
      cases applyField m f <;> simp
    obtain ⟨num, p⟩ := f
    rw [hstep, adds_cons]
    simp only [ih]

theorem decodeMsg_iff {bs : List UInt8} {m : Msg} : decodeMsg bs = some m ↔ DictBytes bs m := by
  have hsize : bs.length ≤ maxBytes ↔ bs.length < 2 ^ 31 := by unfold maxBytes; omega
  have hadds : ∀ fs, MsgAdds Msg.empty fs m ↔ Repeated 1 fs m.nodeIds ∧ Repeated 2 fs m.finalIds ∧ EdgeFields fs m.edges ∧
      m.rootId = lastNumber 4 fs ∧ m.size = lastNumber 5 fs := by
    intro fs
    rw [adds_iff]
    simp only [Msg.empty, List.nil_append]
    constructor
    · rintro ⟨⟨_, h1, rfl⟩, ⟨_, h2, rfl⟩, ⟨_, h3, rfl⟩, h4, h5⟩
      exact ⟨h1, h2, h3, h4, h5⟩
    · rintro ⟨h1, h2, h3, h4, h5⟩
      exact ⟨⟨_, h1, rfl⟩, ⟨_, h2, rfl⟩, ⟨_, h3, rfl⟩, h4, h5⟩
  unfold decodeMsg
  by_cases hl : bs.length ≤ maxBytes
  · rw [if_pos hl]
    constructor
    · intro h
      split at h
      · cases h
      · next fs hf => exact ⟨hsize.1 hl, fs, readFields_iff.1 hf, (hadds fs).1 (applyFields_iff.1 h)⟩
    · rintro ⟨_, fs, hf, h⟩
      rw [show readFields nesting bs.length bs = some fs from readFields_iff.2 hf]
      exact applyFields_iff.2 ((hadds fs).2 h)
  · rw [if_neg hl]
    simp only [reduceCtorEq, false_iff]
    exact fun h => hl (hsize.2 h.size)

/-! ### Parts of messages -/

theorem fields_unique {d : Nat} {bs : List UInt8} {fs gs : List (Nat × Payload)} (h : Fields d bs fs) (h' : Fields d bs gs) :
    fs = gs := by
  have h1 := readFields_iff.2 h
  rw [readFields_iff.2 h'] at h1
  exact (Option.some.inj h1).symm

theorem fields_append {d : Nat} {a b : List UInt8} {fs gs : List (Nat × Payload)} (h : Fields d a fs) (h' : Fields d b gs) :
    Fields d (a ++ b) (fs ++ gs) := by
  induction h with
  | nil => exact h'
  | plain ht hp _ ih =>
    have := Fields.plain ht hp (ih h')
    simpa only [List.append_assoc, List.cons_append] using this
  | group ht hi hu _ _ ih =>
    have := Fields.group ht hi hu (ih h')
    simpa only [List.append_assoc, List.cons_append] using this

theorem adds_empty {fs : List (Nat × Payload)} {m : Msg} : MsgAdds Msg.empty fs m ↔ Repeated 1 fs m.nodeIds ∧
    Repeated 2 fs m.finalIds ∧ EdgeFields fs m.edges ∧ m.rootId = lastNumber 4 fs ∧ m.size = lastNumber 5 fs := by
  rw [adds_iff]
  simp only [Msg.empty, List.nil_append]
  constructor
  · rintro ⟨⟨_, h1, rfl⟩, ⟨_, h2, rfl⟩, ⟨_, h3, rfl⟩, h4, h5⟩
    exact ⟨h1, h2, h3, h4, h5⟩
  · rintro ⟨h1, h2, h3, h4, h5⟩
    exact ⟨⟨_, h1, rfl⟩, ⟨_, h2, rfl⟩, ⟨_, h3, rfl⟩, h4, h5⟩

theorem adds_of_fields {fs : List (Nat × Payload)} {m : Msg} (h : Repeated 1 fs m.nodeIds ∧
    Repeated 2 fs m.finalIds ∧ EdgeFields fs m.edges ∧ m.rootId = lastNumber 4 fs ∧ m.size = lastNumber 5 fs) :
    MsgAdds Msg.empty fs m := adds_empty.2 h

theorem dictBytes_of_adds {bs : List UInt8} {fs : List (Nat × Payload)} {m : Msg} (hl : bs.length < 2 ^ 31)
    (hf : Fields 100 bs fs) (ha : MsgAdds Msg.empty fs m) : DictBytes bs m := ⟨hl, fs, hf, adds_empty.1 ha⟩

theorem applyFields_unknown {fs : List (Nat × Payload)} (h : ∀ f ∈ fs, 5 < f.1) (m : Msg) : applyFields m fs = some m := by
  induction fs with
  | nil => rfl
  | cons f fs ih =>
    obtain ⟨num, p⟩ := f
    have hn : 5 < num := h _ List.mem_cons_self
    have h1 : applyField m (num, p) = some m := by
      unfold applyField
      split <;> first | rfl | (simp_all; done) | (exfalso; simp_all; omega)
    simp only [applyFields, h1]
    exact ih fun f hf => h f (List.mem_cons_of_mem _ hf)

end Lev
