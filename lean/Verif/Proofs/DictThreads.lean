import Verif.Proofs.DictThreadsDict

/-!
Threads that build, read and destroy dictionaries.
-/

namespace Lev

open Spec

namespace NThr

/-! ### The dictionaries of one thread -/

/-- The nodes `V` are those of `n` parts that have no node in common. -/
structure Parts (n : Nat) (Vs : Nat → Mem) (V : Mem) : Prop where
  sub : ∀ k a nd, k < n → Vs k a = some nd → V a = some nd
  all : ∀ a, V a ≠ none → ∃ k, k < n ∧ Vs k a ≠ none
  apart : ∀ j k a, j < n → k < n → j ≠ k → Vs j a ≠ none → Vs k a = none

/-- What is not in `A`. -/
def without (V A : Mem) : Mem := fun a => if A a = none then V a else none

/-- Replacing one part. -/
def replace (Vs : Nat → Mem) (k : Nat) (A : Mem) : Nat → Mem := fun j => if j = k then A else Vs j

section
variable {n k : Nat} {Vs : Nat → Mem} {V V' A : Mem}

theorem Parts.split (h : Parts n Vs V) (hk : k < n) : Split V (Vs k) (without V (Vs k)) := by
  intro a
  simp only [without]
  cases hv : Vs k a with
  | none => exact .inl ⟨rfl, by simp⟩
  | some nd => exact .inr ⟨by simp, h.sub k a nd hk hv⟩

theorem Parts.other (h : Parts n Vs V) (hk : k < n) {j a : Nat} (hj : j < n) (hjk : j ≠ k) {nd : DNode}
    (hv : Vs j a = some nd) : without V (Vs k) a = some nd := by
  have : Vs k a = none := h.apart j k a hj hk hjk (by rw [hv]; simp)
  simp only [without, this, if_true]
  exact h.sub j a nd hj hv

theorem Parts.put (h : Parts n Vs V) (hk : k < n) (hs : Split V' A (without V (Vs k))) :
    Parts n (replace Vs k A) V' := by
  refine ⟨fun j a nd hj hv => ?_, fun a ha => ?_, fun i j a hi hj hij hv => ?_⟩
  · simp only [replace] at hv
    split at hv
    · rw [(hs.left (by rw [hv]; simp)).2]; exact hv
    · next hjk =>
      have := h.other hk hj hjk hv
      rcases hs a with ⟨_, h2⟩ | ⟨h1, _⟩
      · rw [h2]; exact this
      · rw [this] at h1; cases h1
  · rcases hs a with ⟨_, h2⟩ | ⟨_, h2⟩
    · rw [h2] at ha
      simp only [without] at ha
      split at ha
      · next hn =>
        obtain ⟨j, hj, hv⟩ := h.all a ha
        refine ⟨j, hj, ?_⟩
        simp only [replace]
        rw [if_neg (by rintro rfl; exact hv hn)]
        exact hv
      · exact absurd rfl ha
    · exact ⟨k, hk, by simp only [replace, if_true]; rw [← h2]; exact ha⟩
  · simp only [replace] at hv ⊢
    by_cases hik : i = k
    · rw [if_pos hik] at hv
      rw [if_neg (by omega)]
      cases hv2 : Vs j a with
      | none => rfl
      | some nd =>
        have := h.other hk hj (by omega) hv2
        rw [(hs.left hv).1] at this; cases this
    · rw [if_neg hik] at hv
      by_cases hjk : j = k
      · rw [if_pos hjk]
        obtain ⟨nd, hnd⟩ := Option.ne_none_iff_exists'.1 hv
        have := h.other hk hi hik hnd
        rcases hs a with ⟨h1, _⟩ | ⟨h1, _⟩
        · exact h1
        · rw [this] at h1; cases h1
      · rw [if_neg hjk]; exact h.apart i j a hi hj hij hv

theorem Parts.push (h : Parts n Vs V) (hs : Split V' A V) : Parts (n + 1) (replace Vs n A) V' := by
  refine ⟨fun j a nd hj hv => ?_, fun a ha => ?_, fun i j a hi hj hij hv => ?_⟩
  · simp only [replace] at hv
    split at hv
    · rw [(hs.left (by rw [hv]; simp)).2]; exact hv
    · next hjk =>
      have := h.sub j a nd (by omega) hv
      rcases hs a with ⟨_, h2⟩ | ⟨h1, _⟩
      · rw [h2]; exact this
      · rw [this] at h1; cases h1
  · rcases hs a with ⟨_, h2⟩ | ⟨_, h2⟩
    · rw [h2] at ha
      obtain ⟨j, hj, hv⟩ := h.all a ha
      refine ⟨j, by omega, ?_⟩
      simp only [replace]
      rw [if_neg (by omega)]
      exact hv
    · exact ⟨n, by omega, by simp only [replace, if_true]; rw [← h2]; exact ha⟩
  · simp only [replace] at hv ⊢
    by_cases hin : i = n
    · rw [if_pos hin] at hv
      rw [if_neg (by omega)]
      cases hv2 : Vs j a with
      | none => rfl
      | some nd =>
        have := h.sub j a nd (by omega) hv2
        rw [(hs.left hv).1] at this; cases this
    · rw [if_neg hin] at hv
      by_cases hjn : j = n
      · rw [if_pos hjn]
        obtain ⟨nd, hnd⟩ := Option.ne_none_iff_exists'.1 hv
        have := h.sub i a nd (by omega) hnd
        rcases hs a with ⟨h1, _⟩ | ⟨h1, _⟩
        · exact h1
        · rw [this] at h1; cases h1
      · rw [if_neg hjn]; exact h.apart i j a (by omega) (by omega) hij hv

end

/-- One of the dictionaries of a thread, and its nodes. -/
def OwnOne (sgn : Bool) (V : Mem) : Option (List Str) → Option SDawg → Prop
  | none, none => V = noNodes
  | some ts, some d => OwnDict sgn ts V d
  | _, _ => False

/-- The nodes `V` of a thread are those of its dictionaries. -/
def OwnAll (sgn : Bool) (own : List (Option (List Str))) (ds : List (Option SDawg)) (V : Mem) : Prop :=
  own.length = ds.length ∧ ∃ Vs, Parts own.length Vs V ∧
    ∀ (k : Nat) (o : Option (List Str)) (d : Option SDawg), own[k]? = some o → ds[k]? = some d → OwnOne sgn (Vs k) o d

section
variable {sgn : Bool} {S V V' A : Mem} {own : List (Option (List Str))} {ds : List (Option SDawg)}

theorem OwnAll.get (h : OwnAll sgn own ds V) {i : Nat} {ts : List Str} (hi : own[i]? = some (some ts)) :
    ∃ d, ds[i]? = some (some d) := by
  obtain ⟨hl, Vs, _, ho⟩ := h
  have hlt := (List.getElem?_eq_some_iff.1 hi).1
  obtain ⟨x, hx⟩ : ∃ x, ds[i]? = some x := ⟨ds[i], List.getElem?_eq_getElem (by omega)⟩
  have := ho i _ _ hi hx
  cases x with
  | none => exact this.elim
  | some d => exact ⟨d, hx⟩

theorem OwnAll.nil : OwnAll sgn [] [] noNodes :=
  ⟨rfl, fun _ => noNodes, ⟨fun _ _ _ h => by simp at h, fun _ h => absurd rfl h, fun _ _ _ h => by simp at h⟩,
    fun _ _ _ h => by simp at h⟩

theorem OwnAll.push (h : OwnAll sgn own ds V) (hs : Split V' A V) {o : Option (List Str)} {d : Option SDawg}
    (ho : OwnOne sgn A o d) : OwnAll sgn (own ++ [o]) (ds ++ [d]) V' := by
  obtain ⟨hl, Vs, hp, hone⟩ := h
  refine ⟨by simp [hl], replace Vs own.length A, by simpa using hp.push hs, fun k o' d' h1 h2 => ?_⟩
  simp only [replace]
  by_cases hk : k = own.length
  · subst hk
    rw [if_pos rfl]
    rw [List.getElem?_append_right (Nat.le_refl _)] at h1
    rw [hl, List.getElem?_append_right (Nat.le_refl _)] at h2
    simp only [Nat.sub_self, List.getElem?_cons_zero, Option.some.injEq] at h1 h2
    rw [← h1, ← h2]; exact ho
  · rw [if_neg hk]
    have hlt : k < own.length := by
      have := (List.getElem?_eq_some_iff.1 h1).1
      simp at this; omega
    rw [List.getElem?_append_left hlt] at h1
    rw [List.getElem?_append_left (by omega)] at h2
    exact hone k o' d' h1 h2

/-- A statement that concerns one of the dictionaries. -/
theorem OwnAll.one (h : OwnAll sgn own ds V) {i : Nat} {ts : List Str} {d : SDawg} (hi : own[i]? = some (some ts))
    (hd : ds[i]? = some (some d)) : ∃ B C, Split V B C ∧ OwnDict sgn ts B d ∧
      (∀ V', Split V' noNodes C → OwnAll sgn (own.set i none) (ds.set i none) V') ∧
      ∀ V', Split V' B C → V' = V := by
  obtain ⟨hl, Vs, hp, hone⟩ := h
  have hlt := (List.getElem?_eq_some_iff.1 hi).1
  have hsp := hp.split hlt
  refine ⟨Vs i, without V (Vs i), hsp, hone i _ _ hi hd, fun V' hs => ?_, fun V' hs => ?_⟩
  · refine ⟨by simp [hl], replace Vs i noNodes, by simpa using hp.put hlt hs, fun k o' d' h1 h2 => ?_⟩
    simp only [replace]
    by_cases hk : k = i
    · subst hk
      rw [if_pos rfl]
      rw [List.getElem?_set_self (by omega)] at h1
      rw [List.getElem?_set_self (by omega)] at h2
      cases h1; cases h2
      rfl
    · rw [if_neg hk]
      rw [List.getElem?_set_ne (by omega)] at h1 h2
      exact hone k o' d' h1 h2
  · funext a
    rcases hs a with ⟨h1, h2⟩ | ⟨h1, h2⟩ <;> rcases hsp a with ⟨h3, h4⟩ | ⟨h3, h4⟩
    · rw [h2, h4]
    · rw [h2, h4, h1, h3]
    · rw [h2, h4, h1, h3]
    · rw [h2, h4]

/-- The statements of a thread. -/
theorem safe_thread (h0 : S 0 = none) {fuel : Nat} {roots : List Nat} {tss : List (List Str)} (hsh : SharedOk sgn S roots tss)
    {ops : List DOp} {outs : List DOut} {own' : List (Option (List Str))} (hr : DRun tss own ops outs own')
    (hV : OwnAll sgn own ds V) (hown : ∀ ts, some ts ∈ own → fuelFor ts ≤ fuel)
    (hops : ∀ ts, DOp.build ts ∈ ops → fuelFor ts ≤ fuel) :
    Safe S (fun x V' => x.1 = outs ∧ OwnAll sgn own' x.2 V') (thread sgn fuel roots ds ops) V := by
  have hempty : ∀ V : Mem, Split V noNodes V := fun V a => .inl ⟨rfl, rfl⟩
  induction hr generalizing ds V with
  | nil => exact ⟨rfl, hV⟩
  | @build own ts ops outs own' hs hr ih =>
    refine Safe.bind (Safe.bind ((Safe.frame (safe_sortedDawg (hops ts (by simp))) (hempty V)).mono ?_))
    rintro r V1 ⟨A, hA | hA, hsp⟩
    · obtain ⟨_, d, rfl, hd⟩ := hA
      refine Safe.bind ((ih (hV.push hsp (show OwnOne sgn A (some ts) (some d) from hd)) ?_ (fun ts h => hops ts (by simp [h]))).mono ?_)
      · intro ts' h
        rcases List.mem_append.1 h with h | h
        · exact hown ts' h
        · simp only [List.mem_singleton, Option.some.injEq] at h; subst h; exact hops _ (by simp)
      · rintro y V2 ⟨h1, h2⟩
        exact ⟨by simp [h1], h2⟩
    · exact absurd hs hA.1
  | @refuse own ts ops outs own' hs hr ih =>
    refine Safe.bind (Safe.bind ((Safe.frame (safe_sortedDawg (hops ts (by simp))) (hempty V)).mono ?_))
    rintro r V1 ⟨A, hA | hA, hsp⟩
    · exact absurd hA.1 hs
    · obtain ⟨_, rfl, hA⟩ := hA
      refine Safe.bind ((ih (hV.push hsp (show OwnOne sgn A none none from hA)) ?_ (fun ts h => hops ts (by simp [h]))).mono ?_)
      · intro ts' h
        rcases List.mem_append.1 h with h | h
        · exact hown ts' h
        · simp at h
      · rintro y V2 ⟨h1, h2⟩
        exact ⟨by simp [h1], h2⟩
  | @has own i ts t ops outs own' hi ht hr ih =>
    obtain ⟨d, hd⟩ := hV.get hi
    obtain ⟨B, C, hsp, hB, _, hsame⟩ := hV.one hi hd
    simp only [thread, statement, hd]
    refine Safe.bind (Safe.bind ((Safe.frame (safe_contains hB ht) hsp).mono ?_))
    rintro b V1 ⟨A, ⟨rfl, rfl⟩, hs1⟩
    obtain rfl := hsame V1 hs1
    refine Safe.bind ((ih hV hown (fun ts h => hops ts (by simp [h]))).mono ?_)
    rintro y V2 ⟨h1, h2⟩
    exact ⟨by simp [h1], h2⟩
  | @hasShared own j ts t ops outs own' hj ht hr ih =>
    have hlt := (List.getElem?_eq_some_iff.1 hj).1
    obtain ⟨root, hroot⟩ : ∃ root, roots[j]? = some root :=
      ⟨roots[j]'(by rw [hsh.1]; exact hlt), List.getElem?_eq_getElem (by rw [hsh.1]; exact hlt)⟩
    simp only [thread, statement, hroot]
    refine Safe.bind (Safe.bind ((safe_shared h0 (hsh.2 j root ts hroot hj) ht).mono ?_))
    rintro b V1 ⟨rfl, rfl⟩
    refine Safe.bind ((ih hV hown (fun ts h => hops ts (by simp [h]))).mono ?_)
    rintro y V2 ⟨h1, h2⟩
    exact ⟨by simp [h1], h2⟩
  | @drop own i ts ops outs own' hi hr ih =>
    obtain ⟨d, hd⟩ := hV.get hi
    obtain ⟨B, C, hsp, hB, hset, _⟩ := hV.one hi hd
    simp only [thread, statement, hd]
    refine Safe.bind (Safe.bind ((Safe.frame (safe_destroy hB (hown ts (List.mem_of_getElem? hi))) hsp).mono ?_))
    rintro _ V1 ⟨A, rfl, hs1⟩
    refine Safe.bind ((ih (hset V1 hs1) ?_ (fun ts h => hops ts (by simp [h]))).mono ?_)
    · intro ts' h
      rcases List.mem_or_eq_of_mem_set h with h | h
      · exact hown ts' h
      · cases h
    · rintro y V2 ⟨h1, h2⟩
      exact ⟨by simp [h1], h2⟩

end

/-! ### The system -/

section
variable {α : Type} {S : Mem} {post : Nat → α → Mem → Prop} {s s' : NSys α} {V : Nat → Mem}

/-- Each node is shared or belongs to one of the threads, and each thread is safe. -/
structure Inv (S : Mem) (post : Nat → α → Mem → Prop) (s : NSys α) (V : Nat → Mem) : Prop where
  shared : ∀ a nd, S a = some nd → s.mem a = some nd
  own : ∀ i a nd, i < s.threads.length → V i a = some nd → s.mem a = some nd
  all : ∀ a, s.mem a ≠ none → S a ≠ none ∨ ∃ i, i < s.threads.length ∧ V i a ≠ none
  apart : ∀ i j a, i < s.threads.length → j < s.threads.length → i ≠ j → V i a ≠ none → V j a = none
  apartS : ∀ i a, i < s.threads.length → V i a ≠ none → S a = none
  safe : ∀ (i : Nat) (p : NProg α), s.threads[i]? = some p → Safe S (post i) p (V i)

/-- What a thread reads is in memory. -/
theorem Inv.seen (h : Inv S post s V) {i : Nat} (hi : i < s.threads.length) {a : Nat} {nd : DNode}
    (hr : V i a = some nd ∨ S a = some nd) : s.mem a = some nd := by
  rcases hr with h1 | h1
  · exact h.own i a nd hi h1
  · exact h.shared a nd h1

theorem Inv.no_fault (h : Inv S post s V) : ¬ s.Fault := by
  rintro ⟨p, hp, hf⟩
  obtain ⟨i, hi⟩ := List.mem_iff_getElem?.1 hp
  have hlt := (List.getElem?_eq_some_iff.1 hi).1
  have hs := h.safe i p hi
  rcases hf with ⟨e, rfl⟩ | ⟨a, w, hn, hm⟩
  · exact hs
  · have halive : ∀ a, V i a ≠ none → s.mem a ≠ none := by
      intro a ha
      obtain ⟨nd, hnd⟩ := Option.ne_none_iff_exists'.1 ha
      rw [h.own i a nd hlt hnd]; simp
    cases p with
    | ret x => cases hn
    | fail e => cases hn
    | new k => cases hn
    | read b k =>
      cases hn
      obtain ⟨nd, h1, _⟩ := hs
      rw [h.seen hlt h1] at hm; cases hm
    | write b nd k => cases hn; exact halive a hs.1 hm
    | free b k => cases hn; exact halive a hs.1 hm

theorem Inv.no_race (h : Inv S post s V) : ¬ s.Race := by
  rintro ⟨i, j, p, q, a, w, hij, hp, hq, hn, hw⟩
  have hi := (List.getElem?_eq_some_iff.1 hp).1
  have hj := (List.getElem?_eq_some_iff.1 hq).1
  have hVj : V j a ≠ none := by
    have hs := h.safe j q hq
    cases q with
    | ret x => cases hw
    | fail e => cases hw
    | new k => cases hw
    | read b k => cases hw
    | write b nd k => cases hw; exact hs.1
    | free b k => cases hw; exact hs.1
  have hVi : V i a = none := h.apart j i a hj hi (fun h => hij h.symm) hVj
  have hS : S a = none := h.apartS j a hj hVj
  have hs := h.safe i p hp
  cases p with
  | ret x => cases hn
  | fail e => cases hn
  | new k => cases hn
  | read b k =>
    cases hn
    obtain ⟨nd, h1 | h1, _⟩ := hs
    · rw [hVi] at h1; cases h1
    · rw [hS] at h1; cases h1
  | write b nd k => cases hn; exact hs.1 hVi
  | free b k => cases hn; exact hs.1 hVi

theorem get_mid {pre post : List (NProg α)} {p q : NProg α} {j : Nat} (hj : j ≠ pre.length) :
    (pre ++ p :: post)[j]? = (pre ++ q :: post)[j]? := by
  by_cases h : j < pre.length
  · rw [List.getElem?_append_left h, List.getElem?_append_left h]
  · rw [List.getElem?_append_right (by omega), List.getElem?_append_right (by omega)]
    obtain ⟨k, hk⟩ : ∃ k, j - pre.length = k + 1 := ⟨j - pre.length - 1, by omega⟩
    rw [hk]; rfl

/-- A thread changes a node of its own, or one that did not live. -/
theorem Inv.set {mem : Mem} {pre rest : List (NProg α)} {p q : NProg α} (h : Inv S post ⟨mem, pre ++ p :: rest⟩ V) {b : Nat}
    {v : Option DNode} (hb : V pre.length b ≠ none ∨ mem b = none)
    (hs : Safe S (post pre.length) q ((V pre.length).set b v)) :
    Inv S post ⟨mem.set b v, pre ++ q :: rest⟩ (replace V pre.length ((V pre.length).set b v)) := by
  have hlen : (pre ++ q :: rest).length = (pre ++ p :: rest).length := by simp
  have hi : pre.length < (pre ++ p :: rest).length := by simp
  have hS : S b = none := by
    rcases hb with hb | hb
    · exact h.apartS _ b hi hb
    · cases hv : S b with
      | none => rfl
      | some nd =>
        have h1 : mem b = some nd := h.shared b nd hv
        rw [hb] at h1; cases h1
  have hO : ∀ j, j < (pre ++ p :: rest).length → j ≠ pre.length → V j b = none := by
    intro j hj hne
    rcases hb with hb | hb
    · exact h.apart _ j b hi hj (fun h => hne h.symm) hb
    · cases hv : V j b with
      | none => rfl
      | some nd =>
        have h1 : mem b = some nd := h.own j b nd hj hv
        rw [hb] at h1; cases h1
  refine ⟨fun a nd ha => ?_, fun j a nd hj ha => ?_, fun a ha => ?_, fun j k a hj hk hjk ha => ?_, fun j a hj ha => ?_,
    fun j r hr => ?_⟩
  · simp only [Mem.set]
    rw [if_neg (by rintro rfl; rw [hS] at ha; cases ha)]
    exact h.shared a nd ha
  · simp only [replace] at ha
    rw [hlen] at hj
    simp only [Mem.set]
    split at ha
    · simp only [Mem.set] at ha
      split at ha
      · next h1 => rw [if_pos h1]; exact ha
      · next h1 h2 => rw [if_neg h2]; exact h.own _ a nd hi ha
    · next h1 =>
      rw [if_neg (by rintro rfl; rw [hO j hj h1] at ha; cases ha)]
      exact h.own j a nd hj ha
  · simp only [Mem.set] at ha
    rw [hlen]
    split at ha
    · next hab => exact .inr ⟨pre.length, hi, by simp only [replace, if_true, Mem.set, hab]; exact ha⟩
    · next hab =>
      rcases h.all a ha with h1 | ⟨j, hj, h1⟩
      · exact .inl h1
      · refine .inr ⟨j, hj, ?_⟩
        simp only [replace]
        split
        · next hjp => subst hjp; simp only [Mem.set, if_neg hab]; exact h1
        · exact h1
  · rw [hlen] at hj hk
    by_cases hab : a = b
    · subst hab
      simp only [replace] at ha ⊢
      by_cases hjp : j = pre.length
      · rw [if_neg (by omega)]; exact hO k hk (by omega)
      · rw [if_neg hjp] at ha
        exact absurd (hO j hj hjp) ha
    · have e : ∀ j, replace V pre.length ((V pre.length).set b v) j a = V j a := by
        intro j
        unfold replace
        split
        · next h1 => subst h1; simp [Mem.set, hab]
        · rfl
      rw [e] at ha ⊢
      exact h.apart j k a hj hk hjk ha
  · rw [hlen] at hj
    simp only [replace] at ha
    split at ha
    · simp only [Mem.set] at ha
      split at ha
      · next h1 => rw [h1]; exact hS
      · exact h.apartS _ a hi ha
    · exact h.apartS j a hj ha
  · by_cases hj : j = pre.length
    · subst hj
      simp only [List.getElem?_append_right (Nat.le_refl _), Nat.sub_self, List.getElem?_cons_zero, Option.some.injEq] at hr
      subst hr
      simp only [replace, if_true]
      exact hs
    · have := h.safe j r (by rw [← hr]; exact get_mid hj)
      simp only [replace, if_neg hj]
      exact this

theorem Inv.step (h : Inv S post s V) (hst : NStep s s') : ∃ V', Inv S post s' V' := by
  have hget : ∀ (pre rest : List (NProg α)) (p : NProg α), (pre ++ p :: rest)[pre.length]? = some p := by simp
  cases hst with
  | @read mem pre rest a k nd hm =>
    have hs := h.safe pre.length _ (hget ..)
    obtain ⟨nd', h1, h2⟩ := hs
    have hseen : mem a = some nd' := h.seen (by simp) h1
    have : nd' = nd := by rw [hm] at hseen; exact (Option.some.inj hseen).symm
    subst this
    have hlen : (pre ++ k nd' :: rest).length = (pre ++ .read a k :: rest).length := by simp
    refine ⟨V, h.shared, fun i => by rw [hlen]; exact h.own i, fun a => by rw [hlen]; exact h.all a,
      fun i j => by rw [hlen]; exact h.apart i j, fun i => by rw [hlen]; exact h.apartS i, fun j r hr => ?_⟩
    by_cases hj : j = pre.length
    · subst hj
      rw [hget] at hr
      cases hr
      exact h2
    · exact h.safe j r (by rw [← hr]; exact get_mid hj)
  | @write mem pre rest a nd k hm =>
    have hs := h.safe pre.length _ (hget ..)
    exact ⟨_, h.set (.inl hs.1) hs.2⟩
  | @new mem pre rest a k ha hm =>
    have hs := h.safe pre.length _ (hget ..)
    refine ⟨_, h.set (.inr hm) (hs a ha ?_ ?_)⟩
    · cases hv : V pre.length a with
      | none => rfl
      | some nd =>
        have h1 : mem a = some nd := h.own pre.length a nd (by simp) hv
        rw [hm] at h1; cases h1
    · cases hv : S a with
      | none => rfl
      | some nd =>
        have h1 : mem a = some nd := h.shared a nd hv
        rw [hm] at h1; cases h1
  | @free mem pre rest a k hm =>
    have hs := h.safe pre.length _ (hget ..)
    exact ⟨_, h.set (.inl hs.1) hs.2⟩

theorem Inv.steps (h : Inv S post s V) (hst : NSteps s s') : ∃ V', Inv S post s' V' := by
  induction hst with
  | refl => exact ⟨V, h⟩
  | tail _ h1 ih =>
    obtain ⟨V', h2⟩ := ih
    exact h2.step h1

/-- Beyond some address there are no nodes. -/
def Bounded (mem : Mem) : Prop := ∃ M, ∀ a, M ≤ a → mem a = none

theorem Bounded.set {mem : Mem} (h : Bounded mem) (a : Nat) (v : Option DNode) : Bounded (mem.set a v) := by
  obtain ⟨M, hM⟩ := h
  refine ⟨max M (a + 1), fun b hb => ?_⟩
  simp only [Mem.set]
  rw [if_neg (by omega)]
  exact hM b (by omega)

theorem bounded_step (hb : Bounded s.mem) (hst : NStep s s') : Bounded s'.mem := by
  cases hst with
  | read => exact hb
  | write => exact hb.set ..
  | new => exact hb.set ..
  | free => exact hb.set ..

theorem bounded_steps (hb : Bounded s.mem) (hst : NSteps s s') : Bounded s'.mem := by
  induction hst with
  | refl => exact hb
  | tail _ h1 ih => exact bounded_step ih h1

theorem length_step (hst : NStep s s') : s'.threads.length = s.threads.length := by
  cases hst <;> simp

theorem length_steps (hst : NSteps s s') : s'.threads.length = s.threads.length := by
  induction hst with
  | refl => rfl
  | tail _ h1 ih => rw [length_step h1, ih]

/-- A thread that has not finished can go on. -/
theorem Inv.progress (h : Inv S post s V) (hb : Bounded s.mem) {i : Nat} {p : NProg α} (hi : s.threads[i]? = some p) :
    (∃ x, p = .ret x) ∨ ∃ s', NStep s s' ∧ ∀ j, j ≠ i → s'.threads[j]? = s.threads[j]? := by
  obtain ⟨mem, ths⟩ := s
  have hlt := (List.getElem?_eq_some_iff.1 hi).1
  have hs := h.safe i p hi
  obtain ⟨pre, rest, rfl, rfl⟩ : ∃ pre rest, ths = pre ++ p :: rest ∧ i = pre.length := by
    simp only at hi hlt
    refine ⟨ths.take i, ths.drop (i + 1), ?_, by simp; omega⟩
    have : ths[i] = p := (List.getElem?_eq_some_iff.1 hi).2
    rw [← this, ← List.drop_eq_getElem_cons hlt, List.take_append_drop]
  have halive : ∀ a, V pre.length a ≠ none → mem a ≠ none := by
    intro a ha
    obtain ⟨nd, hnd⟩ := Option.ne_none_iff_exists'.1 ha
    have : mem a = some nd := h.own _ a nd hlt hnd
    rw [this]; simp
  cases p with
  | ret x => exact .inl ⟨x, rfl⟩
  | fail e => exact hs.elim
  | read a k =>
    obtain ⟨nd, h1, _⟩ := hs
    exact .inr ⟨_, .read (h.seen hlt h1), fun j hj => get_mid hj⟩
  | write a nd k => exact .inr ⟨_, .write (halive a hs.1), fun j hj => get_mid hj⟩
  | new k =>
    obtain ⟨M, hM⟩ := hb
    exact .inr ⟨_, .new (a := M + 1) (by omega) (hM _ (by omega)), fun j hj => get_mid hj⟩
  | free a k => exact .inr ⟨_, .free (halive a hs.1), fun j hj => get_mid hj⟩

/-! ### Termination -/

/-- `p` is what is left of `q` after one access. -/
inductive After : NProg α → NProg α → Prop
  | read {a k nd} : After (k nd) (.read a k)
  | write {a nd k} : After k (.write a nd k)
  | new {a k} : After (k a) (.new k)
  | free {a k} : After k (.free a k)

theorem after_acc (p : NProg α) : Acc After p := by
  induction p with
  | ret x => exact ⟨_, fun _ h => by cases h⟩
  | fail e => exact ⟨_, fun _ h => by cases h⟩
  | read a k ih => exact ⟨_, fun _ h => by cases h; exact ih _⟩
  | write a nd k ih => exact ⟨_, fun _ h => by cases h; exact ih⟩
  | new k ih => exact ⟨_, fun _ h => by cases h; exact ih _⟩
  | free a k ih => exact ⟨_, fun _ h => by cases h; exact ih⟩

/-- One of the programs makes an access. -/
def OneAfter (ps qs : List (NProg α)) : Prop := ∃ pre rest p q, qs = pre ++ q :: rest ∧ ps = pre ++ p :: rest ∧ After p q

theorem oneAfter_acc (ps : List (NProg α)) : Acc OneAfter ps := by
  induction ps with
  | nil => exact ⟨_, by rintro _ ⟨pre, rest, p, q, h, _⟩; simp at h⟩
  | cons p ps ih =>
    have h1 := after_acc p
    induction h1 generalizing ps with
    | intro p _ ihp =>
      induction ih with
      | intro ps hps ihps =>
        refine ⟨_, ?_⟩
        rintro _ ⟨pre, rest, p', q, h, rfl, hlt⟩
        cases pre with
        | nil =>
          cases h
          exact ihp p' hlt _ ⟨_, hps⟩
        | cons a pre =>
          cases h
          exact ihps _ ⟨pre, rest, p', q, rfl, rfl, hlt⟩

/-- There is no infinite execution. -/
theorem step_acc (s : NSys α) : Acc (fun s' s => NStep s s') s := by
  generalize hp : s.threads = ps
  have := oneAfter_acc ps
  induction this generalizing s with
  | intro ps _ ih =>
    subst hp
    refine ⟨_, fun s' h => ih _ ?_ s' rfl⟩
    cases h with
    | read => exact ⟨_, _, _, _, rfl, rfl, .read⟩
    | write => exact ⟨_, _, _, _, rfl, rfl, .write⟩
    | new => exact ⟨_, _, _, _, rfl, rfl, .new⟩
    | free => exact ⟨_, _, _, _, rfl, rfl, .free⟩

theorem steps_head {s s' s'' : NSys α} (h : NStep s s') (h' : NSteps s' s'') : NSteps s s'' := by
  induction h' with
  | refl => exact .tail .refl h
  | tail _ h1 ih => exact .tail ih h1

/-- Every execution can be continued to the end. -/
theorem Inv.finish (h : Inv S post s V) (hb : Bounded s.mem) : ∃ s', NSteps s s' ∧ s'.Done := by
  have := step_acc s
  induction this generalizing V with
  | intro s _ ih =>
    by_cases hd : s.Done
    · exact ⟨s, .refl, hd⟩
    · simp only [NSys.Done, Classical.not_forall] at hd
      obtain ⟨t, ht, hd⟩ := hd
      obtain ⟨i, hi⟩ := List.mem_iff_getElem?.1 ht
      rcases h.progress hb hi with hr | ⟨s', hs', _⟩
      · exact absurd hr hd
      · obtain ⟨V', hI⟩ := h.step hs'
        obtain ⟨s'', h1, h2⟩ := ih s' hs' hI (bounded_step hb hs')
        exact ⟨s'', steps_head hs' h1, h2⟩

theorem not_endless (s : NSys α) : ¬ Endless s := by
  rintro ⟨f, h0, hf⟩
  have : ∀ s, Acc (fun s' s => NStep s s') s → ∀ n, f n ≠ s := by
    intro s hs
    induction hs with
    | intro s _ ih =>
      intro n hn
      exact ih (f (n + 1)) (by rw [← hn]; exact hf n) (n + 1) rfl
  exact this s (step_acc s) 0 h0

end

/-! ### What is left -/

section
variable {sgn : Bool} {V mem : Mem}

theorem OwnDict.holds {ts : List Str} {d : SDawg} (h : OwnDict sgn ts V d) (hm : ∀ a nd, V a = some nd → mem a = some nd) :
    HoldsDict sgn mem d.root ts := by
  obtain ⟨addr, n, _, hf⟩ := h
  obtain ⟨nd, F, _, _, _, _, hd⟩ := hf.dict
  have hcl := hf.closed
  have hmm : ∀ a, Reaches V d.root a → mem a = V a := by
    intro a ha
    obtain ⟨nd, h1, _⟩ := hcl a ha
    exact (hm a nd h1).trans h1.symm
  refine ⟨⟨_, DictNode.frame hcl hmm hd .refl⟩, fun t => ?_⟩
  rw [accepts_frame_iff hcl hmm .refl, hf.accepts]

theorem OwnDict.reaches {ts : List Str} {d : SDawg} (h : OwnDict sgn ts V d) (hm : ∀ a nd, V a = some nd → mem a = some nd)
    {a : Nat} (ha : V a ≠ none) : Reaches mem d.root a := by
  obtain ⟨addr, n, _, hf⟩ := h
  have hcl := hf.closed
  have hmm : ∀ a, Reaches V d.root a → mem a = V a := by
    intro a ha
    obtain ⟨nd, h1, _⟩ := hcl a ha
    exact (hm a nd h1).trans h1.symm
  rw [reaches_frame_iff hcl hmm .refl]
  by_cases hr : InRange addr 0 ⟨V, n⟩ a
  · exact (hf.alive a hr).1 ha
  · exact absurd (hf.old a hr) ha

theorem OwnAll.left {own : List (Option (List Str))} {ds : List (Option SDawg)} (h : OwnAll sgn own ds V)
    (hm : ∀ a nd, V a = some nd → mem a = some nd) : Left sgn mem own ds := by
  obtain ⟨hl, Vs, hp, hone⟩ := h
  have hget : ∀ (k : Nat) (o : Option (List Str)), own[k]? = some o → k < own.length ∧ ∃ x, ds[k]? = some x := fun k o hk =>
    have hlt := (List.getElem?_eq_some_iff.1 hk).1
    ⟨hlt, ds[k], List.getElem?_eq_getElem (by omega)⟩
  refine ⟨hl, fun k hk => ?_, fun k ts hk => ?_⟩
  · obtain ⟨_, x, hx⟩ := hget k _ hk
    have := hone k _ _ hk hx
    cases x with
    | none => exact hx
    | some d => exact this.elim
  · obtain ⟨hlt, x, hx⟩ := hget k _ hk
    have := hone k _ _ hk hx
    cases x with
    | none => exact this.elim
    | some d =>
      have ho : OwnDict sgn ts (Vs k) d := this
      refine ⟨d, hx, ho.holds fun a nd ha => hm a nd (hp.sub k a nd hlt ha), ?_⟩
      obtain ⟨addr, n, _, hf⟩ := ho
      exact hf.size

theorem OwnAll.reaches {own : List (Option (List Str))} {ds : List (Option SDawg)} (h : OwnAll sgn own ds V)
    (hm : ∀ a nd, V a = some nd → mem a = some nd) {a : Nat} (ha : V a ≠ none) :
    ∃ d, some d ∈ ds ∧ Reaches mem d.root a := by
  obtain ⟨hl, Vs, hp, hone⟩ := h
  obtain ⟨k, hk, hv⟩ := hp.all a ha
  have h1 : own[k]? = some own[k] := List.getElem?_eq_getElem hk
  have h2 : ds[k]? = some (ds[k]'(by omega)) := List.getElem?_eq_getElem (by omega)
  have := hone k _ _ h1 h2
  generalize own[k] = o at this
  generalize hx : ds[k]'(by omega) = x at this
  cases o with
  | none =>
    cases x with
    | none => rw [show Vs k = noNodes from this] at hv; exact absurd rfl hv
    | some d => exact this.elim
  | some ts =>
    cases x with
    | none => exact this.elim
    | some d =>
      have ho : OwnDict sgn ts (Vs k) d := this
      rw [hx] at h2
      exact ⟨d, List.mem_of_getElem? h2, ho.reaches (fun b nd hb => hm b nd (hp.sub k b nd hk hb)) hv⟩

/-- The fuel for the statements of a thread. -/
def opFuel : DOp → Nat
  | .build ts => fuelFor ts
  | _ => 0

def opsFuel (ops : List DOp) : Nat := (ops.map opFuel).sum

theorem le_mapSum {α : Type} (f : α → Nat) {l : List α} {x : α} (h : x ∈ l) : f x ≤ (l.map f).sum := by
  induction l with
  | nil => cases h
  | cons y l ih =>
    rw [List.map_cons, List.sum_cons]
    rcases List.mem_cons.1 h with rfl | h
    · omega
    · have := ih h; omega

/-- At the beginning. -/
theorem Inv.start {S : Mem} {roots : List Nat} {tss : List (List Str)} {opss : List (List DOp)} {outs : Nat → List DOut}
    {own : Nat → List (Option (List Str))} (h0 : S 0 = none) (hsh : SharedOk sgn S roots tss)
    (hr : ∀ (i : Nat) (ops : List DOp), opss[i]? = some ops → DRun tss [] ops (outs i) (own i)) {fuel : Nat}
    (hf : (opss.map opsFuel).sum ≤ fuel) :
    Inv S (fun i x V => x.1 = outs i ∧ OwnAll sgn (own i) x.2 V) ⟨S, opss.map (thread sgn fuel roots [])⟩
      (fun _ => noNodes) := by
  refine ⟨fun a nd h => h, fun i a nd _ h => (nomatch (show none = some nd from h)), fun a h => .inl h, fun i j a _ _ _ h => absurd rfl h,
    fun i a _ h => absurd rfl h, fun i p hp => ?_⟩
  simp only [List.getElem?_map, Option.map_eq_some_iff] at hp
  obtain ⟨ops, hops, rfl⟩ := hp
  refine safe_thread h0 hsh (hr i ops hops) .nil (fun ts h => by simp at h) fun ts hts => ?_
  have h1 := le_mapSum opFuel hts
  have h2 := le_mapSum opsFuel (List.mem_of_getElem? hops)
  simp only [opFuel] at h1
  simp only [opsFuel] at h2
  omega

theorem Finished.bounded {addr : Nat → Nat} {c0 : Nat} {m0 : Mem} {terms : List Str} {h : Heap} {d : SDawg}
    (hf : Finished sgn addr c0 m0 terms h d) (hb : Bounded m0) : Bounded h.mem := by
  obtain ⟨M, hM⟩ := hb
  refine ⟨max M (((List.range h.count).map addr).sum + 1), fun a ha => ?_⟩
  rw [hf.old a ?_]
  · exact hM a (by omega)
  · rintro ⟨j, _, hj, rfl⟩
    have := le_mapSum addr (List.mem_range.2 hj)
    omega

end

end NThr

end Lev
