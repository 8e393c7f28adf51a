import Verif.Proofs.DictThreadsRun
import Verif.Spec.DictThreads

/-!
Programs that are safe whatever the other threads do: they touch what is their own, and only read what is shared.
-/

namespace Lev

namespace NThr

variable {α β : Type} {S V : Mem}

/-- The program never goes wrong with `V` for the nodes of its own and the shared nodes `S` for reading, whatever addresses
the allocator hands out; in the end `post` holds. -/
def Safe (S : Mem) (post : α → Mem → Prop) : NProg α → Mem → Prop
  | .ret x, V => post x V
  | .fail _, _ => False
  | .read a k, V => ∃ nd, (V a = some nd ∨ S a = some nd) ∧ Safe S post (k nd) V
  | .write a nd k, V => V a ≠ none ∧ Safe S post k (V.set a (some nd))
  | .new k, V => ∀ a, a ≠ 0 → V a = none → S a = none → Safe S post (k a) (V.set a (some { final := false, edges := [] }))
  | .free a k, V => V a ≠ none ∧ Safe S post k (V.set a none)

theorem Safe.mono {post post' : α → Mem → Prop} {p : NProg α} (h : Safe S post p V) (hp : ∀ x V, post x V → post' x V) :
    Safe S post' p V := by
  induction p generalizing V with
  | ret x => exact hp _ _ h
  | fail e => exact h
  | read a k ih => obtain ⟨nd, h1, h2⟩ := h; exact ⟨nd, h1, ih nd h2⟩
  | write a nd k ih => exact ⟨h.1, ih h.2⟩
  | new k ih => exact fun a h1 h2 h3 => ih a (h a h1 h2 h3)
  | free a k ih => exact ⟨h.1, ih h.2⟩

theorem Safe.bind {post : β → Mem → Prop} {p : NProg α} {f : α → NProg β}
    (h : Safe S (fun x V => Safe S post (f x) V) p V) : Safe S post (p.bind f) V := by
  induction p generalizing V with
  | ret x => exact h
  | fail e => exact h
  | read a k ih => obtain ⟨nd, h1, h2⟩ := h; exact ⟨nd, h1, ih nd h2⟩
  | write a nd k ih => exact ⟨h.1, ih h.2⟩
  | new k ih => exact fun a h1 h2 h3 => ih a (h a h1 h2 h3)
  | free a k ih => exact ⟨h.1, ih h.2⟩

/-- `U` consists of the two parts `A` and `B`. -/
def Split (U A B : Mem) : Prop := ∀ a, (A a = none ∧ U a = B a) ∨ (B a = none ∧ U a = A a)

theorem Split.set {U A B : Mem} (h : Split U A B) {a : Nat} (ha : B a = none) (v : Option DNode) :
    Split (U.set a v) (A.set a v) B := by
  intro b
  simp only [Mem.set]
  by_cases hb : b = a
  · subst hb; exact .inr ⟨ha, by simp⟩
  · simp only [if_neg hb]; exact h b

theorem Split.left {U A B : Mem} (h : Split U A B) {a : Nat} (ha : A a ≠ none) : B a = none ∧ U a = A a := by
  rcases h a with ⟨h1, _⟩ | h1
  · exact absurd h1 ha
  · exact h1

theorem Split.none {U A B : Mem} (h : Split U A B) {a : Nat} (ha : U a = none) : A a = none ∧ B a = none := by
  rcases h a with ⟨h1, h2⟩ | ⟨h1, h2⟩
  · exact ⟨h1, by rw [← h2]; exact ha⟩
  · exact ⟨by rw [← h2]; exact ha, h1⟩

/-- The program leaves alone what is not its part. -/
theorem Safe.frame {post : α → Mem → Prop} {p : NProg α} {A B U : Mem} (h : Safe S post p A) (hs : Split U A B) :
    Safe S (fun x U' => ∃ A', post x A' ∧ Split U' A' B) p U := by
  induction p generalizing A U with
  | ret x => exact ⟨A, h, hs⟩
  | fail e => exact h
  | read a k ih =>
    obtain ⟨nd, h1, h2⟩ := h
    refine ⟨nd, ?_, ih nd h2 hs⟩
    rcases h1 with h1 | h1
    · left; rw [(hs.left (by rw [h1]; simp)).2]; exact h1
    · exact .inr h1
  | write a nd k ih =>
    obtain ⟨h1, h2⟩ := hs.left h.1
    exact ⟨by rw [h2]; exact h.1, ih h.2 (hs.set h1 _)⟩
  | new k ih =>
    intro a h1 h2 h3
    obtain ⟨h4, h5⟩ := hs.none h2
    exact ih a (h a h1 h4 h3) (hs.set h5 _)
  | free a k ih =>
    obtain ⟨h1, h2⟩ := hs.left h.1
    exact ⟨by rw [h2]; exact h.1, ih h.2 (hs.set h1 _)⟩

/-! ### From runs to safety -/

variable {addr : Nat → Nat}

theorem deref_ok {mem : Mem} {a : Nat} {f : DNode → Except Err β} {r : β} (h : (Lev.deref mem a).bind f = .ok r) :
    ∃ nd, mem a = some nd ∧ f nd = .ok r := by
  unfold Lev.deref at h
  split at h
  · next nd hm => exact ⟨nd, hm, h⟩
  · cases h

theorem run_count {p : NProg α} {h h' : Heap} {x : α} (hr : p.run addr h = .ok (x, h')) : h.count ≤ h'.count := by
  induction p generalizing h with
  | ret y => cases hr; exact Nat.le_refl _
  | fail e => cases hr
  | read a k ih => obtain ⟨nd, _, h2⟩ := deref_ok hr; exact ih nd h2
  | write a nd k ih => obtain ⟨_, _, h2⟩ := deref_ok hr; have := ih h2; exact this
  | new k ih => have := ih _ hr; simp only [Lev.newNode] at this; omega
  | free a k ih => obtain ⟨_, _, h2⟩ := deref_ok hr; have := ih h2; exact this

theorem run_dead {p : NProg α} {h h' : Heap} {x : α} (hr : p.run addr h = .ok (x, h')) {b : Nat} (hb : h.mem b = none)
    (hn : ∀ j, h.count ≤ j → addr j ≠ b) : h'.mem b = none := by
  induction p generalizing h with
  | ret y => cases hr; exact hb
  | fail e => cases hr
  | read a k ih => obtain ⟨nd, _, h2⟩ := deref_ok hr; exact ih nd h2 hb hn
  | write a nd k ih =>
    obtain ⟨_, h1, h2⟩ := deref_ok hr
    refine ih h2 ?_ hn
    simp only [Mem.set]
    rw [if_neg (by rintro rfl; rw [hb] at h1; cases h1)]
    exact hb
  | new k ih =>
    refine ih _ hr ?_ (fun j hj => hn j (by simp only [Lev.newNode] at hj; omega))
    simp only [Lev.newNode, Mem.set]
    rw [if_neg (fun h' => hn _ (Nat.le_refl _) h'.symm)]
    exact hb
  | free a k ih =>
    obtain ⟨_, h1, h2⟩ := deref_ok hr
    refine ih h2 ?_ hn
    simp only [Mem.set]
    split
    · rfl
    · exact hb

/-- A run that allocates nothing. -/
theorem Safe.of_run {p : NProg α} {h h' : Heap} {x : α} (hr : p.run addr h = .ok (x, h')) (hc : h'.count = h.count) :
    Safe S (fun y V => y = x ∧ V = h'.mem) p h.mem := by
  induction p generalizing h with
  | ret y => cases hr; exact ⟨rfl, rfl⟩
  | fail e => cases hr
  | read a k ih => obtain ⟨nd, h1, h2⟩ := deref_ok hr; exact ⟨nd, .inl h1, ih nd h2 hc⟩
  | write a nd k ih =>
    obtain ⟨_, h1, h2⟩ := deref_ok hr
    exact ⟨by rw [h1]; simp, ih (h := ⟨h.mem.set a (some nd), h.count⟩) h2 hc⟩
  | new k ih =>
    have := run_count (p := k (Lev.newNode addr h).1) (h := (Lev.newNode addr h).2) hr
    simp only [Lev.newNode] at this; omega
  | free a k ih =>
    obtain ⟨_, h1, h2⟩ := deref_ok hr
    exact ⟨by rw [h1]; simp, ih (h := ⟨h.mem.set a none, h.count⟩) h2 hc⟩

/-- The allocator hands out the addresses `pre`, then others. -/
def extend (pre : List Nat) (i : Nat) : Nat :=
  match pre[i]? with
  | some a => a
  | none => pre.sum + i + 1

theorem le_sum {pre : List Nat} {a : Nat} (h : a ∈ pre) : a ≤ pre.sum := by
  induction pre with
  | nil => simp at h
  | cons b pre ih =>
    rcases List.mem_cons.1 h with rfl | h
    · simp
    · have := ih h; simp; omega

/-- No address is null, none is handed out twice. -/
def Distinct (addr : Nat → Nat) : Prop := (∀ k, addr k ≠ 0) ∧ ∀ j k, addr j = addr k → j = k

theorem extend_distinct {pre : List Nat} (hnd : pre.Nodup) (h0 : ∀ a ∈ pre, a ≠ 0) : Distinct (extend pre) := by
  constructor
  · intro k
    simp only [extend]
    split
    · next a ha => exact h0 a (List.mem_of_getElem? ha)
    · omega
  · intro j k
    simp only [extend]
    cases ha : pre[j]? with
    | some a =>
      have hj := List.getElem?_eq_some_iff.1 ha
      have := le_sum (List.mem_of_getElem? ha)
      cases hb : pre[k]? with
      | some b =>
        rintro rfl
        exact (List.getElem?_inj hj.1 hnd).1 (ha.trans hb.symm)
      | none => intro h; simp only at h; omega
    | none =>
      cases hb : pre[k]? with
      | some b => have := le_sum (List.mem_of_getElem? hb); intro h; simp only at h; omega
      | none => intro h; simp only at h; omega

/-- A program that is right for every sequence of addresses, and in the end has given back none of them, is safe: it cannot
have given back any in between. -/
theorem Safe.of_fresh {p : NProg α} {Q : (Nat → Nat) → α → Heap → Prop} {pre : List Nat} {V : Mem}
    (hnd : pre.Nodup) (h0 : ∀ a ∈ pre, a ≠ 0) (hV : ∀ a, V a ≠ none ↔ a ∈ pre)
    (hrun : ∀ addr, Distinct addr → (∀ (i a : Nat), pre[i]? = some a → addr i = a) →
      ∃ x h', p.run addr ⟨V, pre.length⟩ = .ok (x, h') ∧ Q addr x h' ∧ ∀ j, j < h'.count → h'.mem (addr j) ≠ none) :
    Safe S (fun x V' => ∃ addr h', Distinct addr ∧ h'.mem = V' ∧ Q addr x h') p V := by
  have hext : ∀ (i a : Nat), pre[i]? = some a → extend pre i = a := by
    intro i a ha; simp [extend, ha]
  have hone := hrun (extend pre) (extend_distinct hnd h0) hext
  induction p generalizing pre V with
  | ret x =>
    obtain ⟨y, h', e, hq, _⟩ := hone
    cases e
    exact ⟨extend pre, _, extend_distinct hnd h0, rfl, hq⟩
  | fail e => obtain ⟨y, h', e, _⟩ := hone; cases e
  | read a k ih =>
    obtain ⟨y, h', e, _⟩ := hone
    obtain ⟨nd, hm, _⟩ := deref_ok e
    have hk : ∀ addr, Distinct addr → (∀ (i a : Nat), pre[i]? = some a → addr i = a) →
        ∃ x h', (k nd).run addr ⟨V, pre.length⟩ = .ok (x, h') ∧ Q addr x h' ∧ ∀ j, j < h'.count → h'.mem (addr j) ≠ none := by
      intro addr h1 h2
      obtain ⟨x, h', e, hq⟩ := hrun addr h1 h2
      obtain ⟨nd', hm', e'⟩ := deref_ok e
      have : nd' = nd := by
        have h3 : V a = some nd := hm
        have h4 : V a = some nd' := hm'
        rw [h3] at h4; exact (Option.some.inj h4).symm
      subst this
      exact ⟨x, h', e', hq⟩
    exact ⟨nd, .inl hm, ih nd hnd h0 hV hk hext (hk _ (extend_distinct hnd h0) hext)⟩
  | write a nd k ih =>
    obtain ⟨y, h', e, _⟩ := hone
    obtain ⟨nd0, hm, _⟩ := deref_ok e
    have hm : V a = some nd0 := hm
    have hV' : ∀ b, (V.set a (some nd)) b ≠ none ↔ b ∈ pre := by
      intro b
      simp only [Mem.set]
      split
      · next hb => subst hb; simp only [ne_eq, reduceCtorEq, not_false_eq_true, true_iff]; exact (hV _).1 (by rw [hm]; simp)
      · exact hV b
    have hk : ∀ addr, Distinct addr → (∀ (i a : Nat), pre[i]? = some a → addr i = a) →
        ∃ x h', k.run addr ⟨V.set a (some nd), pre.length⟩ = .ok (x, h') ∧ Q addr x h' ∧
          ∀ j, j < h'.count → h'.mem (addr j) ≠ none := by
      intro addr h1 h2
      obtain ⟨x, h', e, hq⟩ := hrun addr h1 h2
      obtain ⟨_, _, e'⟩ := deref_ok e
      exact ⟨x, h', e', hq⟩
    exact ⟨by rw [hm]; simp, ih hnd h0 hV' hk hext (hk _ (extend_distinct hnd h0) hext)⟩
  | new k ih =>
    intro a ha hVa _
    have hna : a ∉ pre := fun h => (hV a).2 h hVa
    have hnd' : (pre ++ [a]).Nodup := by
      rw [List.nodup_append]
      refine ⟨hnd, by simp, ?_⟩
      intro x hx y hy
      simp only [List.mem_singleton] at hy
      rintro rfl
      subst hy
      exact hna hx
    have h0' : ∀ b ∈ pre ++ [a], b ≠ 0 := by
      intro b hb
      rcases List.mem_append.1 hb with h | h
      · exact h0 b h
      · simp only [List.mem_singleton] at h; subst h; exact ha
    have hV' : ∀ b, (V.set a (some { final := false, edges := [] })) b ≠ none ↔ b ∈ pre ++ [a] := by
      intro b
      simp only [Mem.set, List.mem_append, List.mem_singleton]
      split
      · next hb => simp [hb]
      · next hb => rw [hV b]; simp [hb]
    have hk : ∀ addr, Distinct addr → (∀ (i b : Nat), (pre ++ [a])[i]? = some b → addr i = b) →
        ∃ x h', (k a).run addr ⟨V.set a (some { final := false, edges := [] }), (pre ++ [a]).length⟩ = .ok (x, h') ∧
          Q addr x h' ∧ ∀ j, j < h'.count → h'.mem (addr j) ≠ none := by
      intro addr h1 h2
      obtain ⟨x, h', e, hq⟩ := hrun addr h1 (fun i b hi => h2 i b (by
        rw [List.getElem?_append_left (List.getElem?_eq_some_iff.1 hi).1]; exact hi))
      have hla : addr pre.length = a := h2 _ _ (by simp)
      refine ⟨x, h', ?_, hq⟩
      simp only [NProg.run, Lev.newNode, hla] at e
      simpa using e
    have hext' : ∀ (i b : Nat), (pre ++ [a])[i]? = some b → extend (pre ++ [a]) i = b := by
      intro i b hb; simp [extend, hb]
    exact ih a hnd' h0' hV' hk hext' (hk _ (extend_distinct hnd' h0') hext')
  | free a k ih =>
    exfalso
    obtain ⟨y, h', e, _, hall⟩ := hone
    obtain ⟨nd0, hm, e'⟩ := deref_ok e
    have hm : V a = some nd0 := hm
    have ha : a ∈ pre := (hV a).1 (by rw [hm]; simp)
    obtain ⟨i, hi⟩ := List.mem_iff_getElem?.1 ha
    have hlt := (List.getElem?_eq_some_iff.1 hi).1
    have hai := hext i a hi
    have hdead := run_dead e' (b := a) (by simp [Mem.set]) (fun j hj => by
      have hj' : pre.length ≤ j := hj
      intro h'
      have := (extend_distinct hnd h0).2 j i (h'.trans hai.symm)
      omega)
    have hc := run_count e'
    simp only at hc
    exact hall i (by omega) (by rw [hai]; exact hdead)

/-! ### Reading what is shared -/

/-- The program only reads. -/
def ReadOnly : NProg α → Prop
  | .ret _ | .fail _ => True
  | .read _ k => ∀ nd, ReadOnly (k nd)
  | .write .. | .new _ | .free .. => False

theorem Safe.of_shared {p : NProg α} (hp : ReadOnly p) {n : Nat} {h' : Heap} {x : α} (hr : p.run addr ⟨S, n⟩ = .ok (x, h')) :
    Safe S (fun y V' => y = x ∧ V' = V) p V := by
  induction p with
  | ret y => cases hr; exact ⟨rfl, rfl⟩
  | fail e => cases hr
  | read a k ih => obtain ⟨nd, h1, h2⟩ := deref_ok hr; exact ⟨nd, .inr h1, ih nd (hp nd) h2⟩
  | write a nd k ih => exact hp.elim
  | new k ih => exact hp.elim
  | free a k ih => exact hp.elim

theorem ReadOnly.bind {p : NProg α} {f : α → NProg β} (hp : ReadOnly p) (hf : ∀ x, ReadOnly (f x)) : ReadOnly (p.bind f) := by
  induction p with
  | ret y => exact hf y
  | fail e => trivial
  | read a k ih => exact fun nd => ih nd (hp nd)
  | write a nd k ih => exact hp.elim
  | new k ih => exact hp.elim
  | free a k ih => exact hp.elim

theorem readOnly_containsLoop (t : Str) (i a : Nat) : ReadOnly (NThr.containsLoop t i a) := by
  induction t generalizing i a with
  | nil => trivial
  | cons c t ih =>
    simp only [NThr.containsLoop]
    split
    · trivial
    · intro nd
      show ReadOnly (if i + 1 > 2147483647 then NProg.fail .ub else NThr.containsLoop t (i + 1) (nodeTransition nd c))
      split
      · trivial
      · exact ih _ _

theorem readOnly_containsTerm (root : Nat) (t : Str) : ReadOnly (NThr.containsTerm root t) := by
  refine ReadOnly.bind (readOnly_containsLoop t 0 root) fun a => ?_
  split
  · trivial
  · exact fun nd => trivial

theorem nbind_assoc {γ : Type} (p : NProg α) (f : α → NProg β) (g : β → NProg γ) :
    (p.bind f).bind g = p.bind fun x => (f x).bind g := by
  induction p with
  | ret x => rfl
  | fail e => rfl
  | read a k ih => simp only [NProg.bind, ih]
  | write a nd k ih => simp only [NProg.bind, ih]
  | new k ih => simp only [NProg.bind, ih]
  | free a k ih => simp only [NProg.bind, ih]

end NThr

end Lev
