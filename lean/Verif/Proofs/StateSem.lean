import Verif.Proofs.TransSem
import Verif.Proofs.StateOps
import Verif.Model.Query

/-!
States as a whole: a transition keeps the promise "what can be read from here with at most `c` errors".
-/

namespace Lev

open Spec

/-- The shape of every state of a query after `m` dictionary characters. -/
structure StateInv (A : Algorithm) (n : Nat) (q : Str) (m : Nat) (l : List Pos) : Prop where
  ne : l ≠ []
  ok : ∀ p ∈ l, PosOk A n q m p
  sorted : l.Pairwise (fun a b => PosLe A a b ∧ ¬ SamePos A a b)

/-- Meaning of a state reached by reading `w`. -/
structure StateSem (A : Algorithm) (n : Nat) (q w : Str) (l : List Pos) : Prop where
  inv : StateInv A n q w.length l
  sem : ∀ u c, c ≤ n → ((∃ p ∈ l, PAcc A q p u c) ↔ AlignLe A q (w ++ u) c)

theorem PosOk.same_eq {A : Algorithm} {n m : Nat} {q : Str} {a b : Pos} (ha : PosOk A n q m a)
    (hb : PosOk A n q m b) (h : SamePos A a b) : a = b := by
  obtain ⟨h1, h2, h3⟩ := h
  have h4 : a.special = b.special := by
    by_cases hA : A = .standard
    · have hf : ∀ p, PosOk A n q m p → p.special = false := by
        intro p hp
        cases hsp : p.special with
        | false => rfl
        | true => exact absurd hA (hp.special_alg hsp).1
      rw [hf a ha, hf b hb]
    · exact h3 hA
  cases a; cases b; simp_all

theorem initialState_sem (A : Algorithm) (n : Nat) (q : Str) : StateSem A n q [] initialState := by
  refine ⟨⟨by simp [initialState], ?_, by simp [initialState]⟩, ?_⟩
  · intro p hp
    simp only [initialState, List.mem_singleton] at hp
    subst hp
    constructor <;> simp
  · intro u c _
    simp only [initialState, List.mem_singleton, exists_eq_left, List.nil_append]
    constructor
    · rintro ⟨k, hk, hr⟩
      simp only [Nat.zero_add] at hk
      exact AlignLe.mono hr hk
    · intro h
      exact ⟨c, by simp, by simpa [Rem] using h⟩

/-! ### The characteristic vector of a query -/

theorem cvLoop_eq {x : UInt8} {term : Str} {i r j : Nat} (hr : i + j + r ≤ term.length)
    (hw : term.length < sizeW) :
    cvLoop x term i r j = .ok (((term.drop (i + j)).take r).map (fun c => x == c)) := by
  induction r generalizing j with
  | zero => simp [cvLoop]
  | succ r ih =>
    have hlt : i + j < term.length := by omega
    rw [cvLoop, wadd_eq (by omega)]
    have h1 : strAt term (i + j) = .ok term[i + j] := by
      unfold strAt; rw [List.getElem?_eq_getElem hlt]
    rw [h1, ih (by omega), List.drop_eq_getElem_cons hlt]
    simp [bind, Except.bind, pure, Except.pure, Nat.add_assoc]

theorem windowMax_eq {n : Nat} (hn : n ≤ sizeMax) : windowMax n = min (2 * n + 1) sizeMax := by
  unfold windowMax
  have hw := sizeW_val
  have hm := sizeMax_val
  split
  · rw [Nat.mod_eq_of_lt (by omega), wadd_eq (by omega)]
    omega
  · omega

/-- The characteristic vector a query computes is the window that the transitions expect. -/
theorem charVec_window {n : Nat} {q : Str} {x : UInt8} {m i : Nat} (hs : Small n q m) (hi : i ≤ q.length)
    (him : m ≤ i + n) :
    ∃ cv, charVec x q (if windowMax n < wsub q.length i then windowMax n else wsub q.length i) i = .ok cv ∧
      Window n q x i m cv := by
  have hw := sizeW_val
  have hm := sizeMax_val
  have hq := hs.q_lt
  have hfits := hs.q_fits.fits
  have hk : (if windowMax n < wsub q.length i then windowMax n else wsub q.length i) =
      min (2 * n + 1) (q.length - i) := by
    rw [windowMax_eq hs.n_le, wsub_eq hi (by omega)]
    have hM : q.length < sizeMax := by omega
    clear hw hm
    generalize sizeMax = M at *
    split <;> omega
  rw [hk]
  unfold charVec
  rw [if_pos (by omega), cvLoop_eq (by omega) (by omega)]
  refine ⟨_, rfl, ⟨?_, hi, him⟩⟩
  have : ((fun c => x == c) : UInt8 → Bool) = (fun c => c == x) := by
    funext c; exact Bool.beq_comm
  rw [this, show i + 0 = i from rfl]
  congr 1
  rw [← List.length_drop]
  rcases Nat.le_total (2 * n + 1) (q.drop i).length with h | h
  · rw [Nat.min_eq_left h]
  · rw [Nat.min_eq_right h, List.take_of_length_le (Nat.le_refl _), List.take_of_length_le h]

/-! ### One transition -/

theorem transLoop_eq {A : Algorithm} {n : Nat} {q : Str} {x : UInt8} {m offset : Nat} {cv : List Bool}
    (hwin : Window n q x offset m cv) (hs : Small n q m) (ps acc : List Pos)
    (hps : ∀ p ∈ ps, PosOk A n q m p ∧ offset ≤ p.index) (hacc : ∀ p ∈ acc, PosOk A n q (m + 1) p)
    (hd : Desc A acc) :
    ∃ r, transLoop A n cv offset ps acc = .ok r ∧ Desc A r ∧ (∀ p ∈ r, PosOk A n q (m + 1) p) ∧
      ∀ p, p ∈ r ↔ p ∈ acc ∨ ∃ p0 ∈ ps, p ∈ idealPos A n q x p0 := by
  induction ps generalizing acc with
  | nil => exact ⟨acc, rfl, hd, hacc, by simp⟩
  | cons p0 ps ih =>
    have h0 := hps p0 (by simp)
    have hnew : ∀ p ∈ idealPos A n q x p0, PosOk A n q (m + 1) p := fun p hp => idealPos_ok h0.1 hp
    have hmem := mem_mergeAll (A := A) (l := acc) (ps := idealPos A n q x p0) (PosOk A n q (m + 1))
      (fun a b ha hb h => ha.same_eq hb h) hacc hnew
    obtain ⟨r, hr, hdr, hok, hm⟩ := ih (mergeAll A acc (idealPos A n q x p0))
      (fun p hp => hps p (by simp [hp]))
      (fun p hp => by
        rcases (hmem p).1 hp with h | h
        · exact hacc p h
        · exact hnew p h)
      (mergeAll_desc hd)
    refine ⟨r, ?_, hdr, hok, ?_⟩
    · rw [transLoop, posTrans_eq hwin hs h0.1 h0.2]
      exact hr
    · intro p
      rw [hm, hmem]
      simp only [List.mem_cons, exists_eq_or_imp]
      constructor
      · rintro ((h | h) | h)
        · exact .inl h
        · exact .inr (.inl h)
        · exact .inr (.inr h)
      · rintro (h | h | h)
        · exact .inl (.inl h)
        · exact .inl (.inr h)
        · exact .inr h

theorem Desc.sort_sorted {A : Algorithm} {l : List Pos} (h : Desc A l) :
    (mergeSort (comparePos A) l).Pairwise (fun a b => PosLe A a b ∧ ¬ SamePos A a b) := by
  have h1 := mergeSort_sorted (comparePos_totalPre A) l
  have h2 : (mergeSort (comparePos A) l).Pairwise (fun a b => ¬ SamePos A a b) := by
    have hsym : ∀ {a b : Pos}, ¬ SamePos A a b → ¬ SamePos A b a :=
      fun h hs => h ⟨hs.1.symm, hs.2.1.symm, fun hA => (hs.2.2 hA).symm⟩
    have : l.Pairwise (fun a b => ¬ SamePos A a b) := h.imp fun hab hs =>
      hab.ne ⟨hs.1.symm, hs.2.1.symm, fun hA => (hs.2.2 hA).symm⟩
    exact (mergeSort_perm (comparePos A) l).symm.pairwise this hsym
  have h3 : (mergeSort (comparePos A) l).Pairwise (fun a b => PosLe A a b) :=
    h1.imp fun hab => (comparePos_lt_one_iff A _ _).1 hab
  exact h3.and h2

theorem StateInv.head_le {A : Algorithm} {n m : Nat} {q : Str} {hd : Pos} {tl : List Pos}
    (h : StateInv A n q m (hd :: tl)) : ∀ p ∈ hd :: tl, hd.index ≤ p.index := by
  intro p hp
  rcases List.mem_cons.1 hp with rfl | hp
  · exact Nat.le_refl _
  · have := ((List.pairwise_cons.1 h.sorted).1 p hp).1
    unfold PosLe at this; omega

/-- A transition of the code: it is defined, and the next state has exactly the successors of the positions. -/
theorem stateTrans_inv {A : Algorithm} {n : Nat} {q : Str} {x : UInt8} {m : Nat} {hd : Pos} {tl : List Pos}
    {cv : List Bool} (len : Nat) (h : StateInv A n q m (hd :: tl)) (hs : Small n q m)
    (hwin : Window n q x hd.index m cv) :
    (stateTrans A n len (hd :: tl) cv = .ok none ∧ ∀ p0 ∈ hd :: tl, idealPos A n q x p0 = []) ∨
    ∃ l', stateTrans A n len (hd :: tl) cv = .ok (some l') ∧ StateInv A n q (m + 1) l' ∧
      ∀ p, p ∈ l' ↔ ∃ p0 ∈ hd :: tl, p ∈ idealPos A n q x p0 := by
  obtain ⟨r, hr, hdesc, hok, hmem⟩ := transLoop_eq (A := A) hwin hs (hd :: tl) []
    (fun p hp => ⟨h.ok p hp, h.head_le p hp⟩) (by simp) (by simp [Desc])
  have hmem' : ∀ p, p ∈ r ↔ ∃ p0 ∈ hd :: tl, p ∈ idealPos A n q x p0 := by
    intro p; rw [hmem]; simp
  have huns := unsubsume_id (sub := fun a b => subsumes A a b len) hdesc.errors
  cases r with
  | nil =>
    left
    refine ⟨?_, ?_⟩
    · simp only [stateTrans, hr, bind, Except.bind, huns]; rfl
    · intro p0 hp0
      rw [List.eq_nil_iff_forall_not_mem]
      intro p hp
      exact absurd ((hmem' p).2 ⟨p0, hp0, hp⟩) (by simp)
  | cons a r =>
    right
    refine ⟨mergeSort (comparePos A) (a :: r), ?_, ⟨?_, ?_, hdesc.sort_sorted⟩, ?_⟩
    · simp only [stateTrans, hr, bind, Except.bind, huns]; rfl
    · intro hnil
      have := (mergeSort_perm (comparePos A) (a :: r)).length_eq
      rw [hnil] at this; simp at this
    · intro p hp
      exact hok p ((mergeSort_perm _ _).mem_iff.1 hp)
    · intro p
      rw [(mergeSort_perm _ _).mem_iff, hmem']

theorem StateSem.trans {A : Algorithm} {n : Nat} {q w : Str} {x : UInt8} {hd : Pos} {tl : List Pos}
    {cv : List Bool} (len : Nat) (h : StateSem A n q w (hd :: tl)) (hs : Small n q w.length)
    (hwin : Window n q x hd.index w.length cv) :
    (stateTrans A n len (hd :: tl) cv = .ok none ∧ ∀ u c, c ≤ n → ¬ AlignLe A q (w ++ [x] ++ u) c) ∨
    ∃ l', stateTrans A n len (hd :: tl) cv = .ok (some l') ∧ StateSem A n q (w ++ [x]) l' := by
  have key : ∀ (l' : List Pos), (∀ p, p ∈ l' ↔ ∃ p0 ∈ hd :: tl, p ∈ idealPos A n q x p0) →
      ∀ u c, c ≤ n → ((∃ p ∈ l', PAcc A q p u c) ↔ AlignLe A q (w ++ [x] ++ u) c) := by
    intro l' hl' u c hc
    rw [List.append_assoc, List.singleton_append, ← h.sem (x :: u) c hc]
    constructor
    · rintro ⟨p, hp, hacc⟩
      obtain ⟨p0, hp0, hmem⟩ := (hl' p).1 hp
      exact ⟨p0, hp0, idealPos_sound (h.inv.ok p0 hp0) hmem hacc⟩
    · rintro ⟨p0, hp0, hacc⟩
      obtain ⟨p, hp, hacc'⟩ := idealPos_complete (h.inv.ok p0 hp0) hc hacc
      exact ⟨p, (hl' p).2 ⟨p0, hp0, hp⟩, hacc'⟩
  rcases stateTrans_inv len h.inv hs hwin with ⟨h1, h2⟩ | ⟨l', h1, h2, h3⟩
  · left
    refine ⟨h1, fun u c hc hal => ?_⟩
    have := (key [] (fun p => by
      constructor
      · simp
      · rintro ⟨p0, hp0, hp⟩; rw [h2 p0 hp0] at hp; simp at hp) u c hc).2 hal
    simp at this
  · right
    refine ⟨l', h1, ⟨?_, key l' h3⟩⟩
    simpa using h2

/-! ### The distance of a state -/

theorem stateDist_foldl_le (A : Algorithm) (len : Nat) (l : List Pos) (m c : Nat) :
    l.foldl (fun m p => if A ≠ .standard ∧ p.special = true then m
      else if wadd (wsub len p.index) p.errors < m then wadd (wsub len p.index) p.errors else m) m ≤ c ↔
    m ≤ c ∨ ∃ p ∈ l, ¬ (A ≠ .standard ∧ p.special = true) ∧ wadd (wsub len p.index) p.errors ≤ c := by
  induction l generalizing m with
  | nil => simp
  | cons p l ih =>
    rw [List.foldl_cons, ih]
    simp only [List.mem_cons, exists_eq_or_imp]
    by_cases hsp : A ≠ .standard ∧ p.special = true
    · rw [if_pos hsp]
      constructor
      · rintro (h | h)
        · exact .inl h
        · exact .inr (.inr h)
      · rintro (h | ⟨h, _⟩ | h)
        · exact .inl h
        · exact absurd hsp h
        · exact .inr h
    · rw [if_neg hsp]
      constructor
      · rintro (h | h)
        · split at h
          · exact .inr (.inl ⟨hsp, h⟩)
          · exact .inl h
        · exact .inr (.inr h)
      · rintro (h | ⟨_, h⟩ | h)
        · left; split <;> omega
        · left; split <;> omega
        · exact .inr h

theorem stateDist_le_iff (A : Algorithm) (l : List Pos) (len c : Nat) :
    stateDist A l len ≤ c ↔ sizeMax ≤ c ∨
      ∃ p ∈ l, ¬ (A ≠ .standard ∧ p.special = true) ∧ wadd (wsub len p.index) p.errors ≤ c :=
  stateDist_foldl_le A len l sizeMax c

theorem pacc_nil_iff {A : Algorithm} {n m : Nat} {q : Str} {p : Pos} {c : Nat} (hs : Small n q m)
    (hp : PosOk A n q m p) :
    PAcc A q p [] c ↔ ¬ (A ≠ .standard ∧ p.special = true) ∧ wadd (wsub q.length p.index) p.errors ≤ c := by
  have hw := sizeW_val
  have h1 := hp.index_le
  have h2 := hp.small
  have h3 := hs.q_lt
  have h4 := hs.m_lt
  rw [wsub_eq h1 (by omega), wadd_eq (by omega)]
  unfold PAcc
  cases hsp : p.special with
  | true =>
    have hA := (hp.special_alg hsp).1
    simp only [hA, ne_eq, not_false_eq_true, and_self, not_true, false_and, iff_false]
    rintro ⟨k, hk, hr⟩
    cases A with
    | standard => exact hr
    | transposition => obtain ⟨a, b, v', u', _, hu, _⟩ := hr; cases hu
    | mergeAndSplit => obtain ⟨a, v', y, u', _, hu, _⟩ := hr; cases hu
  | false =>
    simp only [Bool.false_eq_true, and_false, not_false_eq_true, true_and]
    constructor
    · rintro ⟨k, hk, k', hk', hr⟩
      have := hr.nil_right_le
      rw [List.length_drop] at this
      omega
    · intro h
      exact ⟨q.length - p.index, by omega, q.length - p.index, Nat.le_refl _, by
        have := align_nil_right (A := A) (q.drop p.index)
        rwa [List.length_drop] at this⟩

/-- The distance the code reports for a state is the least cost, if that is within the maximum distance;
otherwise it is more than the maximum distance. -/
theorem StateSem.dist {A : Algorithm} {n : Nat} {q w : Str} {l : List Pos} (h : StateSem A n q w l)
    (hs : Small n q w.length) {d : Nat} (hd : IsMinCost A q w d) :
    (d ≤ n → stateDist A l q.length = d) ∧ (¬ d ≤ n → ¬ stateDist A l q.length ≤ n) := by
  have hmx := sizeMax_val
  have hdle : d ≤ max q.length w.length := hd.le_iff.1 (alignLe_max q w)
  have hlt : d < sizeMax := by
    have := hs.q_lt
    have := hs.m_lt
    omega
  have key : ∀ c, c ≤ n → c < sizeMax → (stateDist A l q.length ≤ c ↔ d ≤ c) := by
    intro c hc hcm
    rw [stateDist_le_iff, ← hd.le_iff]
    have := h.sem [] c hc
    rw [List.append_nil] at this
    rw [← this]
    constructor
    · rintro (hx | ⟨p, hp, hx⟩)
      · omega
      · exact ⟨p, hp, (pacc_nil_iff hs (h.inv.ok p hp)).2 hx⟩
    · rintro ⟨p, hp, hx⟩
      exact .inr ⟨p, hp, (pacc_nil_iff hs (h.inv.ok p hp)).1 hx⟩
  constructor
  · intro hdn
    have h1 := (key d hdn hlt).2 (Nat.le_refl _)
    have h2 := (key (stateDist A l q.length) (by omega) (by omega)).1 (Nat.le_refl _)
    omega
  · intro hdn hle
    exact hdn ((key n (Nat.le_refl _) (by omega)).1 hle)

end Lev
