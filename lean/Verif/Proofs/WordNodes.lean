import Verif.Proofs.QueryCost
import Verif.Proofs.DeleteCost
import Verif.Proofs.Demo
import Verif.Spec.Cost

/-!
The nodes of the dictionary of a single word.
-/

namespace Lev

open Spec

theorem leads_append {mem : Mem} {a b c : Nat} {w u : Str} (h : Leads mem a w b) (h' : Leads mem b u c) :
    Leads mem a (w ++ u) c := by
  induction h' with
  | here => simpa using h
  | snoc _ hm he ih => rw [← List.append_assoc]; exact .snoc ih hm he

theorem accepts_split {mem : Mem} {a : Nat} {w u : Str} (h : Accepts mem a (w ++ u)) :
    ∃ b, Leads mem a w b ∧ Accepts mem b u := by
  induction w generalizing a with
  | nil => exact ⟨a, .here, h⟩
  | cons c w ih =>
    cases h with
    | step hm hb h =>
      obtain ⟨x, hx, hu⟩ := ih h
      exact ⟨x, leads_cons hm hb hx, hu⟩

theorem leads_snoc_inv {mem : Mem} {a x : Nat} {w : Str} {c : UInt8} (h : Leads mem a (w ++ [c]) x) :
    ∃ y nd, Leads mem a w y ∧ mem y = some nd ∧ (c, x) ∈ nd.edges := by
  generalize hw : w ++ [c] = u at h
  cases h with
  | here => simp at hw
  | snoc hl hm he =>
    obtain ⟨rfl, hx⟩ := List.append_inj' hw rfl
    simp only [List.cons.injEq, and_true] at hx
    subst hx
    exact ⟨_, _, hl, hm, he⟩

theorem singleton_of_pairwise {sgn : Bool} {es : List (UInt8 × Nat)} {e : UInt8 × Nat}
    (hs : es.Pairwise (fun e f => charLt sgn e.1 f.1)) (hall : ∀ x ∈ es, x = e) (hmem : e ∈ es) : es = [e] := by
  cases es with
  | nil => simp at hmem
  | cons x es =>
    cases es with
    | nil => rw [hall x (by simp)]
    | cons y es =>
      have h1 := (List.pairwise_cons.1 hs).1 y (by simp)
      rw [hall x (by simp), hall y (by simp)] at h1
      exact (charLt_irrefl h1).elim

/-- The nodes of the dictionary of the word `t`: one for each beginning. -/
structure WordNodes (mem : Mem) (root : Nat) (t : Str) (b : Nat → Nat) : Prop where
  start : b 0 = root
  inj : ∀ i j, i ≤ t.length → j ≤ t.length → b i = b j → i = j
  reach : ∀ a, Reaches mem root a ↔ ∃ i ≤ t.length, a = b i
  inner : ∀ i (hi : i < t.length), mem (b i) = some ⟨false, [(t[i], b (i + 1))]⟩
  last : mem (b t.length) = some ⟨true, []⟩

theorem Finished.wordNodes {sgn : Bool} {addr : Nat → Nat} {c0 : Nat} {m0 : Mem} {t : Str} {h : Heap} {d : SDawg}
    (hf : Finished sgn addr c0 m0 [t] h d) : ∃ b, WordNodes h.mem d.root t b := by
  have hleads : ∀ i, ∃ b, Leads h.mem d.root (t.take i) b := fun i =>
    (hf.leads_iff _).2 (.inr ⟨t, by simp, List.take_prefix _ _⟩)
  obtain ⟨b, hb⟩ := Classical.axiomOfChoice hleads
  obtain ⟨nd0, F0, h1, h2, h3, h4, hdn⟩ := hf.dict
  have huniq : ∀ {w x y}, Leads h.mem d.root w x → Leads h.mem d.root w y → x = y := fun hx hy => hx.unique hdn hy
  have hacc : ∀ i, Accepts h.mem (b i) (t.drop i) := by
    intro i
    have : Accepts h.mem d.root (t.take i ++ t.drop i) := by
      rw [List.take_append_drop]; exact (hf.accepts t).2 (by simp)
    obtain ⟨x, hx, ha⟩ := accepts_split this
    rw [huniq (hb i) hx]; exact ha
  have hword : ∀ {w x}, Leads h.mem d.root w x → ∃ i ≤ t.length, w = t.take i ∧ x = b i := by
    intro w x hx
    have : ∃ i ≤ t.length, w = t.take i := by
      rcases (hf.leads_iff w).1 ⟨x, hx⟩ with rfl | ⟨t', ht', hp⟩
      · exact ⟨0, by omega, by simp⟩
      · simp only [List.mem_singleton] at ht'
        subst ht'
        exact ⟨w.length, hp.length_le, (List.prefix_iff_eq_take.1 hp)⟩
    obtain ⟨i, hi, rfl⟩ := this
    exact ⟨i, hi, rfl, huniq hx (hb i)⟩
  have hedge : ∀ i ≤ t.length, ∀ nd, h.mem (b i) = some nd → ∀ c x, (c, x) ∈ nd.edges →
      ∃ hi : i < t.length, (c, x) = (t[i], b (i + 1)) := by
    intro i hi nd hm c x hx
    obtain ⟨j, hj, hw, rfl⟩ := hword (.snoc (hb i) hm hx)
    have hl := congrArg List.length hw
    simp only [List.length_append, List.length_cons, List.length_nil, List.length_take] at hl
    have hij : j = i + 1 := by omega
    subst hij
    have hi' : i < t.length := by omega
    refine ⟨hi', ?_⟩
    rw [List.take_succ_eq_append_getElem hi'] at hw
    have := List.append_cancel_left hw
    simp only [List.cons.injEq, and_true] at this
    rw [this]
  have hnode : ∀ i ≤ t.length, ∃ nd, h.mem (b i) = some nd ∧ nd.edges.Pairwise (fun e f => charLt sgn e.1 f.1) ∧
      (nd.final = true ↔ i = t.length) := by
    intro i hi
    obtain ⟨d', hd'⟩ := (hb i).dictNode hdn
    cases hd' with
    | @mk _ _ nd hm hs _ =>
      refine ⟨nd, hm, hs, fun hfin => ?_, fun hfin => ?_⟩
      · have := (hf.accepts _).1 ((hb i).accepts (.here hm hfin))
        simp only [List.append_nil, List.mem_singleton] at this
        have := congrArg List.length this
        simp only [List.length_take] at this
        omega
      · have ha := hacc i
        rw [hfin, List.drop_length] at ha
        rw [← hfin] at ha
        generalize hz : ([] : Str) = z at ha
        cases ha with
        | here hm' hf' => rw [hm] at hm'; obtain rfl := Option.some.inj hm'; exact hf'
        | step => cases hz
  refine ⟨b, ?_, ?_, ?_, ?_, ?_⟩
  · have := hb 0
    simp only [List.take_zero] at this
    exact leads_nil_inv this rfl
  · intro i j hi hj hij
    have ha := hacc i
    rw [hij] at ha
    have := (hf.accepts _).1 ((hb j).accepts ha)
    simp only [List.mem_singleton] at this
    have := congrArg List.length this
    simp only [List.length_append, List.length_take, List.length_drop] at this
    omega
  · intro a
    constructor
    · intro ha
      obtain ⟨w, hw⟩ := Spec.Leads.of_reaches ha
      obtain ⟨i, hi, _, rfl⟩ := hword hw
      exact ⟨i, hi, rfl⟩
    · rintro ⟨i, _, rfl⟩
      have : ∀ {w x}, Leads h.mem d.root w x → Reaches h.mem d.root x := by
        intro w x hx
        have hgen : ∀ {y w x}, Leads h.mem y w x → ∀ z, Reaches h.mem x z → Reaches h.mem y z := by
          intro y w x hx
          induction hx with
          | here => exact fun z hz => hz
          | snoc _ hm he ih => exact fun z hz => ih z (.step hm he hz)
        exact hgen hx x .refl
      exact this (hb i)
  · intro i hi
    obtain ⟨nd, hm, hs, hfin⟩ := hnode i (by omega)
    have hmem : (t[i], b (i + 1)) ∈ nd.edges := by
      have hl := hb (i + 1)
      rw [List.take_succ_eq_append_getElem hi] at hl
      obtain ⟨y, nd', hl, hm', he⟩ := leads_snoc_inv hl
      rw [← huniq (hb i) hl, hm] at hm'
      obtain rfl := Option.some.inj hm'
      exact he
    have he := singleton_of_pairwise hs (fun x hx => by
      obtain ⟨c, y⟩ := x
      obtain ⟨_, h⟩ := hedge i (by omega) nd hm c y hx
      exact h) hmem
    have hf' : nd.final = false := by
      cases hx : nd.final with
      | false => rfl
      | true => have := hfin.1 hx; omega
    rw [hm]
    cases nd
    simp only at he hf'
    rw [he, hf']
  · obtain ⟨nd, hm, hs, hfin⟩ := hnode t.length (Nat.le_refl _)
    have he : nd.edges = [] := by
      cases hes : nd.edges with
      | nil => rfl
      | cons e es =>
        obtain ⟨c, y⟩ := e
        obtain ⟨h, _⟩ := hedge t.length (Nat.le_refl _) nd hm c y (by rw [hes]; simp)
        omega
    have hf' := hfin.2 rfl
    rw [hm]
    cases nd
    simp only at he hf'
    rw [he, hf']

/-- From the node of the beginning of length `i` one can read the beginnings of what is left. -/
theorem WordNodes.readable {mem : Mem} {root : Nat} {t : Str} {b : Nat → Nat} (hw : WordNodes mem root t b) {i : Nat}
    (hi : i ≤ t.length) : Readable mem (b i) (t.length - i + 1) := by
  have key : ∀ n i, i + n = t.length → ∀ w, (∃ x, Leads mem (b i) w x) ↔ ∃ k ≤ n, w = (t.drop i).take k := by
    intro n
    induction n with
    | zero =>
      intro i hi w
      constructor
      · rintro ⟨x, hx⟩
        cases w with
        | nil => exact ⟨0, Nat.le_refl _, by simp⟩
        | cons c u =>
          obtain ⟨nd, y, hm, hy, _⟩ := leads_cons_inv hx rfl
          have : i = t.length := by omega
          rw [this, hw.last] at hm
          obtain rfl := Option.some.inj hm
          simp at hy
      · rintro ⟨k, hk, rfl⟩
        have : k = 0 := by omega
        subst this
        exact ⟨b i, by simpa using .here⟩
    | succ n ih =>
      intro i hi w
      have hlt : i < t.length := by omega
      have hdrop : t.drop i = t[i] :: t.drop (i + 1) := List.drop_eq_getElem_cons hlt
      constructor
      · rintro ⟨x, hx⟩
        cases w with
        | nil => exact ⟨0, Nat.zero_le _, by simp⟩
        | cons c u =>
          obtain ⟨nd, y, hm, hy, hl⟩ := leads_cons_inv hx rfl
          rw [hw.inner i hlt] at hm
          obtain rfl := Option.some.inj hm
          simp only [List.mem_singleton] at hy
          cases hy
          obtain ⟨k, hk, rfl⟩ := (ih (i + 1) (by omega) u).1 ⟨x, hl⟩
          exact ⟨k + 1, by omega, by rw [hdrop]; rfl⟩
      · rintro ⟨k, hk, rfl⟩
        cases k with
        | zero => exact ⟨b i, by simpa using .here⟩
        | succ k =>
          obtain ⟨x, hx⟩ := (ih (i + 1) (by omega) _).2 ⟨k, by omega, rfl⟩
          exact ⟨x, by rw [hdrop]; exact leads_cons (hw.inner i hlt) (by simp) hx⟩
  refine ⟨(List.range (t.length - i + 1)).map fun k => (t.drop i).take k, ?_, fun w => ?_, by simp⟩
  · rw [List.Nodup, List.pairwise_map]
    refine List.Pairwise.imp_of_mem ?_ List.pairwise_lt_range
    intro x y hx hy hxy heq
    rw [List.mem_range] at hx hy
    have := congrArg List.length heq
    simp only [List.length_take, List.length_drop] at this
    omega
  · rw [key (t.length - i) i (by omega), List.mem_map]
    constructor
    · rintro ⟨k, hk, rfl⟩; exact ⟨k, by rw [List.mem_range] at hk; omega, rfl⟩
    · rintro ⟨k, hk, rfl⟩; exact ⟨k, by rw [List.mem_range]; omega, rfl⟩

end Lev
