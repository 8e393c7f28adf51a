import Verif.Proofs.AnyGraph
import Verif.Proofs.SerialWalk
import Verif.Proofs.DeleteCost

/-!
# The graphs that foreign messages make
-/

namespace Lev

open Spec

section
variable {sgn : Bool} {addr : Nat → Nat} {h h' : Heap} {msg : Msg} {d : SDawg} {φ : Nat → Nat}

theorem ReadAny.walk_of_leads (hr : ReadAny sgn addr h msg h' d φ) {w : Str} {b : Nat} (hl : Leads h'.mem d.root w b) :
    ∃ y, Walk msg msg.rootId w y ∧ φ y = b := by
  induction hl with
  | here => exact ⟨msg.rootId, .here, hr.root.symm⟩
  | @snoc w b nd c x _ hm he ih =>
    obtain ⟨y, hw, rfl⟩ := ih
    have hp : ¬ Missing msg y := fun hx => by rw [hr.missing hx] at hm; cases hm
    obtain ⟨es, h1, _, h3⟩ := hr.present hp
    rw [h1] at hm
    cases hm
    obtain ⟨e, e1, rfl, e3, e4⟩ := (h3 _ _).1 he
    have := walk_snoc hw e1
    rw [e3] at this
    exact ⟨e.target, this, e4⟩

theorem ReadAny.leads_of_walk (hr : ReadAny sgn addr h msg h' d φ) {w : Str} {y : Nat} (hw : Walk msg msg.rootId w y)
    (hp : ∀ p z, p <+: w → p ≠ w → Walk msg msg.rootId p z → ¬ Missing msg z) : Leads h'.mem d.root w (φ y) := by
  have key : ∀ {x y : Nat} {t : Str}, Walk msg x t y → ∀ {s : Str}, Leads h'.mem d.root s (φ x) → Walk msg msg.rootId s x →
      (∀ p z, p <+: s ++ t → p ≠ s ++ t → Walk msg msg.rootId p z → ¬ Missing msg z) →
      Leads h'.mem d.root (s ++ t) (φ y) := by
    intro x y t ht
    induction ht with
    | here => intro s hs _ _; simpa using hs
    | @step e c t y he hc _ ih =>
      intro s hs hws hall
      obtain ⟨es, h1, _, h3⟩ := hr.present (hall s e.source (List.prefix_append _ _) (by simp) hws)
      have hce : charOfLabel e.label = c := charOfLabel_eq_iff.2 hc
      have h4 : (c, φ e.target) ∈ es := (h3 _ _).2 ⟨e, he, rfl, hce, rfl⟩
      have hw' := walk_snoc hws he
      rw [hce] at hw'
      have := ih (s := s ++ [c]) (.snoc hs h1 h4) hw' (by simpa using hall)
      simpa using this
  have := key hw (s := []) (by rw [← hr.root]; exact .here) .here (by simpa using hp)
  simpa using this

theorem ReadAny.sorted (hr : ReadAny sgn addr h msg h' d φ) : EdgesSorted sgn h'.mem d.root := by
  intro a nd ha hm
  obtain ⟨w, hl⟩ := Spec.Leads.of_reaches ha
  obtain ⟨y, _, rfl⟩ := hr.walk_of_leads hl
  have hp : ¬ Missing msg y := fun hx => by rw [hr.missing hx] at hm; cases hm
  obtain ⟨es, h1, h2, _⟩ := hr.present hp
  rw [h1] at hm
  cases hm
  exact h2

theorem viable_prefix {A : Algorithm} {q : Str} {n : Nat} {p w : Str} (h : Viable A q n w) (hp : p <+: w) : Viable A q n p := by
  obtain ⟨r, rfl⟩ := hp
  obtain ⟨u, c, hc, h⟩ := h
  exact ⟨r ++ u, c, hc, by simpa using h⟩

theorem ReadAny.pitfall (hr : ReadAny sgn addr h msg h' d φ) (A : Algorithm) (n : Nat) (q : Str) :
    Pitfall A n q h'.mem d.root ↔ ∃ w y, Viable A q n w ∧ Walk msg msg.rootId w y ∧ Missing msg y := by
  constructor
  · rintro ⟨w, b, hv, hl, hm⟩
    obtain ⟨y, hw, rfl⟩ := hr.walk_of_leads hl
    refine ⟨w, y, hv, hw, Classical.byContradiction fun hp => ?_⟩
    obtain ⟨es, h1, _⟩ := hr.present hp
    rw [h1] at hm; cases hm
  · rintro ⟨w, y, hv, hw, hm⟩
    obtain ⟨k, hk⟩ : ∃ k, w.length = k := ⟨_, rfl⟩
    induction k using Nat.strongRecOn generalizing w y with
    | ind k ih =>
      by_cases hall : ∀ p z, p <+: w → p ≠ w → Walk msg msg.rootId p z → ¬ Missing msg z
      · exact ⟨w, φ y, hv, hr.leads_of_walk hw hall, hr.missing hm⟩
      · simp only [Classical.not_forall, Classical.not_not] at hall
        obtain ⟨p, z, h1, h2, h3, h4⟩ := hall
        have : p.length < k := by
          rcases Nat.lt_or_ge p.length w.length with h5 | h5
          · omega
          · exact absurd (h1.eq_of_length_le h5) h2
        exact ih _ this p z (viable_prefix hv h1) h3 h4 rfl

/-- What the query finds, if it meets no missing node. -/
theorem ReadAny.accepts_near (hr : ReadAny sgn addr h msg h' d φ) {A : Algorithm} {n : Nat} {q t : Str}
    (hp : ¬ Pitfall A n q h'.mem d.root) (ht : Viable A q n t) :
    Accepts h'.mem d.root t ↔ ∃ y, Walk msg msg.rootId t y ∧ y ∈ msg.finalIds := by
  rw [hr.pitfall] at hp
  have hno : ∀ p z, p <+: t → Walk msg msg.rootId p z → ¬ Missing msg z :=
    fun p z h1 h2 h3 => hp ⟨p, z, viable_prefix ht h1, h2, h3⟩
  constructor
  · intro ha
    obtain ⟨b, hl⟩ := leads_of_accepts (u := []) (by simpa using ha)
    obtain ⟨y, hw, rfl⟩ := hr.walk_of_leads hl
    have h1 := accepts_after hr.sorted hl (u := []) (by simpa using ha)
    obtain ⟨es, h2, _⟩ := hr.present (hno t y (List.prefix_refl _) hw)
    cases h1 with
    | here hm hf =>
      rw [h2] at hm
      cases hm
      exact ⟨y, hw, by simpa using hf⟩
  · rintro ⟨y, hw, hf⟩
    have hl := hr.leads_of_walk hw fun p z h1 _ h2 => hno p z h1 h2
    obtain ⟨es, h2, _⟩ := hr.present (hno t y (List.prefix_refl _) hw)
    have := hl.accepts (t := []) (.here h2 (by simpa using hf))
    simpa using this

end

end Lev
