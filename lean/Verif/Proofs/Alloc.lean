import Verif.Model.StateHeap

/-!
An allocator that satisfies the assumptions of `SAlloc`: it hands out the lowest free address.
-/

namespace Lev

/-- The lowest free address among the first `n + 1`. -/
def firstFree {α : Type} (f : Nat → Option α) (n : Nat) : Nat :=
  ((List.range (n + 1)).find? (fun a => (f (a + 1)).isNone)).getD 0 + 1

def lowPos (m : SMem) : Nat := firstFree m.pos m.count
def lowSt (m : SMem) : Nat := firstFree m.st m.count

theorem firstFree_free {α : Type} {f : Nat → Option α} {n : Nat} {L : List Nat} (hL : L.length ≤ n)
    (hm : ∀ a c, f a = some c → a ∈ L) : f (firstFree f n) = none := by
  unfold firstFree
  cases hf : (List.range (n + 1)).find? (fun a => (f (a + 1)).isNone) with
  | some a =>
    have := List.find?_some hf
    simpa using this
  | none =>
    exfalso
    have hall := List.find?_eq_none.1 hf
    have hsub : ∀ x ∈ (List.range (n + 1)).map (· + 1), x ∈ L := by
      intro x hx
      obtain ⟨a, ha, rfl⟩ := List.mem_map.1 hx
      have := hall a ha
      cases hfa : f (a + 1) with
      | none => simp [hfa] at this
      | some c => exact hm _ _ hfa
    have hnd : ((List.range (n + 1)).map (· + 1)).Nodup :=
      List.pairwise_map.2 (List.nodup_range.imp fun h => by omega)
    have := hnd.length_le_of_subset hsub
    simp at this
    omega

theorem low_alloc : SAlloc lowPos lowSt where
  pos m h := ⟨by simp [lowPos, firstFree], let ⟨_, h1, h2⟩ := h.1; firstFree_free h1 h2⟩
  st m h := ⟨by simp [lowSt, firstFree], let ⟨_, h1, h2⟩ := h.2; firstFree_free h1 h2⟩

/-- The empty memory. -/
def SMem.empty : SMem := ⟨fun _ => none, fun _ => none, 0⟩

theorem SMem.empty_finite : SMem.empty.Finite := ⟨⟨[], by simp, by simp [SMem.empty]⟩, [], by simp, by simp [SMem.empty]⟩

end Lev
