import Verif.Proofs.TestNode
import Verif.Proofs.Iter

/-!
The tests of transitions and prefixes.
-/

namespace Lev

open Spec

/-- A test gets to its last line with the result `r` (for all sufficiently large bounds). -/
def Passes {α : Type} (f : Nat → Except Stop α) (r : α) : Prop := ∃ N, ∀ fuel, N ≤ fuel → f fuel = .ok r

theorem leaf_nodeEq {mem : Mem} {b b' : Bool} {fuel : Nat} (hf : 1 ≤ fuel) :
    nodeEq mem fuel ⟨b, []⟩ ⟨b', []⟩ = .ok (b == b') := by
  obtain ⟨k, rfl⟩ : ∃ k, fuel = k + 1 := ⟨fuel - 1, by omega⟩
  cases b <;> cases b' <;> simp [nodeEq, edgesEq]

theorem testTransitionCopy_ok {addr : Nat → Nat} {h : Heap} (ha : Allocator addr h) {fuel : Nat} (hf : 1 ≤ fuel) :
    ∃ h', testTransitionCopy addr fuel h = .ok h' ∧ h'.mem = h.mem := by
  have f0 := ha.fresh h.count (Nat.le_refl _)
  have f1 := ha.fresh (h.count + 1) (by omega)
  have f2 := ha.fresh (h.count + 2) (by omega)
  have z0 := ha.nonnull h.count
  have z1 := ha.nonnull (h.count + 1)
  have z2 := ha.nonnull (h.count + 2)
  have n01 : addr h.count ≠ addr (h.count + 1) := fun hc => by have := ha.inj _ _ hc; omega
  have n02 : addr h.count ≠ addr (h.count + 2) := fun hc => by have := ha.inj _ _ hc; omega
  have n12 : addr (h.count + 1) ≠ addr (h.count + 2) := fun hc => by have := ha.inj _ _ hc; omega
  simp only [testTransitionCopy, newNodeB, transCopy, transEq, deref, Mem.set, bind, Except.bind, n01, n02, n12, n01.symm,
    n02.symm, n12.symm, if_true, if_false, leaf_nodeEq hf, use_ok, beq_self_eq_true, rcAssert_true, deleteNode, z0, z1, z2,
    show (false == true) = false from rfl, Bool.not_false, show ((0 : UInt8) = 97) = False from by simp]
  refine ⟨_, rfl, ?_⟩
  funext a
  simp only [Mem.set]
  grind

theorem testTransitionGetters_ok {addr : Nat → Nat} {h : Heap} (ha : Allocator addr h) {fuel : Nat} (hf : 1 ≤ fuel) :
    ∃ h', testTransitionGetters addr fuel h = .ok h' ∧ h'.mem = h.mem := by
  have f0 := ha.fresh h.count (Nat.le_refl _)
  have f1 := ha.fresh (h.count + 1) (by omega)
  have z0 := ha.nonnull h.count
  have z1 := ha.nonnull (h.count + 1)
  have n01 : addr h.count ≠ addr (h.count + 1) := fun hc => by have := ha.inj _ _ hc; omega
  simp only [testTransitionGetters, newNodeB, deref, Mem.set, bind, Except.bind, n01, n01.symm,
    if_true, if_false, leaf_nodeEq hf, use_ok, beq_self_eq_true, rcAssert_true, deleteNode, z0, z1]
  refine ⟨_, rfl, ?_⟩
  funext a
  simp only [Mem.set]
  grind

/-- What `returns_original_string` has made so far. -/
structure PTest (addr paddr : Nat → Nat) (h0 : Heap) (ph0 : PHeap) (a : Nat) (h : Heap) (ph : PHeap) (made : List Nat × List Nat)
    (s : Str) : Prop where
  alloc : Allocator addr h
  base : h0.count ≤ h.count
  nodes : made.1 = addrRange addr h0.count (h.count - h0.count)
  live : ∀ k, h0.count ≤ k → k < h.count → h.mem (addr k) ≠ none
  old : ∀ b, (∀ k, h0.count ≤ k → k < h.count → b ≠ addr k) → h.mem b = h0.mem b
  heap : PHeapOk paddr ph0.count ph0.mem ph made.2
  spells : Spells ph.mem a s
  nonnull : a ≠ 0

section
variable {addr paddr : Nat → Nat} {h0 : Heap} {ph0 : PHeap}

theorem PTest.newNode {h : Heap} {ns : List Nat} (hb : h0.count ≤ h.count)
    (hn : ns = addrRange addr h0.count (h.count - h0.count))
    (hl : ∀ k, h0.count ≤ k → k < h.count → h.mem (addr k) ≠ none)
    (ho : ∀ b, (∀ k, h0.count ≤ k → k < h.count → b ≠ addr k) → h.mem b = h0.mem b) (f : Bool) :
    ns ++ [addr h.count] = addrRange addr h0.count ((newNodeB addr f h).2.count - h0.count) ∧
      (∀ k, h0.count ≤ k → k < (newNodeB addr f h).2.count → (newNodeB addr f h).2.mem (addr k) ≠ none) ∧
      ∀ b, (∀ k, h0.count ≤ k → k < (newNodeB addr f h).2.count → b ≠ addr k) → (newNodeB addr f h).2.mem b = h0.mem b := by
  refine ⟨?_, fun k hk hk' => ?_, fun b hb' => ?_⟩
  · simp only [newNodeB, hn, addrRange]
    rw [show h.count + 1 - h0.count = h.count - h0.count + 1 by omega, List.range'_concat, List.map_append]
    simp only [List.map_cons, List.map_nil, Nat.one_mul]
    rw [show h0.count + (h.count - h0.count) = h.count by omega]
  · simp only [newNodeB] at hk' ⊢
    simp only [Mem.set]
    split
    · simp
    · next hne => exact hl k hk (by have : k ≠ h.count := fun hc => hne (by rw [hc]); omega)
  · simp only [newNodeB] at hb' ⊢
    simp only [Mem.set]
    rw [if_neg (hb' h.count hb (by omega))]
    exact ho b fun k hk hk' => hb' k hk (by omega)

theorem prefixStep_ok {a : Nat} {h : Heap} {ph : PHeap} {made : List Nat × List Nat} {s : Str} {fuel : Nat} (hf : 1 ≤ fuel)
    (ht : PTest addr paddr h0 ph0 a h ph made s) (f : Bool) (c : UInt8) :
    ∃ a' h' ph' ns ps, prefixStep addr paddr fuel f c a h ph made = .ok (a', h', ph', ns, ps) ∧
      PTest addr paddr h0 ph0 a' h' ph' (ns, ps) (s ++ [c]) := by
  obtain ⟨hns, hlive, hold⟩ := PTest.newNode ht.base ht.nodes ht.live ht.old f
  refine ⟨paddr ph.count, (newNodeB addr f h).2, (newPrefix paddr ⟨addr h.count, a, c⟩ ph).2, made.1 ++ [addr h.count],
    made.2 ++ [paddr ph.count], ?_, ht.alloc.newB f, by have := ht.base; simp only [newNodeB]; omega, hns, hlive, hold,
    ht.heap.new _, ?_, ht.heap.nonnull _⟩
  · have e1 : (newNodeB addr f h).2.mem (addr h.count) = some ⟨f, []⟩ := by simp [newNodeB, Mem.set]
    simp only [prefixStep, getPrefix, newPrefix, if_true, use_ok, bind, Except.bind, deref]
    simp only [newNodeB] at e1 ⊢
    simp only [e1, use_ok, leaf_nodeEq hf, beq_self_eq_true, rcAssert_true]
  · have hle := newPrefix_le (ht.heap.fresh _ (Nat.le_refl _)) ⟨addr h.count, a, c⟩
    have hself : (newPrefix paddr ⟨addr h.count, a, c⟩ ph).2.mem (paddr ph.count) = some ⟨addr h.count, a, c⟩ := by
      simp [newPrefix]
    exact .child (p := ⟨addr h.count, a, c⟩) hself ht.nonnull (ht.spells.mono hle)

theorem prefixLoop_ok {fuel : Nat} (hf : 1 ≤ fuel) (cs : Str) {a : Nat} {h : Heap} {ph : PHeap} {made : List Nat × List Nat} {s : Str}
    (ht : PTest addr paddr h0 ph0 a h ph made s) :
    ∃ a' h' ph' ns ps, prefixLoop addr paddr fuel cs a h ph made = .ok (a', h', ph', ns, ps) ∧
      PTest addr paddr h0 ph0 a' h' ph' (ns, ps) (s ++ cs) := by
  induction cs generalizing a h ph made s with
  | nil => exact ⟨a, h, ph, made.1, made.2, rfl, by simpa using ht⟩
  | cons c cs ih =>
    obtain ⟨a1, h1, ph1, ns1, ps1, e1, ht1⟩ := prefixStep_ok hf ht false c
    obtain ⟨a2, h2, ph2, ns2, ps2, e2, ht2⟩ := ih ht1
    refine ⟨a2, h2, ph2, ns2, ps2, ?_, by simpa using ht2⟩
    simp only [prefixLoop, e1, e2, bind, Except.bind]

theorem testPrefix_ok (ha : Allocator addr h0) (hp : PAllocator paddr ph0) (term : Str) {fuel : Nat} (hf : term.length < fuel) :
    ∃ h ph, testPrefix addr paddr fuel term h0 ph0 = .ok (h, ph) ∧ h.mem = h0.mem ∧ ph.mem = ph0.mem := by
  have hf1 : 1 ≤ fuel := by omega
  have ho0 : PHeapOk paddr ph0.count ph0.mem ph0 [] :=
    ⟨hp.nonnull, hp.inj, hp.null, hp.fresh, Nat.le_refl _, by simp, fun k h1 h2 => by omega, fun _ _ => rfl⟩
  obtain ⟨hns, hlive, hold⟩ := PTest.newNode (h0 := h0) (ns := []) (Nat.le_refl _) (by simp [addrRange])
    (fun k h1 h2 => by omega) (fun _ _ => rfl) term.isEmpty
  have ht : PTest addr paddr h0 ph0 (paddr ph0.count) (newNodeB addr term.isEmpty h0).2
      (newPrefix paddr ⟨addr h0.count, 0, 0⟩ ph0).2 ([addr h0.count], [paddr ph0.count]) [] := by
    refine ⟨ha.newB _, by simp only [newNodeB]; omega, by simpa using hns, hlive, hold, ho0.new ⟨addr h0.count, 0, 0⟩,
      ?_, hp.nonnull _⟩
    exact .root (p := ⟨addr h0.count, 0, 0⟩) (by simp [newPrefix]) rfl
  obtain ⟨a1, h1, ph1, ns1, ps1, e1, ht1⟩ := prefixLoop_ok hf1 term.dropLast ht
  have hlast : ∃ a2 h2 ph2 ns2 ps2, prefixLast addr paddr fuel term a1 h1 ph1 (ns1, ps1) = .ok (a2, h2, ph2, ns2, ps2) ∧
      PTest addr paddr h0 ph0 a2 h2 ph2 (ns2, ps2) term := by
    unfold prefixLast
    cases hterm : term.getLast? with
    | none =>
      rw [List.getLast?_eq_none_iff] at hterm
      subst hterm
      exact ⟨a1, h1, ph1, ns1, ps1, rfl, ht1⟩
    | some c =>
      obtain ⟨a2, h2, ph2, ns2, ps2, e2, ht2⟩ := prefixStep_ok hf1 ht1 true c
      refine ⟨a2, h2, ph2, ns2, ps2, e2, ?_⟩
      obtain ⟨ys, rfl⟩ := List.getLast?_eq_some_iff.1 hterm
      simpa using ht2
  obtain ⟨a2, h2, ph2, ns2, ps2, e2, ht2⟩ := hlast
  have hb2 := ht2.base
  have hpb := ht2.heap.base
  have hnodes : ns2 = addrRange addr h0.count (h2.count - h0.count) := ht2.nodes
  have hown : ps2 = addrRange paddr ph0.count (ph2.count - ph0.count) := ht2.heap.owned
  have hd1 := deletePrefixes_spec (l := ps2) (h := ph2) (by rw [hown]; exact addrRange_nodup hp.inj _ _) ht2.heap.null (by
    intro a hal
    rw [hown] at hal
    obtain ⟨k, q1, q2, rfl⟩ := mem_addrRange.1 hal
    exact ht2.heap.live k q1 (by omega))
  have hd2 := deleteAll_spec (l := ns2) (h := h2) (by rw [hnodes]; exact addrRange_nodup ha.inj _ _) ht2.alloc.null (by
    intro a hal
    rw [hnodes] at hal
    obtain ⟨k, q1, q2, rfl⟩ := mem_addrRange.1 hal
    exact ht2.live k q1 (by omega))
  refine ⟨⟨fun a => if a ∈ ns2 then none else h2.mem a, h2.count⟩, ⟨fun a => if a ∈ ps2 then none else ph2.mem a, ph2.count⟩, ?_, ?_, ?_⟩
  · have e0 : (newNodeB addr term.isEmpty h0).2.mem (addr h0.count) = some ⟨term.isEmpty, []⟩ := by simp [newNodeB, Mem.set]
    have q1 : newNodeB addr term.isEmpty h0 = (addr h0.count, (newNodeB addr term.isEmpty h0).2) := rfl
    have q2 : newPrefix paddr ⟨addr h0.count, 0, 0⟩ ph0 = (paddr ph0.count, (newPrefix paddr ⟨addr h0.count, 0, 0⟩ ph0).2) := rfl
    have q3 : getPrefix (newPrefix paddr ⟨addr h0.count, 0, 0⟩ ph0).2 (paddr ph0.count) = .ok ⟨addr h0.count, 0, 0⟩ := by
      simp [getPrefix, newPrefix]
    simp only [testPrefix, bind, Except.bind]
    rw [q1]
    simp only
    rw [q2]
    simp only [q3, use_ok, deref, e0, leaf_nodeEq hf1, beq_self_eq_true, rcAssert_true, e1]
    simp only [e2, ht2.spells.str hf, use_ok, beq_self_eq_true, rcAssert_true, hd1, hd2]
  · funext a
    simp only
    split
    · next hal =>
      rw [hnodes] at hal
      obtain ⟨k, q1, q2, rfl⟩ := mem_addrRange.1 hal
      exact (ha.fresh k q1).symm
    · next hal =>
      rw [hnodes] at hal
      exact ht2.old a fun k q1 q2 he => hal (mem_addrRange.2 ⟨k, q1, by omega, he⟩)
  · funext a
    simp only
    split
    · next hal =>
      rw [hown] at hal
      obtain ⟨k, q1, q2, rfl⟩ := mem_addrRange.1 hal
      exact (hp.fresh k q1).symm
    · next hal =>
      rw [hown] at hal
      exact ht2.heap.old a fun k q1 q2 he => hal (mem_addrRange.2 ⟨k, q1, by omega, he⟩)

end

end Lev
