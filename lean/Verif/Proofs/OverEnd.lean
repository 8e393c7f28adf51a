import Verif.Proofs.Over

/-!
`clean_up` of a dictionary whose old root lies over the new one, edges of the old root overwritten.
-/

namespace Lev

open Spec

/-- Below an edge of the old root that is still there; `K` are the letters of the new edges. -/
def BelowKept (m : Mem) (o : DNode) (K : UInt8 → Prop) (a : Nat) : Prop := ∃ c b, (c, b) ∈ o.edges ∧ ¬ K c ∧ Reaches m b a

theorem BelowKept.below {m : Mem} {o : DNode} {K : UInt8 → Prop} {a : Nat} (h : BelowKept m o K a) : BelowOld m o a := by
  obtain ⟨c, b, h1, _, h2⟩ := h
  exact ⟨c, b, h1, h2⟩

/-- The letters of the edges of a node. -/
def Labels (nd : DNode) (c : UInt8) : Prop := ∃ b, (c, b) ∈ nd.edges

section
variable {sgn : Bool} {addr : Nat → Nat} {c0 : Nat} {m0 : Mem} {o : DNode} {h : Heap} {d : SDawg} {reg : List RegEntry}
  {fl lk : List Nat} {rf : Frame} {Z : Nat → Prop}

/-- The old root laid over the new one: what it is, once `minimize` is through. -/
theorem Site.overDict (ho : OldOk sgn addr c0 m0 o)
    (hto : ∀ c b, (c, b) ∈ o.edges → ∃ nb K, m0 b = some nb ∧ Unf m0 nb.edges K ∧ (nb.final = true ∨ K ≠ .nil) ∧ K.Trim)
    (hsno : ∀ a nd, BelowOld m0 o a → m0 a = some nd → nd.edges.Pairwise (fun e f => charLt sgn e.1 f.1))
    (hc : Site sgn addr c0 m0 h d reg [] fl lk [] rf Z) (htrim : rf.kids.Trim) :
    ∃ nd F, h.mem (addr c0) = some nd ∧ (liftH sgn (addr c0) o h).mem (addr c0) = some (liftN sgn o nd) ∧
      Unf (liftH sgn (addr c0) o h).mem (liftN sgn o nd).edges F ∧ F.Trim ∧
      DictNode sgn (liftH sgn (addr c0) o h).mem (F.height + 1) (addr c0) ∧
      (∀ a, Reaches (liftH sgn (addr c0) o h).mem (addr c0) a ↔
        Reaches h.mem (addr c0) a ∨ BelowKept m0 o (Labels nd) a) ∧
      (∀ t, Accepts (liftH sgn (addr c0) o h).mem (addr c0) t ↔ Lang [] rf t ∨ (t = [] ∧ o.final = true) ∨
        ∃ c b u, t = c :: u ∧ (c, b) ∈ o.edges ∧ ¬ Labels nd c ∧ Accepts m0 b u) ∧
      ∀ c, Labels nd c ↔ ∃ u, Lang [] rf (c :: u) := by
  obtain ⟨nd, hm, hfin, hF, hss, hZ⟩ := hc.stack.rootNode
  rw [hc.root] at hm
  obtain ⟨hbmm, hbiff, hbes, _⟩ := ho.keeps hc.heap
  have hnr : ¬ Z (addr c0) := by rw [← hc.root]; exact hc.notZone _ (by simp [stackNodes])
  have hcl : Closed h.mem (fun a => Z a ∨ BelowOld m0 o a) := by
    rintro a (h | h)
    · obtain ⟨n, h1, h2⟩ := hc.closed a h
      exact ⟨n, h1, fun c b hb => .inl (h2 c b hb)⟩
    · obtain ⟨n, h1, h2⟩ := ho.closed.frame hbmm a h
      exact ⟨n, h1, fun c b hb => .inr (h2 c b hb)⟩
  have hne : ∀ a, Z a ∨ BelowOld m0 o a → a ≠ addr c0 := by
    rintro a ha rfl
    rcases ha with h | h
    · exact hnr h
    · exact hbes.root ((hbiff _).2 h)
  have hmm : ∀ a, Z a ∨ BelowOld m0 o a → (liftH sgn (addr c0) o h).mem a = h.mem a := fun a ha => liftM_ne (hne a ha)
  have hroot : (liftH sgn (addr c0) o h).mem (addr c0) = some (liftN sgn o nd) := liftM_root hm
  have hE : ∀ c b, (c, b) ∈ (liftN sgn o nd).edges ↔ (c, b) ∈ nd.edges ∨ ((c, b) ∈ o.edges ∧ ¬ Labels nd c) := by
    intro c b
    refine (mem_mergeE_over ho.sorted hss (c, b)).trans (or_congr Iff.rfl (and_congr Iff.rfl ?_))
    exact ⟨fun h1 ⟨b', h2⟩ => h1 _ h2 rfl, fun h1 f hf hfc => h1 ⟨f.2, by have hfc : f.1 = c := hfc; rw [← hfc]; exact hf⟩⟩
  have hEz : ∀ c b, (c, b) ∈ (liftN sgn o nd).edges → Z b ∨ BelowOld m0 o b := by
    intro c b hb
    rcases (hE c b).1 hb with hb | ⟨hb, _⟩
    · exact .inl (hZ c b hb)
    · exact .inr (.edge hb)
  obtain ⟨F', hF', ht'⟩ := unf_of_targets (mem := (liftH sgn (addr c0) o h).mem) (liftN sgn o nd).edges (by
    intro c b hb
    have hz := hEz c b hb
    obtain ⟨nb, k1, k2⟩ := hcl b hz
    rcases (hE c b).1 hb with hb | ⟨hb, _⟩
    · obtain ⟨nb', K, h1, h2, h3⟩ := hF.target hb
      have ht := Forest.trim_iff.1 htrim _ h3
      rw [k1] at h1; obtain rfl := Option.some.inj h1
      exact ⟨nb, K, by rw [hmm b hz]; exact k1, h2.frame hcl hmm k2, ht.1, ht.2⟩
    · obtain ⟨nb', K, h1, h2, h3, h4⟩ := hto c b hb
      obtain ⟨nb'', e1, e2⟩ := ho.closed b (.edge hb)
      rw [h1] at e1; obtain rfl := Option.some.inj e1
      rw [← hbmm b (.edge hb), k1] at h1; obtain rfl := Option.some.inj h1
      exact ⟨nb, K, by rw [hmm b hz]; exact k1, (h2.frame ho.closed hbmm e2).frame hcl hmm k2, h3, h4⟩)
  have hlabel : ∀ c, Labels nd c ↔ ∃ u, Lang [] rf (c :: u) := by
    intro c
    constructor
    · rintro ⟨b, hb⟩
      obtain ⟨f, k, hk⟩ := hF.label_mem hb
      have ht := Forest.trim_iff.1 htrim _ hk
      obtain ⟨u, hu⟩ := accT_exists ht.2 ht.1
      exact ⟨u, .inr (Forest.acc_cons.2 ⟨f, k, hk, hu⟩)⟩
    · rintro ⟨u, hu⟩
      have := (accepts_iff hm hF (c :: u)).2 (by rw [hfin]; exact hu)
      rcases (accepts_node hm _).1 this with ⟨h, _⟩ | ⟨c', b, u', h1, h2, _⟩
      · cases h
      · cases h1; exact ⟨b, h2⟩
  refine ⟨nd, F', hm, hroot, hF', ht', ?_, ?_, ?_, hlabel⟩
  · refine .mk hroot (mergeE_sorted ho.sorted _) (dictNode_of_closed (hcl.frame hmm) ?_ hF' hEz)
    intro a na ha hma
    rw [hmm a ha] at hma
    rcases ha with ha | ha
    · exact hc.sortedOn a na ha hma
    · rw [hbmm a ha] at hma
      exact hsno a na ha hma
  · intro a
    constructor
    · intro h
      cases h with
      | refl => exact .inl .refl
      | @step _ nd' c b _ h1 h2 h3 =>
        rw [hroot] at h1
        obtain rfl := Option.some.inj h1
        have h3' := (reaches_frame_iff hcl hmm (hEz c b h2) a).1 h3
        rcases (hE c b).1 h2 with h2 | ⟨h2, hk⟩
        · exact .inl (.step hm h2 h3')
        · exact .inr ⟨c, b, h2, hk, (reaches_frame_iff ho.closed hbmm (.edge h2) a).1 h3'⟩
    · rintro (h | ⟨c, b, h1, hk, h2⟩)
      · cases h with
        | refl => exact .refl
        | @step _ nd' c b _ h1 h2 h3 =>
          rw [hm] at h1
          obtain rfl := Option.some.inj h1
          exact .step hroot ((hE c b).2 (.inl h2)) ((reaches_frame_iff hcl hmm (.inl (hZ c b h2)) a).2 h3)
      · exact .step hroot ((hE c b).2 (.inr ⟨h1, hk⟩)) ((reaches_frame_iff hcl hmm (.inr (.edge h1)) a).2
          ((reaches_frame_iff ho.closed hbmm (.edge h1) a).2 h2))
  · intro t
    have hA : Lang [] rf t ↔ Accepts h.mem (addr c0) t := by
      rw [accepts_iff hm hF, hfin]; exact Iff.rfl
    rw [hA, accepts_node hm, accepts_node hroot]
    have hfin' : (liftN sgn o nd).final = true ↔ nd.final = true ∨ o.final = true := by simp [liftN]
    have hacc : ∀ c b u, (c, b) ∈ (liftN sgn o nd).edges ∧ Accepts (liftH sgn (addr c0) o h).mem b u ↔
        ((c, b) ∈ nd.edges ∧ Accepts h.mem b u) ∨ ((c, b) ∈ o.edges ∧ ¬ Labels nd c ∧ Accepts m0 b u) := by
      intro c b u
      constructor
      · rintro ⟨h1, h2⟩
        rw [accepts_frame_iff hcl hmm (hEz c b h1)] at h2
        rcases (hE c b).1 h1 with h1 | ⟨h1, hk⟩
        · exact .inl ⟨h1, h2⟩
        · rw [accepts_frame_iff ho.closed hbmm (.edge h1)] at h2
          exact .inr ⟨h1, hk, h2⟩
      · rintro (⟨h1, h2⟩ | ⟨h1, hk, h2⟩)
        · refine ⟨(hE c b).2 (.inl h1), ?_⟩
          rw [accepts_frame_iff hcl hmm (.inl (hZ c b h1))]
          exact h2
        · refine ⟨(hE c b).2 (.inr ⟨h1, hk⟩), ?_⟩
          rw [accepts_frame_iff hcl hmm (.inr (.edge h1)), accepts_frame_iff ho.closed hbmm (.edge h1)]
          exact h2
    constructor
    · rintro (⟨rfl, h1⟩ | ⟨c, b, u, rfl, h1⟩)
      · rcases hfin'.1 h1 with h1 | h1
        · exact .inl (.inl ⟨rfl, h1⟩)
        · exact .inr (.inl ⟨rfl, h1⟩)
      · rcases (hacc c b u).1 h1 with h1 | h1
        · exact .inl (.inr ⟨c, b, u, rfl, h1⟩)
        · exact .inr (.inr ⟨c, b, u, rfl, h1⟩)
    · rintro ((⟨rfl, h1⟩ | ⟨c, b, u, rfl, h1⟩) | (⟨rfl, h1⟩ | ⟨c, b, u, rfl, h1⟩))
      · exact .inl ⟨rfl, hfin'.2 (.inl h1)⟩
      · exact .inr ⟨c, b, u, rfl, (hacc c b u).2 (.inl h1)⟩
      · exact .inl ⟨rfl, hfin'.2 (.inr h1)⟩
      · exact .inr ⟨c, b, u, rfl, (hacc c b u).2 (.inr h1)⟩

/-- A freed node is still reached. -/
theorem Site.cleanOver_ub (ho : OldOk sgn addr c0 m0 o) (hc : Site sgn addr c0 m0 h d reg [] fl lk [] rf Z) {X : List Nat}
    {a : Nat} (ha : a ∈ X) (hr : Reaches (liftH sgn (addr c0) o h).mem (addr c0) a) :
    ∃ N, ∀ fuel, N ≤ fuel → Lev.cleanUp fuel ((liftH sgn (addr c0) o h).without X) d = .error .ub := by
  obtain ⟨nd, F, hm, _, _, hF⟩ := hc.overUnf ho
  obtain ⟨r, ⟨N, hN⟩, _, hmem⟩ := allNodes_spec (liftM_root (sgn := sgn) (o := o) hm) hF
  refine ⟨N, fun fuel hf => ?_⟩
  have hless : Less ((liftH sgn (addr c0) o h).without X).mem (liftH sgn (addr c0) o h).mem := Mem.without_less _ X
  have hr' : allNodesLoop (liftH sgn (addr c0) o h).mem fuel [d.root] [] = .ok r := by
    rw [hc.root]; exact hN fuel hf
  rcases hless.allNodesLoop fuel [d.root] [] with e2 | e2
  · simp [Lev.cleanUp, hc.floating, allNodes, e2, bind, Except.bind]
  · exfalso
    rw [hr'] at e2
    rcases allNodesLoop_alive e2 ((hmem a).2 hr) with h'' | h''
    · simp at h''
    · exact h'' (by simp [Heap.without, Mem.without, ha])

/-- No freed node is reached. -/
theorem Site.cleanOver_ok (haddr : AddrOk addr) (ho : OldOk sgn addr c0 m0 o)
    (hc : Site sgn addr c0 m0 h d reg [] fl [] [] rf Z) {X : List Nat}
    (hX : ∀ a ∈ X, ¬ InRange addr c0 h a) (hno : ∀ a ∈ X, ¬ Reaches (liftH sgn (addr c0) o h).mem (addr c0) a) :
    ∃ h', Ends (fun fuel => Lev.cleanUp fuel ((liftH sgn (addr c0) o h).without X) d)
        (h', { d with unchecked := none, minimized := none, floating := none }) ∧ h'.count = h.count ∧
      (∀ a, Reaches (liftH sgn (addr c0) o h).mem (addr c0) a → h'.mem a = (liftH sgn (addr c0) o h).mem a) ∧
      (∀ a, ¬ Reaches (liftH sgn (addr c0) o h).mem (addr c0) a → a ∈ X ∨ InRange addr c0 h a → h'.mem a = none) ∧
      ∀ a, a ∉ X → ¬ InRange addr c0 h a → h'.mem a = (liftH sgn (addr c0) o h).mem a := by
  obtain ⟨nd, F, hm, _, _, hF⟩ := hc.overUnf ho
  have hroot : (liftH sgn (addr c0) o h).mem (addr c0) = some (liftN sgn o nd) := liftM_root hm
  have hcl : Closed (liftH sgn (addr c0) o h).mem (Reaches (liftH sgn (addr c0) o h).mem (addr c0)) := by
    intro a ha
    obtain ⟨na, hma⟩ : ∃ na, (liftH sgn (addr c0) o h).mem a = some na := by
      obtain ⟨r, ⟨N, hN⟩, _, hmem⟩ := allNodes_spec hroot hF
      have := hN N (Nat.le_refl _)
      rcases allNodesLoop_alive this ((hmem a).2 ha) with h'' | h''
      · simp at h''
      · exact Option.ne_none_iff_exists'.1 h''
    refine ⟨na, hma, fun c b hb => ?_⟩
    have app : ∀ x y, Reaches (liftH sgn (addr c0) o h).mem x y → ∀ n c z, (liftH sgn (addr c0) o h).mem y = some n →
        (c, z) ∈ n.edges → Reaches (liftH sgn (addr c0) o h).mem x z := by
      intro x y hxy
      induction hxy with
      | refl => exact fun n c z hm hz => .step hm hz .refl
      | step hm hb _ ih => exact fun n c z hm' hz => .step hm hb (ih n c z hm' hz)
    exact app _ _ ha na c b hma hb
  have hmm : ∀ a, Reaches (liftH sgn (addr c0) o h).mem (addr c0) a →
      ((liftH sgn (addr c0) o h).without X).mem a = (liftH sgn (addr c0) o h).mem a := by
    intro a ha
    have : a ∉ X := fun h' => hno a h' ha
    simp [Heap.without, Mem.without, this]
  have hroot' : ((liftH sgn (addr c0) o h).without X).mem (addr c0) = some (liftN sgn o nd) := by rw [hmm _ .refl]; exact hroot
  have hF' := hF.frame hcl hmm (fun c b hb => .step hroot hb .refl)
  obtain ⟨r, ⟨N, hN⟩, hnd, hmem⟩ := allNodes_spec hroot' hF'
  have hri := reaches_frame_iff hcl hmm (a := addr c0) .refl
  have hfl : ∀ a, a ∈ fl ↔ ∃ j, c0 < j ∧ j < h.count ∧ a = addr j := fun a => by rw [hc.float.2]; simp
  have hlive : ∀ a ∈ fl, ((liftH sgn (addr c0) o h).without X).mem a ≠ none := by
    intro a ha
    obtain ⟨j, h1, h2, h3⟩ := (hfl a).1 ha
    have hin : InRange addr c0 h a := ⟨j, by omega, h2, h3⟩
    have h4 : a ∉ X := fun h' => hX a h' hin
    have h5 : a ≠ addr c0 := fun h' => by rw [h3] at h'; have := haddr.2 _ _ h'; omega
    have h6 : h.mem a ≠ none := by rw [h3]; exact hc.heap.live j (by omega) h2
    simp only [Heap.without, Mem.without, h4, if_false, liftH]
    rw [liftM_ne h5]
    exact h6
  have h0 : ((liftH sgn (addr c0) o h).without X).mem 0 = none := by
    simp only [Heap.without, Mem.without, liftH]
    split
    · rfl
    · rw [liftM_ne (fun h => haddr.1 c0 h.symm)]
      exact hc.heap.null
  have hdel := deleteAll_spec (l := fl.filter (fun a => decide (a ∉ r))) (h := (liftH sgn (addr c0) o h).without X)
    (hc.float.1.filter _) h0 (fun a ha => hlive a (List.mem_filter.1 ha).1)
  refine ⟨⟨fun a => if a ∈ fl.filter (fun a => decide (a ∉ r)) then none else ((liftH sgn (addr c0) o h).without X).mem a, h.count⟩,
    ⟨N, fun fuel hf => ?_⟩, rfl, ?_, ?_, ?_⟩
  · have e := hN fuel hf
    simp only at e
    simp only [Lev.cleanUp, hc.floating, hc.root, bind, Except.bind, e, hdel]
    rfl
  · intro a ha
    have : ¬ (a ∈ fl ∧ a ∉ r) := fun h' => h'.2 ((hmem a).2 ((hri a).2 ha))
    simp only [List.mem_filter, decide_eq_true_eq, this, if_false]
    exact hmm a ha
  · intro a ha hor
    by_cases hax : a ∈ X
    · simp only [Heap.without, Mem.without, hax, if_true, ite_self]
    · obtain ⟨j, h1, h2, h3⟩ := hor.resolve_left hax
      have hfa : a ∈ fl := (hfl a).2 ⟨j, by
        rcases Nat.lt_or_ge c0 j with h' | h'
        · exact h'
        · have : j = c0 := by omega
          subst this
          exact absurd (h3 ▸ .refl) ha, h2, h3⟩
      have : a ∈ fl ∧ a ∉ r := ⟨hfa, fun h' => ha ((hri a).1 ((hmem a).1 h'))⟩
      simp only [List.mem_filter, decide_eq_true_eq, this, if_true, and_self, not_false_eq_true]
  · intro a hax hin
    have : ¬ (a ∈ fl ∧ a ∉ r) := by
      rintro ⟨h1, _⟩
      obtain ⟨j, h1, h2, h3⟩ := (hfl a).1 h1
      exact hin ⟨j, by omega, h2, h3⟩
    simp only [List.mem_filter, decide_eq_true_eq, this, if_false, Heap.without, Mem.without, hax]

end

end Lev
