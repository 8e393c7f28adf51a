import Verif.Proofs.WordNodes
import Verif.Proofs.SerialTo
import Verif.Model.Lifetime
import Verif.Model.Iter

/-!
How deep the recursions along the edges of a dictionary and along the parents of prefixes go.
-/

namespace Lev

open Spec

/-! ### The longest string -/

theorem Forest.paths_le_height {F : Forest} {w : Str} (h : w ∈ F.paths) : w.length ≤ F.height := by
  induction F generalizing w with
  | nil => simp [Forest.paths] at h
  | cons l f k r ih1 ih2 =>
    simp only [Forest.paths, List.mem_cons, List.mem_append, List.mem_map] at h
    simp only [Forest.height]
    rcases h with rfl | ⟨u, hu, rfl⟩ | h
    · simp only [List.length_cons, List.length_nil]; omega
    · have := ih1 hu; simp only [List.length_cons]; omega
    · have := ih2 h; omega

theorem Forest.height_attained (F : Forest) : ∃ w, w ∈ [] :: F.paths ∧ w.length = F.height := by
  induction F with
  | nil => exact ⟨[], by simp, rfl⟩
  | cons l f k r ih1 ih2 =>
    simp only [Forest.height]
    rcases Nat.le_total (1 + k.height) r.height with h | h
    · obtain ⟨w, hw, hl⟩ := ih2
      refine ⟨w, ?_, by omega⟩
      simp only [Forest.paths, List.mem_cons, List.mem_append] at hw ⊢
      rcases hw with rfl | hw
      · exact .inl rfl
      · exact .inr (.inr (.inr hw))
    · obtain ⟨w, hw, hl⟩ := ih1
      refine ⟨l :: w, ?_, by simp only [List.length_cons]; omega⟩
      simp only [Forest.paths, List.mem_cons, List.mem_append, List.mem_map] at hw ⊢
      rcases hw with rfl | hw
      · exact .inr (.inl rfl)
      · exact .inr (.inr (.inl ⟨w, hw, rfl⟩))

theorem longest_height {mem : Mem} {a : Nat} {nd : DNode} {F : Forest} (hm : mem a = some nd) (hu : Unf mem nd.edges F)
    {L : Nat} (h : Longest mem a L) : L = F.height := by
  obtain ⟨⟨w, b, h1, rfl⟩, h2⟩ := h
  apply Nat.le_antisymm
  · have := (mem_paths_root hm hu w).2 ⟨b, h1⟩
    rcases List.mem_cons.1 this with rfl | h
    · exact Nat.zero_le _
    · exact Forest.paths_le_height h
  · obtain ⟨v, hv, hl⟩ := F.height_attained
    obtain ⟨x, hx⟩ := (mem_paths_root hm hu v).1 hv
    rw [← hl]; exact h2 v x hx

theorem longest_exists {mem : Mem} {a : Nat} {nd : DNode} {F : Forest} (hm : mem a = some nd) (hu : Unf mem nd.edges F) :
    Longest mem a F.height := by
  obtain ⟨v, hv, hl⟩ := F.height_attained
  obtain ⟨x, hx⟩ := (mem_paths_root hm hu v).1 hv
  refine ⟨⟨v, x, hx, hl⟩, fun w b hw => ?_⟩
  rcases List.mem_cons.1 ((mem_paths_root hm hu w).2 ⟨b, hw⟩) with rfl | h
  · exact Nat.zero_le _
  · exact Forest.paths_le_height h

/-- Some child is as high as possible. -/
theorem Forest.height_succ {F : Forest} {n : Nat} (h : n < F.height) : ∃ l f k, (l, f, k) ∈ F.toList ∧ n ≤ k.height := by
  induction F with
  | nil => simp [Forest.height] at h
  | cons l f k r _ ih =>
    simp only [Forest.height] at h
    by_cases hk : n ≤ k.height
    · exact ⟨l, f, k, by simp [Forest.toList], hk⟩
    · obtain ⟨l', f', k', h1, h2⟩ := ih (by omega)
      exact ⟨l', f', k', by simp [Forest.toList, h1], h2⟩

/-! ### Hash -/

theorem edgesHash_short {mem : Mem} {hash : DNode → Except Err UInt64} {es : List (UInt8 × Nat)} {F : Forest}
    (hF : Unf mem es F) {n : Nat}
    (hh : ∀ l f k, (l, f, k) ∈ F.toList → ∀ x, x.final = f → Unf mem x.edges k →
      (k.height < n → ∃ c, hash x = .ok c) ∧ (n ≤ k.height → hash x = .error .diverge))
    (hn : ∃ l f k, (l, f, k) ∈ F.toList ∧ n ≤ k.height) (h : UInt64) : edgesHash mem hash es h = .error .diverge := by
  induction hF generalizing h with
  | nil => obtain ⟨_, _, _, h, _⟩ := hn; simp [Forest.toList] at h
  | @cons l a nd es kids rest hm h1 _ _ ih =>
    obtain ⟨g1, g2⟩ := hh l nd.final kids (by simp [Forest.toList]) nd rfl h1
    rw [edgesHash]
    simp only [deref, hm, bind, Except.bind]
    by_cases hk : n ≤ kids.height
    · rw [g2 hk]
    · obtain ⟨c, hc⟩ := g1 (by omega)
      rw [hc]
      refine ih (fun l f k he => hh l f k (by simp [Forest.toList, he])) ?_ _
      obtain ⟨l', f', k', h2, h3⟩ := hn
      simp only [Forest.toList, List.mem_cons] at h2
      rcases h2 with h2 | h2
      · cases h2; exact absurd h3 hk
      · exact ⟨l', f', k', h2, h3⟩

theorem nodeHash_short {mem : Mem} {fuel : Nat} {x : DNode} {F : Forest} (hF : Unf mem x.edges F)
    (hfuel : fuel ≤ F.height) : nodeHash mem fuel x = .error .diverge := by
  induction fuel generalizing x F with
  | zero => rfl
  | succ fuel ih =>
    rw [nodeHash, edgesHash_short hF (n := fuel) _ (Forest.height_succ (by omega))]
    · rfl
    · intro l f k _ x _ hu
      exact ⟨fun h => ⟨_, nodeHash_spec hu h⟩, fun h => ih hu h⟩

/-! ### Comparison -/

/-- `nodeEq_spec` with the height of the second tree. -/
theorem nodeEq_spec' {sgn : Bool} {mem : Mem} (h0 : mem 0 = none) {fuel : Nat} {x y : DNode} {F G : Forest}
    (hF : Unf mem x.edges F) (hG : Unf mem y.edges G) (sF : F.Sorted sgn) (sG : G.Sorted sgn)
    (hfuel : G.height < fuel) : nodeEq mem fuel x y = .ok (decide (x.final = y.final ∧ F = G)) := by
  induction fuel generalizing x y F G with
  | zero => omega
  | succ fuel ih =>
    rw [nodeEq]
    by_cases hf : x.final = y.final
    · by_cases hl : x.edges.length = y.edges.length
      · simp only [hf, ne_eq, not_true_eq_false, if_false, hl]
        rw [edgesEq_spec h0 hG sG hF]
        · congr 1
          rw [decide_eq_decide]
          constructor
          · intro h
            refine ⟨trivial, Forest.toList_inj ((forest_sublist sF sG h).eq_of_length ?_)⟩
            rw [hF.length, hG.length, hl]
          · rintro ⟨_, rfl⟩ e he; exact he
        · intro l f k he x' y' f' k' hx hux hy huy he'
          subst hx; subst hy
          exact ih hux huy (sF.toList.2 _ he) (sG.toList.2 _ he') (by have := Forest.height_mem he'; omega)
      · have : F ≠ G := by rintro rfl; exact hl (hF.length ▸ hG.length ▸ rfl)
        simp [hf, hl, this]
    · simp [hf]

theorem edgesEq_short {sgn : Bool} {mem : Mem} (h0 : mem 0 = none) {eq : DNode → DNode → Except Err Bool} {y : DNode}
    {G : Forest} (hG : Unf mem y.edges G) (sG : G.Sorted sgn) {es : List (UInt8 × Nat)} {F : Forest} {n : Nat}
    (hF : Unf mem es F) (hsub : ∀ e ∈ F.toList, e ∈ G.toList)
    (heq : ∀ l f k, (l, f, k) ∈ F.toList → ∀ x y, x.final = f → Unf mem x.edges k → y.final = f → Unf mem y.edges k →
      (k.height < n → eq x y = .ok true) ∧ (n ≤ k.height → eq x y = .error .diverge))
    (hn : ∃ l f k, (l, f, k) ∈ F.toList ∧ n ≤ k.height) : edgesEq mem eq y es = .error .diverge := by
  induction hF with
  | nil => obtain ⟨_, _, _, h, _⟩ := hn; simp [Forest.toList] at h
  | @cons l a nd es kids rest hm h1 _ _ ih =>
    have hin : (l, nd.final, kids) ∈ G.toList := hsub _ (by simp [Forest.toList])
    rw [edgesEq]
    rcases hG.find y.final l with ⟨b, ndb, k, hb, hmb, hub, hmem⟩ | ⟨hb, hno⟩
    · have hb' : nodeTransition y l = b := hb
      have hb0 : b ≠ 0 := by rintro rfl; rw [h0] at hmb; cases hmb
      have hk := forest_label_unique sG hin hmem
      simp only [Prod.mk.injEq] at hk
      obtain ⟨hk1, hk2⟩ := hk
      subst hk2
      obtain ⟨g1, g2⟩ := heq l nd.final kids (by simp [Forest.toList]) nd ndb rfl h1 hk1.symm hub
      simp only [hb', hb0, if_false, deref, hm, hmb, bind, Except.bind]
      by_cases hkn : n ≤ kids.height
      · rw [g2 hkn]
      · rw [g1 (by omega)]
        simp only [if_true]
        refine ih (fun e he => hsub e (by simp [Forest.toList, he]))
          (fun l f k he => heq l f k (by simp [Forest.toList, he])) ?_
        obtain ⟨l', f', k', h2, h3⟩ := hn
        simp only [Forest.toList, List.mem_cons] at h2
        rcases h2 with h2 | h2
        · cases h2; exact absurd h3 hkn
        · exact ⟨l', f', k', h2, h3⟩
    · exact absurd hin (hno _ _)

theorem nodeEq_short {sgn : Bool} {mem : Mem} (h0 : mem 0 = none) {fuel : Nat} {x y : DNode} {F : Forest}
    (hF : Unf mem x.edges F) (hG : Unf mem y.edges F) (sF : F.Sorted sgn) (hf : x.final = y.final)
    (hfuel : fuel ≤ F.height) : nodeEq mem fuel x y = .error .diverge := by
  induction fuel generalizing x y F with
  | zero => rfl
  | succ fuel ih =>
    have hl : x.edges.length = y.edges.length := hF.length ▸ hG.length ▸ rfl
    rw [nodeEq]
    simp only [hf, ne_eq, not_true_eq_false, if_false, hl]
    refine edgesEq_short h0 hG sF (n := fuel) hF (fun e he => he) ?_ (Forest.height_succ (by omega))
    intro l f k he x y hx hux hy huy
    refine ⟨fun h => ?_, fun h => ih hux huy (sF.toList.2 _ he) (hx.trans hy.symm) h⟩
    rw [nodeEq_spec h0 hux huy (sF.toList.2 _ he) (sF.toList.2 _ he) h]
    simp [hx, hy]

/-! ### Parents -/

theorem prefixStr_depth {mem : PMem} {N a : Nat} {s : Str} (h : prefixStr mem N a = .ok s) (fuel : Nat) :
    (fuel ≤ s.length → prefixStr mem fuel a = .error .diverge) ∧ (s.length < fuel → prefixStr mem fuel a = .ok s) := by
  induction N generalizing a s fuel with
  | zero => cases h
  | succ N ih =>
    rw [prefixStr] at h
    cases hm : mem a with
    | none => rw [hm] at h; cases h
    | some p =>
      simp only [hm] at h
      split at h
      · rename_i hp
        cases h
        cases fuel with
        | zero => exact ⟨fun _ => rfl, fun h => absurd h (by simp)⟩
        | succ fuel => exact ⟨fun h => absurd h (by simp), fun _ => by simp [prefixStr, hm, hp]⟩
      · rename_i hp
        cases hs : prefixStr mem N p.parent with
        | error e => simp [hs, bind, Except.bind] at h
        | ok u =>
          simp only [hs, bind, Except.bind, Except.ok.injEq] at h
          subst h
          cases fuel with
          | zero => exact ⟨fun _ => rfl, fun h => absurd h (by simp)⟩
          | succ fuel =>
            obtain ⟨h1, h2⟩ := ih hs fuel
            simp only [List.length_append, List.length_cons, List.length_nil]
            refine ⟨fun h => ?_, fun h => ?_⟩
            · simp only [prefixStr, hm, hp, if_false, h1 (by omega), bind, Except.bind]
            · simp only [prefixStr, hm, hp, if_false, h2 (by omega), bind, Except.bind]

theorem interStr_depth {S : Type} {im : IMem S} {N a : Nat} {s : Str} (h : interStr im N a = .ok s) (fuel : Nat) :
    (fuel ≤ s.length → interStr im fuel a = .error .diverge) ∧ (s.length < fuel → interStr im fuel a = .ok s) := by
  induction N generalizing a s fuel with
  | zero => cases h
  | succ N ih =>
    rw [interStr] at h
    cases hm : getInter im a with
    | error e => rw [hm] at h; cases h
    | ok p =>
      simp only [hm, bind, Except.bind] at h
      split at h
      · rename_i hp
        cases h
        cases fuel with
        | zero => exact ⟨fun _ => rfl, fun h => absurd h (by simp)⟩
        | succ fuel => exact ⟨fun h => absurd h (by simp), fun _ => by simp [interStr, hm, hp, bind, Except.bind]⟩
      · rename_i hp
        cases hs : interStr im N p.parent with
        | error e => simp [hs] at h
        | ok u =>
          simp only [hs, Except.ok.injEq] at h
          subst h
          cases fuel with
          | zero => exact ⟨fun _ => rfl, fun h => absurd h (by simp)⟩
          | succ fuel =>
            obtain ⟨h1, h2⟩ := ih hs fuel
            simp only [List.length_append, List.length_cons, List.length_nil]
            refine ⟨fun h => ?_, fun h => ?_⟩
            · simp only [interStr, hm, hp, if_false, h1 (by omega), bind, Except.bind]
            · simp only [interStr, hm, hp, if_false, h2 (by omega), bind, Except.bind]

/-! ### Serialization of one word -/

theorem collectNodes_word {mem : Mem} {root : Nat} {t : Str} {b : Nat → Nat} (hw : WordNodes mem root t b) {fuel i : Nat}
    (hi : i ≤ t.length) (hfu : fuel ≤ t.length - i) {ids fins : List Nat} (hids : ∀ x ∈ ids, ∃ j < i, x = b j) :
    collectNodes mem fuel (b i) (ids, fins) = .error .diverge := by
  induction fuel generalizing i ids fins with
  | zero => rfl
  | succ fuel ih =>
    have hin : b i ∉ ids := fun h => by
      obtain ⟨j, hj, he⟩ := hids _ h
      have := hw.inj _ _ hi (by omega) he
      omega
    simp only [collectNodes, hin, if_false, deref, hw.inner i (by omega), bind, Except.bind, List.foldlM_cons]
    rw [ih (by omega) (by omega)]
    intro x hx
    rcases mem_setInsert.1 hx with rfl | hx
    · exact ⟨i, by omega, rfl⟩
    · obtain ⟨j, hj, he⟩ := hids _ hx
      exact ⟨j, by omega, he⟩

theorem collectEdges_word {sgn : Bool} {mem : Mem} {root : Nat} {t : Str} {b : Nat → Nat} (hw : WordNodes mem root t b)
    {fuel i : Nat} (hi : i ≤ t.length) (hfu : fuel ≤ t.length - i) {E : List ((Nat × UInt8) × Nat)}
    (hE : ∀ e ∈ E, ∃ j < i, e.1.1 = b j) : collectEdges sgn mem fuel (b i) E = .error .diverge := by
  induction fuel generalizing i E with
  | zero => rfl
  | succ fuel ih =>
    have hany : ∀ c, E.any (fun x => x.1 == (b i, c)) = false := fun c => by
      rw [List.any_eq_false]
      intro e he hc
      obtain ⟨j, hj, h⟩ := hE e he
      have hc' := eq_of_beq hc
      rw [hc'] at h
      have := hw.inj _ _ hi (by omega) h
      omega
    simp only [collectEdges, deref, hw.inner i (by omega), bind, Except.bind, List.foldlM_cons, hany, Bool.false_eq_true,
      if_false]
    rw [ih (by omega) (by omega)]
    intro e he
    obtain ⟨k, x⟩ := e
    rcases mem_edgeInsert.1 he with h | h
    · cases h; exact ⟨i, by omega, rfl⟩
    · obtain ⟨j, hj, h⟩ := hE _ h
      exact ⟨j, by omega, h⟩

end Lev
