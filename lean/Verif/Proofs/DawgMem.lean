import Verif.Proofs.Tree

/-!
Memory: frames, closed sets of nodes, `all_nodes`, deletion.
-/

namespace Lev

open Spec

/-! ### Computations that end -/

theorem Ends.of_eq {α : Type} {f : Nat → Except Err α} {r : α} (h : ∀ n, f n = .ok r) : Ends f r := ⟨0, fun n _ => h n⟩

theorem Ends.bind {α β : Type} {f : Nat → Except Err α} {g : Nat → α → Except Err β} {r : α} {s : β}
    (hf : Ends f r) (hg : Ends (fun n => g n r) s) : Ends (fun n => f n >>= g n) s := by
  obtain ⟨N, hN⟩ := hf
  obtain ⟨M, hM⟩ := hg
  refine ⟨max N M, fun n hn => ?_⟩
  have h1 := hN n (by omega)
  have h2 := hM n (by omega)
  simp only [Bind.bind, Except.bind, h1]
  exact h2

theorem Ends.unique {α : Type} {f : Nat → Except Err α} {r s : α} (h : Ends f r) (h' : Ends f s) : r = s := by
  obtain ⟨N, hN⟩ := h
  obtain ⟨M, hM⟩ := h'
  have h1 := hN (max N M) (by omega)
  have h2 := hM (max N M) (by omega)
  rw [h1] at h2
  exact Except.ok.inj h2

theorem Ends.congr {α : Type} {f g : Nat → Except Err α} {r : α} (h : Ends f r) (he : ∀ n, g n = f n) : Ends g r := by
  obtain ⟨N, hN⟩ := h
  exact ⟨N, fun n hn => by rw [he, hN n hn]⟩

/-! ### Closed sets -/

/-- A set of live nodes that no edge leaves. -/
def Closed (mem : Mem) (Z : Nat → Prop) : Prop :=
  ∀ a, Z a → ∃ nd, mem a = some nd ∧ ∀ c b, (c, b) ∈ nd.edges → Z b

theorem Unf.frame {mem mem' : Mem} {Z : Nat → Prop} (hZ : Closed mem Z) (hmm : ∀ a, Z a → mem' a = mem a)
    {es : List (UInt8 × Nat)} {F : Forest} (h : Unf mem es F) (hes : ∀ c b, (c, b) ∈ es → Z b) : Unf mem' es F := by
  induction h with
  | nil => exact .nil
  | @cons l a nd es kids rest hm _ _ ih1 ih2 =>
    have ha := hes l a (by simp)
    obtain ⟨nd', hm', hc⟩ := hZ a ha
    rw [hm] at hm'; obtain rfl := Option.some.inj hm'
    exact .cons (by rw [hmm a ha]; exact hm) (ih1 hc) (ih2 fun c b h => hes c b (by simp [h]))

theorem Closed.frame {mem mem' : Mem} {Z : Nat → Prop} (hZ : Closed mem Z) (hmm : ∀ a, Z a → mem' a = mem a) :
    Closed mem' Z := by
  intro a ha
  obtain ⟨nd, hm, hc⟩ := hZ a ha
  exact ⟨nd, by rw [hmm a ha]; exact hm, hc⟩

theorem Closed.reaches {mem : Mem} {Z : Nat → Prop} (hZ : Closed mem Z) {a x : Nat} (ha : Z a) (h : Reaches mem a x) :
    Z x := by
  induction h with
  | refl => exact ha
  | step hm hb _ ih =>
    obtain ⟨nd, hm', hc⟩ := hZ _ ha
    rw [hm] at hm'; obtain rfl := Option.some.inj hm'
    exact ih (hc _ _ hb)

theorem DictNode.mono {sgn : Bool} {mem : Mem} {d d' a : Nat} (h : DictNode sgn mem d a) (hd : d ≤ d') :
    DictNode sgn mem d' a := by
  induction h generalizing d' with
  | @mk d a nd hm hs _ ih =>
    obtain ⟨e, rfl⟩ : ∃ e, d' = e + 1 := ⟨d' - 1, by omega⟩
    exact .mk hm hs fun c b hb => ih c b hb (by omega)

/-- A closed set of nodes with sorted edges, none of them on a cycle. -/
theorem dictNode_of_closed {sgn : Bool} {mem : Mem} {Z : Nat → Prop} (hZ : Closed mem Z)
    (hs : ∀ a nd, Z a → mem a = some nd → nd.edges.Pairwise (fun e f => charLt sgn e.1 f.1))
    {es : List (UInt8 × Nat)} {F : Forest} (h : Unf mem es F) (hes : ∀ c b, (c, b) ∈ es → Z b) :
    ∀ c b, (c, b) ∈ es → DictNode sgn mem F.height b := by
  induction h with
  | nil => simp
  | @cons l a nd es kids rest hm _ _ ih1 ih2 =>
    have ha := hes l a (by simp)
    obtain ⟨nd', hm', hc⟩ := hZ a ha
    rw [hm] at hm'; obtain rfl := Option.some.inj hm'
    intro c b hb
    simp only [Forest.height]
    rcases List.mem_cons.1 hb with h | h
    · cases h
      exact DictNode.mono (.mk (d := kids.height) hm (hs a nd ha hm) (ih1 hc)) (by omega)
    · exact DictNode.mono (ih2 (fun c b h => hes c b (by simp [h])) c b h) (by omega)

theorem DictNode.frame {sgn : Bool} {mem mem' : Mem} {Z : Nat → Prop} (hZ : Closed mem Z)
    (hmm : ∀ a, Z a → mem' a = mem a) {d a : Nat} (h : DictNode sgn mem d a) (ha : Z a) : DictNode sgn mem' d a := by
  induction h with
  | @mk d a nd hm hs _ ih =>
    obtain ⟨nd', hm', hc⟩ := hZ a ha
    rw [hm] at hm'; obtain rfl := Option.some.inj hm'
    exact .mk (by rw [hmm a ha]; exact hm) hs fun c b hb => ih c b hb (hc c b hb)

/-- What is reachable from a dictionary node is closed. -/
theorem DictNode.closed {sgn : Bool} {mem : Mem} {d a : Nat} (h : DictNode sgn mem d a) :
    Closed mem (Reaches mem a) := by
  have live : ∀ d a, DictNode sgn mem d a → ∀ x, Reaches mem a x → ∃ d, DictNode sgn mem d x := by
    intro d a h x hx
    induction hx generalizing d with
    | refl => exact ⟨d, h⟩
    | step hm hb _ ih =>
      cases h with
      | mk hm' _ hk =>
        rw [hm] at hm'; obtain rfl := Option.some.inj hm'
        exact ih _ (hk _ _ hb)
  have app : ∀ x y, Reaches mem a x → ∀ nd c, mem x = some nd → (c, y) ∈ nd.edges → Reaches mem a y := by
    intro x y h
    clear live
    rename_i hh
    clear hh
    induction h with
    | refl => exact fun nd c hm hy => .step hm hy .refl
    | step hm hb _ ih => exact fun nd c hm' hy => .step hm hb (ih nd c hm' hy)
  intro x hx
  obtain ⟨d', h'⟩ := live d a h x hx
  cases h' with
  | mk hm' _ hk => exact ⟨_, hm', fun c b hb => app x b hx _ c hm' hb⟩

/-! ### `all_nodes` -/

theorem AllPairs.append {α β : Type} {r : α → β → Prop} {l l2 : List α} {l' l2' : List β} (h : AllPairs r l l')
    (h2 : AllPairs r l2 l2') : AllPairs r (l ++ l2) (l' ++ l2') := by
  induction h with
  | nil => exact h2
  | cons h _ ih => exact .cons h ih

theorem Unf.targets {mem : Mem} {es : List (UInt8 × Nat)} {F : Forest} (h : Unf mem es F) :
    AllPairs (fun a k => ∃ nd, mem a = some nd ∧ Unf mem nd.edges k) (es.map (·.2)) (F.toList.map (·.2.2)) := by
  induction h with
  | nil => exact .nil
  | cons hm h1 _ _ ih => exact .cons ⟨_, hm, h1⟩ ih

theorem toList_size (F : Forest) : ((F.toList.map (·.2.2)).map (fun k => 1 + k.size)).sum = F.size := by
  induction F with
  | nil => simp [Forest.toList, Forest.size]
  | cons l f k r _ ih => simp only [Forest.toList, List.map_cons, List.sum_cons, Forest.size]; omega

theorem allNodesLoop_spec {mem : Mem} (fuel : Nat) {pend : List Nat} {Fs : List Forest}
    (h : AllPairs (fun a k => ∃ nd, mem a = some nd ∧ Unf mem nd.edges k) pend Fs) (nodes : List Nat)
    (hnd : nodes.Nodup) (hf : (Fs.map (fun k => 1 + k.size)).sum ≤ fuel) :
    ∃ r, allNodesLoop mem fuel pend nodes = .ok r ∧ r.Nodup ∧
      ∀ x, x ∈ r ↔ x ∈ nodes ∨ ∃ a ∈ pend, Reaches mem a x := by
  induction fuel generalizing pend Fs nodes with
  | zero =>
    cases h with
    | nil => exact ⟨nodes, by simp [allNodesLoop], hnd, by simp⟩
    | cons _ _ => simp at hf
  | succ fuel ih =>
    cases h with
    | nil => exact ⟨nodes, by simp [allNodesLoop], hnd, by simp⟩
    | @cons a k pend Fs hak hrest =>
      obtain ⟨nd, hm, hu⟩ := hak
      have hwt := toList_size k
      obtain ⟨r, hr, hrn, hx⟩ := ih (hrest.append hu.targets) (if a ∈ nodes then nodes else a :: nodes)
        (by split
            · exact hnd
            · next hn => exact List.nodup_cons.2 ⟨hn, hnd⟩)
        (by simp only [List.map_append, List.sum_append, List.map_cons, List.sum_cons] at hf ⊢; omega)
      refine ⟨r, ?_, hrn, ?_⟩
      · simp only [allNodesLoop, deref, hm, bind, Except.bind]
        exact hr
      · intro x
        rw [hx]
        have hmem : x ∈ (if a ∈ nodes then nodes else a :: nodes) ↔ x = a ∨ x ∈ nodes := by
          split
          · next h => constructor
                      · exact .inr
                      · rintro (rfl | h')
                        · exact h
                        · exact h'
          · simp
        rw [hmem]
        constructor
        · rintro ((rfl | h) | ⟨b, hb, hbx⟩)
          · exact .inr ⟨x, by simp, .refl⟩
          · exact .inl h
          · rcases List.mem_append.1 hb with hb | hb
            · exact .inr ⟨b, by simp [hb], hbx⟩
            · obtain ⟨⟨c, b'⟩, he, rfl⟩ := List.mem_map.1 hb
              exact .inr ⟨a, by simp, .step hm he hbx⟩
        · rintro (h | ⟨b, hb, hbx⟩)
          · exact .inl (.inr h)
          · rcases List.mem_cons.1 hb with rfl | hb
            · cases hbx with
              | refl => exact .inl (.inl rfl)
              | @step _ nd' c b' _ hm' hb' hbx =>
                rw [hm] at hm'; obtain rfl := Option.some.inj hm'
                exact .inr ⟨b', List.mem_append.2 (.inr (List.mem_map.2 ⟨(c, b'), hb', rfl⟩)), hbx⟩
            · exact .inr ⟨b, by simp [hb], hbx⟩

theorem allNodes_by {mem : Mem} {root : Nat} {nd : DNode} {F : Forest} (hm : mem root = some nd)
    (hu : Unf mem nd.edges F) :
    ∃ r, (∀ fuel, F.size + 1 ≤ fuel → allNodes mem fuel root = .ok r) ∧ r.Nodup ∧ ∀ x, x ∈ r ↔ Reaches mem root x := by
  have hp : AllPairs (fun a k => ∃ nd, mem a = some nd ∧ Unf mem nd.edges k) [root] [F] := .cons ⟨nd, hm, hu⟩ .nil
  obtain ⟨r, hr, hn, hx⟩ := allNodesLoop_spec (F.size + 1) hp [] List.nodup_nil (by simp; omega)
  refine ⟨r, fun fuel hf => ?_, hn, by simpa using hx⟩
  -- more fuel does not change the outcome
  have mono : ∀ fuel pend nodes r, allNodesLoop mem fuel pend nodes = .ok r →
      ∀ fuel', fuel ≤ fuel' → allNodesLoop mem fuel' pend nodes = .ok r := by
    intro fuel
    induction fuel with
    | zero =>
      intro pend nodes r h fuel' _
      cases pend with
      | nil => simpa [allNodesLoop] using h
      | cons => simp [allNodesLoop] at h
    | succ fuel ih =>
      intro pend nodes r h fuel' hf
      obtain ⟨f', rfl⟩ : ∃ f', fuel' = f' + 1 := ⟨fuel' - 1, by omega⟩
      cases pend with
      | nil => simpa [allNodesLoop] using h
      | cons a pend =>
        simp only [allNodesLoop, deref] at h ⊢
        cases ha : mem a with
        | none => rw [ha] at h; simp [bind, Except.bind] at h
        | some nd =>
          rw [ha] at h
          exact ih _ _ _ h f' (by omega)
  exact mono _ _ _ _ hr _ hf

theorem allNodes_spec {mem : Mem} {root : Nat} {nd : DNode} {F : Forest} (hm : mem root = some nd)
    (hu : Unf mem nd.edges F) :
    ∃ r, Ends (fun fuel => allNodes mem fuel root) r ∧ r.Nodup ∧ ∀ x, x ∈ r ↔ Reaches mem root x := by
  obtain ⟨r, hr, hrest⟩ := allNodes_by hm hu
  exact ⟨r, ⟨_, hr⟩, hrest⟩

/-! ### Deletion -/

theorem deleteAll_spec {l : List Nat} (hnd : l.Nodup) {h : Heap} (h0 : h.mem 0 = none)
    (hl : ∀ a ∈ l, h.mem a ≠ none) :
    deleteAll l h = .ok ⟨fun a => if a ∈ l then none else h.mem a, h.count⟩ := by
  induction l generalizing h with
  | nil => simp [deleteAll]
  | cons a l ih =>
    have hnd' := List.nodup_cons.1 hnd
    have ha := hl a (by simp)
    have ha0 : a ≠ 0 := by rintro rfl; exact ha h0
    obtain ⟨nd, hm⟩ := Option.ne_none_iff_exists'.1 ha
    rw [deleteAll, deleteNode, if_neg ha0, hm]
    simp only [bind, Except.bind]
    rw [ih hnd'.2]
    · simp only [Mem.set]
      congr 2
      funext b
      by_cases hb : b ∈ l
      · simp [hb]
      · by_cases hba : b = a <;> simp [hb, hba]
    · simp only [Mem.set]; rw [if_neg (fun h => ha0 h.symm)]; exact h0
    · intro b hb
      simp only [Mem.set]
      rw [if_neg (by rintro rfl; exact hnd'.1 hb)]
      exact hl b (by simp [hb])

end Lev
