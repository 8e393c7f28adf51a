import Verif.Proofs.SerialWalk
import Verif.Proofs.Demo

/-!
The number of iterations of `all_nodes`: one for each path from the root.
-/

namespace Lev

open Spec

theorem allNodesLoop_short {mem : Mem} (fuel : Nat) {pend : List Nat} {Fs : List Forest}
    (h : AllPairs (fun a k => ∃ nd, mem a = some nd ∧ Unf mem nd.edges k) pend Fs) (nodes : List Nat)
    (hf : fuel < (Fs.map (fun k => 1 + k.size)).sum) : allNodesLoop mem fuel pend nodes = .error .diverge := by
  induction fuel generalizing pend Fs nodes with
  | zero =>
    cases h with
    | nil => simp at hf
    | cons _ _ => rfl
  | succ fuel ih =>
    cases h with
    | nil => simp at hf
    | @cons a k pend Fs hak hrest =>
      obtain ⟨nd, hm, hu⟩ := hak
      have hs := toList_size k
      simp only [allNodesLoop, deref, hm, bind, Except.bind]
      apply ih (hrest.append hu.targets)
      simp only [List.map_append, List.sum_append, List.map_cons, List.sum_cons] at hf ⊢
      omega

theorem allNodes_exact {mem : Mem} {root : Nat} {nd : DNode} {F : Forest} (hm : mem root = some nd)
    (hu : Unf mem nd.edges F) (fuel : Nat) :
    (fuel < F.size + 1 → allNodes mem fuel root = .error .diverge) ∧
    (F.size + 1 ≤ fuel → ∃ r, allNodes mem fuel root = .ok r ∧ r.Nodup ∧ ∀ x, x ∈ r ↔ Reaches mem root x) := by
  have hp : AllPairs (fun a k => ∃ nd, mem a = some nd ∧ Unf mem nd.edges k) [root] [F] := .cons ⟨nd, hm, hu⟩ .nil
  refine ⟨fun h => allNodesLoop_short fuel hp [] (by simp; omega), fun h => ?_⟩
  obtain ⟨r, h1, h2, h3⟩ := allNodesLoop_spec fuel hp [] List.nodup_nil (by simp; omega)
  exact ⟨r, h1, h2, by simpa using h3⟩

/-! ### Paths -/

/-- The strings that lead to some node of a forest. -/
def Forest.paths : Forest → List Str
  | .nil => []
  | .cons l _ kids rest => [l] :: (kids.paths.map (l :: ·) ++ rest.paths)

theorem Forest.paths_length (F : Forest) : F.paths.length = F.size := by
  induction F with
  | nil => rfl
  | cons l f k r ih1 ih2 => simp [Forest.paths, Forest.size, ih1, ih2]; omega

theorem Forest.paths_ne {F : Forest} {w : Str} (h : w ∈ F.paths) : w ≠ [] := by
  induction F with
  | nil => simp [Forest.paths] at h
  | cons l f k r _ ih =>
    simp only [Forest.paths, List.mem_cons, List.mem_append, List.mem_map] at h
    rcases h with rfl | ⟨u, _, rfl⟩ | h
    · simp
    · simp
    · exact ih h

theorem Forest.paths_head {F : Forest} {w : Str} (h : w ∈ F.paths) : ∃ e ∈ F.toList, ∃ u, w = e.1 :: u := by
  induction F with
  | nil => simp [Forest.paths] at h
  | cons l f k r _ ih =>
    simp only [Forest.paths, List.mem_cons, List.mem_append, List.mem_map] at h
    rcases h with rfl | ⟨u, _, rfl⟩ | h
    · exact ⟨(l, f, k), by simp [Forest.toList], [], rfl⟩
    · exact ⟨(l, f, k), by simp [Forest.toList], u, rfl⟩
    · obtain ⟨e, he, u, hu⟩ := ih h
      exact ⟨e, by simp [Forest.toList, he], u, hu⟩

theorem Forest.paths_nodup {sgn : Bool} {F : Forest} (h : F.Sorted sgn) : F.paths.Nodup := by
  induction F with
  | nil => simp [Forest.paths]
  | cons l f k r ih1 ih2 =>
    have hl := h.toList.1
    simp only [Forest.toList, List.pairwise_cons] at hl
    have hne : ∀ w ∈ r.paths, ∀ u, w ≠ l :: u := by
      rintro w hw u rfl
      obtain ⟨e, he, v, hv⟩ := Forest.paths_head hw
      cases hv
      exact charLt_irrefl (hl.1 e he)
    cases h with
    | cons hk hr _ =>
      simp only [Forest.paths]
      refine List.nodup_cons.2 ⟨?_, List.nodup_append.2 ⟨?_, ih2 hr, ?_⟩⟩
      · simp only [List.mem_append, List.mem_map, List.cons.injEq, true_and, exists_eq_right, not_or]
        exact ⟨fun h => Forest.paths_ne h rfl, fun h => hne _ h [] rfl⟩
      · exact List.pairwise_map.2 ((ih1 hk).imp fun hab he => hab (List.cons.inj he).2)
      · intro a ha b hb hab
        obtain ⟨u, _, rfl⟩ := List.mem_map.1 ha
        exact hne b hb u hab.symm

theorem leads_cons {mem : Mem} {a : Nat} {nd : DNode} {c : UInt8} {b x : Nat} {u : Str} (hm : mem a = some nd)
    (hb : (c, b) ∈ nd.edges) (h : Leads mem b u x) : Leads mem a (c :: u) x := by
  induction h with
  | here => exact .snoc (w := []) .here hm hb
  | @snoc w y nd' c' d hl hm' hd ih => exact .snoc (w := c :: w) ih hm' hd

theorem leads_cons_inv {mem : Mem} {a x : Nat} {w : Str} (h : Leads mem a w x) : ∀ {c : UInt8} {u : Str}, w = c :: u →
    ∃ nd b, mem a = some nd ∧ (c, b) ∈ nd.edges ∧ Leads mem b u x := by
  induction h with
  | here => intro c u h; cases h
  | @snoc w y nd' c' d hl hm' hd ih =>
    intro c u he
    cases w with
    | nil =>
      simp only [List.nil_append, List.cons.injEq] at he
      obtain ⟨rfl, rfl⟩ := he
      generalize hz : ([] : Str) = z at hl
      cases hl with
      | here => exact ⟨nd', d, hm', hd, .here⟩
      | snoc => simp at hz
    | cons e w =>
      simp only [List.cons_append, List.cons.injEq] at he
      obtain ⟨rfl, rfl⟩ := he
      obtain ⟨nd, b, h1, h2, h3⟩ := ih rfl
      exact ⟨nd, b, h1, h2, .snoc h3 hm' hd⟩

theorem leads_nil_inv {mem : Mem} {a x : Nat} {w : Str} (h : Leads mem a w x) (hw : w = []) : x = a := by
  cases h with
  | here => rfl
  | snoc => simp at hw

theorem Unf.mem_paths {mem : Mem} {es : List (UInt8 × Nat)} {F : Forest} (h : Unf mem es F) (w : Str) :
    w ∈ F.paths ↔ ∃ c b u x, w = c :: u ∧ (c, b) ∈ es ∧ Leads mem b u x := by
  induction h generalizing w with
  | nil => simp [Forest.paths]
  | @cons l a nd es kids rest hm _ _ ih1 ih2 =>
    simp only [Forest.paths, List.mem_cons, List.mem_append, List.mem_map, ih2, ih1]
    constructor
    · rintro (rfl | ⟨u, ⟨c, b, v, x, rfl, hb, hx⟩, rfl⟩ | ⟨c, b, u, x, rfl, hb, hx⟩)
      · exact ⟨l, a, [], a, rfl, .inl rfl, .here⟩
      · exact ⟨l, a, c :: v, x, rfl, .inl rfl, leads_cons hm hb hx⟩
      · exact ⟨c, b, u, x, rfl, .inr hb, hx⟩
    · rintro ⟨c, b, u, x, rfl, h | hb, hx⟩
      · cases h
        cases u with
        | nil => exact .inl rfl
        | cons c' u =>
          obtain ⟨nd', b', h1, h2, h3⟩ := leads_cons_inv hx rfl
          rw [hm] at h1; obtain rfl := Option.some.inj h1
          exact .inr (.inl ⟨c' :: u, ⟨c', b', u, x, rfl, h2, h3⟩, rfl⟩)
      · exact .inr (.inr ⟨c, b, u, x, rfl, hb, hx⟩)

theorem mem_paths_root {mem : Mem} {root : Nat} {nd : DNode} {F : Forest} (hm : mem root = some nd)
    (hu : Unf mem nd.edges F) (w : Str) : w ∈ [] :: F.paths ↔ ∃ b, Leads mem root w b := by
  rw [List.mem_cons, hu.mem_paths]
  constructor
  · rintro (rfl | ⟨c, b, u, x, rfl, hb, hx⟩)
    · exact ⟨root, .here⟩
    · exact ⟨x, leads_cons hm hb hx⟩
  · rintro ⟨x, hx⟩
    cases w with
    | nil => exact .inl rfl
    | cons c u =>
      obtain ⟨nd', b, h1, h2, h3⟩ := leads_cons_inv hx rfl
      rw [hm] at h1; obtain rfl := Option.some.inj h1
      exact .inr ⟨c, b, u, x, rfl, h2, h3⟩

/-- The number of paths is the size of the tree. -/
theorem DictNode.count_paths {sgn : Bool} {mem : Mem} {k root : Nat} {nd : DNode} {F : Forest} (hd : DictNode sgn mem k root)
    (hm : mem root = some nd) (hu : Unf mem nd.edges F) {ws : List Str} (hnd : ws.Nodup)
    (hws : ∀ w, w ∈ ws ↔ ∃ b, Leads mem root w b) : ws.length = F.size + 1 := by
  have hs : F.Sorted sgn := DictNode.sorted hd hm hu
  have hn : ([] :: F.paths).Nodup :=
    List.nodup_cons.2 ⟨fun h => Forest.paths_ne h rfl, Forest.paths_nodup hs⟩
  have h1 := hn.length_le_of_subset (l₂ := ws) fun w hw => (hws w).2 ((mem_paths_root hm hu w).1 hw)
  have h2 := hnd.length_le_of_subset (l₂ := [] :: F.paths) fun w hw => (mem_paths_root hm hu w).2 ((hws w).1 hw)
  simp only [List.length_cons, Forest.paths_length] at h1 h2
  omega

theorem leads_of_accepts {mem : Mem} {a : Nat} {w u : Str} (h : Accepts mem a (w ++ u)) : ∃ b, Leads mem a w b := by
  induction w generalizing a with
  | nil => exact ⟨a, .here⟩
  | cons c w ih =>
    cases h with
    | step hm hb h =>
      obtain ⟨x, hx⟩ := ih h
      exact ⟨x, leads_cons hm hb hx⟩

/-- What can be read from the root of a finished dictionary. -/
theorem Finished.leads_iff {sgn : Bool} {addr : Nat → Nat} {c0 : Nat} {m0 : Mem} {terms : List Str} {h : Heap} {d : SDawg}
    (hf : Finished sgn addr c0 m0 terms h d) (w : Str) :
    (∃ b, Leads h.mem d.root w b) ↔ w = [] ∨ ∃ t ∈ terms, w <+: t := by
  obtain ⟨nd, F, h1, h2, h3, h4, h5⟩ := hf.dict
  have hco : ∀ {w b}, Leads h.mem d.root w b → (∃ nd k, h.mem b = some nd ∧ Unf h.mem nd.edges k ∧ k.Trim) ∧
      (w = [] ∨ ∃ t ∈ terms, w <+: t) := by
    intro w b hl
    induction hl with
    | here => exact ⟨⟨nd, F, h1, h2, h3⟩, .inl rfl⟩
    | snoc hl hm hb ih =>
      obtain ⟨⟨nd', k, g1, g2, g3⟩, _⟩ := ih
      rw [hm] at g1; obtain rfl := Option.some.inj g1
      obtain ⟨nd2, k2, g4, g5, g6, g7⟩ := g2.trim_child g3 hb
      obtain ⟨t, ht⟩ := accT_exists g6 g7
      have := (hf.accepts _).1 ((Spec.Leads.snoc hl hm hb).accepts ((accepts_iff g4 g5 t).2 ht))
      exact ⟨⟨nd2, k2, g4, g5, g6⟩, .inr ⟨_, this, List.prefix_append _ _⟩⟩
  constructor
  · rintro ⟨b, hb⟩; exact (hco hb).2
  · rintro (rfl | ⟨t, ht, u, rfl⟩)
    · exact ⟨_, .here⟩
    · exact leads_of_accepts ((hf.accepts _).2 ht)

section
variable {sgn : Bool} {addr : Nat → Nat} {h h' : Heap} {msg : Msg} {d : SDawg} {φ : Nat → Nat}

theorem ReadAny.leads (hr : ReadAny sgn addr h msg h' d φ) (hd : ¬ Dangling msg) (w : Str) :
    (∃ b, Leads h'.mem d.root w b) ↔ ∃ y, Walk msg msg.rootId w y := by
  rw [hr.root]
  constructor
  · rintro ⟨b, hl⟩
    suffices ∃ y, Walk msg msg.rootId w y ∧ φ y = b from ⟨this.choose, this.choose_spec.1⟩
    induction hl with
    | here => exact ⟨_, .here, rfl⟩
    | @snoc w b nd c e hl hm hb ih =>
      obtain ⟨y, hw, rfl⟩ := ih
      obtain ⟨es, h1, _, h3⟩ := hr.present fun hy => hd ⟨w, y, hw, hy⟩
      rw [h1] at hm; cases hm
      obtain ⟨g, hg, rfl, rfl, rfl⟩ := (h3 _ _).1 hb
      exact ⟨_, walk_snoc hw hg, rfl⟩
  · rintro ⟨y, hw⟩
    have hgen : ∀ {x y : Nat} {w : Str}, Walk msg x w y → ∀ s, Walk msg msg.rootId s x → Leads h'.mem (φ x) w (φ y) := by
      intro x y w hw
      induction hw with
      | here => exact fun _ _ => .here
      | @step e c t y he hc hw ih =>
        intro s hs
        obtain ⟨es, h1, _, h3⟩ := hr.present fun hx => hd ⟨s, _, hs, hx⟩
        exact leads_cons h1 ((h3 _ _).2 ⟨e, he, rfl, charOfLabel_eq_iff.2 hc, rfl⟩) (ih _ (walk_snoc hs he))
    exact ⟨_, hgen hw [] .here⟩

end

end Lev
