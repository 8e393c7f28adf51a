import Verif.Proofs.Iter
import Verif.Props.Dawg

/-!
# Properties C18, C19, C37 (second part), C53: iterating over a dictionary

`rangeFor` is the loop `for (const std::string &term : dawg)`; `PAllocator paddr ph` is what is assumed of the memory in
which prefixes are allocated.
-/

namespace Lev.Props

open Lev Spec

theorem yielded_full (v : Str) (todo : List Str) (j : Nat) :
    yielded (todo.length + 1 + j) v todo = v :: todo ++ List.replicate j ((v :: todo).getLast?.getD []) := by
  induction todo generalizing v with
  | nil =>
    have : ∀ j, yielded j v [] = List.replicate j v := by
      intro j
      induction j with
      | zero => rfl
      | succ j ih => simpa [yielded, List.replicate_succ] using ih
    rw [this]
    simp [Nat.add_comm 1 j, List.replicate_succ]
  | cons w todo ih =>
    rw [show (w :: todo).length + 1 + j = (todo.length + 1 + j) + 1 by simp; omega]
    simp only [yielded, List.head?_cons, Option.getD_some, List.tail_cons, ih w, List.cons_append]
    simp [List.getLast?_cons_cons]

theorem yielded_list (L : List Str) (j : Nat) :
    yielded (L.length + j) (L.head?.getD []) L.tail = L ++ List.replicate j (L.getLast?.getD []) := by
  cases L with
  | nil =>
    simp only [List.length_nil, Nat.zero_add, List.head?_nil, Option.getD_none, List.tail_nil, List.nil_append,
      List.getLast?_nil]
    induction j with
    | zero => rfl
    | succ j ih => simpa [yielded, List.replicate_succ] using ih
  | cons v todo => simpa using yielded_full v todo j

theorem finals_mem {mem : Mem} {root : Nat} {nd : DNode} {F : Forest} (hm : mem root = some nd)
    (hu : Unf mem nd.edges F) (t : Str) : t ∈ finals [rootItem nd F] ↔ Accepts mem root t := by
  rw [← walk_mem hm hu t]
  simp only [finals, List.cons_append, List.nil_append, List.mem_map, List.mem_filter]
  constructor
  · rintro ⟨it, ⟨h1, h2⟩, h3⟩; exact ⟨it, h1, h2, h3⟩
  · rintro ⟨it, h1, h2, h3⟩; exact ⟨it, ⟨h1, h2⟩, h3⟩

theorem finals_order {sgn : Bool} {nd : DNode} {F : Forest} (hs : F.Sorted sgn) :
    (finals [rootItem nd F]).Pairwise (shortLex sgn) := by
  have h := walk_order (nd := nd) hs
  exact List.pairwise_map.2 (List.Pairwise.filter _ h)

theorem nodup_of_shortLex {sgn : Bool} {L : List Str} (h : L.Pairwise (shortLex sgn)) : L.Nodup :=
  h.imp fun hab heq => by rw [heq] at hab; exact shortLex_irrefl hab

/-! ### C18, C19 -/

/-- C18: a range-for over the dictionary built from `terms` ends without undefined behaviour, all prefixes it
allocated are deleted, and it yields a list `all` in which each term occurs exactly once, followed by the last term of
that list once per repetition in `terms`. -/
theorem c18_iteration {sgn : Bool} {addr paddr : Nat → Nat} {h h' : Heap} {ph : PHeap} {terms : List Str} {d : SDawg}
    (ha : Allocator addr h) (hr : Ends (fun fuel => sortedDawg sgn addr fuel terms h) (h', some d))
    (hp : PAllocator paddr ph) :
    ∃ all ph', all.Nodup ∧ (∀ t, t ∈ all ↔ t ∈ terms) ∧
      Ends (fun fuel => rangeFor h'.mem paddr fuel d.root d.size ph)
        (all ++ List.replicate (terms.length - all.length) (all.getLast?.getD []), ph') ∧
      ∀ a, ph'.mem a = ph.mem a := by
  obtain ⟨_, hf⟩ := finished_of_run ha hr
  obtain ⟨nd, F, m, u, _, s, _⟩ := hf.dict
  obtain ⟨ph', h1, h2⟩ := rangeFor_spec (size := d.size) hp m u
  have hnd := nodup_of_shortLex (finals_order (nd := nd) s)
  have hmem : ∀ t, t ∈ finals [rootItem nd F] ↔ t ∈ terms := fun t => by rw [finals_mem m u, hf.accepts]
  have hle : (finals [rootItem nd F]).length ≤ terms.length :=
    (List.subperm_of_subset hnd fun t ht => (hmem t).1 ht).length_le
  refine ⟨_, ph', hnd, hmem, ?_, h2⟩
  rw [← yielded_list, show (finals [rootItem nd F]).length + (terms.length - (finals [rootItem nd F]).length) = d.size by
    rw [hf.size]; omega]
  exact h1

/-- C18 for strictly ascending input: every term exactly once. -/
theorem c18_each_term_once {sgn : Bool} {addr paddr : Nat → Nat} {h h' : Heap} {ph : PHeap} {terms : List Str}
    {d : SDawg} (ha : Allocator addr h) (hr : Ends (fun fuel => sortedDawg sgn addr fuel terms h) (h', some d))
    (hnd : terms.Nodup) (hp : PAllocator paddr ph) :
    ∃ out ph', Ends (fun fuel => rangeFor h'.mem paddr fuel d.root d.size ph) (out, ph') ∧ out.Perm terms ∧
      ∀ a, ph'.mem a = ph.mem a := by
  obtain ⟨all, ph', h1, h2, h3, h4⟩ := c18_iteration ha hr hp
  have hperm := (List.perm_ext_iff_of_nodup h1 hnd).2 h2
  have hl := hperm.length_eq
  refine ⟨all, ph', ?_, hperm, h4⟩
  simpa [hl] using h3

/-- C19: the order of iteration, for strictly ascending input: by length, then lexicographically by `char`. -/
theorem c19_order {sgn : Bool} {addr paddr : Nat → Nat} {h h' : Heap} {ph ph' : PHeap} {terms : List Str} {d : SDawg}
    (ha : Allocator addr h) (hr : Ends (fun fuel => sortedDawg sgn addr fuel terms h) (h', some d))
    (hp : PAllocator paddr ph) {out : List Str}
    (ho : Ends (fun fuel => rangeFor h'.mem paddr fuel d.root d.size ph) (out, ph')) :
    (terms.Nodup → out.Pairwise (shortLex sgn)) ∧ out.Pairwise (fun s t => shortLex sgn s t ∨ s = t) := by
  obtain ⟨_, hf⟩ := finished_of_run ha hr
  obtain ⟨nd, F, m, u, _, s, _⟩ := hf.dict
  obtain ⟨ph1, h1, _⟩ := rangeFor_spec (size := d.size) hp m u
  have hord := finals_order (nd := nd) s
  have hnd := nodup_of_shortLex hord
  have hmem : ∀ t, t ∈ finals [rootItem nd F] ↔ t ∈ terms := fun t => by rw [finals_mem m u, hf.accepts]
  have hle : (finals [rootItem nd F]).length ≤ terms.length :=
    (List.subperm_of_subset hnd fun t ht => (hmem t).1 ht).length_le
  have hout := (Prod.mk.inj (ho.unique h1)).1
  rw [show d.size = (finals [rootItem nd F]).length + (terms.length - (finals [rootItem nd F]).length) by
    rw [hf.size]; omega, yielded_list] at hout
  constructor
  · intro hn
    have hl := ((List.perm_ext_iff_of_nodup hnd hn).2 hmem).length_eq
    rw [hout, hl]
    simpa using hord
  · rw [hout, List.pairwise_append]
    refine ⟨hord.imp .inl, List.pairwise_replicate.2 (.inr (.inr rfl)), fun a h3 b h4 => ?_⟩
    rw [(List.mem_replicate.1 h4).2]
    have hne : finals [rootItem nd F] ≠ [] := List.ne_nil_of_mem h3
    obtain ⟨l, x, hl⟩ : ∃ l x, finals [rootItem nd F] = l ++ [x] :=
      ⟨_, _, (List.dropLast_concat_getLast hne).symm⟩
    rw [hl] at h3 hord
    rw [hl]
    simp only [List.getLast?_append, List.getLast?_singleton, Option.some_or, Option.getD_some]
    rcases List.mem_append.1 h3 with h3 | h3
    · exact .inl ((List.pairwise_append.1 hord).2.2 a h3 x (by simp))
    · exact .inr (by simpa using h3)

/-- Summary of a range-for over a dictionary built in an empty memory: the terms, and how many of the first 20
addresses of prefixes are alive afterwards. -/
def exIter (sgn : Bool) (terms : List Str) : Except Err (List Str × Nat) := do
  let (h, r) ← sortedDawg sgn (fun k => k + 1) 100 terms exHeap
  match r with
  | none => .ok ([], 0)
  | some d => do
      let (out, ph) ← rangeFor h.mem (fun k => k + 1) 100 d.root d.size { mem := fun _ => none, count := 0 }
      .ok (out, ((List.range 20).filter (fun a => (ph.mem a).isSome)).length)

example : exIter false [[97, 98], [98], [200]] = .ok ([[98], [200], [97, 98]], 0) := by decide +kernel

example : exIter true [[97, 98], [98], [200]] = .ok ([[200], [98], [97, 98]], 0) := by decide +kernel

example : exIter true [[97], [97], [98]] = .ok ([[97], [98], [98]], 0) := by decide +kernel

example : PAllocator (fun k => k + 1) { mem := fun _ => none, count := 0 } := ⟨by simp, by simp, rfl, fun _ _ => rfl⟩

/-! ### C37 -/

theorem allOut_sublist (A : Algorithm) (n : Nat) (q : Str) (l : List Item) :
    ((l.filterMap (resultOf A n q)).map Prod.fst).Sublist ((l.filter (·.fin)).map (·.path)) := by
  induction l with
  | nil => simp
  | cons x l ih =>
    rw [List.filterMap_cons, List.filter_cons]
    cases hx : resultOf A n q x with
    | none =>
      simp only
      split
      · exact ih.trans (List.sublist_cons_self _ _)
      · exact ih
    | some r =>
      have h := resultOf_some.1 hx
      simp only [h.1, if_true, List.map_cons, h.2.1]
      exact ih.cons_cons _

/-- C37, second part: what a query yields is a subsequence of what iterating over the dictionary yields. -/
theorem c37_subsequence_of_iteration {sgn : Bool} {addr paddr : Nat → Nat} {h h' : Heap} {ph ph' : PHeap}
    {terms : List Str} {d : SDawg} (ha : Allocator addr h)
    (hr : Ends (fun fuel => sortedDawg sgn addr fuel terms h) (h', some d))
    (hlen : ∀ t ∈ terms, t.length < 2 ^ 62) (hp : PAllocator paddr ph) {out : List Str}
    (ho : Ends (fun fuel => rangeFor h'.mem paddr fuel d.root d.size ph) (out, ph'))
    {A : Algorithm} {q : Str} {n : Nat} (hq : QueryFits n q) (hn : n < 2 ^ 64) {rs : List (Str × Nat)}
    (hy : Yields A updCandidate h'.mem d.root q n rs) : (rs.map Prod.fst).Sublist out := by
  obtain ⟨_, hf⟩ := finished_of_run ha hr
  have hd := hf.dictionary (by simpa using hlen)
  obtain ⟨nd, F, ht⟩ := hd.tree
  have := hy.unique (ht.yields (by have := sizeMax_val; omega) (by omega) updCandidate)
  subst this
  obtain ⟨ph1, h1, _⟩ := rangeFor_spec (size := d.size) hp ht.node ht.unf
  have hnd := nodup_of_shortLex (finals_order (nd := nd) ht.sorted)
  have hle : (finals [rootItem nd F]).length ≤ terms.length :=
    (List.subperm_of_subset hnd fun t h2 => by rwa [finals_mem ht.node ht.unf, hf.accepts] at h2).length_le
  have hout := (Prod.mk.inj (ho.unique h1)).1
  rw [show d.size = (finals [rootItem nd F]).length + (terms.length - (finals [rootItem nd F]).length) by
    rw [hf.size]; omega, yielded_list] at hout
  rw [hout]
  refine List.Sublist.trans ?_ (List.sublist_append_left _ _)
  simpa [updCandidate, allOut, finals] using allOut_sublist A n q (rootItem nd F :: pushes [rootItem nd F])

/-! ### C53 -/

/-- C53 for prefixes: if the prefixes at `at' 0`, `at' 1`, … form a chain of parents from a root, then `str()` of the last one
is the string of the labels, the label of the root not counting. -/
theorem c53_prefix_spells_path {mem : PMem} (labels : Str) (at' : Nat → Nat) {p0 : Prefix}
    (h0 : mem (at' 0) = some p0) (hp0 : p0.parent = 0)
    (hstep : ∀ i l, labels[i]? = some l → at' i ≠ 0 ∧ ∃ p, mem (at' (i + 1)) = some p ∧ p.parent = at' i ∧ p.label = l) :
    Ends (fun fuel => prefixStr mem fuel (at' labels.length)) labels := by
  have key : ∀ k, k ≤ labels.length → Spells mem (at' k) (labels.take k) := by
    intro k
    induction k with
    | zero => intro _; simpa using Spells.root h0 hp0
    | succ k ih =>
      intro hk
      have hl : labels[k]? = some labels[k] := List.getElem?_eq_getElem (by omega)
      obtain ⟨hne, p, h1, h2, h3⟩ := hstep k _ hl
      have := Spells.child h1 (by rw [h2]; exact hne) (by rw [h2]; exact ih (by omega))
      rwa [h3, List.take_append_getElem] at this
  have := key labels.length (Nat.le_refl _)
  rw [List.take_length] at this
  exact ⟨labels.length + 1, fun fuel hf => this.str (by omega)⟩

/-- C53 for intersections (whose parents are part of the value in this model): the labels from the root. -/
theorem c53_intersection_spells_path {S : Type} (root : Nat) (s0 : S) (steps : List (UInt8 × Nat × S)) :
    (steps.foldl (fun I x => Inter.child x.1 x.2.1 x.2.2 I) (Inter.root root s0)).str = steps.map (·.1) := by
  have key : ∀ (I : Inter S), (steps.foldl (fun I x => Inter.child x.1 x.2.1 x.2.2 I) I).str = I.str ++ steps.map (·.1) := by
    induction steps with
    | nil => simp
    | cons x steps ih => intro I; simp [ih, Inter.str]
  simpa [Inter.str] using key (Inter.root root s0)

example : prefixStr (fun a => match a with | 5 => some ⟨1, 0, 0⟩ | 9 => some ⟨2, 5, 97⟩ | 7 => some ⟨3, 9, 98⟩ | _ => none)
    4 7 = .ok [97, 98] := by decide +kernel

end Lev.Props
