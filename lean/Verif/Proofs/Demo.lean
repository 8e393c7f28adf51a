import Verif.Spec.Demo
import Verif.Proofs.Wire
import Verif.Proofs.QueryCost
import Verif.Proofs.DictSem
import Verif.Props.Query

/-!
The demo program: streams, options, files.
-/

namespace Lev

open Spec

/-! ### Lines -/

theorem cutLine_newline {l r : List UInt8} (h : NoNewline l) : cutLine (l ++ 10 :: r) = (l, some r) := by
  induction l with
  | nil => simp [cutLine]
  | cons c l ih =>
    simp only [NoNewline, List.mem_cons, not_or] at h
    simp [cutLine, ih h.2, Ne.symm h.1]

theorem cutLine_end {l : List UInt8} (h : NoNewline l) : cutLine l = (l, none) := by
  induction l with
  | nil => simp [cutLine]
  | cons c l ih =>
    simp only [NoNewline, List.mem_cons, not_or] at h
    simp [cutLine, ih h.2, Ne.symm h.1]

theorem textOf_exists (bs : List UInt8) : ∃ ls last, textOf ls last = bs ∧ (∀ l ∈ ls, NoNewline l) ∧ NoNewline last := by
  induction bs with
  | nil => exact ⟨[], [], rfl, by simp, by simp [NoNewline]⟩
  | cons c bs ih =>
    obtain ⟨ls, last, rfl, h1, h2⟩ := ih
    by_cases hc : c = 10
    · subst hc
      refine ⟨[] :: ls, last, by simp [textOf], ?_, h2⟩
      intro l hl
      rcases List.mem_cons.1 hl with rfl | hl
      · simp [NoNewline]
      · exact h1 l hl
    · cases ls with
      | nil => exact ⟨[], c :: last, by simp [textOf], by simp, by simpa [NoNewline, Ne.symm hc] using h2⟩
      | cons l ls =>
        refine ⟨(c :: l) :: ls, last, by simp [textOf], ?_, h2⟩
        intro l' hl
        rcases List.mem_cons.1 hl with rfl | hl
        · have := h1 l (by simp); simpa [NoNewline, Ne.symm hc] using this
        · exact h1 l' (by simp [hl])

theorem getline_newline {l r : List UInt8} (h : NoNewline l) (str : Str) :
    getline (.open (l ++ 10 :: r)) str = (.open r, l) := by
  simp [getline, IStream.open, cutLine_newline h]

theorem getline_end {l : List UInt8} (h : NoNewline l) (str : Str) :
    getline (.open l) str = (⟨[], true, l.isEmpty⟩, l) := by
  simp [getline, IStream.open, cutLine_end h]

theorem readTerms_text {ls : List Str} {last : Str} (h : ∀ l ∈ ls, NoNewline l) (hl : NoNewline last) (str : Str)
    (acc : List Str) (fuel : Nat) (hf : ls.length + 2 ≤ fuel) :
    readTerms fuel (.open (textOf ls last)) str acc = .ok (acc ++ ls ++ if last = [] then [] else [last]) := by
  induction ls generalizing str acc fuel with
  | nil =>
    obtain ⟨fuel, rfl⟩ : ∃ k, fuel = k + 2 := ⟨fuel - 2, by simp at hf; omega⟩
    simp only [textOf, List.flatMap_nil, List.nil_append, readTerms, getline_end hl]
    by_cases he : last = []
    · simp [he]
    · have : last.isEmpty = false := by cases last <;> simp_all
      simp [he, getline]
  | cons l ls ih =>
    obtain ⟨fuel, rfl⟩ : ∃ k, fuel = k + 1 := ⟨fuel - 1, by omega⟩
    have e : textOf (l :: ls) last = l ++ 10 :: textOf ls last := by simp [textOf]
    simp only [readTerms, e, getline_newline (h l (by simp))]
    simp only [IStream.open, Bool.false_eq_true, if_false]
    have := ih (fun l' hl' => h l' (by simp [hl'])) l (acc ++ [l]) fuel (by simp at hf; omega)
    simp only [IStream.open] at this
    rw [this]
    simp

theorem insertTerm_perm (t : Str) (ts : List Str) : (insertTerm t ts).Perm (t :: ts) := by
  induction ts with
  | nil => exact .refl _
  | cons s ts ih =>
    simp only [insertTerm]
    split
    · exact (ih.cons s).trans (.swap t s ts)
    · exact .refl _

theorem sortTerms_perm (terms : List Str) : (sortTerms terms).Perm terms := by
  induction terms with
  | nil => exact .refl _
  | cons t ts ih => exact (insertTerm_perm t _).trans (ih.cons t)

theorem sortTerms_sorted (terms : List Str) : SortedTerms (sortTerms terms) := by
  induction terms with
  | nil => exact .nil
  | cons t ts ih =>
    have key : ∀ l : List Str, SortedTerms l → SortedTerms (insertTerm t l) := by
      intro l hl
      induction l with
      | nil => simp [insertTerm, SortedTerms]
      | cons s l ihl =>
        obtain ⟨h1, h2⟩ := List.pairwise_cons.1 hl
        simp only [insertTerm]
        split
        · next h =>
          have h := (strLt_iff _ _).1 h
          refine List.pairwise_cons.2 ⟨fun x hx => ?_, ihl h2⟩
          rcases List.mem_cons.1 ((insertTerm_perm t l).mem_iff.1 hx) with rfl | hx
          · exact fun h' => strLess_irrefl _ (strLess_trans h h')
          · exact h1 x hx
        · next h =>
          have h : ¬ strLess s t := fun h' => h ((strLt_iff _ _).2 h')
          refine List.pairwise_cons.2 ⟨fun x hx h' => ?_, hl⟩
          rcases List.mem_cons.1 hx with rfl | hx
          · exact h h'
          · rcases strLess_total x s with h3 | rfl | h3
            · exact h1 x hx h3
            · exact h h'
            · exact h (strLess_trans h3 h')
    exact key _ ih

/-! ### The loop of queries -/

section
variable {A : Algorithm} {n : Nat} {mem : Mem} {root : Nat}

/-- Lines up to an empty one, or to the end of an input whose last line is complete. -/
theorem demoLoop_text {qs : List Str} (h : ∀ q ∈ qs, NoNewline q ∧ q ≠ []) (rest : List UInt8)
    (hrest : (∃ r, rest = 10 :: r) ∨ rest = []) (hy : ∀ q ∈ qs, ∃ rs, Yields A updCandidate mem root q n rs) :
    ∃ out, out.map (·.1) = qs ∧ (∀ x ∈ out, Yields A updCandidate mem root x.1 n x.2) ∧
      ∃ N, ∀ bound fuel, N ≤ bound → N ≤ fuel → ∀ str,
        demoLoop A n mem root bound fuel (.open (textOf qs rest)) str = .ok out := by
  induction qs with
  | nil =>
    refine ⟨[], rfl, by simp, 1, fun bound fuel _ hf str => ?_⟩
    obtain ⟨fuel, rfl⟩ : ∃ k, fuel = k + 1 := ⟨fuel - 1, by omega⟩
    simp only [textOf, List.flatMap_nil, List.nil_append, demoLoop]
    rcases hrest with ⟨r, rfl⟩ | rfl
    · rw [show (10 :: r : List UInt8) = [] ++ 10 :: r from rfl, getline_newline (by simp [NoNewline])]; simp
    · rw [getline_end (by simp [NoNewline])]; simp
  | cons q qs ih =>
    obtain ⟨out, h1, h2, N, h3⟩ := ih (fun q' hq' => h q' (by simp [hq'])) fun q' hq' => hy q' (by simp [hq'])
    obtain ⟨rs, M, hM⟩ := hy q (by simp)
    obtain ⟨hq, hne⟩ := h q (by simp)
    refine ⟨(q, rs) :: out, by simp [h1], ?_, max N M + 1, fun bound fuel hb hf str => ?_⟩
    · intro x hx
      rcases List.mem_cons.1 hx with rfl | hx
      · exact ⟨M, hM⟩
      · exact h2 x hx
    · obtain ⟨fuel, rfl⟩ : ∃ k, fuel = k + 1 := ⟨fuel - 1, by omega⟩
      have e : textOf (q :: qs) rest = q ++ 10 :: textOf qs rest := by simp [textOf]
      simp only [demoLoop, e, getline_newline hq, hne, if_false, hM bound (by omega), bind, Except.bind]
      rw [h3 bound fuel (by omega) (by omega)]

theorem demoLoop_stuck {s : IStream} (hs : s.eof = true) {str : Str} (hne : str ≠ []) (bound fuel : Nat) {rs}
    (hy : transduce A updCandidate ([], 0) mem root str n bound = .ok rs) :
    demoLoop A n mem root bound fuel s str = .error .diverge := by
  induction fuel generalizing s with
  | zero => rfl
  | succ fuel ih =>
    have e : getline s str = ({ s with fail := true }, str) := by simp [getline, hs]
    simp only [demoLoop, e, hne, if_false, hy, bind, Except.bind]
    rw [ih (by simpa using hs)]

/-- A last line without a newline at its end. -/
theorem demoLoop_unterminated {qs : List Str} (h : ∀ q ∈ qs, NoNewline q ∧ q ≠ []) {last : Str} (hl : NoNewline last)
    (hne : last ≠ []) (bound fuel : Nat)
    (hy : ∀ q ∈ qs ++ [last], ∃ rs, transduce A updCandidate ([], 0) mem root q n bound = .ok rs) (str : Str) :
    demoLoop A n mem root bound fuel (.open (textOf qs last)) str = .error .diverge := by
  induction qs generalizing fuel str with
  | nil =>
    cases fuel with
    | zero => rfl
    | succ fuel =>
      obtain ⟨rs, hrs⟩ := hy last (by simp)
      simp only [textOf, List.flatMap_nil, List.nil_append, demoLoop, getline_end hl, hne, if_false, hrs, bind, Except.bind]
      rw [demoLoop_stuck rfl hne bound fuel hrs]
  | cons q qs ih =>
    cases fuel with
    | zero => rfl
    | succ fuel =>
      obtain ⟨rs, hrs⟩ := hy q (by simp)
      have e : textOf (q :: qs) last = q ++ 10 :: textOf qs last := by simp [textOf]
      simp only [demoLoop, e, getline_newline (h q (by simp)).1, (h q (by simp)).2, if_false, hrs, bind, Except.bind]
      rw [ih (fun q' hq' => h q' (by simp [hq'])) fuel fun q' hq' => hy q' (by simp at hq' ⊢; grind)]

end

/-! ### Sizes -/

/-- At most `V` nodes and `E` edges can be reached. -/
def Counted (mem : Mem) (root V E : Nat) : Prop :=
  (∀ l : List Nat, l.Nodup → (∀ a ∈ l, Reaches mem root a) → l.length ≤ V) ∧
  ∀ l : List (Nat × UInt8), l.Nodup →
    (∀ x ∈ l, Reaches mem root x.1 ∧ ∃ nd b, mem x.1 = some nd ∧ (x.2, b) ∈ nd.edges) → l.length ≤ E

theorem least_of_exists {P : Nat → Prop} (h : ∃ k, P k) : ∃ k, P k ∧ ∀ j, P j → k ≤ j := by
  obtain ⟨k, hk⟩ := h
  induction k using Nat.strongRecOn with
  | ind k ih =>
    by_cases hlt : ∃ j, j < k ∧ P j
    · obtain ⟨j, h1, h2⟩ := hlt; exact ih j h1 h2
    · exact ⟨k, hk, fun j hj => Nat.le_of_not_lt fun hl => hlt ⟨j, hl, hj⟩⟩

theorem DictNode.rank {sgn : Bool} {mem : Mem} {k root : Nat} (hd : DictNode sgn mem k root) :
    ∃ rank : Nat → Nat, rank root < k ∧ ∀ a nd c b, Reaches mem root a → mem a = some nd → (c, b) ∈ nd.edges →
      rank b < rank a := by
  classical
  let P (a k : Nat) : Prop := DictNode sgn mem k a
  let rank (a : Nat) : Nat := if h : ∃ k, P a k then (least_of_exists h).choose else 0
  have hrank : ∀ a, (h : ∃ k, P a k) → P a (rank a) ∧ ∀ j, P a j → rank a ≤ j := by
    intro a h
    simp only [rank, h, dif_pos]
    exact (least_of_exists h).choose_spec
  have hpos : ∀ a j, P a j → 0 < j := by
    intro a j h; cases h; omega
  have hreach : ∀ {a b}, Reaches mem a b → (∃ k, P a k) → ∃ k, P b k := by
    intro a b h
    induction h with
    | refl => exact id
    | step hm hb _ ih =>
      rintro ⟨j, hj⟩
      cases hj with
      | mk hm' _ hk =>
        rw [hm] at hm'; obtain rfl := Option.some.inj hm'
        exact ih ⟨_, hk _ _ hb⟩
  refine ⟨fun a => rank a - 1, ?_, fun a nd c b hr hm hb => ?_⟩
  · have h1 := hrank root ⟨k, hd⟩
    have := h1.2 k hd
    have := hpos _ _ hd
    simp only; omega
  · have h1 := hrank a (hreach hr ⟨k, hd⟩)
    have h2 := hrank b (hreach (.step hm hb .refl) (hreach hr ⟨k, hd⟩))
    have h3 := hpos _ _ h2.1
    have h4 := h1.1
    cases hra : rank a with
    | zero => rw [hra] at h4; exact absurd (hpos _ _ h4) (by omega)
    | succ j =>
      rw [hra] at h4
      cases h4 with
      | mk hm' _ hk =>
        rw [hm] at hm'; obtain rfl := Option.some.inj hm'
        have := h2.2 _ (hk _ _ hb)
        simp only; omega

/-! ### How many nodes are allocated -/

theorem deleteNode_count {a : Nat} {h h' : Heap} (e : deleteNode a h = .ok h') : h'.count = h.count := by
  unfold deleteNode at e
  split at e
  · cases e; rfl
  · split at e
    · cases e; rfl
    · cases e

theorem deleteAll_count {l : List Nat} {h h' : Heap} (e : deleteAll l h = .ok h') : h'.count = h.count := by
  induction l generalizing h with
  | nil => cases e; rfl
  | cons a l ih =>
    simp only [deleteAll, bind, Except.bind] at e
    split at e
    · cases e
    · next h1 e1 => rw [ih e, deleteNode_count e1]

theorem setFinal_count {a : Nat} {h h' : Heap} (e : setFinal a h = .ok h') : h'.count = h.count := by
  simp only [setFinal, bind, Except.bind] at e
  split at e
  · cases e
  · cases e; rfl

theorem addEdge_count {sgn : Bool} {a b : Nat} {c : UInt8} {h h' : Heap} (e : addEdge sgn a c b h = .ok h') :
    h'.count = h.count := by
  simp only [addEdge, bind, Except.bind] at e
  split at e
  · cases e
  split at e
  · cases e
  next h1 e1 =>
    split at e
    · cases e
    · cases e; have := deleteNode_count e1; exact this

theorem minimizeStep_count {sgn : Bool} {fuel : Nat} {h h' : Heap} {d d' : SDawg}
    (e : minimizeStep sgn fuel h d = .ok (h', d')) : h'.count = h.count := by
  unfold minimizeStep at e
  split at e
  · cases e
  · cases e
  · simp only [bind, Except.bind] at e
    split at e
    · cases e
    split at e
    · split at e
      · cases e
      · next e1 => cases e; exact addEdge_count e1
    · split at e
      · cases e
      next e1 =>
        split at e
        · cases e
        · cases e; exact addEdge_count e1

theorem minimizeLoop_count {sgn : Bool} {fuel k : Nat} {h h' : Heap} {d d' : SDawg}
    (e : minimizeLoop sgn fuel k h d = .ok (h', d')) : h'.count = h.count := by
  induction k generalizing h d with
  | zero => cases e; rfl
  | succ k ih =>
    simp only [minimizeLoop, bind, Except.bind] at e
    split at e
    · cases e
    · next v e1 => obtain ⟨h1, d1⟩ := v; rw [ih e, minimizeStep_count e1]

theorem minimize_count {sgn : Bool} {fuel k : Nat} {h h' : Heap} {d d' : SDawg}
    (e : minimize sgn fuel k h d = .ok (h', d')) : h'.count = h.count := by
  unfold minimize at e
  split at e
  · cases e
  · exact minimizeLoop_count e

theorem pushSuffix_count {addr : Nat → Nat} {a b : Nat} {rest : Str} {h h' : Heap} {d d' : SDawg}
    (e : pushSuffix addr a rest h d = .ok (b, h', d')) : h'.count = h.count + rest.length := by
  induction rest generalizing a h d with
  | nil => cases e; rfl
  | cons c rest ih =>
    simp only [pushSuffix] at e
    split at e
    · have := ih e
      simp only [newNode] at this
      simp only [List.length_cons]; omega
    · cases e

theorem addTerm_count {sgn : Bool} {addr : Nat → Nat} {fuel : Nat} {t : Str} {h h' : Heap} {d d' : SDawg} {b : Bool}
    (e : addTerm sgn addr fuel t h d = .ok (b, h', d')) : h'.count ≤ h.count + t.length := by
  unfold addTerm at e
  split at e
  · cases e; omega
  split at e
  · simp only [bind, Except.bind] at e
    split at e
    · cases e
    · next e1 => cases e; rw [setFinal_count e1]; omega
  · simp only [bind, Except.bind] at e
    split at e
    · cases e
    next v e1 =>
    obtain ⟨h1, d1⟩ := v
    split at e
    · cases e
    split at e
    · cases e
    next w e2 =>
    obtain ⟨b2, h2, d2⟩ := w
    split at e
    · cases e
    next h3 e3 =>
    cases e
    have := minimize_count e1
    have := pushSuffix_count e2
    have := setFinal_count e3
    have := List.length_drop (i := commonPrefix t d.prev) (l := t)
    simp only at *
    omega

theorem cleanUp_count {fuel : Nat} {h h' : Heap} {d d' : SDawg} (e : cleanUp fuel h d = .ok (h', d')) :
    h'.count = h.count := by
  unfold cleanUp at e
  dsimp only at e
  split at e
  · cases e; rfl
  · simp only [bind, Except.bind] at e
    split at e
    · cases e
    split at e
    · cases e
    · next e1 => cases e; exact deleteAll_count e1

theorem destroyDawg_count {fuel : Nat} {h h' : Heap} {d : SDawg} (e : destroyDawg fuel h d = .ok h') :
    h'.count = h.count := by
  simp only [destroyDawg, bind, Except.bind] at e
  split at e
  · cases e
  next v e1 =>
  obtain ⟨h1, d1⟩ := v
  split at e
  · cases e
  · rw [deleteAll_count e, cleanUp_count e1]

theorem buildLoop_count {sgn : Bool} {addr : Nat → Nat} {fuel : Nat} {terms : List Str} {h h' : Heap} {d : SDawg}
    {r : Option SDawg} (e : buildLoop sgn addr fuel terms h d = .ok (h', r)) :
    h'.count ≤ h.count + (terms.map List.length).sum := by
  induction terms generalizing h d with
  | nil => cases e; simp
  | cons t terms ih =>
    simp only [buildLoop, bind, Except.bind] at e
    split at e
    · cases e
    next v e1 =>
    obtain ⟨b, h1, d1⟩ := v
    have h2 := addTerm_count e1
    simp only [List.map_cons, List.sum_cons]
    split at e
    · have := ih e; dsimp only at this; omega
    · split at e
      · cases e
      · next e2 => cases e; rw [destroyDawg_count e2]; simp only; omega

/-- At most one node per character, and the root. -/
theorem sortedDawg_count {sgn : Bool} {addr : Nat → Nat} {fuel : Nat} {terms : List Str} {h h' : Heap}
    {r : Option SDawg} (e : sortedDawg sgn addr fuel terms h = .ok (h', r)) :
    h'.count ≤ h.count + (terms.map List.length).sum + 1 := by
  simp only [sortedDawg, newDawg, newNode, bind, Except.bind] at e
  split at e
  · cases e
  next v e1 =>
  obtain ⟨h1, r1⟩ := v
  have h2 := buildLoop_count e1
  dsimp only at e h2
  split at e
  · cases e; omega
  · split at e
    · cases e
    next w e2 =>
    obtain ⟨h3, d3⟩ := w
    split at e
    · cases e
    · next x e3 =>
      cases e
      rw [cleanUp_count e3]
      have := minimize_count (show minimize sgn fuel 0 h1 _ = _ from e2)
      simp only; omega

theorem Restored.count_le {sgn : Bool} {addr : Nat → Nat} {h h' : Heap} {msg : Msg} {d : SDawg} {φ : Nat → Nat}
    (hr : Restored sgn addr h msg h' d φ) (ha : Allocator addr h) : h'.count ≤ h.count + msg.nodeIds.length := by
  have h1 : ((List.range' h.count (h'.count - h.count)).map addr).Nodup :=
    List.pairwise_map.2 ((List.nodup_range' (s := h.count) (n := h'.count - h.count)).imp fun hne he => hne (ha.inj _ _ he))
  have := h1.length_le_of_subset (l₂ := msg.nodeIds.map φ) fun a hm => by
    obtain ⟨k, hk, rfl⟩ := List.mem_map.1 hm
    rw [List.mem_range'_1] at hk
    obtain ⟨x, hx, e⟩ := (hr.range (addr k)).1 ⟨k, hk.1, by omega, rfl⟩
    exact List.mem_map.2 ⟨x, hx, e.symm⟩
  simp at this
  omega

/-! ### Saving and loading -/

theorem save_spec {sgn : Bool} {mem : Mem} {k root size V E : Nat} (hd : DictNode sgn mem k root) (hk : k ≤ 2 ^ 62)
    (haddr : ∀ a, Reaches mem root a → a < 2 ^ 64) (hsize : size < 2 ^ 64) (hc : Counted mem root V E)
    (hVE : 20 * V + 35 * E + 44 ≤ 2 ^ 31 - 1) :
    ∃ bs, Ends (fun fuel => serializeStream sgn mem fuel root size) (some bs) ∧ Stored bs size (Accepts mem root) := by
  obtain ⟨msg, h1, hm⟩ := toProto_spec hd size
  have hcl := DictNode.closed hd
  have hf := hm.fits hcl haddr hsize
  have hw := hm.wellFormed hcl
  have hV : msg.nodeIds.length ≤ V :=
    hc.1 _ (hm.ids.imp fun h => Nat.ne_of_lt h) fun a ha => (hm.mem_ids a).1 ha
  have hE : msg.edges.length ≤ E := by
    obtain ⟨L, g1, g2, g3⟩ := hm.edges
    have := hc.2 (L.map (·.1)) (List.pairwise_map.2 (g1.imp fun h he => by
      rw [he] at h; simp [KeyLt, charLt] at h)) (fun x hx => by
        obtain ⟨⟨⟨s, l⟩, t⟩, hy, rfl⟩ := List.mem_map.1 hx
        obtain ⟨a1, nd, a2, a3⟩ := (g2 s l t).1 hy
        exact ⟨a1, nd, t, a2, a3⟩)
    rw [g3]; simpa using this
  have hsub : msg.finalIds.Sublist msg.nodeIds :=
    sorted_sublist (lt := fun a b : Nat => a < b) (fun a h => Nat.lt_irrefl a h) (fun a b h h' => by omega) hm.fins hm.ids
      fun a ha => (hm.mem_ids a).2 ((hm.mem_fins a).1 ha).1
  have hle := hsub.length_le
  have hlen := encodeBytes_length hf ⟨by omega, by omega⟩
  have hmax : (encodeBytes msg).length ≤ maxBytes := by unfold maxBytes; omega
  have henc : encodeMsg msg = some (encodeBytes msg) := if_pos hmax
  refine ⟨encodeBytes msg, ?_, ?_⟩
  · obtain ⟨N, hN⟩ := h1
    refine ⟨N, fun fuel hfu => ?_⟩
    have : toProto sgn mem fuel root size = .ok msg := hN fuel hfu
    simp only [serializeStream, this, bind, Except.bind, henc]
    rfl
  · obtain ⟨rank, r1, r2⟩ := DictNode.rank hd
    refine ⟨msg, rank, decode_encode hf hmax, hw, fun e he => ?_, by rw [hm.root_id]; omega, fun x hx => ?_,
      hm.size_eq, hsize, by omega, fun t => ?_⟩
    · obtain ⟨a1, nd, c, a2, a3, _⟩ := (hm.mem_edges e).1 he
      exact r2 _ nd c _ a1 a2 a3
    · rw [hm.root_id]; exact hm.msgReaches .refl hcl ((hm.mem_ids x).1 hx)
    · have ha : Allocator (fun k => k + 1) ⟨fun _ => none, 0⟩ := ⟨by simp, by simp, rfl, fun _ _ => rfl⟩
      obtain ⟨h', d', φ, _, hr⟩ := wellFormed_from (sgn := sgn) ha hw
      rw [← hr.accepts hw.target hw.root, hm.root_id]
      exact hm.accepts hr hcl .refl t

theorem load_spec (sgn : Bool) {bytes : List UInt8} {size : Nat} {T : Str → Prop} (hs : Stored bytes size T) {addr : Nat → Nat} {h : Heap}
    (ha : Allocator addr h) :
    ∃ h' d k V E, deserializeStream sgn addr bytes h = .ok (h', some d) ∧ k ≤ 2 ^ 62 ∧ DictNode sgn h'.mem k d.root ∧
      (∀ t, Accepts h'.mem d.root t ↔ T t) ∧ d.size = size ∧ Counted h'.mem d.root V E ∧
      20 * V + 35 * E + 44 ≤ 2 ^ 31 - 1 ∧ (∀ a, Reaches h'.mem d.root a → ∃ j, h.count ≤ j ∧ j < h.count + V ∧ a = addr j) ∧
      ∃ h'', Ends (fun fuel => destroyDawg fuel h' d) h'' ∧ ∀ a, h''.mem a = h.mem a := by
  obtain ⟨msg, rank, s1, hw, s3, s4, s5, s6, _, s7, s8⟩ := hs
  obtain ⟨h', d, φ, h1, hr⟩ := wellFormed_from (sgn := sgn) ha hw
  have hd : DictNode sgn h'.mem (rank msg.rootId + 1) d.root := by
    rw [hr.root]; exact hr.dictNode hw.target s3 hw.root
  obtain ⟨h'', g1, g2, _⟩ := hr.destroy ha hw.root hw.target hd
  have hreach : ∀ a, Reaches h'.mem d.root a → ∃ y ∈ msg.nodeIds, a = φ y := by
    intro a hra
    rw [hr.root] at hra
    obtain ⟨y, hy, rfl⟩ := (hr.reaches hw.target hw.root a).1 hra
    have : ∀ {x y}, MsgReaches msg x y → x ∈ msg.nodeIds → y ∈ msg.nodeIds := by
      intro x y hxy
      induction hxy with
      | refl => exact id
      | step he _ ih => exact fun _ => ih (hw.target _ he)
    exact ⟨y, this hy hw.root, rfl⟩
  refine ⟨h', d, rank msg.rootId + 1, msg.nodeIds.length, msg.edges.length, ?_, by omega, hd, fun t => ?_,
    by rw [hr.size]; exact s6, ⟨fun l hn hl => ?_, fun l hn hl => ?_⟩, s7, fun a hra => ?_, h'', g1,
    fun a => g2 a fun x hx _ => s5 x hx⟩
  · simp only [deserializeStream, s1, h1, bind, Except.bind]; rfl
  · rw [hr.root, hr.accepts hw.target hw.root]; exact s8 t
  · have := hn.length_le_of_subset (l₂ := msg.nodeIds.map φ) fun a hal => by
      obtain ⟨y, hy, rfl⟩ := hreach a (hl a hal)
      exact List.mem_map.2 ⟨y, hy, rfl⟩
    simpa using this
  · have := hn.length_le_of_subset (l₂ := msg.edges.map fun e => (φ e.source, charOfLabel e.label)) fun x hx => by
      obtain ⟨a, c⟩ := x
      obtain ⟨hra, nd, b, hm, hb⟩ := hl _ hx
      obtain ⟨y, hy, he⟩ := hreach _ hra
      simp only at he hm hb
      subst he
      obtain ⟨es, g3, _, g4⟩ := hr.node y hy
      rw [hm] at g3
      obtain rfl := Option.some.inj g3
      obtain ⟨e, he, e1, e2, _⟩ := (g4 c b).1 hb
      exact List.mem_map.2 ⟨e, he, by rw [e1, e2]⟩
    simpa using this
  · obtain ⟨y, hy, rfl⟩ := hreach a hra
    obtain ⟨j, j1, j2, hj⟩ := (hr.range (φ y)).2 ⟨y, hy, rfl⟩
    have := hr.count_le ha
    exact ⟨j, j1, by omega, hj⟩

/-! ### The size of a dictionary just built -/

theorem Unf.trim_child {mem : Mem} {es : List (UInt8 × Nat)} {F : Forest} (hu : Unf mem es F) (ht : F.Trim) {c : UInt8}
    {b : Nat} (hb : (c, b) ∈ es) :
    ∃ nd k, mem b = some nd ∧ Unf mem nd.edges k ∧ k.Trim ∧ (nd.final = true ∨ k ≠ .nil) := by
  induction hu with
  | nil => simp at hb
  | @cons l a nd es kids rest hm hk _ _ ih =>
    obtain ⟨t1, t2, t3⟩ := ht
    rcases List.mem_cons.1 hb with hb | hb
    · cases hb; exact ⟨nd, kids, hm, hk, t2, t1⟩
    · exact ih t3 hb

theorem Spec.Leads.of_reaches {mem : Mem} {a b : Nat} (h : Reaches mem a b) : ∃ w, Leads mem a w b := by
  suffices ∀ {r w}, Leads mem r w a → ∃ w, Leads mem r w b from this .here
  induction h with
  | refl => exact fun h => ⟨_, h⟩
  | step hm hb _ ih => exact fun h => ih (.snoc h hm hb)

theorem Spec.Leads.accepts {mem : Mem} {a b : Nat} {w t : Str} (h : Leads mem a w b) (ht : Accepts mem b t) :
    Accepts mem a (w ++ t) := by
  induction h generalizing t with
  | here => exact ht
  | snoc _ hm hb ih => rw [List.append_assoc]; exact ih (.step hm hb ht)

/-- The nonempty beginnings of the terms. -/
def beginnings (terms : List Str) : List Str := terms.flatMap fun t => (List.range t.length).map fun i => t.take (i + 1)

theorem beginnings_length (terms : List Str) : (beginnings terms).length = (terms.map List.length).sum := by
  simp [beginnings, List.length_flatMap]

theorem mem_beginnings {terms : List Str} {w t : Str} (h : w ++ t ∈ terms) (hne : w ≠ []) : w ∈ beginnings terms := by
  have hpos : 0 < w.length := List.length_pos_iff.2 hne
  refine List.mem_flatMap.2 ⟨_, h, List.mem_map.2 ⟨w.length - 1, ?_, ?_⟩⟩
  · rw [List.mem_range, List.length_append]; omega
  · rw [show w.length - 1 + 1 = w.length by omega]; simp

theorem Finished.counted {sgn : Bool} {addr : Nat → Nat} {c0 : Nat} {m0 : Mem} {terms : List Str} {h : Heap} {d : SDawg}
    (hf : Finished sgn addr c0 m0 terms h d) :
    Counted h.mem d.root ((terms.map List.length).sum + 1) (terms.map List.length).sum := by
  obtain ⟨nd, F, h1, h2, h3, h4, h5⟩ := hf.dict
  have hco : ∀ {w b}, Leads h.mem d.root w b → (∃ nd k, h.mem b = some nd ∧ Unf h.mem nd.edges k ∧ k.Trim) ∧
      (w ≠ [] → w ∈ beginnings terms) := by
    intro w b hl
    induction hl with
    | here => exact ⟨⟨nd, F, h1, h2, h3⟩, by simp⟩
    | snoc hl hm hb ih =>
      obtain ⟨⟨nd', k, g1, g2, g3⟩, _⟩ := ih
      rw [hm] at g1; obtain rfl := Option.some.inj g1
      obtain ⟨nd2, k2, g4, g5, g6, g7⟩ := g2.trim_child g3 hb
      refine ⟨⟨nd2, k2, g4, g5, g6⟩, fun _ => ?_⟩
      obtain ⟨t, ht⟩ := accT_exists g6 g7
      have := (hf.accepts _).1 ((Spec.Leads.snoc hl hm hb).accepts ((accepts_iff g4 g5 t).2 ht))
      exact mem_beginnings this (by simp)
  classical
  let word (a : Nat) : Str := if h' : ∃ w, Leads h.mem d.root w a then h'.choose else []
  have hword : ∀ a, Reaches h.mem d.root a → Leads h.mem d.root (word a) a := by
    intro a hr
    have he := Spec.Leads.of_reaches hr
    simp only [word, he, dif_pos]
    exact he.choose_spec
  constructor
  · intro l hn hl
    have h6 : (l.map word).Nodup := by
      refine List.pairwise_map.2 (hn.imp_of_mem fun {a b} ha hb hne he => hne ?_)
      have h7 := hword a (hl a ha)
      rw [he] at h7
      exact h7.unique h5 (hword b (hl b hb))
    have := h6.length_le_of_subset (l₂ := [] :: beginnings terms) fun w hw => by
      obtain ⟨a, ha, rfl⟩ := List.mem_map.1 hw
      by_cases hne : word a = []
      · rw [hne]; simp
      · exact List.mem_cons_of_mem _ ((hco (hword a (hl a ha))).2 hne)
    simpa [beginnings_length] using this
  · intro l hn hl
    have h6 : (l.map fun x => word x.1 ++ [x.2]).Nodup := by
      refine List.pairwise_map.2 (hn.imp_of_mem fun {a b} ha hb hne he => hne ?_)
      obtain ⟨e1, e2⟩ := List.append_inj' he rfl
      have h7 := hword a.1 (hl a ha).1
      rw [e1] at h7
      exact Prod.ext (h7.unique h5 (hword b.1 (hl b hb).1)) (by simpa using e2)
    have := h6.length_le_of_subset (l₂ := beginnings terms) fun w hw => by
      obtain ⟨a, ha, rfl⟩ := List.mem_map.1 hw
      obtain ⟨g1, nd', b, g2, g3⟩ := hl a ha
      exact (hco (.snoc (hword a.1 g1) g2 g3)).2 (by simp)
    simpa [beginnings_length] using this

/-! ### Options -/

/-- The loop of `parse_opts` on the arguments that are left. -/
def parseList (ex : Str → Bool) : List Str → Cli → Cli × Bool
  | [], cli => (cli, true)
  | arg :: rest, cli =>
    if arg = lit "-h" ∨ arg = lit "--help" then ({ cli with code := 0 }, false)
    else if arg = lit "--dictionary-path" then
      match rest with
      | [] => ({ cli with code := 2 }, false)
      | p :: rest => if ex p then parseList ex rest { cli with dict := p } else ({ cli with dict := p, code := 3 }, false)
    else if arg = lit "--serialization-path" then
      match rest with
      | [] => ({ cli with code := 2 }, false)
      | p :: rest => parseList ex rest { cli with ser := p }
    else if arg = lit "--standard" then parseList ex rest { cli with alg := .standard }
    else if arg = lit "--transposition" then parseList ex rest { cli with alg := .transposition }
    else if arg = lit "--merge-and-split" then parseList ex rest { cli with alg := .mergeAndSplit }
    else if arg = lit "--max-distance" then
      match rest with
      | [] => ({ cli with code := 2 }, false)
      | s :: rest => parseList ex rest { cli with maxD := parseSize s cli.maxD }
    else ({ cli with code := 4 }, false)

theorem parseList_cons (ex : Str → Bool) (arg : Str) (rest : List Str) (cli : Cli) : parseList ex (arg :: rest) cli =
    if arg = lit "-h" ∨ arg = lit "--help" then ({ cli with code := 0 }, false)
    else if arg = lit "--dictionary-path" then
      match rest with
      | [] => ({ cli with code := 2 }, false)
      | p :: rest => if ex p then parseList ex rest { cli with dict := p } else ({ cli with dict := p, code := 3 }, false)
    else if arg = lit "--serialization-path" then
      match rest with
      | [] => ({ cli with code := 2 }, false)
      | p :: rest => parseList ex rest { cli with ser := p }
    else if arg = lit "--standard" then parseList ex rest { cli with alg := .standard }
    else if arg = lit "--transposition" then parseList ex rest { cli with alg := .transposition }
    else if arg = lit "--merge-and-split" then parseList ex rest { cli with alg := .mergeAndSplit }
    else if arg = lit "--max-distance" then
      match rest with
      | [] => ({ cli with code := 2 }, false)
      | s :: rest => parseList ex rest { cli with maxD := parseSize s cli.maxD }
    else ({ cli with code := 4 }, false) := by
  rw [parseList.eq_def]

theorem parseLoop_list (ex : Str → Bool) (pre rest : List Str) (fuel : Nat) (hf : rest.length < fuel) (cli : Cli) :
    parseLoop ex (pre ++ rest) fuel pre.length cli = .ok (parseList ex rest cli) := by
  induction fuel generalizing pre rest cli with
  | zero => omega
  | succ fuel ih =>
    cases rest with
    | nil => simp [parseLoop, parseList]
    | cons arg rest =>
      have e0 : ¬ (pre ++ arg :: rest).length ≤ pre.length := by simp
      have e1 : (pre ++ arg :: rest)[pre.length]? = some arg := by simp
      have ih1 := fun cli => ih (pre ++ [arg]) rest (by simp at hf; omega) cli
      have ih2 := fun p rest' (h : rest = p :: rest') cli => ih (pre ++ [arg, p]) rest' (by subst h; simp at hf; omega) cli
      simp only [List.length_append, List.length_cons, List.length_nil, Nat.zero_add, List.append_assoc, List.cons_append,
        List.nil_append] at ih1 ih2
      simp only [parseLoop, parseList_cons, e0, if_false, e1]
      split
      · rfl
      split
      · cases rest with
        | nil => simp
        | cons p rest' =>
          have h1 : pre.length + 1 < (pre ++ arg :: p :: rest').length := by simp
          have h2 : (pre ++ arg :: p :: rest')[pre.length + 1]? = some p := by
            rw [List.getElem?_append_right (by omega)]; simp
          simp only [h1, if_true, h2]
          split
          · exact ih2 p rest' rfl _
          · rfl
      split
      · cases rest with
        | nil => simp
        | cons p rest' =>
          have h1 : pre.length + 1 < (pre ++ arg :: p :: rest').length := by simp
          have h2 : (pre ++ arg :: p :: rest')[pre.length + 1]? = some p := by
            rw [List.getElem?_append_right (by omega)]; simp
          simp only [h1, if_true, h2]
          exact ih2 p rest' rfl _
      split
      · exact ih1 _
      split
      · exact ih1 _
      split
      · exact ih1 _
      split
      · cases rest with
        | nil => simp
        | cons p rest' =>
          have h1 : ¬ pre.length + 1 = (pre ++ arg :: p :: rest').length := by simp
          have h2 : (pre ++ arg :: p :: rest')[pre.length + 1]? = some p := by
            rw [List.getElem?_append_right (by omega)]; simp
          simp only [h1, if_false, h2]
          exact ih2 p rest' rfl _
      · rfl

/-- What an option changes. -/
def Spec.CliItem.apply (cli : Cli) : CliItem → Cli
  | .dict p => { cli with dict := p }
  | .ser p => { cli with ser := p }
  | .alg A => { cli with alg := A }
  | .dist s => { cli with maxD := parseSize s cli.maxD }

theorem parseList_items (ex : Str → Bool) {items : List CliItem} (h : ∀ p, .dict p ∈ items → ex p = true) (rest : List Str)
    (cli : Cli) : parseList ex (items.flatMap CliItem.render ++ rest) cli = parseList ex rest (items.foldl CliItem.apply cli) := by
  induction items generalizing cli with
  | nil => rfl
  | cons it items ih =>
    have ih := fun cli => ih (fun p hp => h p (by simp [hp])) cli
    rw [List.foldl_cons, ← ih, List.flatMap_cons, List.append_assoc]
    have d1 : ¬ (lit "--dictionary-path" = lit "-h" ∨ lit "--dictionary-path" = lit "--help") := by decide
    have d2 : ¬ (lit "--serialization-path" = lit "-h" ∨ lit "--serialization-path" = lit "--help") := by decide
    have d3 : ¬ (lit "--standard" = lit "-h" ∨ lit "--standard" = lit "--help") := by decide
    have d4 : ¬ (lit "--transposition" = lit "-h" ∨ lit "--transposition" = lit "--help") := by decide
    have d5 : ¬ (lit "--merge-and-split" = lit "-h" ∨ lit "--merge-and-split" = lit "--help") := by decide
    have d6 : ¬ (lit "--max-distance" = lit "-h" ∨ lit "--max-distance" = lit "--help") := by decide
    cases it with
    | dict p =>
      simp only [CliItem.render, List.cons_append, List.nil_append, parseList_cons, d1, if_false, if_true, h p (by simp), CliItem.apply]
    | ser p =>
      have e1 : ¬ lit "--serialization-path" = lit "--dictionary-path" := by decide
      simp only [CliItem.render, List.cons_append, List.nil_append, parseList_cons, d2, e1, if_false, if_true, CliItem.apply]
    | dist s =>
      have e1 : ¬ lit "--max-distance" = lit "--dictionary-path" := by decide
      have e2 : ¬ lit "--max-distance" = lit "--serialization-path" := by decide
      have e3 : ¬ lit "--max-distance" = lit "--standard" := by decide
      have e4 : ¬ lit "--max-distance" = lit "--transposition" := by decide
      have e5 : ¬ lit "--max-distance" = lit "--merge-and-split" := by decide
      simp only [CliItem.render, List.cons_append, List.nil_append, parseList_cons, d6, e1, e2, e3, e4, e5, if_false, if_true,
        CliItem.apply]
    | alg A =>
      cases A with
      | standard =>
        have e1 : ¬ lit "--standard" = lit "--dictionary-path" := by decide
        have e2 : ¬ lit "--standard" = lit "--serialization-path" := by decide
        simp only [CliItem.render, List.cons_append, List.nil_append, parseList_cons, d3, e1, e2, if_false, if_true, CliItem.apply]
      | transposition =>
        have e1 : ¬ lit "--transposition" = lit "--dictionary-path" := by decide
        have e2 : ¬ lit "--transposition" = lit "--serialization-path" := by decide
        have e3 : ¬ lit "--transposition" = lit "--standard" := by decide
        simp only [CliItem.render, List.cons_append, List.nil_append, parseList_cons, d4, e1, e2, e3, if_false, if_true,
          CliItem.apply]
      | mergeAndSplit =>
        have e1 : ¬ lit "--merge-and-split" = lit "--dictionary-path" := by decide
        have e2 : ¬ lit "--merge-and-split" = lit "--serialization-path" := by decide
        have e3 : ¬ lit "--merge-and-split" = lit "--standard" := by decide
        have e4 : ¬ lit "--merge-and-split" = lit "--transposition" := by decide
        simp only [CliItem.render, List.cons_append, List.nil_append, parseList_cons, d5, e1, e2, e3, e4, if_false, if_true,
          CliItem.apply]

theorem parseList_refused {ex : Str → Bool} {args : List Str} {code : Nat} (h : CliRefused ex args code) (cli : Cli) :
    (parseList ex args cli).2 = false ∧ (parseList ex args cli).1.code = code := by
  cases h with
  | help h => simp [parseList_cons, h]
  | missing h =>
    simp only [List.mem_cons, List.not_mem_nil, or_false] at h
    rcases h with rfl | rfl | rfl
    · have d1 : ¬ (lit "--dictionary-path" = lit "-h" ∨ lit "--dictionary-path" = lit "--help") := by decide
      simp [parseList_cons, d1]
    · have d1 : ¬ (lit "--serialization-path" = lit "-h" ∨ lit "--serialization-path" = lit "--help") := by decide
      have e1 : ¬ lit "--serialization-path" = lit "--dictionary-path" := by decide
      simp [parseList_cons, d1, e1]
    · have d6 : ¬ (lit "--max-distance" = lit "-h" ∨ lit "--max-distance" = lit "--help") := by decide
      have e1 : ¬ lit "--max-distance" = lit "--dictionary-path" := by decide
      have e2 : ¬ lit "--max-distance" = lit "--serialization-path" := by decide
      have e3 : ¬ lit "--max-distance" = lit "--standard" := by decide
      have e4 : ¬ lit "--max-distance" = lit "--transposition" := by decide
      have e5 : ¬ lit "--max-distance" = lit "--merge-and-split" := by decide
      simp [parseList_cons, d6, e1, e2, e3, e4, e5]
  | @noFile p rest hp =>
    have d1 : ¬ (lit "--dictionary-path" = lit "-h" ∨ lit "--dictionary-path" = lit "--help") := by decide
    simp [parseList_cons, d1, hp]
  | @unknown w rest hw =>
    simp only [cliWords, List.map_cons, List.map_nil, List.mem_cons, List.not_mem_nil, or_false, not_or] at hw
    obtain ⟨h1, h2, h3, h4, h5, h6, h7, h8⟩ := hw
    simp [parseList_cons, h1, h2, h3, h4, h5, h6, h7, h8]

/-- Every list of arguments is a list of options with their values, and then nothing or something that is refused. -/
theorem cli_decomposed (ex : Str → Bool) (args : List Str) :
    ∃ (items : List CliItem) (rest : List Str), args = items.flatMap CliItem.render ++ rest ∧ (∀ p, .dict p ∈ items → ex p = true) ∧
      (rest = [] ∨ ∃ code, CliRefused ex rest code) := by
  suffices ∀ m, ∀ args : List Str, args.length ≤ m → ∃ (items : List CliItem) (rest : List Str), args = items.flatMap CliItem.render ++ rest ∧
      (∀ p, .dict p ∈ items → ex p = true) ∧ (rest = [] ∨ ∃ code, CliRefused ex rest code) from this _ args (Nat.le_refl _)
  intro m
  induction m with
  | zero =>
    intro args h
    have : args = [] := List.length_eq_zero_iff.1 (by omega)
    exact ⟨[], [], by simp [this], by simp, .inl rfl⟩
  | succ m ih =>
    intro args hlen
    cases args with
    | nil => exact ⟨[], [], by simp, by simp, .inl rfl⟩
    | cons w rest =>
      have stop : ∀ {code}, CliRefused ex (w :: rest) code → ∃ (items : List CliItem) (rest' : List Str), w :: rest = items.flatMap CliItem.render ++ rest' ∧
          (∀ p, .dict p ∈ items → ex p = true) ∧ (rest' = [] ∨ ∃ code, CliRefused ex rest' code) :=
        fun h => ⟨[], w :: rest, by simp, by simp, .inr ⟨_, h⟩⟩
      have go : ∀ (it : CliItem) (rest' : List Str), w :: rest = it.render ++ rest' → rest'.length ≤ m →
          (∀ p, it = .dict p → ex p = true) → ∃ (items : List CliItem) (rest' : List Str), w :: rest = items.flatMap CliItem.render ++ rest' ∧
          (∀ p, .dict p ∈ items → ex p = true) ∧ (rest' = [] ∨ ∃ code, CliRefused ex rest' code) := by
        intro it rest' e hl hex
        obtain ⟨items, r2, h1, h2, h3⟩ := ih rest' hl
        refine ⟨it :: items, r2, by rw [e, h1]; simp, fun p hp => ?_, h3⟩
        rcases List.mem_cons.1 hp with h | h
        · exact hex p h.symm
        · exact h2 p h
      simp only [List.length_cons] at hlen
      by_cases hw : w ∈ cliWords
      · simp only [cliWords, List.map_cons, List.map_nil, List.mem_cons, List.not_mem_nil, or_false] at hw
        rcases hw with hw | hw | hw | hw | hw | hw | hw | hw
        · exact stop (.help (.inl hw))
        · exact stop (.help (.inr hw))
        · subst hw
          cases rest with
          | nil => exact stop (.missing (by simp))
          | cons p rest =>
            simp only [List.length_cons] at hlen
            by_cases hp : ex p = true
            · exact go (.dict p) rest (by simp [CliItem.render]) (by omega) fun p' h => by cases h; exact hp
            · exact stop (.noFile (by simpa using hp))
        · subst hw
          cases rest with
          | nil => exact stop (.missing (by simp))
          | cons p rest =>
            simp only [List.length_cons] at hlen
            exact go (.ser p) rest (by simp [CliItem.render]) (by omega) (by simp)
        · exact go (.alg .standard) rest (by simp [CliItem.render, hw]) (by omega) (by simp)
        · exact go (.alg .transposition) rest (by simp [CliItem.render, hw]) (by omega) (by simp)
        · exact go (.alg .mergeAndSplit) rest (by simp [CliItem.render, hw]) (by omega) (by simp)
        · subst hw
          cases rest with
          | nil => exact stop (.missing (by simp))
          | cons p rest =>
            simp only [List.length_cons] at hlen
            exact go (.dist p) rest (by simp [CliItem.render]) (by omega) (by simp)
      · exact stop (.unknown hw)

theorem foldl_apply (items : List CliItem) (cli : Cli) :
    items.foldl CliItem.apply cli =
      { code := cli.code
        dict := (items.filterMap CliItem.dict?).getLast?.getD cli.dict
        ser := (items.filterMap CliItem.ser?).getLast?.getD cli.ser
        alg := (items.filterMap CliItem.alg?).getLast?.getD cli.alg
        maxD := (items.filterMap CliItem.dist?).foldl (fun old s => parseSize s old) cli.maxD } := by
  have key : ∀ {α : Type} (x d : α) (l : List α), (x :: l).getLast?.getD d = l.getLast?.getD x := by
    intro α x d l
    rw [List.getLast?_cons]; simp
  induction items generalizing cli with
  | nil => rfl
  | cons it items ih =>
    rw [List.foldl_cons, ih]
    cases it <;> simp [CliItem.apply, CliItem.dict?, CliItem.ser?, CliItem.alg?, CliItem.dist?, key, List.filterMap_cons]

theorem parseSize_lt (s : Str) {old : Nat} (h : old < 2 ^ 64) : parseSize s old < 2 ^ 64 := by
  unfold parseSize
  split
  · exact h
  · next c cs _ =>
    dsimp only
    generalize ((if c = 45 ∨ c = 43 then cs else c :: cs).takeWhile isDigit) = ds
    split
    · omega
    split
    · omega
    split
    · exact Nat.mod_lt _ (by omega)
    · omega

theorem parseSize_foldl_lt (l : List Str) {old : Nat} (h : old < 2 ^ 64) :
    l.foldl (fun old s => parseSize s old) old < 2 ^ 64 := by
  induction l generalizing old with
  | nil => exact h
  | cons s l ih => exact ih (parseSize_lt s h)

theorem takeWhile_all {α : Type} {p : α → Bool} {l : List α} (h : ∀ x ∈ l, p x = true) : l.takeWhile p = l := by
  induction l with
  | nil => rfl
  | cons x l ih => simp [h x (by simp), ih fun y hy => h y (by simp [hy])]

theorem mem_takeWhile_true {α : Type} {p : α → Bool} {l : List α} {x : α} (h : x ∈ l.takeWhile p) : p x = true := by
  induction l with
  | nil => simp at h
  | cons y l ih =>
    rw [List.takeWhile_cons] at h
    split at h
    · next hy => rcases List.mem_cons.1 h with rfl | h
                 · exact hy
                 · exact ih h
    · simp at h

/-! ### Numerals -/

theorem digitsValue_append (a : Str) (c : UInt8) : digitsValue (a ++ [c]) = 10 * digitsValue a + (c.toNat - 48) := by
  simp [digitsValue]

theorem toNat_digit {d : Nat} (h : d < 10) : (UInt8.ofNat (48 + d)).toNat = 48 + d := by
  simp [UInt8.toNat_ofNat]; omega

theorem numeral_spec (n : Nat) :
    (∀ c ∈ numeral n, isDigit c = true) ∧ numeral n ≠ [] ∧ digitsValue (numeral n) = n := by
  induction n using Nat.strongRecOn with
  | ind n ih =>
    rw [numeral]
    by_cases h : n < 10
    · have e := toNat_digit h
      rw [if_pos h]
      refine ⟨fun c hc => ?_, by simp, ?_⟩
      · rw [List.mem_singleton.1 hc]; simp only [isDigit, e]; simp; omega
      · simp only [digitsValue, List.foldl_cons, List.foldl_nil, e]; omega
    · rw [if_neg h]
      obtain ⟨h1, h2, h3⟩ := ih (n / 10) (by omega)
      have e := toNat_digit (d := n % 10) (by omega)
      refine ⟨fun c hc => ?_, by simp, ?_⟩
      · rcases List.mem_append.1 hc with hc | hc
        · exact h1 c hc
        · rw [List.mem_singleton.1 hc]; simp only [isDigit, e]; simp; omega
      · rw [digitsValue_append, h3, e]; omega

theorem digitsValue_zeros (k : Nat) (s : Str) : digitsValue (List.replicate k 48 ++ s) = digitsValue s := by
  induction k with
  | zero => rfl
  | succ k ih =>
    rw [List.replicate_succ, List.cons_append]
    simp only [digitsValue, List.foldl_cons] at ih ⊢
    exact ih

theorem ofNat_digit {c : UInt8} (h : isDigit c = true) : UInt8.ofNat (48 + (c.toNat - 48)) = c := by
  simp only [isDigit, Bool.and_eq_true, decide_eq_true_eq] at h
  rw [show 48 + (c.toNat - 48) = c.toNat by omega]
  simp

/-- Every string of digits is a numeral after some zeros. -/
theorem digits_numeral {s : Str} (hd : ∀ c ∈ s, isDigit c = true) (hne : s ≠ []) :
    ∃ k, s = List.replicate k 48 ++ numeral (digitsValue s) := by
  induction hn : s.length generalizing s with
  | zero => exact absurd (List.length_eq_zero_iff.1 hn) hne
  | succ m ih =>
    obtain ⟨a, c, rfl⟩ : ∃ a c, s = a ++ [c] := ⟨s.dropLast, s.getLast hne, (List.dropLast_concat_getLast hne).symm⟩
    have hc := hd c (by simp)
    have hc' := hc
    simp only [isDigit, Bool.and_eq_true, decide_eq_true_eq] at hc'
    by_cases ha : a = []
    · subst ha
      refine ⟨0, ?_⟩
      rw [numeral, if_pos (by simp [digitsValue]; omega)]
      simp only [List.nil_append, digitsValue, List.foldl_cons, List.foldl_nil, Nat.mul_zero, Nat.zero_add,
        List.replicate_zero]
      rw [ofNat_digit hc]
    · obtain ⟨k, hk⟩ := ih (s := a) (fun x hx => hd x (by simp [hx])) ha (by simpa using hn)
      rw [digitsValue_append]
      by_cases h0 : digitsValue a = 0
      · refine ⟨k + 1, ?_⟩
        rw [numeral, if_pos (by omega), h0, Nat.mul_zero, Nat.zero_add, ofNat_digit hc]
        rw [h0] at hk
        have e0 : numeral 0 = [48] := by rw [numeral]; rfl
        rw [e0, ← List.replicate_succ'] at hk
        rw [← hk]
      · refine ⟨k, ?_⟩
        rw [numeral, if_neg (by omega), show (10 * digitsValue a + (c.toNat - 48)) / 10 = digitsValue a by omega,
          show (10 * digitsValue a + (c.toNat - 48)) % 10 = c.toNat - 48 by omega, ofNat_digit hc, ← List.append_assoc, ← hk]

theorem isSpace_iff (c : UInt8) : isSpace c = true ↔ c = 32 ∨ c = 9 ∨ c = 10 ∨ c = 11 ∨ c = 12 ∨ c = 13 := by
  have key : ∀ c : Fin 256, (isSpace (UInt8.ofNat c.val) = true ↔ UInt8.ofNat c.val = 32 ∨ UInt8.ofNat c.val = 9 ∨
      UInt8.ofNat c.val = 10 ∨ UInt8.ofNat c.val = 11 ∨ UInt8.ofNat c.val = 12 ∨ UInt8.ofNat c.val = 13) := by decide +kernel
  have := key ⟨c.toNat, c.toNat_lt⟩
  simpa using this

theorem dropWhile_blank {sp : Str} (h : Blank sp) (s : Str) : (sp ++ s).dropWhile isSpace = s.dropWhile isSpace := by
  induction sp with
  | nil => rfl
  | cons c sp ih =>
    have hc : isSpace c = true := (isSpace_iff c).2 (h c (by simp))
    rw [List.cons_append, List.dropWhile_cons_of_pos hc]
    exact ih fun x hx => h x (by simp [hx])

theorem takeWhile_digits {ds : Str} (h : ∀ c ∈ ds, isDigit c = true) {junk : Str} (hj : NoDigit junk) :
    (ds ++ junk).takeWhile isDigit = ds := by
  induction ds with
  | nil =>
    cases junk with
    | nil => rfl
    | cons c cs =>
      have := hj c rfl
      rw [List.nil_append, List.takeWhile_cons_of_neg]
      simp only [isDigit, Bool.and_eq_true, decide_eq_true_eq]; omega
  | cons c ds ih =>
    rw [List.cons_append, List.takeWhile_cons_of_pos (h c (by simp)), ih fun x hx => h x (by simp [hx])]

theorem digit_facts {c : UInt8} (h : isDigit c = true) : isSpace c = false ∧ c ≠ 45 ∧ c ≠ 43 := by
  simp only [isDigit, Bool.and_eq_true, decide_eq_true_eq] at h
  refine ⟨?_, by rintro rfl; simp at h, by rintro rfl; simp at h⟩
  have : c ≠ 32 := by rintro rfl; simp at h
  simp [isSpace, this]; omega

/-- Sign and digits, without what precedes them. -/
theorem parseSize_signed {sp sign ds junk : Str} (hsp : Blank sp) (hs : Sign sign) (hd : ∀ c ∈ ds, isDigit c = true)
    (hj : NoDigit junk) (hne : ds = [] → sign = [] → ∃ c cs, junk = c :: cs ∧ ¬ Blank [c] ∧ ¬ Sign [c]) (old : Nat) :
    parseSize (sp ++ sign ++ ds ++ junk) old = if ds = [] then 0 else if 2 ^ 64 ≤ digitsValue ds then 2 ^ 64 - 1
      else if sign = lit "-" then (2 ^ 64 - digitsValue ds) % 2 ^ 64 else digitsValue ds := by
  have e45 : lit "-" = [45] := by decide
  have e43 : lit "+" = [43] := by decide
  unfold parseSize
  rw [List.append_assoc, List.append_assoc, dropWhile_blank hsp]
  rcases hs with rfl | rfl | rfl
  · rw [List.nil_append, e45]
    cases ds with
    | nil =>
      obtain ⟨c, cs, rfl, h1, h2⟩ := hne rfl rfl
      have g1 : isSpace c = false := by
        rw [Bool.eq_false_iff]; intro hc; exact h1 fun x hx => by
          rw [List.mem_singleton.1 hx]; exact (isSpace_iff c).1 hc
      have g2 : c ≠ 45 := by rintro rfl; exact h2 (.inr (.inr e45.symm))
      have g3 : c ≠ 43 := by rintro rfl; exact h2 (.inr (.inl e43.symm))
      have g4 : (c :: cs).takeWhile isDigit = [] := takeWhile_digits (ds := []) (by simp) hj
      simp only [List.nil_append, List.dropWhile_cons_of_neg (by simp [g1] : ¬ isSpace c = true), g2, g3, or_self, if_false, g4,
        if_true]
    | cons c ds =>
      obtain ⟨g1, g2, g3⟩ := digit_facts (hd c (by simp))
      have g4 := takeWhile_digits hd hj
      rw [List.cons_append] at g4
      simp only [List.cons_append, List.dropWhile_cons_of_neg (by simp [g1] : ¬ isSpace c = true), g2, g3, or_self, if_false, g4,
        List.ne_cons_self, List.cons_ne_nil]
  · have g4 := takeWhile_digits hd hj
    rw [e43, e45, List.cons_append, List.nil_append,
      List.dropWhile_cons_of_neg (by decide : ¬ isSpace 43 = true)]
    simp only [or_true, if_true, g4]
    simp
  · have g4 := takeWhile_digits hd hj
    rw [e45, List.cons_append, List.nil_append,
      List.dropWhile_cons_of_neg (by decide : ¬ isSpace 45 = true)]
    simp only [true_or, if_true, g4]

theorem ReadsSize.parseSize {old : Nat} {s : Str} {v : Nat} (h : Spec.ReadsSize old s v) : Lev.parseSize s old = v := by
  cases h with
  | blank h =>
    have : s.dropWhile isSpace = [] := by
      have := dropWhile_blank h []
      simpa using this
    simp [Lev.parseSize, this]
  | nothing h1 h2 h3 h4 =>
    have := parseSize_signed (ds := []) h1 h2 (by simp) h3 (fun _ => h4) old
    simpa using this
  | @number sp sign junk k n h1 h2 h3 =>
    obtain ⟨g1, g2, g3⟩ := numeral_spec n
    have hd : ∀ c ∈ List.replicate k 48 ++ numeral n, isDigit c = true := by
      intro c hc
      rcases List.mem_append.1 hc with hc | hc
      · rw [(List.mem_replicate.1 hc).2]; decide
      · exact g1 c hc
    have hne : List.replicate k 48 ++ numeral n ≠ [] := by simp [g2]
    rw [parseSize_signed h1 h2 hd h3 (fun h => absurd h hne) old, if_neg hne, digitsValue_zeros, g3]

theorem readsSize_all (old : Nat) (s : Str) : ∃ v, Spec.ReadsSize old s v := by
  have e : s = s.takeWhile isSpace ++ s.dropWhile isSpace := (List.takeWhile_append_dropWhile).symm
  have hb : Blank (s.takeWhile isSpace) := fun c hc => (isSpace_iff c).1 (mem_takeWhile_true hc)
  cases h : s.dropWhile isSpace with
  | nil => rw [h, List.append_nil] at e; exact ⟨_, .blank (e ▸ hb)⟩
  | cons c cs =>
    have hc : ¬ isSpace c = true := by
      have := List.head?_dropWhile_not isSpace s
      rw [h] at this; simpa using this
    -- the sign
    obtain ⟨sign, body, hs, h1, h2⟩ : ∃ sign body, Sign sign ∧ c :: cs = sign ++ body ∧
        (sign = [] → body = c :: cs ∧ ¬ Sign [c]) := by
      by_cases hp : c = 43
      · exact ⟨[43], cs, .inr (.inl (by decide)), by rw [hp]; rfl, by simp⟩
      by_cases hm : c = 45
      · exact ⟨[45], cs, .inr (.inr (by decide)), by rw [hm]; rfl, by simp⟩
      · refine ⟨[], c :: cs, .inl rfl, rfl, fun _ => ⟨rfl, ?_⟩⟩
        rintro (h | h | h)
        · cases h
        · exact hp (by simpa [show lit "+" = [43] by decide] using h)
        · exact hm (by simpa [show lit "-" = [45] by decide] using h)
    have hj : NoDigit (body.dropWhile isDigit) := by
      intro x hx
      have := List.head?_dropWhile_not isDigit body
      rw [hx] at this
      simp only [isDigit, Bool.and_eq_false_iff, decide_eq_false_iff_not] at this
      omega
    have e2 : body = body.takeWhile isDigit ++ body.dropWhile isDigit := (List.takeWhile_append_dropWhile).symm
    rw [h, h1] at e
    have hd : ∀ x ∈ body.takeWhile isDigit, isDigit x = true := fun x hx => mem_takeWhile_true hx
    by_cases hne : body.takeWhile isDigit = []
    · rw [hne, List.nil_append] at e2
      rw [← e2] at hj
      rw [e, ← List.append_assoc]
      refine ⟨_, .nothing hb hs hj fun hs0 => ?_⟩
      obtain ⟨g1, g2⟩ := h2 hs0
      exact ⟨c, cs, g1, fun hbl => hc ((isSpace_iff c).2 (hbl c (by simp))), g2⟩
    · obtain ⟨k, hk⟩ := digits_numeral hd hne
      rw [hk] at e2
      rw [e, e2, ← List.append_assoc, ← List.append_assoc]
      exact ⟨_, .number hb hs hj⟩

theorem parseOpts_maxD {ex : Str → Bool} {argv : List Str} {cli : Cli} (h : parseOpts ex argv = .ok (cli, true)) :
    cli.maxD < 2 ^ 64 := by
  have key : ∀ args : List Str, (parseList ex args Cli.initial).2 = true → (parseList ex args Cli.initial).1.maxD < 2 ^ 64 := by
    intro args hgo
    obtain ⟨items, rest, h1, h2, h3⟩ := cli_decomposed ex args
    rw [h1, parseList_items ex h2] at hgo ⊢
    rcases h3 with rfl | ⟨code, h3⟩
    · rw [parseList, foldl_apply]
      exact parseSize_foldl_lt _ (by decide)
    · rw [(parseList_refused h3 _).1] at hgo; cases hgo
  have fin : ∀ r : Cli × Bool, (r.2 = true → r.1.maxD < 2 ^ 64) →
      (if !r.2 then (.ok (r.1, false) : Except Err (Cli × Bool))
        else if !ex r.1.dict && !ex r.1.ser then .ok ({ r.1 with code := 3 }, false) else .ok (r.1, true)) = .ok (cli, true) →
      cli.maxD < 2 ^ 64 := by
    rintro ⟨c, go⟩ hr
    cases go with
    | false => simp
    | true =>
      simp only [Bool.not_true, Bool.false_eq_true, if_false]
      split
      · simp
      · intro e; cases e; exact hr rfl
  cases argv with
  | nil =>
    refine fin (Cli.initial, true) (fun _ => by decide) ?_
    rw [← h]; rfl
  | cons a args =>
    have e := parseLoop_list ex [a] args ((a :: args).length + 1) (by simp; omega) Cli.initial
    simp only [List.cons_append, List.nil_append, List.length_cons, List.length_nil, Nat.zero_add] at e
    refine fin _ (key args) ?_
    rw [← h]
    simp only [parseOpts, List.length_cons, bind, Except.bind, e]

/-! ### A run -/

/-- What `main` does once it has a dictionary. -/
theorem demo_run {sgn : Bool} {addr : Nat → Nat} {h h1 : Heap} {fs : Files} {argv : List Str} {cli : Cli}
    (hopts : parseOpts (fun p => (fs.read p).isSome) argv = .ok (cli, true)) {d : SDawg} {k V E : Nat} {T : Str → Prop}
    (hdawg : Ends (fun fuel => demoDawg sgn addr fuel fs cli h) (h1, some d)) (hk : k ≤ 2 ^ 62)
    (hd : DictNode sgn h1.mem k d.root) (hT : ∀ t, Accepts h1.mem d.root t ↔ T t)
    (haddr : ∀ a, Reaches h1.mem d.root a → a < 2 ^ 64) (hsize : d.size < 2 ^ 64) (hc : Counted h1.mem d.root V E)
    (hVE : 20 * V + 35 * E + 44 ≤ 2 ^ 31 - 1)
    (hdes : ∃ h2, Ends (fun fuel => destroyDawg fuel h1 d) h2 ∧ ∀ a, h2.mem a = h.mem a)
    {qs : List Str} (hqs : ∀ q ∈ qs, NoNewline q ∧ q ≠ []) {rest : List UInt8} (hrest : (∃ r, rest = 10 :: r) ∨ rest = [])
    (hlen : ∀ q ∈ qs, QueryFits cli.maxD q) :
    ∃ run bs, Ends (fun fuel => demoMain sgn addr fuel argv (textOf qs rest) fs h) run ∧ run.code = 0 ∧
      run.out.map (·.1) = qs ∧ (∀ x ∈ run.out, (∀ t e, (t, e) ∈ x.2 ↔ T t ∧ IsMinCost cli.alg x.1 t e ∧ e ≤ cli.maxD) ∧
        x.2.Pairwise fun a b => shortLex sgn a.1 b.1) ∧
      Stored bs d.size T ∧
      run.files.read = (if fs.writable cli.ser then fun p => if p = cli.ser then some bs else fs.read p else fs.read) ∧
      run.files.writable = fs.writable ∧
      ∀ a, run.heap.mem a = h.mem a := by
  have hdict : Dictionary sgn h1.mem d.root := ⟨k, hk, hd⟩
  have hn := parseOpts_maxD hopts
  obtain ⟨out, o1, o2, N2, o3⟩ := demoLoop_text (A := cli.alg) (n := cli.maxD) (mem := h1.mem) (root := d.root) hqs rest hrest
    fun q hq => let ⟨rs, h, _⟩ := Props.query_exact cli.alg hdict (hlen q hq) hn; ⟨rs, h⟩
  obtain ⟨bs, ⟨N3, s1⟩, s2⟩ := save_spec hd hk haddr hsize hc hVE
  obtain ⟨h2, ⟨N4, d1⟩, d2⟩ := hdes
  obtain ⟨N1, hN1⟩ := hdawg
  let fs' : Files := if fs.writable cli.ser then { fs with read := fun p => if p = cli.ser then some bs else fs.read p } else fs
  refine ⟨⟨0, out, fs', h2⟩, bs, ⟨max (max N1 N2) (max N3 N4), fun fuel hf => ?_⟩, rfl, o1, fun x hx => ⟨?_, ?_⟩, ?_, ?_, ?_, d2⟩
  · have e1 : demoDawg sgn addr fuel fs cli h = .ok (h1, some d) := hN1 fuel (by omega)
    have e2 : serializeStream sgn h1.mem fuel d.root d.size = .ok (some bs) := s1 fuel (by omega)
    have e3 : destroyDawg fuel h1 d = .ok h2 := d1 fuel (by omega)
    have e4 := o3 fuel fuel (by omega) (by omega) []
    have e5 : serializeFile sgn h1.mem fuel d.root d.size fs cli.ser = .ok (fs', fs.writable cli.ser) := by
      simp only [serializeFile, e2, bind, Except.bind, fs']
      split
      · next h => simp [h]
      · next h => simp [h]
    simp [demoMain, hopts, bind, Except.bind, e1, e4, e5, e3]
  · intro t e
    have hq : x.1 ∈ qs := by rw [← o1]; exact List.mem_map.2 ⟨x, hx, rfl⟩
    obtain ⟨rs, g1, g2⟩ := Props.query_exact cli.alg hdict (hlen _ hq) hn
    rw [(o2 x hx).unique g1, g2, hT]
  · have hq : x.1 ∈ qs := by rw [← o1]; exact List.mem_map.2 ⟨x, hx, rfl⟩
    exact Props.c37_order hdict (hlen _ hq) hn (o2 x hx)
  · obtain ⟨msg, rank, g1, g2, g3, g4, g5, g6, g7, g8, g9⟩ := s2
    exact ⟨msg, rank, g1, g2, g3, g4, g5, g6, g7, g8, fun t => (g9 t).trans (hT t)⟩
  · simp only [fs']; split <;> rfl
  · simp only [fs']; split <;> rfl

/-- The dictionary of a run without a usable file. -/
theorem demoDawg_build {sgn : Bool} {addr : Nat → Nat} {h : Heap} (ha : Allocator addr h) {fs : Files} {cli : Cli}
    (hser : ∀ bs, fs.read cli.ser = some bs → decodeMsg bs = none) {terms : List Str}
    (hdict : (fs.read cli.dict = none ∧ terms = []) ∨ ∃ bs, fs.read cli.dict = some bs ∧ Lines bs terms) :
    ∃ h1 d, Ends (fun fuel => demoDawg sgn addr fuel fs cli h) (h1, some d) ∧
      Finished sgn addr h.count h.mem (sortTerms terms) h1 d ∧ h1.count ≤ h.count + (terms.map List.length).sum + 1 := by
  have hde : deserializeFile sgn addr fs cli.ser h = .ok (h, none) := by
    unfold deserializeFile
    cases hr : fs.read cli.ser with
    | none => rfl
    | some bs => simp [deserializeStream, hser bs hr]
  obtain ⟨h1, d, ⟨N, hN⟩, hfin⟩ := sortedDawg_asc (sgn := sgn) ⟨ha.nonnull, ha.inj⟩ ha.null ha.fresh
    ((asc_nil_iff _).2 (sortTerms_sorted terms))
  refine ⟨h1, d, ?_, hfin, by
    rw [← ((sortTerms_perm terms).map List.length).sum_nat]; exact sortedDawg_count (hN N (Nat.le_refl _))⟩
  rcases hdict with ⟨g1, rfl⟩ | ⟨bs, g1, ls, last, rfl, g2, g3, rfl⟩
  · refine ⟨N, fun fuel hf => ?_⟩
    have := hN fuel hf
    simp only [demoDawg, hde, bind, Except.bind, g1]
    exact this
  · refine ⟨max N (ls.length + 2), fun fuel hf => ?_⟩
    have := hN fuel (by omega)
    have e := readTerms_text g2 g3 [] [] fuel (by omega)
    simp only [List.nil_append] at e
    simp only [demoDawg, hde, bind, Except.bind, g1, e]
    exact this

theorem lines_sum {bytes : List UInt8} {terms : List Str} (h : Lines bytes terms) :
    (terms.map List.length).sum + terms.length ≤ bytes.length + 1 ∧ (∀ t ∈ terms, t.length ≤ bytes.length) := by
  obtain ⟨ls, last, rfl, _, _, rfl⟩ := h
  have e : ∀ ls : List Str, (textOf ls last).length = (ls.map List.length).sum + ls.length + last.length := by
    intro ls
    induction ls with
    | nil => simp [textOf]
    | cons l ls ih =>
      have : textOf (l :: ls) last = l ++ 10 :: textOf ls last := by simp [textOf]
      rw [this, List.length_append, List.length_cons, ih]
      simp only [List.map_cons, List.sum_cons, List.length_cons]
      omega
  have hs := e ls
  have hmem : ∀ (ls : List Str), ∀ l ∈ ls, l.length ≤ (ls.map List.length).sum := by
    intro ls l hl
    induction ls with
    | nil => simp at hl
    | cons a ls ih =>
      rcases List.mem_cons.1 hl with rfl | hl
      · simp
      · have := ih hl; simp; omega
  refine ⟨?_, fun t ht => ?_⟩
  · split <;> simp <;> omega
  · rcases List.mem_append.1 ht with ht | ht
    · have := hmem ls t ht; omega
    · split at ht
      · simp at ht
      · simp at ht; subst ht; omega

theorem textOf_length {qs : List Str} {rest : List UInt8} {q : Str} (hq : q ∈ qs) : q.length ≤ (textOf qs rest).length := by
  induction qs with
  | nil => simp at hq
  | cons a qs ih =>
    have : textOf (a :: qs) rest = a ++ 10 :: textOf qs rest := by simp [textOf]
    rw [this, List.length_append, List.length_cons]
    rcases List.mem_cons.1 hq with rfl | hq
    · omega
    · have := ih hq; omega

theorem fromProto_error {sgn : Bool} {addr : Nat → Nat} {msg : Msg} {h : Heap} {e : Err}
    (he : fromProto sgn addr msg h = .error e) : e = .ub := by
  simp only [fromProto, bind, Except.bind] at he
  split at he
  · next h1 => cases he; exact makeEdges_error h1
  · cases he

/-- The queries in an input that ends with a complete line or has an empty one. -/
theorem queries_exist {stdin : List UInt8}
    (hend : stdin = [] ∨ stdin.getLast? = some 10 ∨ (∃ r, stdin = 10 :: r) ∨ ∃ l r, stdin = l ++ 10 :: 10 :: r) :
    ∃ qs rest, stdin = textOf qs rest ∧ (∀ q ∈ qs, NoNewline q ∧ q ≠ []) ∧ ((∃ r, rest = 10 :: r) ∨ rest = []) := by
  obtain ⟨ls, last, rfl, h1, h2⟩ := textOf_exists stdin
  have key : ∀ (ls : List Str) (last : Str), (∀ l ∈ ls, NoNewline l) → NoNewline last →
      (textOf ls last = [] ∨ (textOf ls last).getLast? = some 10 ∨ (∃ r, textOf ls last = 10 :: r) ∨
        ∃ l r, textOf ls last = l ++ 10 :: 10 :: r) →
      ∃ qs rest, textOf ls last = textOf qs rest ∧ (∀ q ∈ qs, NoNewline q ∧ q ≠ []) ∧ ((∃ r, rest = 10 :: r) ∨ rest = []) := by
    intro ls
    induction ls with
    | nil =>
      intro last _ h2 he
      refine ⟨[], [], ?_, by simp, .inr rfl⟩
      simp only [textOf, List.flatMap_nil, List.nil_append] at he ⊢
      have hmem : ∀ {c}, c ∈ last → c ≠ 10 := fun h e => h2 (e ▸ h)
      rcases he with he | he | ⟨r, he⟩ | ⟨l, r, he⟩
      · exact he
      · exact absurd rfl (hmem (List.mem_of_getLast? he))
      · exact absurd rfl (hmem (c := 10) (by rw [he]; simp))
      · exact absurd rfl (hmem (c := 10) (by rw [he]; simp))
    | cons a ls ih =>
      intro last h1 h2 he
      have e : textOf (a :: ls) last = a ++ 10 :: textOf ls last := by simp [textOf]
      by_cases ha : a = []
      · exact ⟨[], 10 :: textOf ls last, by rw [e, ha]; simp [textOf], by simp, .inl ⟨_, rfl⟩⟩
      · obtain ⟨qs, rest, k1, k2, k3⟩ := ih last (fun l hl => h1 l (by simp [hl])) h2 (by
          rw [e] at he
          rcases he with he | he | ⟨r, he⟩ | ⟨l, r, he⟩
          · simp at he
          · by_cases hn : textOf ls last = []
            · exact .inl hn
            · right; left
              rw [List.getLast?_append, List.getLast?_cons] at he
              cases hg : (textOf ls last).getLast? with
              | none => exact absurd (List.getLast?_eq_none_iff.1 hg) hn
              | some x => rw [hg] at he; simpa using he
          · cases a with
            | nil => exact absurd rfl ha
            | cons c a =>
              have := h1 _ List.mem_cons_self
              simp at he
              exact absurd (he.1 ▸ List.mem_cons_self) this
          · right; right
            have hna := h1 a (by simp)
            rcases List.append_eq_append_iff.1 he with ⟨m, m1, m2⟩ | ⟨m, m1, m2⟩
            · cases m with
              | nil => exact .inl ⟨r, by simpa using m2⟩
              | cons c m =>
                simp at m2
                exact .inr ⟨m, r, m2.2⟩
            · cases m with
              | nil => exact .inl ⟨r, by simpa using m2.symm⟩
              | cons c m =>
                simp at m2
                exact absurd (by rw [m1, ← m2.1]; simp) hna)
        refine ⟨a :: qs, rest, ?_, ?_, k3⟩
        · rw [e, k1]; simp [textOf]
        · intro q hq
          rcases List.mem_cons.1 hq with rfl | hq
          · exact ⟨h1 _ (by simp), ha⟩
          · exact k2 q hq
  exact key ls last h1 h2 hend

end Lev
