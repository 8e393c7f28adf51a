import Verif.Props.IterAny
import Verif.Props.DeleteCost
import Verif.Spec.IterFail
import Verif.Spec.IterMem

/-!
# C104: the memory an iterator holds

`DawgIterator` allocates a `Prefix` for every string that it puts in its queue, and deletes none before it is destroyed itself.
`dictIterAt … k` is `dawg.begin()` followed by `k` times `++`.
-/

namespace Lev.Props

open Lev Spec

theorem prefixes_more {paddr : Nat → Nat} {c0 : Nat} {m0 : PMem} {h : PHeap} {ps : List Nat} (ho : PHeapOk paddr c0 m0 h ps)
    (h0 : ∀ k, c0 ≤ k → m0 (paddr k) = none) : MorePrefixes m0 h.mem ps.length := by
  have hmem : ∀ a, a ∈ ps ↔ ∃ k, c0 ≤ k ∧ k < h.count ∧ a = paddr k := by
    intro a
    rw [ho.owned]
    simp only [List.mem_map, List.mem_range'_1]
    constructor
    · rintro ⟨k, ⟨h1, h2⟩, rfl⟩; exact ⟨k, h1, by omega, rfl⟩
    · rintro ⟨k, h1, h2, rfl⟩; exact ⟨k, ⟨h1, by omega⟩, rfl⟩
  refine ⟨fun a p ha => ?_, ps, ?_, rfl, fun a => ⟨fun ha => ?_, fun ha => ?_⟩⟩
  · rw [ho.old a, ha]
    rintro k h1 _ rfl
    rw [h0 k h1] at ha; cases ha
  · rw [ho.owned, List.Nodup, List.pairwise_map]
    exact (List.nodup_range' (step := 1)).imp fun hne he => hne (ho.inj _ _ he)
  · obtain ⟨k, h1, h2, rfl⟩ := (hmem a).1 ha
    exact ⟨h0 k h1, ho.live k h1 h2⟩
  · refine (hmem a).2 (Classical.byContradiction fun hc => ha.2 ?_)
    rw [ho.old a, ha.1]
    exact fun k h1 h2 he => hc ⟨k, h1, h2, he⟩

theorem length_eq_of_same {l l' : List Str} (h : l.Nodup) (h' : l'.Nodup) (he : ∀ u, u ∈ l ↔ u ∈ l') : l.length = l'.length :=
  Nat.le_antisymm (h.length_le_of_subset fun u hu => (he u).1 hu) (h'.length_le_of_subset fun u hu => (he u).2 hu)

section
variable {sgn : Bool} {mem : Mem} {root : Nat} {paddr : Nat → Nat} {ph : PHeap}

theorem bfs_seen {V T : List Str} {p : Str} {Q : List (Str × Nat)}
    (hb : Bfs sgn mem root (V ++ [p]) T Q) (v : Str) : v ∈ V ++ [p] ↔ ReadUpTo sgn mem root p v := by
  constructor
  · intro hv
    obtain ⟨a, nd, h1, _⟩ := hb.seen v hv
    refine ⟨⟨a, h1⟩, fun hlt => ?_⟩
    rcases List.mem_append.1 hv with hv | hv
    · have := (List.pairwise_append.1 (List.pairwise_append.1 hb.sorted).1).2.2 v hv p (by simp)
      exact shortLex_asymm this hlt
    · rw [List.mem_singleton.1 hv] at hlt
      exact shortLex_irrefl hlt
  · rintro ⟨⟨b, hl⟩, hlt⟩
    exact Classical.byContradiction fun hv => hlt (hb.before hl hv p (by simp))

theorem bfs_held {V T : List Str} {p : Str} {Q : List (Str × Nat)}
    (hb : Bfs sgn mem root (V ++ [p]) T Q) (u : Str) : u ∈ V ++ [p] ++ Q.map (·.1) ↔ OneBeyond sgn mem root p u := by
  constructor
  · intro hu
    refine ⟨?_, ?_⟩
    · rcases List.mem_append.1 hu with hu | hu
      · obtain ⟨a, nd, h1, _⟩ := hb.seen u hu
        exact ⟨a, h1⟩
      · obtain ⟨x, hx, rfl⟩ := List.mem_map.1 hu
        exact ⟨_, hb.leads x hx⟩
    · rintro v c rfl
      exact ((bfs_seen hb v).1 (hb.parent v c hu)).2
  · rintro ⟨⟨b, hl⟩, hv⟩
    rcases hb.cover u b hl with h | ⟨x, hx, hp⟩
    · exact List.mem_append_left _ h
    · refine List.mem_append_right _ (List.mem_map.2 ⟨x, hx, ?_⟩)
      rcases List.eq_nil_or_concat u with rfl | ⟨v, c, rfl⟩
      · exact List.prefix_nil.1 hp
      · rw [List.concat_eq_append] at hp hv ⊢
        rcases List.prefix_concat_iff.1 hp with h | h
        · exact h
        · exfalso
          have h1 := (List.pairwise_append.1 hb.sorted).2.2 p (by simp) x.1 (List.mem_map.2 ⟨x, hx, rfl⟩)
          rcases shortLex_prefix (sgn := sgn) h with h2 | h2
          · exact hv v c rfl (h2 ▸ h1)
          · exact hv v c rfl (shortLex_trans h1 h2)

/-- C104: after `k` increments the iterator is at the `k`-th term `w`, and holds a prefix for every string that can be read and
that is at most one character beyond what comes up to `w`. -/
theorem c104_held (hs : EdgesSorted sgn mem root) (ha : PAllocator paddr ph) {L : List Str} {w : Str}
    (hF : FirstTerms sgn mem root (L ++ [w])) (hn : ∀ v, LeadsNowhere mem root v → ¬ shortLex sgn v w) {ws : List Str}
    (hnd : ws.Nodup) (hws : ∀ u, u ∈ ws ↔ OneBeyond sgn mem root w u) :
    ∃ ph' it, Ends (fun fuel => dictIterAt mem paddr fuel root L.length ph) (ph', it) ∧ it.value = w ∧
      MorePrefixes ph.mem ph'.mem ws.length := by
  have hout := dictIterAt_any hs ha ((allWords w.length).length + 1) L.length
  obtain ⟨h', it, h1, h2, h3, h4⟩ := hout.reached hs hF rfl hn (by omega)
  refine ⟨h', it, ⟨_, fun fuel hf => dictIterAt_more hf h1⟩, h3, ?_⟩
  rw [h1] at hout
  have hlen : it.prefixes.length = ws.length := by
    cases hout with
    | @found V T p Q _ _ g1 g2 g3 g4 g5 g6 g7 g8 =>
      obtain rfl : p = w := g6.symm.trans h3
      rw [g7, length_eq_of_same hnd (nodup_of_shortLex g1.sorted) fun u => (hws u).trans (bfs_held g1 u).symm]
      simp only [List.length_append, List.length_singleton, List.length_map]
    | none g1 g2 =>
      obtain ⟨b, hl⟩ := accepts_leads (hF.2.1 w (by simp))
      rcases g1.cover w b hl with hw | ⟨x, hx, _⟩
      · exact absurd (g1.count hF hw) (by omega)
      · cases hx
  exact hlen ▸ prefixes_more h4 ha.fresh

/-- C104: if at most `k` terms are there, then after `k` increments the iterator holds a prefix for every string that can be
read. -/
theorem c104_end (hs : EdgesSorted sgn mem root) (ha : PAllocator paddr ph) (hl : AllAlive mem root) {k : Nat}
    (hk : AtMost k (Accepts mem root)) {ws : List Str} (hnd : ws.Nodup) (hws : ∀ u, u ∈ ws ↔ ∃ b, Leads mem root u b) :
    ∃ ph' it, Ends (fun fuel => dictIterAt mem paddr fuel root k ph) (ph', it) ∧ MorePrefixes ph.mem ph'.mem ws.length := by
  have hout := dictIterAt_any hs ha (ws.length + 1) k
  generalize hr : dictIterAt mem paddr (ws.length + 1) root k ph = r at hout
  cases hout with
  | loops g1 g2 g3 g4 =>
    have := g1.nodup.length_le_of_subset (l₂ := ws) fun u hu => by
      obtain ⟨a, nd, h1, _⟩ := g1.seen u hu
      exact (hws u).2 ⟨a, h1⟩
    omega
  | missing g1 g2 g3 => exact absurd g3 (hl _ (g1.leads _ (List.mem_cons_self ..)).toReaches)
  | found g1 g2 =>
    have := hk _ (nodup_of_shortLex g1.firstTerms.1) g1.firstTerms.2.1
    simp at this
    omega
  | @none V T h' it' g1 g2 g3 g4 g5 g6 g7 g8 =>
    refine ⟨h', it', ⟨_, fun fuel hf => dictIterAt_more hf hr⟩, ?_⟩
    have : it'.prefixes.length = ws.length := by
      rw [g7]
      refine length_eq_of_same g1.nodup hnd fun u => ?_
      rw [hws]
      constructor
      · intro hu
        obtain ⟨a, nd, h1, _⟩ := g1.seen u hu
        exact ⟨a, h1⟩
      · rintro ⟨b, hb⟩
        rcases g1.cover u b hb with hw | ⟨x, hx, _⟩
        · exact hw
        · cases hx
    exact this ▸ prefixes_more g3 ha.fresh

/-- C104: with less than one iteration each for strings up to the `k`-th term, the loops of `begin()` and the `k` increments
have not ended. -/
theorem c104_steps (hs : EdgesSorted sgn mem root) (ha : PAllocator paddr ph) {L : List Str} {w : Str}
    (hF : FirstTerms sgn mem root (L ++ [w])) (hn : ∀ v, LeadsNowhere mem root v → ¬ shortLex sgn v w) {vs : List Str}
    (hnd : vs.Nodup) (hvs : ∀ v ∈ vs, ReadUpTo sgn mem root w v) {fuel : Nat} (hf : (L.length + 1) * fuel < vs.length) :
    dictIterAt mem paddr fuel root L.length ph = .error .diverge := by
  have hout := dictIterAt_any hs ha fuel L.length
  generalize dictIterAt mem paddr fuel root L.length ph = r at hout
  have hacc := hF.2.1 w (by simp)
  obtain ⟨b, hl⟩ := accepts_leads hacc
  cases hout with
  | loops => rfl
  | @missing V T _ _ _ g1 g2 g3 =>
    have hw : w ∉ V := fun hw => absurd (g1.count hF hw) (by omega)
    have hlp := g1.leads _ (List.mem_cons_self ..)
    rcases g1.next hl hw with rfl | h
    · have := leads_one hs hl hlp
      subst this
      exact absurd g3 (accepts_alive hs hacc hl)
    · exact absurd h (hn _ ⟨_, hlp, g3⟩)
  | @found V T p Q h' it' g1 g2 g3 g4 g5 g6 g7 g8 =>
    have := g1.firstTerms.unique hF (by simp; omega)
    have hpw := (List.append_inj' this rfl).2
    simp only [List.cons.injEq, and_true] at hpw
    subst hpw
    have := hnd.length_le_of_subset fun u hu => (bfs_seen g1 u).2 (hvs u hu)
    simp at this
    omega
  | none g1 g2 =>
    rcases g1.cover w b hl with hw | ⟨x, hx, _⟩
    · exact absurd (g1.count hF hw) (by omega)
    · cases hx

end

/-- C104, a dictionary built from terms: at the last term, and beyond, the iterator holds a prefix for every different
beginning of a term, the empty one included. -/
theorem c104_built {sgn : Bool} {addr paddr : Nat → Nat} {h h' : Heap} {ph : PHeap} {terms : List Str} {d : SDawg}
    (ha : Allocator addr h) (hr : Ends (fun fuel => sortedDawg sgn addr fuel terms h) (h', some d))
    (hp : PAllocator paddr ph) {ws : List Str} (hnd : ws.Nodup) (hws : ∀ u, u ∈ ws ↔ u = [] ∨ ∃ t ∈ terms, u <+: t) {k : Nat}
    (hk : AtMost (k + 1) (· ∈ terms)) :
    ∃ ph' it, Ends (fun fuel => dictIterAt h'.mem paddr fuel d.root k ph) (ph', it) ∧
      MorePrefixes ph.mem ph'.mem ws.length := by
  obtain ⟨_, hf⟩ := finished_of_run ha hr
  have hl : ∀ w, w ∈ ws ↔ ∃ b, Leads h'.mem d.root w b := fun w => by rw [hws, hf.leads_iff]
  obtain ⟨nd, F, _, _, _, _, hd⟩ := hf.dict
  obtain ⟨_, hs, hal, hc⟩ := c81_dictionaries.1 ⟨_, hd⟩
  rcases c86_cases hs k with ⟨L, w, h1, h2, h3⟩ | ⟨v, ⟨b, h1, h2⟩, _⟩ | ⟨_, h1, _⟩ | ⟨_, _, h1⟩
  · have hmax : ∀ t ∈ terms, t.length ≤ w.length := by
      intro t ht
      have ht' : t ∈ L ++ [w] := by
        apply Classical.byContradiction
        intro hn
        have := hk (t :: (L ++ [w])) (List.nodup_cons.2 ⟨hn, nodup_of_shortLex h2.1⟩) fun u hu => by
          rcases List.mem_cons.1 hu with rfl | hu
          · exact ht
          · exact (hf.accepts u).1 (h2.2.1 u hu)
        simp at this
        omega
      rcases List.mem_append.1 ht' with h4 | h4
      · exact shortLex_length ((List.pairwise_append.1 h2.1).2.2 t h4 w (by simp))
      · rw [List.mem_singleton.1 h4]; exact Nat.le_refl _
    obtain ⟨ph', it, g1, _, g2⟩ := c104_held hs hp h2 h3 hnd fun u => by
      refine (hl u).trans ⟨fun hu => ⟨hu, ?_⟩, fun hu => hu.1⟩
      rintro v c rfl hlt
      rcases (hws _).1 ((hl _).2 hu) with h4 | ⟨t, ht, h4⟩
      · simp at h4
      · have h5 := h4.length_le
        have h6 := hmax t ht
        have h7 := shortLex_length hlt
        simp at h5
        omega
    exact ⟨ph', it, h1 ▸ g1, g2⟩
  · exact absurd h2 (hal b h1.toReaches)
  · exact absurd h1 hc
  · exact c104_end hs hp hal h1 hnd hl

theorem replicate_first {sgn : Bool} (t : Str) (ht : ∀ c ∈ t, c = 97 ∨ c = 98) :
    t = List.replicate t.length 97 ∨ List.Lex (charLt sgn) (List.replicate t.length 97) t := by
  induction t with
  | nil => exact .inl rfl
  | cons c t ih =>
    simp only [List.length_cons, List.replicate_succ]
    rcases ht c (by simp) with rfl | rfl
    · rcases ih fun c hc => ht c (by simp [hc]) with h | h
      · exact .inl (by rw [← h])
      · exact .inr (.cons h)
    · exact .inr (.rel (by cases sgn <;> simp [charLt, charKey]))

/-- C104, files: for every `n` up to ten million there is a file of at most 80 n + 64 bytes, holding a dictionary of n + 1
nodes and 2 n edges without any fault, for which `begin()` alone takes at least 2^n iterations of the iterator's loop and
leaves the iterator holding exactly 2^(n+1) - 1 prefixes. -/
theorem c104_exponential (sgn : Bool) {addr : Nat → Nat} {h : Heap} (ha : Allocator addr h) {n : Nat} (hn : n ≤ 10000000) :
    ∃ bs msg h' d, bs.length ≤ 80 * n + 64 ∧ decodeMsg bs = some msg ∧ msg.nodeIds.length = n + 1 ∧
      msg.edges.length = 2 * n ∧ deserializeStream sgn addr bs h = .ok (h', some d) ∧ DictNode sgn h'.mem (n + 1) d.root ∧
      ∀ (paddr : Nat → Nat) (ph : PHeap), PAllocator paddr ph →
        (∀ fuel, fuel < 2 ^ n → dictIterAt h'.mem paddr fuel d.root 0 ph = .error .diverge) ∧
        ∃ ph' it, Ends (fun fuel => dictIterAt h'.mem paddr fuel d.root 0 ph) (ph', it) ∧
          it.value = List.replicate n 97 ∧ MorePrefixes ph.mem ph'.mem (2 ^ (n + 1) - 1) := by
  obtain ⟨h1, h2, h3⟩ := ladder_fine n
  obtain ⟨h', d, hok, _⟩ := (c75_read sgn ha (ladder n)).2 h1
  obtain ⟨φ, hr⟩ := readAny_of_ok ha hok
  have hdn := hr.dictNode h2 h3
  obtain ⟨hf, hl⟩ := ladder_fits hn
  have hdec := decode_encode hf (by unfold maxBytes; omega)
  have hlead : ∀ w, w ∈ shortWords n ↔ ∃ b, Leads h'.mem d.root w b := fun w => by
    exact (ladder_walk (n := n) w n 0 (by omega)).trans (hr.leads h2 w).symm
  have hacc : ∀ t, Accepts h'.mem d.root t ↔ t.length = n ∧ ∀ c ∈ t, c = 97 ∨ c = 98 := by
    intro t
    rw [(c75_dictionary ha hok).2 h2]
    constructor
    · rintro ⟨y, hw, hy⟩
      have h4 := ladder_rise hw
      have h5 := (ladder_walk t n 0 (by omega)).2 ⟨y, hw⟩
      simp only [ladder, List.mem_singleton] at hy h4
      exact ⟨by omega, (mem_shortWords.1 h5).2⟩
    · rintro ⟨h4, h5⟩
      obtain ⟨y, hw⟩ := (ladder_walk (n := n) t n 0 (by omega)).1 (mem_shortWords.2 ⟨Nat.le_of_eq h4, h5⟩)
      have h6 := ladder_rise hw
      exact ⟨y, hw, by simp only [ladder, List.mem_singleton] at h6 ⊢; omega⟩
  obtain ⟨_, hs, hal, hc⟩ := c81_dictionaries.1 ⟨_, hdn⟩
  have hF : FirstTerms sgn h'.mem d.root ([] ++ [List.replicate n 97]) := by
    refine ⟨by simp, fun t ht => ?_, fun t ht => ?_⟩
    · simp only [List.nil_append, List.mem_singleton] at ht
      rw [ht, hacc]
      exact ⟨by simp, fun c hc => .inl (List.eq_of_mem_replicate hc)⟩
    · obtain ⟨h4, h5⟩ := (hacc t).1 ht
      rcases replicate_first (sgn := sgn) t h5 with h6 | h6
      · exact .inl (by rw [h4] at h6; simp [h6])
      · refine .inr fun u hu => ?_
        simp only [List.nil_append, List.mem_singleton] at hu
        rw [hu, ← h4]
        exact .inr ⟨by simp, h6⟩
  have hno : ∀ v, LeadsNowhere h'.mem d.root v → ¬ shortLex sgn v (List.replicate n 97) :=
    fun v ⟨b, g1, g2⟩ => absurd g2 (hal b g1.toReaches)
  refine ⟨encodeBytes (ladder n), ladder n, h', d, hl, hdec, by simp [ladder], ladder_edges n, ?_,
    by simpa [ladder] using hdn, fun paddr ph hp => ⟨fun fuel hfu => ?_, ?_⟩⟩
  · simp [deserializeStream, hdec, hok, bind, Except.bind, pure, Except.pure]
  · -- the strings of fewer letters, and the first term
    have hmany : ∃ vs : List Str, vs.Nodup ∧ vs.length = 2 ^ n ∧ ∀ v ∈ vs, v ∈ shortWords n ∧
        (v = List.replicate n 97 ∨ v.length < n) := by
      cases n with
      | zero => exact ⟨[[]], by simp, rfl, by simp [shortWords]⟩
      | succ m =>
        refine ⟨List.replicate (m + 1) 97 :: shortWords m, List.nodup_cons.2 ⟨fun hm => ?_, shortWords_nodup m⟩,
          by rw [List.length_cons, shortWords_length], fun v hv => ?_⟩
        · have := (mem_shortWords.1 hm).1
          simp only [List.length_replicate] at this
          omega
        · rcases List.mem_cons.1 hv with rfl | hv
          · exact ⟨mem_shortWords.2 ⟨by simp, fun c hc => .inl (List.eq_of_mem_replicate hc)⟩, .inl rfl⟩
          · obtain ⟨g1, g2⟩ := mem_shortWords.1 hv
            exact ⟨mem_shortWords.2 ⟨by omega, g2⟩, .inr (by omega)⟩
    obtain ⟨vs, g1, g2, g3⟩ := hmany
    refine c104_steps hs hp (L := []) hF hno g1 (fun v hv => ⟨(hlead v).1 (g3 v hv).1, fun hlt => ?_⟩) (by simp; omega)
    rcases (g3 v hv).2 with rfl | h4
    · exact shortLex_irrefl hlt
    · have := shortLex_length hlt
      simp at this
      omega
  · have := c104_held hs hp (L := []) hF hno (shortWords_nodup n) fun u => by
      refine (hlead u).trans ⟨fun hu => ⟨hu, ?_⟩, fun hu => hu.1⟩
      rintro v c rfl hlt
      have h5 := (mem_shortWords.1 ((hlead _).2 hu)).1
      have h6 := shortLex_length hlt
      simp at h5 h6
      omega
    rw [show (shortWords n).length = 2 ^ (n + 1) - 1 by have := shortWords_length n; omega] at this
    exact this

/-! ### Cases -/

-- the terms "a", "ab", "cb" have the beginnings "", "a", "ab", "c", "cb": five prefixes at the last term
example : ∃ h' d, Ends (fun fuel => sortedDawg true (fun i => i + 1) fuel [[97], [97, 98], [99, 98]] exHeap) (h', some d) ∧
    ∀ (paddr : Nat → Nat) (ph : PHeap), PAllocator paddr ph →
      ∃ ph' it, Ends (fun fuel => dictIterAt h'.mem paddr fuel d.root 2 ph) (ph', it) ∧ MorePrefixes ph.mem ph'.mem 5 := by
  obtain ⟨h', d, h1, _⟩ := c15_contains_exactly_terms true exAllocator (terms := [[97], [97, 98], [99, 98]])
    (by unfold SortedTerms; decide)
  refine ⟨h', d, h1, fun paddr ph hp => ?_⟩
  exact c104_built exAllocator h1 hp (ws := [[], [97], [97, 98], [99], [99, 98]]) (by decide) (fun w => by
    simp only [List.mem_cons, List.not_mem_nil, or_false, exists_eq_or_imp, exists_eq_left, List.prefix_cons_iff,
      List.prefix_nil]
    grind) (k := 2) fun L hL hm => hL.length_le_of_subset hm

/-- The memory of prefixes after `begin()` and `k` increments: how many were allocated, and the term. -/
def exHeld (mem : Mem) (k : Nat) : Except Err (Nat × Str) :=
  (dictIterAt mem (fun k => k + 1) 60 1 k { mem := fun _ => none, count := 0 }).map fun r => (r.1.count, r.2.value)

-- a graph with a cycle: at "a", the first term, the strings in hand are "", "a", "z" and "ab"
example : exHeld exDamaged 0 = .ok (4, [97]) := by decide +kernel

example (sgn : Bool) (u : Str) : u ∈ ([[], [97], [122], [97, 98]] : List Str) ↔ OneBeyond sgn exDamaged 1 [97] u := by
  have hroot : ∀ c b, (c, b) ∈ ([(97, 2), (122, 3)] : List (UInt8 × Nat)) → Leads exDamaged 1 [c] b := fun c b he =>
    .snoc (w := []) .here (nd := ⟨false, [(97, 2), (122, 3)]⟩) rfl he
  constructor
  · intro hu
    simp only [List.mem_cons, List.not_mem_nil, or_false] at hu
    rcases hu with rfl | rfl | rfl | rfl
    · exact ⟨⟨1, .here⟩, fun v c h => by simp at h⟩
    · exact ⟨⟨2, hroot 97 2 (by simp)⟩, fun v c h => by
        obtain rfl := (List.append_inj' (s₁ := []) h rfl).1; rintro (h | ⟨h, _⟩) <;> simp at h⟩
    · exact ⟨⟨3, hroot 122 3 (by simp)⟩, fun v c h => by
        obtain rfl := (List.append_inj' (s₁ := []) h rfl).1; rintro (h | ⟨h, _⟩) <;> simp at h⟩
    · exact ⟨⟨2, .snoc (w := [97]) (hroot 97 2 (by simp)) (nd := ⟨true, [(98, 2)]⟩) rfl (by simp)⟩, fun v c h => by
        obtain rfl := (List.append_inj' (s₁ := [97]) h rfl).1; exact shortLex_irrefl⟩
  · rintro ⟨⟨b, hl⟩, hv⟩
    rcases exDamaged_leads hl with ⟨_, rfl⟩ | rfl | ⟨_, rfl⟩ | ⟨_, rfl⟩
    · simp
    · obtain ⟨n, rfl⟩ := exDamaged_accepts (t := u) (by simpa using hl.accepts (.here (nd := ⟨true, [(98, 2)]⟩) rfl rfl))
      match n with
      | 0 => simp
      | 1 => simp
      | n + 2 =>
        refine absurd (.inl (by simp)) (hv (97 :: List.replicate (n + 1) 98) 98 ?_)
        rw [List.replicate_succ' (n := n + 1)]; rfl
    · simp
    · exact absurd (.inr ⟨rfl, .rel (by cases sgn <;> simp [charLt, charKey])⟩) (hv [122] 122 rfl)

end Lev.Props
