import Verif.Props.Second
import Verif.Spec.Many

/-!
# Property C112: any number of constructions on a dictionary, whatever their letters

`Spec/Many.lean` says what happens to the words, without nodes.
-/

namespace Lev.Props

open Lev Spec

theorem firsts_survivors {ws W : List Str} {c : UInt8} : firsts (survivors ws W) c ↔ firsts W c ∧ ¬ firsts ws c := by
  have hany : ∀ c, (ws.any fun v => v.head? == some c) = true ↔ firsts ws c := by
    intro c
    simp only [List.any_eq_true, beq_iff_eq]
    constructor
    · rintro ⟨v, h1, h2⟩
      cases v with
      | nil => cases h2
      | cons x u => cases h2; exact ⟨u, h1⟩
    · rintro ⟨u, h⟩
      exact ⟨_, h, rfl⟩
  simp only [firsts, survivors, List.mem_filter]
  constructor
  · rintro ⟨u, h1, h2⟩
    refine ⟨⟨u, h1⟩, fun h3 => ?_⟩
    rw [(hany c).2 h3] at h2
    cases h2
  · rintro ⟨⟨u, h1⟩, h2⟩
    refine ⟨u, h1, ?_⟩
    cases hb : ws.any fun v => v.head? == some c with
    | false => rfl
    | true => exact absurd ((hany c).1 hb) h2

theorem mem_survivors {ws W : List Str} {t : Str} : t ∈ survivors ws W ↔ t ∈ W ∧ ∀ c, t.head? = some c → ¬ firsts ws c := by
  cases t with
  | nil => simp [survivors]
  | cons c u =>
    constructor
    · intro h
      have h1 : c :: u ∈ W := (List.mem_filter.1 h).1
      refine ⟨h1, fun c' hc => ?_⟩
      cases hc
      exact (firsts_survivors.1 ⟨u, h⟩).2
    · rintro ⟨h1, h2⟩
      obtain ⟨v, hv⟩ := firsts_survivors.2 ⟨⟨u, h1⟩, h2 c rfl⟩
      exact List.mem_filter.2 ⟨h1, (List.mem_filter.1 hv).2⟩

/-! ### Nodes and layers -/

section
variable {sgn : Bool} {m0 : Mem} {Ls : List (List Str)} {h : Heap} {d : SDawg} {o : DNode} {C : UInt8 → Prop}

/-- Every edge of the root belongs to a layer; within a layer no two nodes mean the same, and layers share no nodes. -/
structure Layered (sgn : Bool) (Ls : List (List Str)) (h : Heap) (d : SDawg) (o : DNode) : Prop where
  root : h.mem d.root = some o
  sorted : o.edges.Pairwise (fun e f => charLt sgn e.1 f.1)
  kids : ∃ k, ∀ c b, (c, b) ∈ o.edges → DictNode sgn h.mem k b
  useful : ∀ c b, (c, b) ∈ o.edges → ∀ a, Reaches h.mem b a → ∃ u, Accepts h.mem a u
  has : ∀ c b, (c, b) ∈ o.edges → ∃ W ∈ Ls, firsts W c
  layer : ∀ W ∈ Ls, ∀ c, firsts W c → ∃ b, (c, b) ∈ o.edges ∧ ∀ u, c :: u ∈ W ↔ Accepts h.mem b u
  minimal : ∀ W ∈ Ls, ∀ c b c' b', firsts W c → firsts W c' → (c, b) ∈ o.edges → (c', b') ∈ o.edges → ∀ a a',
    Reaches h.mem b a → Reaches h.mem b' a' → (∀ t, Accepts h.mem a t ↔ Accepts h.mem a' t) → a = a'
  apart : ∀ W ∈ Ls, ∀ c b c' b', firsts W c → ¬ firsts W c' → (c, b) ∈ o.edges → (c', b') ∈ o.edges → ∀ a,
    Reaches h.mem b a → ¬ Reaches h.mem b' a

theorem Layered.edge (hl : Layered sgn Ls h d o) {W : List Str} (hW : W ∈ Ls) {c : UInt8} {b : Nat} (hc : firsts W c)
    (hb : (c, b) ∈ o.edges) (u : Str) : c :: u ∈ W ↔ Accepts h.mem b u := by
  obtain ⟨b', h1, h2⟩ := hl.layer W hW c hc
  have : b' = b := (nodeTransition_some (sgn := sgn) hl.sorted h1).symm.trans (nodeTransition_some (sgn := sgn) hl.sorted hb)
  exact this ▸ h2 u

/-- The node behind a beginning. -/
theorem Layered.node (hl : Layered sgn Ls h d o) {W : List Str} (hW : W ∈ Ls) {c : UInt8} {p : Str} (hb : Begins W (c :: p)) :
    ∃ b a, firsts W c ∧ (c, b) ∈ o.edges ∧ Reaches h.mem b a ∧ ∀ u, c :: p ++ u ∈ W ↔ Accepts h.mem a u := by
  obtain ⟨u, hu⟩ := hb
  have hc : firsts W c := ⟨p ++ u, hu⟩
  obtain ⟨b, h1, h2⟩ := hl.layer W hW c hc
  obtain ⟨k, hk⟩ := hl.kids
  obtain ⟨a, h3, h4⟩ := along_reaches p (hk c b h1) ((h2 _).1 hu)
  exact ⟨b, a, hc, h1, h3, fun v => (h2 _).trans (h4 v)⟩

/-- A beginning that leads to a node. -/
theorem Layered.word (hl : Layered sgn Ls h d o) {W : List Str} (hW : W ∈ Ls) {c : UInt8} {b a : Nat} (hc : firsts W c)
    (hb : (c, b) ∈ o.edges) (hr : Reaches h.mem b a) : ∃ p, Begins W (c :: p) ∧ ∀ u, c :: p ++ u ∈ W ↔ Accepts h.mem a u := by
  obtain ⟨k, hk⟩ := hl.kids
  obtain ⟨p, h1⟩ := reaches_along (hk c b hb) hr
  have h2 : ∀ u, c :: p ++ u ∈ W ↔ Accepts h.mem a u := fun u => (hl.edge hW hc hb _).trans (h1 u)
  obtain ⟨u, hu⟩ := hl.useful c b hb a hr
  exact ⟨p, ⟨u, (h2 u).2 hu⟩, h2⟩

theorem Layered.shared_iff (hl : Layered sgn Ls h d o) : Shared h.mem o C ↔ ∃ W ∈ Ls, StillNeeded W C := by
  constructor
  · rintro ⟨c, a, h1, h2, h3⟩
    obtain ⟨W, hW, hc⟩ := hl.has c a h1
    refine ⟨W, hW, ?_⟩
    have hbc : Begins W [c] := hc
    have hin : ∀ c' b', (c', b') ∈ o.edges → Reaches h.mem b' a → firsts W c' := fun c' b' h4 h5 =>
      Classical.byContradiction fun h6 => hl.apart W hW c a c' b' hc h6 h1 h4 a .refl h5
    rcases h3 with ⟨c', h3, h4, h5⟩ | ⟨c', b, h3, h4, h5⟩
    · have hc' := hin c' a h5 .refl
      refine ⟨c, [c'], h2, hbc, hc', fun h => h3 (by simpa using h), fun v => ?_, .inl ⟨c', rfl, h4⟩⟩
      exact (hl.edge hW hc h1 v).trans (hl.edge hW hc' h5 v).symm
    · obtain ⟨p, h6, h7⟩ := hl.word hW (hin c' b h3 h5) h3 h5
      refine ⟨c, c' :: p, h2, hbc, h6, fun h => ?_, fun v => (hl.edge hW hc h1 v).trans (h7 v).symm, .inr ⟨c', p, rfl, h4⟩⟩
      cases h; exact h4 h2
  · rintro ⟨W, hW, c, p, h1, h2, h3, h4, h5, h6⟩
    have hc : firsts W c := h2
    obtain ⟨a, ha, h7⟩ := hl.layer W hW c hc
    refine ⟨c, a, ha, h1, ?_⟩
    rcases h6 with ⟨c', rfl, h8⟩ | ⟨c', p', rfl, h8⟩
    · left
      obtain ⟨a', ha', h9⟩ := hl.layer W hW c' h3
      have : a = a' := hl.minimal W hW c a c' a' hc h3 ha ha' a a' .refl .refl fun v => ((h7 v).symm.trans (h5 v)).trans (h9 v)
      exact ⟨c', fun h => h4 (by rw [h]), h8, this ▸ ha'⟩
    · right
      obtain ⟨b, a', hc', h9, h10, h11⟩ := hl.node hW h3
      have : a = a' := hl.minimal W hW c a c' b hc hc' ha h9 a a' .refl h10 fun v => ((h7 v).symm.trans (h5 v)).trans (h11 v)
      exact ⟨c', b, h9, h8, this ▸ h10⟩

theorem Layered.astray_iff (hl : Layered sgn Ls h d o) : (∃ a, Astray h.mem o C a) ↔ ∃ W ∈ Ls, GoneAstray W C := by
  constructor
  · rintro ⟨a, ⟨c, b, h1, h2⟩, h3, h4⟩
    obtain ⟨W, hW, hc⟩ := hl.has c b h1
    refine ⟨W, hW, ?_⟩
    obtain ⟨p, h5, h6⟩ := hl.word hW hc h1 h2
    refine ⟨c :: p, h5, ⟨c, p, rfl, Classical.byContradiction fun h => h3 ⟨c, b, h1, h, h2⟩⟩, fun q hq hs => ⟨?_, ?_⟩⟩
    · rintro ⟨c', rfl, h7⟩
      obtain ⟨a', ha', h8⟩ := hl.layer W hW c' hq
      have : a = a' := hl.minimal W hW c b c' a' hc hq h1 ha' a a' h2 .refl fun v => ((h6 v).symm.trans (hs v)).trans (h8 v)
      exact h4 ⟨c', h7, this ▸ ha'⟩
    · rintro ⟨c', q', rfl, h7⟩
      obtain ⟨b', a', hc', h8, h9, h10⟩ := hl.node hW hq
      have : a = a' := hl.minimal W hW c b c' b' hc hc' h1 h8 a a' h2 h9 fun v => ((h6 v).symm.trans (hs v)).trans (h10 v)
      exact h3 ⟨c', b', h8, h7, this ▸ h9⟩
  · rintro ⟨W, hW, p, h1, ⟨c, u, rfl, h2⟩, h3⟩
    obtain ⟨b, a, hc, h4, h5, h6⟩ := hl.node hW h1
    have hin : ∀ c' b', (c', b') ∈ o.edges → Reaches h.mem b' a → firsts W c' := fun c' b' h7 h8 =>
      Classical.byContradiction fun h9 => hl.apart W hW c b c' b' hc h9 h4 h7 a h5 h8
    refine ⟨a, ⟨c, b, h4, h5⟩, ?_, ?_⟩
    · rintro ⟨c', b', h7, h8, h9⟩
      obtain ⟨q, h10, h11⟩ := hl.word hW (hin c' b' h7 h9) h7 h9
      exact (h3 _ h10 fun v => (h6 v).trans (h11 v).symm).2 ⟨c', q, rfl, h8⟩
    · rintro ⟨c', h7, h8⟩
      have hc' := hin c' a h8 .refl
      exact (h3 [c'] hc' fun v => (h6 v).trans (hl.edge hW hc' h8 v).symm).1 ⟨c', rfl, h7⟩

/-- One more construction is one more layer. -/
theorem Layered.next (hl : Layered sgn Ls h d o) {ws : List Str} {h' : Heap} {d' : SDawg} {o' : DNode} {m1 : Mem} {L : Str → Prop}
    (hf : Settled sgn m1 L h' d') (hL : ∀ c u, firsts ws c → (L (c :: u) ↔ c :: u ∈ ws))
    (ho' : h'.mem d'.root = some o') (hd : Laid h.mem h'.mem o o' (firsts ws) (fun a => h.mem a = none)) :
    Layered sgn (Ls.map (survivors ws) ++ [ws]) h' d' o' := by
  obtain ⟨nd, F, h1, h2, h3, h4, h5⟩ := hf.dict
  rw [ho'] at h1; obtain rfl := Option.some.inj h1
  cases h5 with
  | mk hm hs hk =>
    rw [ho'] at hm; obtain rfl := Option.some.inj hm
    obtain ⟨k0, hk0⟩ := hl.kids
    have huse : ∀ c b, (c, b) ∈ o'.edges → ∀ a, Reaches h'.mem b a → ∃ u, Accepts h'.mem a u := by
      intro c b hb a hr
      obtain ⟨nb, K, h6, h7, h8⟩ := h2.target hb
      have := Forest.trim_iff.1 h3 _ h8
      exact reaches_useful ⟨nb, K, h6, h7, this.1, this.2⟩ hr
    -- below old edges
    have hkc : Closed h.mem (BelowKept h.mem o (firsts ws)) := by
      rintro a ⟨c, b, g1, g2, g3⟩
      obtain ⟨n, g4, g5⟩ := DictNode.closed (hk0 c b g1) a g3
      exact ⟨n, g4, fun c' b' hb' => ⟨c, b, g1, g2, g5 c' b' hb'⟩⟩
    have hin : ∀ {c b}, (c, b) ∈ o.edges → ¬ firsts ws c → BelowKept h.mem o (firsts ws) b := fun hb hc => ⟨_, _, hb, hc, .refl⟩
    have hre : ∀ {c b}, (c, b) ∈ o.edges → ¬ firsts ws c → ∀ a, Reaches h'.mem b a ↔ Reaches h.mem b a :=
      fun hb hc a => reaches_frame_iff hkc hd.same (hin hb hc) a
    have hacc : ∀ {a}, BelowKept h.mem o (firsts ws) a → ∀ t, Accepts h'.mem a t ↔ Accepts h.mem a t :=
      fun ha t => accepts_frame_iff hkc hd.same ha t
    have hlive : ∀ {c b}, (c, b) ∈ o.edges → ∀ a, Reaches h.mem b a → h.mem a ≠ none := by
      intro c b hb a hr
      obtain ⟨n, g1, _⟩ := DictNode.closed (hk0 c b hb) a hr
      rw [g1]; simp
    have hnewold : ∀ {c b c' b'}, firsts ws c → ¬ firsts ws c' → (c, b) ∈ o'.edges → (c', b') ∈ o'.edges → ∀ a,
        Reaches h'.mem b a → ¬ Reaches h'.mem b' a := by
      intro c b c' b' hc hc' hb hb' a hr hr'
      have hb0 := (hd.keep c' b' hc').1 hb'
      exact hlive hb0 a ((hre hb0 hc' a).1 hr') (hd.fresh c b hc hb a hr)
    refine ⟨ho', hs, ⟨_, hk⟩, huse, ?_, ?_, ?_, ?_⟩
    · intro c b hb
      by_cases hc : firsts ws c
      · exact ⟨ws, by simp, hc⟩
      · obtain ⟨W, hW, hWc⟩ := hl.has c b ((hd.keep c b hc).1 hb)
        exact ⟨survivors ws W, by simp only [List.mem_append, List.mem_map]; exact .inl ⟨W, hW, rfl⟩, firsts_survivors.2 ⟨hWc, hc⟩⟩
    · intro W hW c hc
      simp only [List.mem_append, List.mem_map, List.mem_singleton] at hW
      rcases hW with ⟨W, hW, rfl⟩ | rfl
      · obtain ⟨g1, g2⟩ := firsts_survivors.1 hc
        obtain ⟨b, g3, g4⟩ := hl.layer W hW c g1
        refine ⟨b, (hd.keep c b g2).2 g3, fun u => ?_⟩
        rw [hacc (hin g3 g2), ← g4 u, mem_survivors]
        exact ⟨(·.1), fun h => ⟨h, fun c' hc' => by cases hc'; exact g2⟩⟩
      · obtain ⟨u, hu⟩ := hc
        have hu' := (hf.accepts (c :: u)).2 ((hL c u ⟨u, hu⟩).2 hu)
        rcases (accepts_node ho' _).1 hu' with ⟨h, _⟩ | ⟨c', b, u', g1, g2, g3⟩
        · cases h
        · cases g1
          refine ⟨b, g2, fun v => ?_⟩
          rw [← hL c v ⟨u, hu⟩, ← hf.accepts]
          exact accepts_edge ho' hs g2 v
    · intro W hW c b c' b' hc hc' hb hb' a a' hr hr' hsame
      simp only [List.mem_append, List.mem_map, List.mem_singleton] at hW
      rcases hW with ⟨W, hW, rfl⟩ | rfl
      · obtain ⟨g1, g2⟩ := firsts_survivors.1 hc
        obtain ⟨g1', g2'⟩ := firsts_survivors.1 hc'
        have k1 := (hd.keep c b g2).1 hb
        have k1' := (hd.keep c' b' g2').1 hb'
        have r1 := (hre k1 g2 a).1 hr
        have r1' := (hre k1' g2' a').1 hr'
        refine hl.minimal W hW c b c' b' g1 g1' k1 k1' a a' r1 r1' fun t => ?_
        rw [← hacc ⟨c, b, k1, g2, r1⟩, ← hacc ⟨c', b', k1', g2', r1'⟩]
        exact hsame t
      · exact hd.minimal c b c' b' hc hc' hb hb' a a' hr hr' hsame
    · intro W hW c b c' b' hc hc' hb hb' a hr hr'
      simp only [List.mem_append, List.mem_map, List.mem_singleton] at hW
      rcases hW with ⟨W, hW, rfl⟩ | rfl
      · obtain ⟨g1, g2⟩ := firsts_survivors.1 hc
        by_cases hn : firsts ws c'
        · exact hnewold hn g2 hb' hb a hr' hr
        · have k1 := (hd.keep c b g2).1 hb
          have k1' := (hd.keep c' b' hn).1 hb'
          refine hl.apart W hW c b c' b' g1 (fun h => hc' (firsts_survivors.2 ⟨h, hn⟩)) k1 k1' a ((hre k1 g2 a).1 hr)
            ((hre k1' hn a).1 hr')
      · exact hnewold hc hc' hb hb' a hr hr'

end

/-! ### The property -/

/-- A construction: the addresses that it gets and the calls between `init` and the last `finish`. -/
structure Construction where
  addr : Nat → Nat
  ops : List BuildOp

/-- One construction after the other. -/
def manyRun (sgn : Bool) (fuel : Nat) : List Construction → Heap → SDawg → Except Err (List (List Bool) × Heap × SDawg)
  | [], h, d => .ok ([], h, d)
  | c :: cs, h, d => do
      let (r, h, d) ← secondRun sgn c.addr fuel c.ops h d
      let (rs, h, d) ← manyRun sgn fuel cs h d
      .ok (r :: rs, h, d)

/-- The addresses to be handed out in each construction are free when it begins. -/
def FreeFor (sgn : Bool) (h : Heap) (d : SDawg) : List Construction → Prop
  | [] => True
  | c :: cs => Allocator c.addr h ∧
      ∀ rs h' d', Ends (fun fuel => secondRun sgn c.addr fuel c.ops h d) (rs, h', d') → FreeFor sgn h' d' cs

theorem settled_many {sgn : Bool} (cs : List Construction) {m0 : Mem} {s : Stock} {h : Heap} {d : SDawg} {o : DNode}
    (hf : Settled sgn m0 (· ∈ s.words) h d) (hl : Layered sgn s.layers h d o) (hp : d.prev = s.prev) (hs : d.size = s.size)
    (hfree : FreeFor sgn h d cs) :
    (¬ Sound s (cs.map (·.ops)) → ∃ N, ∀ fuel, N ≤ fuel → manyRun sgn fuel cs h d = .error .ub) ∧
    (Sound s (cs.map (·.ops)) → ∃ h' d' m1, Ends (fun fuel => manyRun sgn fuel cs h d) ((s.run (cs.map (·.ops))).1, h', d') ∧
      d'.size = (s.run (cs.map (·.ops))).2.size ∧ Settled sgn m1 (· ∈ (s.run (cs.map (·.ops))).2.words) h' d' ∧
      (∀ a, m0 a ≠ none → m1 a = m0 a) ∧ ((∀ a, m1 a = m0 a) ↔ ¬ Leaks s (cs.map (·.ops)))) := by
  induction cs generalizing m0 s h d o with
  | nil =>
    refine ⟨fun h => absurd trivial h, fun _ => ⟨h, d, m0, ⟨0, fun _ _ => rfl⟩, hs, hf, fun _ _ => rfl, ?_⟩⟩
    simp [Leaks]
  | cons c cs ih =>
    obtain ⟨hfr, hrest⟩ := hfree
    obtain ⟨i1, i2⟩ := settled_second hf hfr hl.root c.ops
    rw [hp, hs] at i1 i2
    have hub : (∃ N, ∀ fuel, N ≤ fuel → secondRun sgn c.addr fuel c.ops h d = .error .ub) →
        ∃ N, ∀ fuel, N ≤ fuel → manyRun sgn fuel (c :: cs) h d = .error .ub := by
      rintro ⟨N, hN⟩
      exact ⟨N, fun fuel hfu => by simp [manyRun, hN fuel hfu, bind, Except.bind]⟩
    simp only [List.map_cons]
    cases hr : s.draft c.ops with
    | none =>
      refine ⟨fun _ => hub (i1 hr), ?_⟩
      rintro ⟨bs, dr, h1, _⟩
      rw [hr] at h1; cases h1
    | some r =>
      obtain ⟨bs, dr⟩ := r
      obtain ⟨j1, j2⟩ := i2 bs dr hr
      by_cases hsh : Shared h.mem o (firsts dr.words)
      · refine ⟨fun _ => hub (j1 hsh), ?_⟩
        rintro ⟨bs', dr', h1, h2, _⟩
        rw [hr] at h1; cases h1
        obtain ⟨W, hW, hn⟩ := hl.shared_iff.1 hsh
        exact absurd hn (h2 W hW)
      · have hno : ∀ W ∈ s.layers, ¬ StillNeeded W (firsts dr.words) := fun W hW hn => hsh (hl.shared_iff.2 ⟨W, hW, hn⟩)
        obtain ⟨h', d', ⟨N1, e1⟩, e2, e3, e4, e5, e6, o', e7, e8⟩ := j2 hsh
        have hmem : ∀ t, (t ∈ dr.words ∨ t ∈ s.words ∧ ∀ c, t.head? = some c → ¬ firsts dr.words c) ↔ t ∈ (s.next dr).words := by
          intro t
          simp only [Stock.words, Stock.next, List.mem_flatten, List.mem_append, List.mem_map, List.mem_singleton]
          constructor
          · rintro (h1 | ⟨⟨W, h1, h2⟩, h3⟩)
            · exact ⟨dr.words, .inr rfl, h1⟩
            · exact ⟨_, .inl ⟨W, h1, rfl⟩, mem_survivors.2 ⟨h2, h3⟩⟩
          · rintro ⟨_, ⟨W, h1, rfl⟩ | rfl, h2⟩
            · obtain ⟨h3, h4⟩ := mem_survivors.1 h2
              exact .inr ⟨⟨W, h1, h3⟩, h4⟩
            · exact .inl h2
        have hL : (fun t => t ∈ dr.words ∨ t ∈ s.words ∧ ∀ c, t.head? = some c → ¬ firsts dr.words c) = (· ∈ (s.next dr).words) :=
          funext fun t => propext (hmem t)
        have hl' : Layered sgn (s.next dr).layers h' d' o' := by
          refine hl.next e6 (fun c u hc => ?_) e7 e8
          exact ⟨fun h1 => h1.elim id fun h1 => absurd hc (h1.2 c rfl), .inl⟩
        rw [hL] at e6
        obtain ⟨k1, k2⟩ := ih e6 hl' e3 e4 (hrest bs h' d' ⟨N1, e1⟩)
        have hsound : Sound s (c.ops :: cs.map (·.ops)) ↔ Sound (s.next dr) (cs.map (·.ops)) := by
          constructor
          · rintro ⟨bs', dr', h1, _, h2⟩
            rw [hr] at h1; cases h1; exact h2
          · exact fun h1 => ⟨bs, dr, hr, hno, h1⟩
        have hleak : Leaks s (c.ops :: cs.map (·.ops)) ↔ (∃ a, Astray h.mem o (firsts dr.words) a) ∨ Leaks (s.next dr) (cs.map (·.ops)) := by
          rw [hl.astray_iff]
          constructor
          · rintro ⟨bs', dr', h1, h2⟩
            rw [hr] at h1; cases h1; exact h2
          · exact fun h1 => ⟨bs, dr, hr, h1⟩
        have hsr : s.run (c.ops :: cs.map (·.ops)) = (bs :: ((s.next dr).run (cs.map (·.ops))).1, ((s.next dr).run (cs.map (·.ops))).2) := by
          simp only [Stock.run, hr]
        rw [hsound, hleak, hsr]
        refine ⟨fun hn => ?_, fun hsd => ?_⟩
        · obtain ⟨N2, hN2⟩ := k1 hn
          refine ⟨max N1 N2, fun fuel hfu => ?_⟩
          have g1 := e1 fuel (by omega)
          simp only at g1
          simp [manyRun, g1, hN2 fuel (by omega), bind, Except.bind]
        · obtain ⟨h2, d2, m2, ⟨N2, g2⟩, g3, g4, g5, g6⟩ := k2 hsd
          have hown : ∀ a, Astray h.mem o (firsts dr.words) a → h.mem a ≠ none ∧ m0 a = none := by
            rintro a ⟨⟨c, b, h4, h5⟩, _⟩
            have hr : Reaches h.mem d.root a := .step hl.root h4 h5
            obtain ⟨_, _, _, _, _, _, hd⟩ := hf.dict
            obtain ⟨n, h6, _⟩ := DictNode.closed hd a hr
            exact ⟨by rw [h6]; simp, hf.own a hr⟩
          have hm1 : ∀ a, m0 a ≠ none → withAstray m0 h.mem o (firsts dr.words) a = m0 a := by
            intro a h4
            simp only [withAstray]
            rw [if_neg fun h5 => h4 (hown a h5).2]
          refine ⟨h2, d2, m2, ⟨max N1 N2, fun fuel hfu => ?_⟩, g3, g4, fun a ha => ?_, ?_⟩
          · have q1 := e1 fuel (by omega)
            have q2 := g2 fuel (by omega)
            simp only at q1 q2
            simp [manyRun, q1, q2, bind, Except.bind]
          · have q1 := hm1 a ha
            rw [g5 a (by rw [q1]; exact ha), q1]
          · rw [not_or, ← g6]
            constructor
            · intro q1
              have q2 : ∀ a, withAstray m0 h.mem o (firsts dr.words) a = m0 a := by
                intro a
                by_cases q3 : withAstray m0 h.mem o (firsts dr.words) a = none
                · rw [q3]
                  cases q4 : m0 a with
                  | none => rfl
                  | some n =>
                    have := hm1 a (by rw [q4]; simp)
                    rw [q3, q4] at this; cases this
                · rw [← g5 a q3, q1]
              refine ⟨?_, fun a => by rw [q1, q2]⟩
              rintro ⟨a, q3⟩
              have q4 := q2 a
              simp only [withAstray, q3, if_true] at q4
              exact (hown a q3).1 (q4.trans (hown a q3).2)
            · rintro ⟨q1, q2⟩ a
              rw [q2]
              simp only [withAstray]
              rw [if_neg fun h5 => q1 ⟨a, h5⟩]

theorem newDawg_layered (sgn : Bool) (addr : Nat → Nat) (h : Heap) :
    Layered sgn [] (newDawg addr h).1 (newDawg addr h).2 ⟨false, []⟩ := by
  refine ⟨by simp [newDawg, newNode, Mem.set], .nil, ⟨0, ?_⟩, ?_, ?_, ?_, ?_, ?_⟩ <;> simp

/-- C112: any number of constructions on a new dictionary.  They are defined exactly if no construction overwrites an edge that it has
made itself, or an edge whose node is still needed in the layer of words that it belongs to; otherwise they end in undefined
behaviour. -/
theorem c112_undefined (sgn : Bool) {addr : Nat → Nat} {h : Heap} (ha : Allocator addr h) (cs : List Construction)
    (hfree : FreeFor sgn (newDawg addr h).1 (newDawg addr h).2 cs) (hbad : ¬ Sound {} (cs.map (·.ops))) :
    ∃ N, ∀ fuel, N ≤ fuel → manyRun sgn fuel cs (newDawg addr h).1 (newDawg addr h).2 = .error .ub :=
  (settled_many cs (s := {}) (by have := newDawg_settled (sgn := sgn) ha; simpa [Stock.words] using this)
    (newDawg_layered sgn addr h) rfl rfl hfree).1 hbad

/-- C112: if they are defined, the words are what `Stock.run` says: each construction removes the words that begin like one of its
own. -/
theorem c112_words (sgn : Bool) {addr : Nat → Nat} {h : Heap} (ha : Allocator addr h) (cs : List Construction)
    (hfree : FreeFor sgn (newDawg addr h).1 (newDawg addr h).2 cs) (hok : Sound {} (cs.map (·.ops))) :
    ∃ h' d', Ends (fun fuel => manyRun sgn fuel cs (newDawg addr h).1 (newDawg addr h).2)
        ((({} : Stock).run (cs.map (·.ops))).1, h', d') ∧ d'.size = (({} : Stock).run (cs.map (·.ops))).2.size ∧
      (∀ t, Accepts h'.mem d'.root t ↔ t ∈ (({} : Stock).run (cs.map (·.ops))).2.words) ∧
      ((∀ t, Accepts h'.mem d'.root t → t.length < 2 ^ 62) → Dictionary sgn h'.mem d'.root) ∧
      ∃ h'', Ends (fun fuel => destroyDawg fuel h' d') h'' ∧ (∀ a, h.mem a ≠ none → h''.mem a = h.mem a) ∧
        ((∀ a, h''.mem a = h.mem a) ↔ ¬ Leaks {} (cs.map (·.ops))) := by
  obtain ⟨h', d', m1, e1, e2, e3, e4, e5⟩ := (settled_many cs (s := {}) (by
    have := newDawg_settled (sgn := sgn) ha; simpa [Stock.words] using this) (newDawg_layered sgn addr h) rfl rfl hfree).2 hok
  obtain ⟨h3, e6, e7⟩ := e3.destroy
  exact ⟨h', d', e1, e2, e3.accepts, fun hb => e3.dictionary fun t ht => hb t ((e3.accepts t).2 ht), h3, e6,
    fun a ha => by rw [e7, e4 a ha], by simp only [e7]; exact e5⟩

/-- C112: defined exactly if `Sound`. -/
theorem c112_defined_iff (sgn : Bool) {addr : Nat → Nat} {h : Heap} (ha : Allocator addr h) (cs : List Construction)
    (hfree : FreeFor sgn (newDawg addr h).1 (newDawg addr h).2 cs) :
    (∃ r, Ends (fun fuel => manyRun sgn fuel cs (newDawg addr h).1 (newDawg addr h).2) r) ↔ Sound {} (cs.map (·.ops)) := by
  constructor
  · rintro ⟨r, N, hN⟩
    refine Classical.byContradiction fun hno => ?_
    obtain ⟨N', hN'⟩ := c112_undefined sgn ha cs hfree hno
    have h1 := hN (max N N') (by omega)
    have h2 := hN' (max N N') (by omega)
    simp only at h1
    rw [h1] at h2
    cases h2
  · intro hok
    obtain ⟨h', d', e, _⟩ := c112_words sgn ha cs hfree hok
    exact ⟨_, e⟩

/-! ### Examples -/

/-- A word, another one, and a third that overwrites the edge of the second. -/
def exMany : List Construction := [⟨(· + 1), [.add [97]]⟩, ⟨(· + 1), [.add [98]]⟩, ⟨(· + 1), [.add [98, 98]]⟩]

example : ({} : Stock).run (exMany.map (·.ops)) = ([[true], [true], [true]], ⟨[98, 98], [[[97]], [], [[98]]], 3⟩) := by decide

theorem one_begins {x : UInt8} {p : Str} (h : Begins [[x]] p) : p = [] ∨ p = [x] := by
  obtain ⟨u, hu⟩ := h
  simp only [List.mem_singleton] at hu
  match p, hu with
  | [], _ => exact .inl rfl
  | [c], hu => simp at hu; exact .inr (by rw [hu.1])
  | c :: c' :: p, hu => simp at hu

theorem one_notNeeded (x : UInt8) (C : UInt8 → Prop) : ¬ StillNeeded [[x]] C := by
  rintro ⟨c, p, _, h2, h3, h4, _, h6⟩
  rcases one_begins h3 with rfl | rfl
  · rcases h6 with ⟨_, h, _⟩ | ⟨_, _, h, _⟩ <;> cases h
  · rcases one_begins h2 with h | h
    · cases h
    · exact h4 h.symm

/-- An allocator that never hands out an address twice serves all constructions. -/
theorem FreeFor.same {sgn : Bool} {addr : Nat → Nat} {m0 : Mem} (cs : List Construction) {L : Str → Prop} {h : Heap} {d : SDawg}
    (hf : Settled sgn m0 L h d) (ha : Allocator addr h) (hs : ∀ c ∈ cs, c.addr = addr) : FreeFor sgn h d cs := by
  induction cs generalizing m0 L h d with
  | nil => trivial
  | cons c cs ih =>
    have he := hs c (by simp)
    refine ⟨he ▸ ha, fun rs h' d' hr => ?_⟩
    obtain ⟨o, _, ho, _⟩ := hf.dict
    obtain ⟨i1, i2⟩ := settled_second hf (he ▸ ha : Allocator c.addr h) ho c.ops
    have hnot : ¬ ∃ N, ∀ fuel, N ≤ fuel → secondRun sgn c.addr fuel c.ops h d = .error .ub := by
      rintro ⟨N, hN⟩
      obtain ⟨N', hN'⟩ := hr
      have h1 := hN (max N N') (by omega)
      have h2 := hN' (max N N') (by omega)
      simp only at h2
      rw [h1] at h2
      cases h2
    cases hd : (⟨d.prev, [], [], d.size⟩ : Draft).run c.ops with
    | none => exact absurd (i1 hd) hnot
    | some r =>
      obtain ⟨j1, j2⟩ := i2 r.1 r.2 hd
      obtain ⟨h1, d1, e1, _, _, _, e5, e6, _⟩ := j2 fun hsh => hnot (j1 hsh)
      cases e1.unique hr
      exact ih e6 (he ▸ e5) fun c' hc' => hs c' (by simp [hc'])

/-- The three constructions are defined, though the same words in one construction and the third one after it are not. -/
theorem exMany_sound : Sound {} (exMany.map (·.ops)) := by
  refine ⟨[true], ⟨[97], [97], [[97]], 1⟩, by decide, by simp, [true], ⟨[98], [98], [[98]], 2⟩, by decide, ?_,
    [true], ⟨[98, 98], [98], [[98]], 3⟩, by decide, ?_, trivial⟩
  · intro W hW
    have : W = [[97]] := by simpa [Stock.next] using hW
    exact this ▸ one_notNeeded _ _
  · intro W hW
    have h : W = [[97]] ∨ W = [[98]] := by
      have hs : survivors [[98]] [[97]] = [[97]] := by decide
      simpa [Stock.next, hs] using hW
    rcases h with rfl | rfl <;> exact one_notNeeded _ _

/-- The theorems speak of them. -/
example (sgn : Bool) : ∃ h' d', Ends (fun fuel => manyRun sgn fuel exMany (newDawg (· + 1) exHeap).1 (newDawg (· + 1) exHeap).2)
      ([[true], [true], [true]], h', d') ∧ d'.size = 3 ∧ ∀ t, Accepts h'.mem d'.root t ↔ t = [97] ∨ t = [98] := by
  obtain ⟨h', d', e1, e2, e3, _⟩ := c112_words sgn exAllocator exMany
    (.same exMany (newDawg_settled exAllocator) ⟨exAllocator.nonnull, exAllocator.inj, rfl, fun k hk => by
      have : k ≠ 0 := by simp [newDawg, newNode, exHeap] at hk; omega
      simp [newDawg, newNode, exHeap, Mem.set, this]⟩ (by simp [exMany])) exMany_sound
  refine ⟨h', d', e1, e2, fun t => (e3 t).trans ?_⟩
  have : (({} : Stock).run (exMany.map (·.ops))).2.words = [[97], [98]] := by decide
  rw [this]; simp

example : (manyRun true 100 exMany (newDawg (· + 1) exHeap).1 (newDawg (· + 1) exHeap).2).map (fun r =>
      (r.1, r.2.2.size, [[97], [98], [98, 98]].map (containsTerm r.2.1.mem r.2.2.root))) =
    .ok ([[true], [true], [true]], 3, [.ok true, .ok true, .ok false]) := by decide +kernel

example : (manyRun true 100 [⟨(· + 1), [.add [97], .add [98]]⟩, ⟨(· + 1), [.add [98, 98]]⟩] (newDawg (· + 1) exHeap).1
    (newDawg (· + 1) exHeap).2).map (fun r => r.1) = .error .ub := by decide +kernel

end Lev.Props
