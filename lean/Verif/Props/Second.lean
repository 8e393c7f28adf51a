import Verif.Props.OverRun
import Verif.Props.Sittings

/-!
# Property C109: a second construction on a dictionary, whatever its letters

`Spec/Second.lean` says when edges of the root are overwritten whose nodes are still needed, without nodes.
-/

namespace Lev.Props

open Lev Spec

/-! ### Nodes and beginnings of words -/

theorem accepts_edge {sgn : Bool} {m : Mem} {a : Nat} {nd : DNode} (hm : m a = some nd)
    (hs : nd.edges.Pairwise (fun e f => charLt sgn e.1 f.1)) {c : UInt8} {b : Nat} (hb : (c, b) ∈ nd.edges) (u : Str) :
    Accepts m a (c :: u) ↔ Accepts m b u := by
  rw [accepts_node hm]
  constructor
  · rintro (⟨h, _⟩ | ⟨c', b', u', h1, h2, h3⟩)
    · cases h
    · cases h1
      have : b' = b := (nodeTransition_some (sgn := sgn) hs h2).symm.trans (nodeTransition_some (sgn := sgn) hs hb)
      exact this ▸ h3
  · exact fun h => .inr ⟨c, b, u, rfl, hb, h⟩

theorem reaches_along {sgn : Bool} {m : Mem} {k a x : Nat} (hd : DictNode sgn m k a) (hr : Reaches m a x) :
    ∃ p, ∀ u, Accepts m a (p ++ u) ↔ Accepts m x u := by
  induction hr generalizing k with
  | refl => exact ⟨[], fun u => Iff.rfl⟩
  | @step a nd c b x hm hb _ ih =>
    cases hd with
    | mk hm' hs hk =>
      rw [hm] at hm'; obtain rfl := Option.some.inj hm'
      obtain ⟨p, hp⟩ := ih (hk c b hb)
      exact ⟨c :: p, fun u => (accepts_edge hm hs hb _).trans (hp u)⟩

theorem along_reaches {sgn : Bool} {m : Mem} (p : Str) {k a : Nat} (hd : DictNode sgn m k a) {u : Str} (hu : Accepts m a (p ++ u)) :
    ∃ x, Reaches m a x ∧ ∀ v, Accepts m a (p ++ v) ↔ Accepts m x v := by
  induction p generalizing k a with
  | nil => exact ⟨a, .refl, fun v => Iff.rfl⟩
  | cons c p ih =>
    cases hd with
    | mk hm hs hk =>
      rcases (accepts_node hm _).1 hu with ⟨h, _⟩ | ⟨c', b, u', h1, h2, h3⟩
      · cases h
      · cases h1
        obtain ⟨x, h4, h5⟩ := ih (hk c b h2) h3
        exact ⟨x, .step hm h2 h4, fun v => (accepts_edge hm hs h2 _).trans (h5 v)⟩

/-- Every node of a dictionary is on the way to some word. -/
theorem reaches_useful {m : Mem} {a x : Nat} (h : ∃ nb K, m a = some nb ∧ Unf m nb.edges K ∧ (nb.final = true ∨ K ≠ .nil) ∧ K.Trim)
    (hr : Reaches m a x) : ∃ u, Accepts m x u := by
  induction hr with
  | refl =>
    obtain ⟨nb, K, h1, h2, h3, h4⟩ := h
    obtain ⟨u, hu⟩ := accT_exists h4 h3
    exact ⟨u, (accepts_iff h1 h2 u).2 hu⟩
  | @step a nd c b x hm hb _ ih =>
    refine ih ?_
    obtain ⟨nb, K, h1, h2, _, h4⟩ := h
    rw [hm] at h1; obtain rfl := Option.some.inj h1
    obtain ⟨nb', K', h5, h6, h7⟩ := h2.target hb
    have := Forest.trim_iff.1 h4 _ h7
    exact ⟨nb', K', h5, h6, this.1, this.2⟩

section
variable {sgn : Bool} {m0 : Mem} {W : List Str} {h : Heap} {d : SDawg} {o : DNode} {C : UInt8 → Prop}

/-- What is used of a minimal dictionary. -/
structure Plain (sgn : Bool) (W : List Str) (h : Heap) (d : SDawg) (o : DNode) : Prop where
  root : h.mem d.root = some o
  sorted : o.edges.Pairwise (fun e f => charLt sgn e.1 f.1)
  kids : ∃ k, ∀ c b, (c, b) ∈ o.edges → DictNode sgn h.mem k b
  useful : ∀ c b, (c, b) ∈ o.edges → ∀ a, Reaches h.mem b a → ∃ u, Accepts h.mem a u
  accepts : ∀ t, Accepts h.mem d.root t ↔ t ∈ W
  minimal : ∀ a b, Reaches h.mem d.root a → Reaches h.mem d.root b → (∀ t, Accepts h.mem a t ↔ Accepts h.mem b t) → a = b

theorem Settled.plain (hf : Settled sgn m0 (· ∈ W) h d) (ho : h.mem d.root = some o)
    (hmin : ∀ a b, Reaches h.mem d.root a → Reaches h.mem d.root b → (∀ t, Accepts h.mem a t ↔ Accepts h.mem b t) → a = b) :
    Plain sgn W h d o := by
  obtain ⟨nd, F, h1, h2, h3, h4, h5⟩ := hf.dict
  rw [ho] at h1; obtain rfl := Option.some.inj h1
  cases h5 with
  | mk hm hs hk =>
    rw [ho] at hm; obtain rfl := Option.some.inj hm
    refine ⟨ho, hs, ⟨_, hk⟩, fun c b hb a hr => ?_, hf.accepts, hmin⟩
    obtain ⟨nb, K, h6, h7, h8⟩ := h2.target hb
    have := Forest.trim_iff.1 h3 _ h8
    exact reaches_useful ⟨nb, K, h6, h7, this.1, this.2⟩ hr

theorem Plain.edge (hp : Plain sgn W h d o) {c : UInt8} {b : Nat} (hb : (c, b) ∈ o.edges) (u : Str) :
    c :: u ∈ W ↔ Accepts h.mem b u := by
  rw [← hp.accepts]; exact accepts_edge hp.root hp.sorted hb u

theorem Plain.begins (hp : Plain sgn W h d o) {c : UInt8} {u : Str} (hu : c :: u ∈ W) : ∃ b, (c, b) ∈ o.edges := by
  rw [← hp.accepts, accepts_node hp.root] at hu
  rcases hu with ⟨h, _⟩ | ⟨c', b, _, h1, h2, _⟩
  · cases h
  · cases h1; exact ⟨b, h2⟩

/-- The node behind a beginning. -/
theorem Plain.node (hp : Plain sgn W h d o) {c : UInt8} {p : Str} (hb : Begins W (c :: p)) :
    ∃ b a, (c, b) ∈ o.edges ∧ Reaches h.mem b a ∧ ∀ u, c :: p ++ u ∈ W ↔ Accepts h.mem a u := by
  obtain ⟨u, hu⟩ := hb
  obtain ⟨b, h1⟩ := hp.begins (c := c) (u := p ++ u) hu
  obtain ⟨k, hk⟩ := hp.kids
  obtain ⟨a, h2, h3⟩ := along_reaches p (hk c b h1) ((hp.edge h1 _).1 hu)
  exact ⟨b, a, h1, h2, fun v => (hp.edge h1 _).trans (h3 v)⟩

/-- A beginning that leads to a node. -/
theorem Plain.word (hp : Plain sgn W h d o) {c : UInt8} {b a : Nat} (hb : (c, b) ∈ o.edges) (hr : Reaches h.mem b a) :
    ∃ p, Begins W (c :: p) ∧ ∀ u, c :: p ++ u ∈ W ↔ Accepts h.mem a u := by
  obtain ⟨k, hk⟩ := hp.kids
  obtain ⟨p, h1⟩ := reaches_along (hk c b hb) hr
  have h2 : ∀ u, c :: p ++ u ∈ W ↔ Accepts h.mem a u := fun u => (hp.edge hb _).trans (h1 u)
  obtain ⟨u, hu⟩ := hp.useful c b hb a hr
  exact ⟨p, ⟨u, (h2 u).2 hu⟩, h2⟩

theorem Plain.same (hp : Plain sgn W h d o) {c c' : UInt8} {b b' a a' : Nat} (hb : (c, b) ∈ o.edges) (hr : Reaches h.mem b a)
    (hb' : (c', b') ∈ o.edges) (hr' : Reaches h.mem b' a') (hs : ∀ u, Accepts h.mem a u ↔ Accepts h.mem a' u) : a = a' :=
  hp.minimal a a' (.step hp.root hb hr) (.step hp.root hb' hr') hs

theorem Plain.shared_iff (hp : Plain sgn W h d o) : Shared h.mem o C ↔ StillNeeded W C := by
  constructor
  · rintro ⟨c, a, h1, h2, h3⟩
    obtain ⟨u, hu⟩ := hp.useful c a h1 a .refl
    have hbc : Begins W [c] := ⟨u, (hp.edge h1 u).2 hu⟩
    rcases h3 with ⟨c', h3, h4, h5⟩ | ⟨c', b, h3, h4, h5⟩
    · refine ⟨c, [c'], h2, hbc, ⟨u, (hp.edge h5 u).2 hu⟩, fun h => h3 (by simpa using h), fun v => ?_, .inl ⟨c', rfl, h4⟩⟩
      exact (hp.edge h1 v).trans (hp.edge h5 v).symm
    · obtain ⟨p, h6, h7⟩ := hp.word h3 h5
      refine ⟨c, c' :: p, h2, hbc, h6, fun h => ?_, fun v => (hp.edge h1 v).trans (h7 v).symm, .inr ⟨c', p, rfl, h4⟩⟩
      cases h; exact h4 h2
  · rintro ⟨c, p, h1, h2, h3, h4, h5, h6⟩
    obtain ⟨u, hu⟩ := h2
    obtain ⟨a, ha⟩ := hp.begins (c := c) (u := u) hu
    refine ⟨c, a, ha, h1, ?_⟩
    rcases h6 with ⟨c', rfl, h7⟩ | ⟨c', p', rfl, h7⟩
    · left
      obtain ⟨u', hu'⟩ := h3
      obtain ⟨a', ha'⟩ := hp.begins (c := c') (u := u') hu'
      have : a = a' := hp.same ha .refl ha' .refl fun v => ((hp.edge ha v).symm.trans (h5 v)).trans (hp.edge ha' v)
      exact ⟨c', fun h => h4 (by rw [h]), h7, this ▸ ha'⟩
    · right
      obtain ⟨b, a', h8, h9, h10⟩ := hp.node h3
      have : a = a' := hp.same ha .refl h8 h9 fun v => ((hp.edge ha v).symm.trans (h5 v)).trans (h10 v)
      exact ⟨c', b, h8, h7, this ▸ h9⟩

theorem Plain.astray_iff (hp : Plain sgn W h d o) : (∃ a, Astray h.mem o C a) ↔ GoneAstray W C := by
  constructor
  · rintro ⟨a, ⟨c, b, h1, h2⟩, h3, h4⟩
    obtain ⟨p, h5, h6⟩ := hp.word h1 h2
    refine ⟨c :: p, h5, ⟨c, p, rfl, Classical.byContradiction fun h => h3 ⟨c, b, h1, h, h2⟩⟩, fun q hq hs => ⟨?_, ?_⟩⟩
    · rintro ⟨c', rfl, h7⟩
      obtain ⟨u', hu'⟩ := hq
      obtain ⟨a', ha'⟩ := hp.begins (c := c') (u := u') hu'
      have : a = a' := hp.same h1 h2 ha' .refl fun v => ((h6 v).symm.trans (hs v)).trans (hp.edge ha' v)
      exact h4 ⟨c', h7, this ▸ ha'⟩
    · rintro ⟨c', q', rfl, h7⟩
      obtain ⟨b', a', h8, h9, h10⟩ := hp.node hq
      have : a = a' := hp.same h1 h2 h8 h9 fun v => ((h6 v).symm.trans (hs v)).trans (h10 v)
      exact h3 ⟨c', b', h8, h7, this ▸ h9⟩
  · rintro ⟨p, h1, ⟨c, u, rfl, h2⟩, h3⟩
    obtain ⟨b, a, h4, h5, h6⟩ := hp.node h1
    refine ⟨a, ⟨c, b, h4, h5⟩, ?_, ?_⟩
    · rintro ⟨c', b', h7, h8, h9⟩
      obtain ⟨q, h10, h11⟩ := hp.word h7 h9
      exact (h3 _ h10 fun v => (h6 v).trans (h11 v).symm).2 ⟨c', q, rfl, h8⟩
    · rintro ⟨c', h7, h8⟩
      obtain ⟨q, hq⟩ := hp.useful c' a h8 a .refl
      exact (h3 [c'] ⟨q, (hp.edge h8 q).2 hq⟩ fun v => (h6 v).trans (hp.edge h8 v).symm).1 ⟨c', rfl, h7⟩

end

/-! ### The property -/

/-- The first construction. -/
theorem first_settled (sgn : Bool) {addr : Nat → Nat} {h : Heap} (ha : Allocator addr h) (ops : List BuildOp)
    (hlen : ∀ t, BuildOp.add t ∈ ops → t.length < 2 ^ 62) {bs : List Bool} {s : Draft} (hrun : ({} : Draft).run ops = some (bs, s))
    {bs' : List Bool} {h1 : Heap} {d1 : SDawg} (he : Ends (fun fuel => anyOrderRun sgn addr fuel ops h) (bs', h1, d1)) :
    ∃ o, Settled sgn h.mem (· ∈ s.words) h1 d1 ∧ Plain sgn s.words h1 d1 o ∧ d1.prev = s.prev ∧ d1.size = s.size ∧
      Allocator addr h1 := by
  have hroot : (newDawg addr h).1.mem (newDawg addr h).2.root = some ⟨false, []⟩ := by simp [newDawg, newNode, Mem.set]
  have ha0 : Allocator addr (newDawg addr h).1 := by
    refine ⟨ha.nonnull, ha.inj, ?_, fun j hj => ?_⟩
    · simp only [newDawg, newNode, Mem.set]
      rw [if_neg fun h' => ha.nonnull _ h'.symm]; exact ha.null
    · simp only [newDawg, newNode] at hj
      simp only [newDawg, newNode, Mem.set]
      rw [if_neg fun h' => by have := ha.inj _ _ h'; omega]
      exact ha.fresh j (by omega)
  have hns : ¬ Shared (newDawg addr h).1.mem ⟨false, []⟩ (firsts s.words) := by
    rintro ⟨c, a, h1, _⟩; simp at h1
  obtain ⟨h2, d2, e1, e2, e3, e4, e5, e6, _⟩ := ((settled_second (newDawg_settled (sgn := sgn) ha) ha0 hroot ops).2 bs s hrun).2 hns
  have e1' : Ends (fun fuel => anyOrderRun sgn addr fuel ops h) (bs, h2, d2) := e1.congr fun fuel => rfl
  cases e1'.unique he
  have hmem : withAstray h.mem (newDawg addr h).1.mem ⟨false, []⟩ (firsts s.words) = h.mem := by
    funext a
    simp only [withAstray]
    rw [if_neg]
    rintro ⟨⟨c, b, h1, _⟩, _⟩
    simp at h1
  have hL : (fun t => t ∈ s.words ∨ False ∧ ∀ c, t.head? = some c → ¬ firsts s.words c) = (· ∈ s.words) := by
    funext t; simp
  rw [hmem, hL] at e6
  obtain ⟨h3, d3, g1, _, _, _, _, g5, _⟩ := c107_words sgn ha ops hlen hrun
  cases g1.unique he
  obtain ⟨nd, _, h4, _⟩ := e6.dict
  exact ⟨nd, e6, Settled.plain e6 h4 g5, e3, e4, e5⟩

/-- C109: a second construction — `init`, calls of `add` and `finish` in any order, `finish` and `clean_up` — on a dictionary made
by a first: if some edge that it has made itself is overwritten, or if a node behind an edge of the old root that is overwritten
is still needed, it ends in undefined behaviour. -/
theorem c109_undefined (sgn : Bool) {addr addr2 : Nat → Nat} {h : Heap} (ha : Allocator addr h) (ops ops2 : List BuildOp)
    (hlen : ∀ t, BuildOp.add t ∈ ops → t.length < 2 ^ 62) {bs : List Bool} {s : Draft} (hrun : ({} : Draft).run ops = some (bs, s))
    {bs' : List Bool} {h1 : Heap} {d1 : SDawg} (he : Ends (fun fuel => anyOrderRun sgn addr fuel ops h) (bs', h1, d1))
    (ha2 : Allocator addr2 h1)
    (hbad : ∀ bs2 s2, (⟨s.prev, [], [], s.size⟩ : Draft).run ops2 = some (bs2, s2) → StillNeeded s.words (firsts s2.words)) :
    ∃ N, ∀ fuel, N ≤ fuel → secondRun sgn addr2 fuel ops2 h1 d1 = .error .ub := by
  obtain ⟨o, hf, hp, hprev, hsize, _⟩ := first_settled sgn ha ops hlen hrun he
  obtain ⟨i1, i2⟩ := settled_second hf ha2 hp.root ops2
  rw [hprev, hsize] at i1 i2
  cases hr : (⟨s.prev, [], [], s.size⟩ : Draft).run ops2 with
  | none => exact i1 hr
  | some r => exact (i2 r.1 r.2 hr).1 (hp.shared_iff.2 (hbad r.1 r.2 hr))

/-- C109: otherwise all calls return, and of the old words exactly those are left that begin with a letter that no new word begins
with. -/
theorem c109_words (sgn : Bool) {addr addr2 : Nat → Nat} {h : Heap} (ha : Allocator addr h) (ops ops2 : List BuildOp)
    (hlen : ∀ t, BuildOp.add t ∈ ops → t.length < 2 ^ 62) {bs : List Bool} {s : Draft} (hrun : ({} : Draft).run ops = some (bs, s))
    {bs' : List Bool} {h1 : Heap} {d1 : SDawg} (he : Ends (fun fuel => anyOrderRun sgn addr fuel ops h) (bs', h1, d1))
    (ha2 : Allocator addr2 h1) {bs2 : List Bool} {s2 : Draft}
    (hrun2 : (⟨s.prev, [], [], s.size⟩ : Draft).run ops2 = some (bs2, s2)) (hn : ¬ StillNeeded s.words (firsts s2.words)) :
    ∃ h2 d2, Ends (fun fuel => secondRun sgn addr2 fuel ops2 h1 d1) (bs2, h2, d2) ∧ d2.size = s2.size ∧
      (∀ t, Accepts h2.mem d2.root t ↔ t ∈ s2.words ∨ t ∈ s.words ∧ ∀ c, t.head? = some c → ¬ firsts s2.words c) ∧
      ((∀ t, Accepts h2.mem d2.root t → t.length < 2 ^ 62) → Dictionary sgn h2.mem d2.root) ∧
      ∃ h3, Ends (fun fuel => destroyDawg fuel h2 d2) h3 ∧
        ((∀ a, h3.mem a = h.mem a) ↔ ¬ GoneAstray s.words (firsts s2.words)) ∧
        ∀ a, h.mem a ≠ none → h3.mem a = h.mem a := by
  obtain ⟨o, hf, hp, hprev, hsize, _⟩ := first_settled sgn ha ops hlen hrun he
  obtain ⟨_, i2⟩ := settled_second hf ha2 hp.root ops2
  rw [hprev, hsize] at i2
  obtain ⟨h2, d2, e1, e2, e3, e4, e5, e6, _⟩ := (i2 bs2 s2 hrun2).2 (fun h' => hn (hp.shared_iff.1 h'))
  obtain ⟨h3, e7, e8⟩ := e6.destroy
  have hown : ∀ a, Astray h1.mem o (firsts s2.words) a → h1.mem a ≠ none ∧ h.mem a = none := by
    rintro a ⟨⟨c, b, h4, h5⟩, _⟩
    have hr : Reaches h1.mem d1.root a := .step hp.root h4 h5
    obtain ⟨_, _, _, _, _, _, hd⟩ := hf.dict
    obtain ⟨n, h6, _⟩ := DictNode.closed hd a hr
    exact ⟨by rw [h6]; simp, hf.own a hr⟩
  refine ⟨h2, d2, e1, e4, e6.accepts, fun hb => e6.dictionary fun t ht => hb t ((e6.accepts t).2 ht), h3, e7, ?_, ?_⟩
  · rw [← hp.astray_iff (C := firsts s2.words)]
    constructor
    · rintro h4 ⟨a, h5⟩
      have h6 := h4 a
      rw [e8] at h6
      simp only [withAstray, h5, if_true] at h6
      exact (hown a h5).1 (h6.trans (hown a h5).2)
    · intro h4 a
      rw [e8]
      simp only [withAstray]
      rw [if_neg fun h5 => h4 ⟨a, h5⟩]
  · intro a h4
    rw [e8]
    simp only [withAstray]
    rw [if_neg fun h5 => h4 (hown a h5).2]

/-- C109: the second construction is defined exactly if it overwrites no edge that it has made itself and no node behind an
overwritten edge of the old root is still needed. -/
theorem c109_defined_iff (sgn : Bool) {addr addr2 : Nat → Nat} {h : Heap} (ha : Allocator addr h) (ops ops2 : List BuildOp)
    (hlen : ∀ t, BuildOp.add t ∈ ops → t.length < 2 ^ 62) {bs : List Bool} {s : Draft} (hrun : ({} : Draft).run ops = some (bs, s))
    {bs' : List Bool} {h1 : Heap} {d1 : SDawg} (he : Ends (fun fuel => anyOrderRun sgn addr fuel ops h) (bs', h1, d1))
    (ha2 : Allocator addr2 h1) :
    (∃ r, Ends (fun fuel => secondRun sgn addr2 fuel ops2 h1 d1) r) ↔
      ∃ bs2 s2, (⟨s.prev, [], [], s.size⟩ : Draft).run ops2 = some (bs2, s2) ∧ ¬ StillNeeded s.words (firsts s2.words) := by
  constructor
  · rintro ⟨r, N, hN⟩
    refine Classical.byContradiction fun hno => ?_
    obtain ⟨N', hN'⟩ := c109_undefined sgn ha ops ops2 hlen hrun he ha2 (fun bs2 s2 hr => Classical.byContradiction fun hs =>
      hno ⟨bs2, s2, hr, hs⟩)
    have h1 := hN (max N N') (by omega)
    have h2 := hN' (max N N') (by omega)
    simp only at h1
    rw [h1] at h2
    cases h2
  · rintro ⟨bs2, s2, hr, hn⟩
    obtain ⟨h2, d2, e, _⟩ := c109_words sgn ha ops ops2 hlen hrun he ha2 hr hn
    exact ⟨_, e⟩

/-- C109: words are lost without notice: the old word is gone exactly if a new word begins with its first letter, unless it is
among the new words. -/
theorem c109_lost (sgn : Bool) {addr addr2 : Nat → Nat} {h : Heap} (ha : Allocator addr h) (ops ops2 : List BuildOp)
    (hlen : ∀ t, BuildOp.add t ∈ ops → t.length < 2 ^ 62) {bs : List Bool} {s : Draft} (hrun : ({} : Draft).run ops = some (bs, s))
    {bs' : List Bool} {h1 : Heap} {d1 : SDawg} (he : Ends (fun fuel => anyOrderRun sgn addr fuel ops h) (bs', h1, d1))
    (ha2 : Allocator addr2 h1) {bs2 : List Bool} {s2 : Draft}
    (hrun2 : (⟨s.prev, [], [], s.size⟩ : Draft).run ops2 = some (bs2, s2))
    {r : List Bool × Heap × SDawg} (he2 : Ends (fun fuel => secondRun sgn addr2 fuel ops2 h1 d1) r) (t : Str) (ht : t ∈ s.words) :
    ¬ Accepts r.2.1.mem r.2.2.root t ↔ t ∉ s2.words ∧ ∃ c u, t = c :: u ∧ firsts s2.words c := by
  have hn : ¬ StillNeeded s.words (firsts s2.words) := by
    obtain ⟨bs3, s3, h3, h4⟩ := (c109_defined_iff sgn ha ops ops2 hlen hrun he ha2).1 ⟨r, he2⟩
    rw [hrun2] at h3; cases h3; exact h4
  obtain ⟨h2, d2, e1, _, e3, _⟩ := c109_words sgn ha ops ops2 hlen hrun he ha2 hrun2 hn
  cases e1.unique he2
  simp only
  rw [e3]
  cases t with
  | nil => simp [ht]
  | cons c u =>
    simp only [List.head?_cons, Option.some.injEq, ht, true_and, not_or]
    constructor
    · rintro ⟨h5, h6⟩
      exact ⟨h5, c, u, rfl, Classical.byContradiction fun h7 => h6 fun c' hc => hc ▸ h7⟩
    · rintro ⟨h5, c', u', h6, h7⟩
      cases h6
      exact ⟨h5, fun h8 => h8 c rfl h7⟩

/-- C109: the old words are all there afterwards if no new word begins with a letter that an old word begins with. -/
theorem c109_apart {W ws : List Str} (hap : ∀ c, firsts ws c → ¬ firsts W c) :
    ¬ StillNeeded W (firsts ws) ∧ ¬ GoneAstray W (firsts ws) := by
  constructor
  · rintro ⟨c, p, h1, ⟨u, h2⟩, _⟩
    exact hap c h1 ⟨u, h2⟩
  · rintro ⟨p, ⟨v, h1⟩, ⟨c, u, rfl, h2⟩, _⟩
    exact hap c h2 ⟨u ++ v, h1⟩

/-! ### Examples -/

/-- `ba`, then `bb`: `bb` is put into the dictionary as `b`, and `ba` is gone. -/
example : (({} : Draft).run [.add [98, 97]]).map (fun r => (r.2.words, r.2.prev, r.2.size)) = some ([[98, 97]], [98, 97], 1) ∧
    ((⟨[98, 97], [], [], 1⟩ : Draft).run [.add [98, 98]]).map (fun r => (r.1, r.2.words, r.2.size)) = some ([true], [[98]], 2) := by
  decide

theorem ba_begins {p : Str} (h : Begins [[98, 97]] p) : p = [] ∨ p = [98] ∨ p = [98, 97] := by
  obtain ⟨u, hu⟩ := h
  simp only [List.mem_singleton] at hu
  match p, hu with
  | [], _ => exact .inl rfl
  | [c], hu => simp at hu; exact .inr (.inl (by rw [hu.1]))
  | [c, c'], hu => simp at hu; exact .inr (.inr (by rw [hu.1, hu.2.1]))
  | c :: c' :: c'' :: p, hu => simp at hu

/-- Nothing that is overwritten is needed, but the node behind `ba` is never freed. -/
example : ¬ StillNeeded [[98, 97]] (firsts [[98]]) ∧ GoneAstray [[98, 97]] (firsts [[98]]) := by
  have hb : firsts [[98]] 98 := ⟨[], by simp⟩
  constructor
  · rintro ⟨c, p, ⟨u, h1⟩, _, h3, h4, _, h6⟩
    obtain rfl : c = 98 := by simp at h1; exact h1.1
    rcases ba_begins h3 with rfl | rfl | rfl
    · rcases h6 with ⟨_, h, _⟩ | ⟨_, _, h, _⟩ <;> cases h
    · exact h4 rfl
    · rcases h6 with ⟨_, h, _⟩ | ⟨_, _, h, h'⟩
      · cases h
      · cases h; exact h' hb
  · refine ⟨[98, 97], ⟨[], by simp⟩, ⟨98, [97], rfl, hb⟩, fun q hq hs => ?_⟩
    have := hs []
    rcases ba_begins hq with rfl | rfl | rfl
    · simp at this
    · simp at this
    · refine ⟨?_, ?_⟩
      · rintro ⟨_, h, _⟩; cases h
      · rintro ⟨_, _, h, h'⟩; cases h; exact h' hb

/-- `a` and `b`, then `bb`: the node that the overwritten `b` leads to is the one that `a` leads to. -/
example : StillNeeded [[97], [98]] (firsts [[98]]) := by
  refine ⟨98, [97], ⟨[], by simp⟩, ⟨[], by simp⟩, ⟨[], by simp⟩, by decide, fun u => ?_, .inr ⟨97, [], rfl, ?_⟩⟩
  · simp
  · rintro ⟨u, hu⟩; simp at hu

/-- The same in the program, with its own memory. -/
example : ((anyOrderRun true (fun k => k + 1) 100 [.add [98, 97]] exHeap).bind (fun r =>
      secondRun true (fun k => k + 1) 100 [.add [98, 98]] r.2.1 r.2.2)).map (fun r =>
      (r.1, r.2.2.size, [[98, 97], [98, 98], [98]].map (containsTerm r.2.1.mem r.2.2.root))) =
    .ok ([true], 2, [.ok false, .ok false, .ok true]) := by decide +kernel

example : ((anyOrderRun true (fun k => k + 1) 100 [.add [97], .add [98]] exHeap).bind (fun r =>
      secondRun true (fun k => k + 1) 100 [.add [98, 98]] r.2.1 r.2.2)).map (fun r => r.1) = .error .ub := by decide +kernel

/-- The old words stay if the new ones begin with other letters. -/
example : ∀ c, firsts [[99, 97], [100]] c → ¬ firsts [[97], [98, 97]] c := by
  rintro c ⟨u, hu⟩ ⟨v, hv⟩
  simp at hu hv
  rcases hu with ⟨rfl, _⟩ | ⟨rfl, _⟩ <;> simp at hv

end Lev.Props
