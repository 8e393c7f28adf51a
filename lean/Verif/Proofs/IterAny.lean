import Verif.Proofs.Iter
import Verif.Proofs.WordNodes
import Verif.Props.SerialGraph
import Verif.Props.Iter

/-!
# Iterating over any graph

The graph may have cycles, and edges to places where there is no node.  The iterator looks at the strings that can be read
from the root in the order of their lengths, those of the same length in the order of `char`.
-/

namespace Lev

open Spec Props

/-! ### The order of strings -/

theorem lex_trans {sgn : Bool} {s t u : Str} (h : List.Lex (charLt sgn) s t) (h' : List.Lex (charLt sgn) t u) :
    List.Lex (charLt sgn) s u := by
  induction h generalizing u with
  | nil => cases h' <;> exact .nil
  | rel h =>
    cases h' with
    | rel h' => exact .rel (charLt_trans h h')
    | cons _ => exact .rel h
  | cons _ ih =>
    cases h' with
    | rel h' => exact .rel h'
    | cons h' => exact .cons (ih h')

theorem shortLex_trans {sgn : Bool} {s t u : Str} (h : shortLex sgn s t) (h' : shortLex sgn t u) : shortLex sgn s u := by
  rcases h with h | ⟨h1, h2⟩ <;> rcases h' with h' | ⟨h1', h2'⟩
  · exact .inl (by omega)
  · exact .inl (by omega)
  · exact .inl (by omega)
  · exact .inr ⟨by omega, lex_trans h2 h2'⟩

theorem shortLex_prefix {sgn : Bool} {s t : Str} (h : s <+: t) : s = t ∨ shortLex sgn s t := by
  rcases Nat.lt_or_ge s.length t.length with hl | hl
  · exact .inr (.inl hl)
  · exact .inl (h.eq_of_length_le hl)

theorem shortLex_length {sgn : Bool} {s t : Str} (h : shortLex sgn s t) : s.length ≤ t.length := by
  rcases h with h | ⟨h, _⟩ <;> omega

/-- All strings of at most `n` characters. -/
def allWords : Nat → List Str
  | 0 => [[]]
  | n + 1 => [] :: (allBytes false).flatMap fun c => (allWords n).map (c :: ·)

theorem mem_allWords {w : Str} {n : Nat} (h : w.length ≤ n) : w ∈ allWords n := by
  induction n generalizing w with
  | zero => rw [List.length_eq_zero_iff.1 (Nat.le_zero.1 h)]; simp [allWords]
  | succ n ih =>
    cases w with
    | nil => simp [allWords]
    | cons c w =>
      refine List.mem_cons_of_mem _ (List.mem_flatMap.2 ⟨c, mem_allBytes false c, List.mem_map.2 ⟨w, ih ?_, rfl⟩⟩)
      simpa using h

/-! ### Reading from the root -/

section
variable {sgn : Bool} {mem : Mem} {root : Nat}

/-- Where edges are sorted, a string leads to one place. -/
theorem leads_one (hs : EdgesSorted sgn mem root) {w : Str} {a b : Nat} (h : Leads mem root w a) (h' : Leads mem root w b) :
    a = b := by
  induction h generalizing b with
  | here =>
    generalize hw : ([] : Str) = u at h'
    cases h' with
    | here => rfl
    | snoc => simp at hw
  | @snoc w x nd c d hl hm he ih =>
    obtain ⟨y, nd', h1, h2, h3⟩ := leads_snoc_inv h'
    obtain rfl := ih h1
    rw [hm] at h2
    cases h2
    exact sorted_edge_unique (hs x nd hl.toReaches hm) he h3

theorem leads_prefix {u v : Str} {b : Nat} (h : Leads mem root (u ++ v) b) : ∃ a, Leads mem root u a := by
  generalize hw : u ++ v = w at h
  induction h generalizing v with
  | here => simp at hw; rw [hw.1]; exact ⟨_, .here⟩
  | @snoc w x nd c d hl hm he ih =>
    rcases List.eq_nil_or_concat v with rfl | ⟨v', c', rfl⟩
    · simp only [List.append_nil] at hw
      rw [hw]; exact ⟨_, .snoc hl hm he⟩
    · simp only [List.concat_eq_append, ← List.append_assoc] at hw
      exact ih (List.append_inj_left' hw rfl)

theorem leads_accepts (hs : EdgesSorted sgn mem root) {w : Str} {a : Nat} {nd : DNode} (h : Leads mem root w a)
    (hm : mem a = some nd) : Accepts mem root w ↔ nd.final = true := by
  constructor
  · intro ha
    have := accepts_after hs h (u := []) (by simpa using ha)
    cases this with
    | here hm' hf => rw [hm] at hm'; cases hm'; exact hf
  · intro hf
    simpa using h.accepts (.here hm hf)

theorem accepts_leads {w : Str} (h : Accepts mem root w) : ∃ b, Leads mem root w b :=
  leads_of_accepts (u := []) (by simpa using h)

/-- Where a string of the language leads, there is a node. -/
theorem accepts_alive (hs : EdgesSorted sgn mem root) {w : Str} {b : Nat} (h : Accepts mem root w) (hl : Leads mem root w b) :
    mem b ≠ none := by
  have := accepts_after hs hl (u := []) (by simpa using h)
  cases this with
  | here hm => rw [hm]; simp

/-! ### The walk -/

/-- The iterator has looked at the nodes to which the strings `V` lead, the terms among which are `T`, and the places to which
the strings in `Q` lead are next. -/
structure Bfs (sgn : Bool) (mem : Mem) (root : Nat) (V T : List Str) (Q : List (Str × Nat)) : Prop where
  sorted : (V ++ Q.map (·.1)).Pairwise (shortLex sgn)
  parent : ∀ w c, w ++ [c] ∈ V ++ Q.map (·.1) → w ∈ V
  leads : ∀ x ∈ Q, Leads mem root x.1 x.2
  seen : ∀ w ∈ V, ∃ a nd, Leads mem root w a ∧ mem a = some nd
  cover : ∀ w b, Leads mem root w b → w ∈ V ∨ ∃ x ∈ Q, x.1 <+: w
  terms : T.Sublist V
  final : ∀ w ∈ V, (w ∈ T ↔ Accepts mem root w)

theorem Bfs.start : Bfs sgn mem root [] [] [([], root)] where
  sorted := by simp
  parent := by simp
  leads := by simp only [List.mem_singleton]; rintro x rfl; exact .here
  seen := by simp
  cover := fun w b _ => .inr ⟨_, List.mem_singleton.2 rfl, List.nil_prefix⟩
  terms := List.Sublist.refl _
  final := by simp

variable {V T : List Str} {Q : List (Str × Nat)}

theorem Bfs.step (hs : EdgesSorted sgn mem root) {p : Str} {a : Nat} {rest : List (Str × Nat)} {nd : DNode}
    (hb : Bfs sgn mem root V T ((p, a) :: rest)) (hm : mem a = some nd) :
    Bfs sgn mem root (V ++ [p]) (if nd.final then T ++ [p] else T) (rest ++ nd.edges.map fun e => (p ++ [e.1], e.2)) := by
  have hl := hb.leads _ (List.mem_cons_self ..)
  simp only at hl
  have hso := hb.sorted
  simp only [List.map_cons] at hso
  have hV : ∀ u ∈ V, shortLex sgn u p := fun u hu => (List.pairwise_append.1 hso).2.2 u hu p (by simp)
  have hR : ∀ u ∈ rest.map (·.1), shortLex sgn p u := (List.pairwise_cons.1 (List.pairwise_append.1 hso).2.1).1
  have hpV : p ∉ V := fun h => shortLex_irrefl (hV p h)
  refine ⟨?_, ?_, ?_, ?_, ?_, ?_, ?_⟩
  · rw [List.map_append, show V ++ [p] ++ (rest.map (·.1) ++ (nd.edges.map fun e => (p ++ [e.1], e.2)).map (·.1)) =
      (V ++ p :: rest.map (·.1)) ++ (nd.edges.map fun e => (p ++ [e.1], e.2)).map (·.1) by simp, List.pairwise_append]
    refine ⟨hso, ?_, ?_⟩
    · rw [List.map_map, List.pairwise_map]
      refine (hs a nd hl.toReaches hm).imp fun {e f} hef => .inr ⟨by simp, ?_⟩
      exact lex_append_left p (.rel hef)
    · intro u hu x hx
      simp only [List.map_map, List.mem_map, Function.comp] at hx
      obtain ⟨e, _, rfl⟩ := hx
      rcases List.mem_append.1 hu with hu | hu
      · have := shortLex_length (hV u hu)
        exact .inl (by simp; omega)
      · rcases List.mem_cons.1 hu with rfl | hu
        · exact .inl (by simp)
        · have hpu := hR u hu
          rcases List.eq_nil_or_concat u with rfl | ⟨u', c, rfl⟩
          · rcases hpu with h | ⟨_, h⟩
            · simp at h
            · cases h
          · rw [List.concat_eq_append] at hu hpu ⊢
            have hu' := hV u' (hb.parent u' c (by simp at hu ⊢; exact .inr (.inr hu)))
            rcases hu' with h | ⟨h1, h2⟩
            · exact .inl (by simp; omega)
            · exact .inr ⟨by simp [h1], lex_extend h1 h2 _ _⟩
  · intro w c hw
    simp only [List.map_append, List.map_map, List.mem_append, List.mem_map, Function.comp, List.mem_singleton] at hw
    rcases hw with (hw | hw) | (⟨x, hx, hw⟩ | ⟨e, _, hw⟩)
    · exact List.mem_append_left _ (hb.parent w c (by simp [hw]))
    · exact List.mem_append_left _ (hb.parent w c (by simp [hw]))
    · exact List.mem_append_left _ (hb.parent w c (by
        rw [← hw]; simp only [List.mem_append, List.map_cons, List.mem_cons, List.mem_map]
        exact .inr (.inr ⟨x, hx, rfl⟩)))
    · exact List.mem_append_right _ (by simp [List.append_inj_left' hw rfl])
  · intro x hx
    rcases List.mem_append.1 hx with hx | hx
    · exact hb.leads x (List.mem_cons_of_mem _ hx)
    · obtain ⟨e, he, rfl⟩ := List.mem_map.1 hx
      exact .snoc hl hm he
  · intro w hw
    rcases List.mem_append.1 hw with hw | hw
    · exact hb.seen w hw
    · rw [List.mem_singleton.1 hw]; exact ⟨a, nd, hl, hm⟩
  · intro w b hw
    rcases hb.cover w b hw with h | ⟨x, hx, hp⟩
    · exact .inl (List.mem_append_left _ h)
    · rcases List.mem_cons.1 hx with rfl | hx
      · obtain ⟨v, rfl⟩ := hp
        simp only at hw ⊢
        cases v with
        | nil => exact .inl (by simp)
        | cons c v =>
          obtain ⟨d, hd⟩ := leads_prefix (u := p ++ [c]) (v := v) (by simpa using hw)
          obtain ⟨y, nd', h1, h2, h3⟩ := leads_snoc_inv hd
          obtain rfl := leads_one hs hl h1
          rw [hm] at h2
          cases h2
          exact .inr ⟨(p ++ [c], d), List.mem_append_right _ (List.mem_map.2 ⟨(c, d), h3, rfl⟩), ⟨v, by simp⟩⟩
      · exact .inr ⟨x, List.mem_append_left _ hx, hp⟩
  · split
    · exact hb.terms.append (List.Sublist.refl _)
    · exact hb.terms.trans (List.sublist_append_left _ _)
  · intro w hw
    have hacc := leads_accepts hs hl hm
    have hpT : p ∉ T := fun h => hpV (hb.terms.subset h)
    rcases List.mem_append.1 hw with hw' | hw'
    · have hwp : w ≠ p := fun h => hpV (h ▸ hw')
      rw [← hb.final w hw']
      split <;> simp [hwp]
    · rw [List.mem_singleton.1 hw', hacc]
      split <;> simp_all

/-- What has not been looked at comes after all that has. -/
theorem Bfs.before (hb : Bfs sgn mem root V T Q) {w : Str} {b : Nat} (hl : Leads mem root w b) (hw : w ∉ V) :
    ∀ u ∈ V, shortLex sgn u w := by
  intro u hu
  rcases hb.cover w b hl with h | ⟨x, hx, hp⟩
  · exact absurd h hw
  · have h1 := (List.pairwise_append.1 hb.sorted).2.2 u hu x.1 (List.mem_map.2 ⟨x, hx, rfl⟩)
    rcases shortLex_prefix (sgn := sgn) hp with h | h
    · rw [← h]; exact h1
    · exact shortLex_trans h1 h

/-- What can be read and comes before something that has been looked at has been looked at. -/
theorem Bfs.closed (hb : Bfs sgn mem root V T Q) {u w : Str} {b : Nat} (hw : w ∈ V) (hl : Leads mem root u b)
    (hu : shortLex sgn u w) : u ∈ V :=
  Classical.byContradiction fun h => shortLex_asymm hu (hb.before hl h w hw)

theorem Bfs.nodup (hb : Bfs sgn mem root V T Q) : V.Nodup := nodup_of_shortLex (List.pairwise_append.1 hb.sorted).1

/-- Before a string that can be read, the iterator looks at boundedly many others. -/
theorem Bfs.bounded (hb : Bfs sgn mem root V T Q) {w : Str} {b : Nat} (hl : Leads mem root w b) (hw : w ∉ V) :
    V.length ≤ (allWords w.length).length :=
  hb.nodup.length_le_of_subset fun u hu => mem_allWords (shortLex_length (hb.before hl hw u hu))

/-- The string that is next comes before all others that have not been looked at. -/
theorem Bfs.next {p : Str} {a : Nat} {rest : List (Str × Nat)} (hb : Bfs sgn mem root V T ((p, a) :: rest)) {w : Str} {b : Nat}
    (hl : Leads mem root w b) (hw : w ∉ V) : w = p ∨ shortLex sgn p w := by
  rcases hb.cover w b hl with h | ⟨x, hx, hp⟩
  · exact absurd h hw
  · have hpx : p = x.1 ∨ shortLex sgn p x.1 := by
      rcases List.mem_cons.1 hx with rfl | hx
      · exact .inl rfl
      · exact .inr ((List.pairwise_cons.1 (List.pairwise_append.1 hb.sorted).2.1).1 _ (List.mem_map.2 ⟨x, hx, rfl⟩))
    rcases shortLex_prefix (sgn := sgn) hp with h | h <;> rcases hpx with h' | h'
    · exact .inl (h'.trans h).symm
    · rw [← h]; exact .inr h'
    · rw [h']; exact .inr h
    · exact .inr (shortLex_trans h' h)

/-- The beginnings of a string that is next have all been looked at. -/
theorem Bfs.deep (hb : Bfs sgn mem root V T Q) {w : Str} (hw : w ∈ V ++ Q.map (·.1)) : w.length ≤ V.length := by
  have key : ∀ n, n < w.length → w.take n ∈ V := by
    intro n
    induction h : w.length - n generalizing n with
    | zero => intro h'; omega
    | succ m ih =>
      intro hn
      have hmem : w.take (n + 1) ∈ V ++ Q.map (·.1) := by
        by_cases hn' : n + 1 < w.length
        · exact List.mem_append_left _ (ih (n + 1) (by omega) hn')
        · rw [List.take_of_length_le (by omega)]; exact hw
      rw [← List.take_append_getElem hn] at hmem
      exact hb.parent _ _ hmem
  have hn : ((List.range w.length).map fun n => w.take n).Nodup := by
    refine List.pairwise_map.2 (List.Pairwise.imp_of_mem ?_ List.nodup_range)
    intro x y hx hy hne he
    have := congrArg List.length he
    simp only [List.mem_range] at hx hy
    simp at this
    omega
  have := hn.length_le_of_subset (l₂ := V) fun u hu => by
    obtain ⟨n, h1, rfl⟩ := List.mem_map.1 hu
    exact key n (List.mem_range.1 h1)
  simpa using this

end

/-! ### What the iterator does -/

theorem Spells.short {m : PMem} {a : Nat} {s : Str} (h : Spells m a s) {fuel : Nat} (hf : fuel ≤ s.length) :
    prefixStr m fuel a = .error .diverge := by
  induction h generalizing fuel with
  | root =>
    rw [show fuel = 0 by simpa using hf]; rfl
  | @child a p s h1 h2 _ ih =>
    cases fuel with
    | zero => rfl
    | succ fuel =>
      simp only [List.length_append, List.length_singleton] at hf
      simp only [prefixStr, h1, h2, if_false, bind, Except.bind, ih (fuel := fuel) (by omega)]

/-- The prefix at `a` stands for the string and the place to which it leads. -/
def WRel (pm : PMem) (a : Nat) (x : Str × Nat) : Prop := ∃ p, pm a = some p ∧ p.node = x.2 ∧ Spells pm a x.1

theorem WRel.mono {m m' : PMem} (hle : ∀ a p, m a = some p → m' a = some p) {a : Nat} {x : Str × Nat} (h : WRel m a x) :
    WRel m' a x := by
  obtain ⟨p, h1, h2, h3⟩ := h
  exact ⟨p, hle _ _ h1, h2, h3.mono hle⟩

theorem pushEdges_any {paddr : Nat → Nat} {c0 : Nat} {m0 : PMem} {parent : Nat} {path : Str} (es : List (UInt8 × Nat))
    {h : PHeap} {it : DIter} (ho : PHeapOk paddr c0 m0 h it.prefixes) {Q : List (Str × Nat)}
    (hp : AllPairs (WRel h.mem) it.pending Q) (hpar : parent ≠ 0) (hs : Spells h.mem parent path) :
    ∃ h' it', pushEdges paddr parent es h it = (h', it') ∧ PHeapOk paddr c0 m0 h' it'.prefixes ∧
      (∀ a p, h.mem a = some p → h'.mem a = some p) ∧ it'.value = it.value ∧ it'.index = it.index ∧
      AllPairs (WRel h'.mem) it'.pending (Q ++ es.map fun e => (path ++ [e.1], e.2)) ∧
      it'.prefixes.length = it.prefixes.length + es.length := by
  induction es generalizing h it Q with
  | nil => exact ⟨h, it, rfl, ho, fun _ _ h => h, rfl, rfl, by simpa using hp, rfl⟩
  | cons e es ih =>
    obtain ⟨l, a⟩ := e
    have hle := newPrefix_le (ho.fresh _ (Nat.le_refl _)) ⟨a, parent, l⟩
    have hself : (newPrefix paddr ⟨a, parent, l⟩ h).2.mem (newPrefix paddr ⟨a, parent, l⟩ h).1 = some ⟨a, parent, l⟩ := by
      simp [newPrefix]
    have hnew : WRel (newPrefix paddr ⟨a, parent, l⟩ h).2.mem (newPrefix paddr ⟨a, parent, l⟩ h).1 (path ++ [l], a) :=
      ⟨⟨a, parent, l⟩, hself, rfl, .child (p := ⟨a, parent, l⟩) hself hpar (hs.mono hle)⟩
    obtain ⟨h', it', e1, e2, e3, e4, e5, e6, e7⟩ := ih
      (h := (newPrefix paddr ⟨a, parent, l⟩ h).2)
      (it := { it with prefixes := it.prefixes ++ [(newPrefix paddr ⟨a, parent, l⟩ h).1],
                       pending := it.pending ++ [(newPrefix paddr ⟨a, parent, l⟩ h).1] })
      (Q := Q ++ [(path ++ [l], a)]) (ho.new _)
      ((hp.imp fun _ _ hr => hr.mono hle).append (.cons hnew .nil)) (hs.mono hle)
    refine ⟨h', it', e1, e2, fun x p hx => e3 x p (hle x p hx), e4, e5, by simpa using e6, ?_⟩
    simp only [List.length_append, List.length_cons, List.length_nil] at e7 ⊢
    omega

section
variable {sgn : Bool} {mem : Mem} {root : Nat} {paddr : Nat → Nat} {c0 : Nat} {m0 : PMem}

/-- How the loop of `advance` comes out if the terms before were `T`. -/
inductive LoopOut (sgn : Bool) (mem : Mem) (root : Nat) (paddr : Nat → Nat) (c0 : Nat) (m0 : PMem) (T : List Str) (bound : Nat)
    (it : DIter) : Except Err (PHeap × DIter × Nat × Bool) → Prop
  | loops {V : List Str} {Q : List (Str × Nat)} : Bfs sgn mem root V T Q → Q ≠ [] → bound ≤ V.length →
      LoopOut sgn mem root paddr c0 m0 T bound it (.error .diverge)
  | missing {V : List Str} {p : Str} {a : Nat} {rest : List (Str × Nat)} : Bfs sgn mem root V T ((p, a) :: rest) →
      mem a = none → LoopOut sgn mem root paddr c0 m0 T bound it (.error .ub)
  | found {V : List Str} {p : Str} {a x : Nat} {rest Q : List (Str × Nat)} {h' : PHeap} {it' : DIter} :
      Bfs sgn mem root V T ((p, a) :: rest) → Bfs sgn mem root (V ++ [p]) (T ++ [p]) Q →
      PHeapOk paddr c0 m0 h' it'.prefixes → AllPairs (WRel h'.mem) it'.pending Q → Spells h'.mem x p →
      it'.index = it.index → it'.prefixes.length = V.length + 1 + Q.length → V.length + 1 ≤ bound →
      LoopOut sgn mem root paddr c0 m0 T bound it (.ok (h', it', x, true))
  | none {V : List Str} {x : Nat} {h' : PHeap} {it' : DIter} : Bfs sgn mem root V T [] →
      PHeapOk paddr c0 m0 h' it'.prefixes → it'.pending = [] → it'.index = it.index → it'.value = it.value →
      it'.prefixes.length = V.length → V.length ≤ bound →
      LoopOut sgn mem root paddr c0 m0 T bound it (.ok (h', it', x, false))

theorem iterLoop_any (hs : EdgesSorted sgn mem root) (fuel : Nat) {h : PHeap} {it : DIter} {V T : List Str}
    {Q : List (Str × Nat)} (hb : Bfs sgn mem root V T Q) (hne : Q ≠ []) (ho : PHeapOk paddr c0 m0 h it.prefixes)
    (hp : AllPairs (WRel h.mem) it.pending Q) (hh : it.prefixes.length = V.length + Q.length) :
    LoopOut sgn mem root paddr c0 m0 T (V.length + fuel) it (iterLoop mem paddr fuel h it) := by
  induction fuel generalizing h it V Q with
  | zero => exact .loops hb hne (Nat.le_refl _)
  | succ fuel ih =>
    generalize hpend : it.pending = pend at hp
    cases hp with
    | nil => exact absurd rfl hne
    | @cons x y prest rest hx hrest =>
      obtain ⟨w, a⟩ := y
      obtain ⟨p, h1, h2, h3⟩ := hx
      simp only at h2 h3
      have hx0 : x ≠ 0 := by rintro rfl; rw [ho.null] at h1; cases h1
      cases hm : mem a with
      | none =>
        have : iterLoop mem paddr (fuel + 1) h it = .error .ub := by
          simp only [iterLoop, hpend, h1, deref, h2, hm, bind, Except.bind]
        rw [this]
        exact .missing hb hm
      | some nd =>
        obtain ⟨h', it', e1, e2, e3, e4, e5, e6, e7⟩ := pushEdges_any nd.edges (it := { it with pending := prest }) ho hrest hx0 h3
        simp only at e7
        have hh' : it'.prefixes.length = (V ++ [w]).length + (rest ++ nd.edges.map fun e => (w ++ [e.1], e.2)).length := by
          simp only [List.length_append, List.length_cons, List.length_nil, List.length_map] at hh ⊢
          omega
        have hb' := hb.step hs hm
        have hstep : iterLoop mem paddr (fuel + 1) h it =
            if nd.final = false ∧ it'.pending ≠ [] then iterLoop mem paddr fuel h' it' else .ok (h', it', x, nd.final) := by
          simp only [iterLoop, hpend, h1, deref, h2, hm, bind, Except.bind, e1]
        rw [hstep]
        cases hfin : nd.final with
        | true =>
          simp only [hfin, if_true] at hb'
          rw [if_neg (by simp)]
          exact .found hb hb' e2 e6 (h3.mono e3) e5 (by simpa using hh') (by omega)
        | false =>
          simp only [hfin, Bool.false_eq_true, if_false] at hb'
          by_cases hq : it'.pending = []
          · rw [if_neg (fun hc => hc.2 hq)]
            have hn := (AllPairs.nil_iff e6).1 hq
            rw [hn] at hb' hh'
            exact .none hb' e2 hq e5 e4 (by simpa using hh') (by simp only [List.length_append, List.length_singleton]; omega)
          · rw [if_pos ⟨rfl, hq⟩]
            have := ih hb' (fun hn => hq ((AllPairs.nil_iff e6).2 hn)) e2 e6 hh'
            rw [show (V ++ [w]).length + fuel = V.length + (fuel + 1) by simp; omega] at this
            generalize iterLoop mem paddr fuel h' it' = r at this
            cases this with
            | loops g1 g2 g3 => exact .loops g1 g2 g3
            | missing g1 g2 => exact .missing g1 g2
            | found g1 g2 g3 g4 g5 g6 g7 g8 => exact .found g1 g2 g3 g4 g5 (g6.trans e5) g7 g8
            | none g1 g2 g3 g4 g5 g6 g7 => exact .none g1 g2 g3 (g4.trans e5) (g5.trans e4) g6 g7

/-- How an iterator comes out that is to have index `i`, if terms are delivered up to the `k`-th. -/
inductive IterOut (sgn : Bool) (mem : Mem) (root : Nat) (paddr : Nat → Nat) (c0 : Nat) (m0 : PMem) (k i fuel lim : Nat) :
    Except Err (PHeap × DIter) → Prop
  | loops {V T : List Str} {Q : List (Str × Nat)} : Bfs sgn mem root V T Q → T.length ≤ k → Q ≠ [] → fuel ≤ V.length →
      IterOut sgn mem root paddr c0 m0 k i fuel lim (.error .diverge)
  | missing {V T : List Str} {p : Str} {a : Nat} {rest : List (Str × Nat)} : Bfs sgn mem root V T ((p, a) :: rest) →
      T.length ≤ k → mem a = none → IterOut sgn mem root paddr c0 m0 k i fuel lim (.error .ub)
  | found {V T : List Str} {p : Str} {Q : List (Str × Nat)} {h' : PHeap} {it' : DIter} :
      Bfs sgn mem root (V ++ [p]) (T ++ [p]) Q → T.length = k → PHeapOk paddr c0 m0 h' it'.prefixes →
      AllPairs (WRel h'.mem) it'.pending Q → it'.index = i → it'.value = p →
      it'.prefixes.length = V.length + 1 + Q.length → V.length + 1 ≤ lim →
      IterOut sgn mem root paddr c0 m0 k i fuel lim (.ok (h', it'))
  | none {V T : List Str} {h' : PHeap} {it' : DIter} : Bfs sgn mem root V T [] → T.length ≤ k →
      PHeapOk paddr c0 m0 h' it'.prefixes → it'.pending = [] → it'.index = i → it'.value = T.getLast?.getD [] →
      it'.prefixes.length = V.length → V.length ≤ lim →
      IterOut sgn mem root paddr c0 m0 k i fuel lim (.ok (h', it'))

theorem iterAdvance_any (hs : EdgesSorted sgn mem root) (fuel : Nat) {h : PHeap} {it : DIter} {V T : List Str}
    {Q : List (Str × Nat)} (hb : Bfs sgn mem root V T Q) (ho : PHeapOk paddr c0 m0 h it.prefixes)
    (hp : AllPairs (WRel h.mem) it.pending Q) (hv : it.value = T.getLast?.getD [])
    (hh : it.prefixes.length = V.length + Q.length) :
    IterOut sgn mem root paddr c0 m0 T.length it.index fuel (V.length + fuel) (iterAdvance mem paddr fuel h it) := by
  by_cases hq : Q = []
  · subst hq
    have hpe : it.pending = [] := (AllPairs.nil_iff hp).2 rfl
    simp only [iterAdvance, hpe, if_true]
    exact .none hb (Nat.le_refl _) ho hpe rfl hv hh (by omega)
  · have hpe : it.pending ≠ [] := fun h' => hq ((AllPairs.nil_iff hp).1 h')
    have := iterLoop_any hs fuel hb hq ho hp hh
    simp only [iterAdvance, hpe, if_false]
    generalize iterLoop mem paddr fuel h it = r at this
    cases this with
    | loops g1 g2 g3 => exact .loops g1 (Nat.le_refl _) g2 (by omega)
    | missing g1 g2 => exact .missing g1 (Nat.le_refl _) g2
    | @found V' p a x rest Q' h' it' g1 g2 g3 g4 g5 g6 g7 g8 =>
      simp only [bind, Except.bind, if_true]
      by_cases hf : p.length < fuel
      · rw [g5.str hf]
        exact .found g2 rfl g3 g4 g6 rfl g7 g8
      · rw [g5.short (by omega)]
        have := g1.deep (w := p) (by simp)
        exact .loops g1 (Nat.le_refl _) (by simp) (by omega)
    | none g1 g2 g3 g4 g5 g6 g7 =>
      simp only [bind, Except.bind, Bool.false_eq_true, if_false]
      exact .none g1 (Nat.le_refl _) g2 g3 g4 (g5.trans hv) g6 g7

theorem dictIterAt_any (hs : EdgesSorted sgn mem root) {h : PHeap} (ha : PAllocator paddr h) (fuel k : Nat) :
    IterOut sgn mem root paddr h.count h.mem k k fuel ((k + 1) * fuel) (dictIterAt mem paddr fuel root k h) := by
  induction k with
  | zero =>
    let p0 : Prefix := ⟨root, 0, 0⟩
    have ho0 : PHeapOk paddr h.count h.mem h [] :=
      ⟨ha.nonnull, ha.inj, ha.null, ha.fresh, Nat.le_refl _, by simp, fun k h1 h2 => by omega, fun _ _ => rfl⟩
    have hself : (newPrefix paddr p0 h).2.mem (newPrefix paddr p0 h).1 = some p0 := by simp [newPrefix]
    have hrel : WRel (newPrefix paddr p0 h).2.mem (newPrefix paddr p0 h).1 ([], root) := ⟨p0, hself, rfl, .root hself rfl⟩
    have := iterAdvance_any hs fuel
      (it := { prefixes := [(newPrefix paddr p0 h).1], pending := [(newPrefix paddr p0 h).1], value := [], index := 0 })
      (Bfs.start (sgn := sgn) (mem := mem) (root := root)) (ho0.new p0) (.cons hrel .nil) rfl rfl
    simpa [dictIterAt, iterBegin] using this
  | succ k ih =>
    simp only [dictIterAt]
    generalize dictIterAt mem paddr fuel root k h = r at ih
    cases ih with
    | loops g1 g2 g3 g4 => exact .loops g1 (by omega) g3 g4
    | missing g1 g2 g3 => exact .missing g1 (by omega) g3
    | @found V T p Q h' it' g1 g2 g3 g4 g5 g6 g7 g8 =>
      have := iterAdvance_any hs fuel g1 g3 g4 (by simp [g6]) (by simpa using g7)
      have hlim : (V ++ [p]).length + fuel ≤ (k + 1 + 1) * fuel := by
        rw [Nat.add_mul (k + 1) 1]; simp only [List.length_append, List.length_singleton]; omega
      simp only [bind, Except.bind, iterNext]
      generalize iterAdvance mem paddr fuel h' it' = r at this
      cases this with
      | loops g1 g2 g3 g4 => exact .loops g1 (by simp at g2; omega) g3 g4
      | missing g1 g2 g3 => exact .missing g1 (by simp at g2; omega) g3
      | @found V2 T2 p2 Q2 h2 it2 e1 e2 e3 e4 e5 e6 e7 e8 =>
        exact .found e1 (by simp at e2; omega) (it' := { it2 with index := it2.index + 1 }) e3 e4 (by simp only; omega) e6 e7 (by omega)
      | @none V2 T2 h2 it2 e1 e2 e3 e4 e5 e6 e7 e8 =>
        exact .none e1 (by simp at e2; omega) (it' := { it2 with index := it2.index + 1 }) e3 e4 (by simp only; omega) e6 e7 (by omega)
    | @none V T h' it' g1 g2 g3 g4 g5 g6 g7 g8 =>
      simp only [bind, Except.bind, iterNext, iterAdvance, g4, if_true]
      exact .none g1 (by omega) (it' := { it' with pending := [], index := it'.index + 1 }) g3 rfl (by simp only; omega) g6 g7
        (by rw [Nat.add_mul (k + 1) 1]; omega)

end

/-! ### More fuel does not change what has come out -/

theorem prefixStr_more {m : PMem} {fuel fuel' : Nat} (hle : fuel ≤ fuel') {a : Nat} {r : Str}
    (h : prefixStr m fuel a = .ok r) : prefixStr m fuel' a = .ok r := by
  induction fuel generalizing fuel' a r with
  | zero => cases h
  | succ fuel ih =>
    obtain ⟨f, rfl⟩ : ∃ f, fuel' = f + 1 := ⟨fuel' - 1, by omega⟩
    simp only [prefixStr] at h ⊢
    split at h
    · cases h
    · split at h
      · rw [if_pos ‹_›]; exact h
      · rw [if_neg ‹_›]
        cases hp : prefixStr m fuel ‹Prefix›.parent with
        | error e => rw [hp] at h; cases h
        | ok s => rw [hp] at h; rw [ih (by omega) hp]; exact h

theorem iterLoop_more {mem : Mem} {paddr : Nat → Nat} {fuel fuel' : Nat} (hle : fuel ≤ fuel') {h : PHeap} {it : DIter}
    {r : PHeap × DIter × Nat × Bool} (e : iterLoop mem paddr fuel h it = .ok r) : iterLoop mem paddr fuel' h it = .ok r := by
  induction fuel generalizing fuel' h it with
  | zero => cases e
  | succ fuel ih =>
    obtain ⟨f, rfl⟩ : ∃ f, fuel' = f + 1 := ⟨fuel' - 1, by omega⟩
    simp only [iterLoop] at e ⊢
    split at e
    · cases e
    · split at e
      · cases e
      · cases hd : deref mem ‹Prefix›.node with
        | error x => rw [hd] at e; cases e
        | ok nd =>
          simp only [hd, bind, Except.bind] at e ⊢
          split at e
          · rw [if_pos ‹_›]; exact ih (by omega) e
          · rw [if_neg ‹_›]; exact e

theorem iterAdvance_more {mem : Mem} {paddr : Nat → Nat} {fuel fuel' : Nat} (hle : fuel ≤ fuel') {h : PHeap} {it : DIter}
    {r : PHeap × DIter} (e : iterAdvance mem paddr fuel h it = .ok r) : iterAdvance mem paddr fuel' h it = .ok r := by
  unfold iterAdvance at e ⊢
  split at e
  · rw [if_pos ‹_›]; exact e
  · rw [if_neg ‹_›]
    cases hl : iterLoop mem paddr fuel h it with
    | error x => rw [hl] at e; cases e
    | ok q =>
      obtain ⟨h1, it1, a, fin⟩ := q
      rw [iterLoop_more hle hl]
      simp only [hl, bind, Except.bind] at e ⊢
      split at e
      · rw [if_pos ‹_›]
        cases hp : prefixStr h1.mem fuel a with
        | error x => rw [hp] at e; cases e
        | ok s => rw [hp] at e; rw [prefixStr_more hle hp]; exact e
      · rw [if_neg ‹_›]; exact e

theorem dictIterAt_more {mem : Mem} {paddr : Nat → Nat} {fuel fuel' : Nat} (hle : fuel ≤ fuel') {root k : Nat} {h : PHeap}
    {r : PHeap × DIter} (e : dictIterAt mem paddr fuel root k h = .ok r) : dictIterAt mem paddr fuel' root k h = .ok r := by
  induction k generalizing r with
  | zero =>
    simp only [dictIterAt, iterBegin] at e ⊢
    exact iterAdvance_more hle e
  | succ k ih =>
    simp only [dictIterAt] at e ⊢
    cases hk : dictIterAt mem paddr fuel root k h with
    | error x => rw [hk] at e; cases e
    | ok q =>
      obtain ⟨h1, it1⟩ := q
      rw [ih hk]
      simp only [hk, bind, Except.bind, iterNext] at e ⊢
      cases ha : iterAdvance mem paddr fuel h1 it1 with
      | error x => rw [ha] at e; cases e
      | ok q => rw [ha] at e; rw [iterAdvance_more hle ha]; exact e

/-! ### First terms -/

section
variable {sgn : Bool} {mem : Mem} {root : Nat}

theorem Spec.FirstTerms.start {L M : List Str} (h : FirstTerms sgn mem root (L ++ M)) : FirstTerms sgn mem root L := by
  obtain ⟨h1, h2, h3⟩ := h
  refine ⟨(List.pairwise_append.1 h1).1, fun t ht => h2 t (List.mem_append_left _ ht), fun t ht => ?_⟩
  rcases h3 t ht with h | h
  · rcases List.mem_append.1 h with h | h
    · exact .inl h
    · exact .inr fun u hu => (List.pairwise_append.1 h1).2.2 u hu t h
  · exact .inr fun u hu => h u (List.mem_append_left _ hu)

theorem Spec.FirstTerms.subset {L M : List Str} (h : FirstTerms sgn mem root L) (h' : FirstTerms sgn mem root M)
    (hl : L.length ≤ M.length) : ∀ t ∈ L, t ∈ M := by
  intro t ht
  rcases h'.2.2 t (h.2.1 t ht) with g | g
  · exact g
  · have htM : t ∉ M := fun hm => shortLex_irrefl (g t hm)
    have hsub : ∀ u ∈ M, u ∈ L := by
      intro u hu
      rcases h.2.2 u (h'.2.1 u hu) with g' | g'
      · exact g'
      · exact absurd (g u hu) (shortLex_asymm (g' t ht))
    have := (List.nodup_cons.2 ⟨htM, nodup_of_shortLex h'.1⟩).length_le_of_subset (l₂ := L) fun u hu => by
      rcases List.mem_cons.1 hu with rfl | hu
      · exact ht
      · exact hsub u hu
    simp at this
    omega

theorem Spec.FirstTerms.unique {L M : List Str} (h : FirstTerms sgn mem root L) (h' : FirstTerms sgn mem root M)
    (hl : L.length = M.length) : L = M := by
  have s1 := sorted_sublist (lt := shortLex sgn) (fun _ h => shortLex_irrefl h) (fun _ _ h h' => shortLex_asymm h h') h.1 h'.1
    (h.subset h' (by omega))
  exact s1.eq_of_length_le (by omega)

variable {V T : List Str} {Q : List (Str × Nat)}

theorem Bfs.firstTerms (hb : Bfs sgn mem root V T Q) : FirstTerms sgn mem root T := by
  refine ⟨(List.pairwise_append.1 hb.sorted).1.sublist hb.terms, fun t ht => (hb.final t (hb.terms.subset ht)).1 ht,
    fun t ht => ?_⟩
  obtain ⟨b, hl⟩ := accepts_leads ht
  by_cases hv : t ∈ V
  · exact .inl ((hb.final t hv).2 ht)
  · exact .inr fun u hu => hb.before hl hv u (hb.terms.subset hu)

/-- If the last of the first terms has been looked at, all of them have been found. -/
theorem Bfs.count (hb : Bfs sgn mem root V T Q) {L : List Str} {w : Str} (hF : FirstTerms sgn mem root (L ++ [w]))
    (hw : w ∈ V) : L.length + 1 ≤ T.length := by
  have := (nodup_of_shortLex hF.1).length_le_of_subset (l₂ := T) fun t ht => by
    have hacc := hF.2.1 t ht
    obtain ⟨b, hl⟩ := accepts_leads hacc
    refine (hb.final t ?_).2 hacc
    rcases List.mem_append.1 ht with h | h
    · exact hb.closed hw hl ((List.pairwise_append.1 hF.1).2.2 t h w (by simp))
    · rw [List.mem_singleton.1 h]; exact hw
  simpa using this

theorem allWords_mono {m n : Nat} (h : m ≤ n) : (allWords m).length ≤ (allWords n).length := by
  induction m generalizing n with
  | zero => cases n <;> simp [allWords]
  | succ m ih =>
    obtain ⟨n, rfl⟩ : ∃ k, n = k + 1 := ⟨n - 1, by omega⟩
    have := ih (n := n) (by omega)
    simp only [allWords, List.length_cons, List.length_flatMap, List.length_map]
    generalize allBytes false = l
    have : (l.map fun _ => (allWords m).length).sum ≤ (l.map fun _ => (allWords n).length).sum := by
      induction l with
      | nil => simp
      | cons a l ih => simp only [List.map_cons, List.sum_cons]; omega
    omega

variable {paddr : Nat → Nat} {c0 : Nat} {m0 : PMem}

/-- The `k`-th term is found if no string before it leads nowhere. -/
theorem IterOut.reached {k i fuel lim : Nat} {r : Except Err (PHeap × DIter)}
    (ho : IterOut sgn mem root paddr c0 m0 k i fuel lim r)
    (hs : EdgesSorted sgn mem root) {L : List Str} {w : Str} (hF : FirstTerms sgn mem root (L ++ [w])) (hk : L.length = k)
    (hn : ∀ v, LeadsNowhere mem root v → ¬ shortLex sgn v w) (hf : (allWords w.length).length < fuel) :
    ∃ h' it', r = .ok (h', it') ∧ it'.index = i ∧ it'.value = w ∧ PHeapOk paddr c0 m0 h' it'.prefixes := by
  have hacc := hF.2.1 w (by simp)
  obtain ⟨b, hl⟩ := accepts_leads hacc
  cases ho with
  | @loops V T Q g1 g2 g3 g4 =>
    by_cases hw : w ∈ V
    · exact absurd (g1.count hF hw) (by omega)
    · exact absurd (g1.bounded hl hw) (by omega)
  | @missing V T _ _ _ g1 g2 g3 =>
    have hw : w ∉ V := fun hw => absurd (g1.count hF hw) (by omega)
    have hlp := g1.leads _ (List.mem_cons_self ..)
    rcases g1.next hl hw with rfl | h
    · have := leads_one hs hl hlp
      subst this
      exact absurd g3 (accepts_alive hs hacc hl)
    · exact absurd h (hn _ ⟨_, hlp, g3⟩)
  | found g1 g2 g3 g4 g5 g6 =>
    have := g1.firstTerms.unique hF (by simp; omega)
    have hpw := (List.append_inj' this rfl).2
    simp only [List.cons.injEq, and_true] at hpw
    exact ⟨_, _, rfl, g5, g6.trans hpw, g3⟩
  | none g1 g2 =>
    rcases g1.cover w b hl with hw | ⟨x, hx, _⟩
    · exact absurd (g1.count hF hw) (by omega)
    · cases hx

/-- If a string leads nowhere and there are not enough terms before it, the iterator goes there. -/
theorem IterOut.fallen {k i fuel lim : Nat} {r : Except Err (PHeap × DIter)}
    (ho : IterOut sgn mem root paddr c0 m0 k i fuel lim r)
    (hs : EdgesSorted sgn mem root) {v : Str} (hv : LeadsNowhere mem root v)
    (hk : AtMost k fun t => Accepts mem root t ∧ shortLex sgn t v) (hf : (allWords v.length).length < fuel) :
    r = .error .ub := by
  obtain ⟨b, hl, hb⟩ := hv
  have hnot : ∀ {V T Q}, Bfs sgn mem root V T Q → v ∉ V := by
    intro V T Q hbf hv
    obtain ⟨a, nd, h1, h2⟩ := hbf.seen v hv
    rw [← leads_one hs hl h1, hb] at h2
    cases h2
  cases ho with
  | loops g1 g2 g3 g4 => exact absurd (g1.bounded hl (hnot g1)) (by omega)
  | missing => rfl
  | found g1 g2 =>
    have := hk _ (nodup_of_shortLex g1.firstTerms.1) fun t ht =>
      ⟨g1.firstTerms.2.1 t ht, g1.before hl (hnot g1) t (g1.terms.subset ht)⟩
    simp at this
    omega
  | none g1 g2 =>
    rcases g1.cover v b hl with hw | ⟨x, hx, _⟩
    · exact absurd hw (hnot g1)
    · cases hx

/-- A cycle gives strings of any length. -/
theorem Spec.HasCycle.long (hc : HasCycle mem root) (n : Nat) : ∃ w b, Leads mem root w b ∧ n ≤ w.length := by
  obtain ⟨a, nd, c, b, h1, h2, h3, h4⟩ := hc
  have key : ∀ n, ∃ w, Leads mem root w a ∧ n ≤ w.length := by
    intro n
    induction n with
    | zero =>
      obtain ⟨w, hw⟩ := Spec.Leads.of_reaches h1
      exact ⟨w, hw, Nat.zero_le _⟩
    | succ n ih =>
      obtain ⟨w, hw, hn⟩ := ih
      have hr : ∀ {x y : Nat}, Reaches mem x y → ∀ {u : Str}, Leads mem root u x → n < u.length →
          ∃ u', Leads mem root u' y ∧ n < u'.length := by
        intro x y hxy
        induction hxy with
        | refl => exact fun h h' => ⟨_, h, h'⟩
        | step hm he _ ih => exact fun h h' => ih (.snoc h hm he) (by simp; omega)
      obtain ⟨u, g1, g2⟩ := hr h4 (.snoc hw h2 h3) (by simp; omega)
      exact ⟨u, g1, g2⟩
  obtain ⟨w, h5, h6⟩ := key n
  exact ⟨w, a, h5, h6⟩

/-- With a cycle, no missing node and too few terms, the iterator never comes back. -/
theorem IterOut.lost {k i fuel lim : Nat} {r : Except Err (PHeap × DIter)}
    (ho : IterOut sgn mem root paddr c0 m0 k i fuel lim r)
    (hl : AllAlive mem root) (hc : HasCycle mem root) (hk : AtMost k (Accepts mem root)) : r = .error .diverge := by
  cases ho with
  | loops => rfl
  | missing g1 g2 g3 => exact absurd g3 (hl _ (g1.leads _ (List.mem_cons_self ..)).toReaches)
  | found g1 g2 =>
    have := hk _ (nodup_of_shortLex g1.firstTerms.1) g1.firstTerms.2.1
    simp at this
    omega
  | @none V T _ _ g1 g2 =>
    exfalso
    obtain ⟨w, b, h1, h2⟩ := hc.long ((V.map List.length).sum + 1)
    rcases g1.cover w b h1 with hw | ⟨x, hx, _⟩
    · have : ∀ {V : List Str}, w ∈ V → w.length ≤ (V.map List.length).sum := by
        intro V hV
        induction V with
        | nil => cases hV
        | cons u V ih =>
          simp only [List.map_cons, List.sum_cons]
          rcases List.mem_cons.1 hV with rfl | hV
          · omega
          · have := ih hV; omega
      have := this hw
      omega
    · cases hx

end

/-! ### Range-for -/

/-- The value of the iterator after `i` increments. -/
def valueAt (mem : Mem) (paddr : Nat → Nat) (fuel root : Nat) (h : PHeap) (i : Nat) : Str :=
  match dictIterAt mem paddr fuel root i h with
  | .ok (_, it) => it.value
  | .error _ => []

section
variable {sgn : Bool} {mem : Mem} {root : Nat} {paddr : Nat → Nat}

theorem dictIterAt_error {fuel : Nat} {h : PHeap} {k : Nat} {e : Err} (he : dictIterAt mem paddr fuel root k h = .error e)
    (j : Nat) : dictIterAt mem paddr fuel root (k + j) h = .error e := by
  induction j with
  | zero => exact he
  | succ j ih => rw [← Nat.add_assoc, dictIterAt, ih]; rfl

/-- A range-for does what as many increments do. -/
theorem rangeLoop_at {fuel : Nat} {h0 : PHeap} (size : Nat)
    (hidx : ∀ i h it, dictIterAt mem paddr fuel root i h0 = .ok (h, it) → it.index = i) (j : Nat) :
    ∀ {i steps : Nat} {h : PHeap} {it : DIter}, i + j = size → dictIterAt mem paddr fuel root i h0 = .ok (h, it) →
      (steps ≤ j → rangeLoop mem paddr fuel steps h it (iterEnd size) = .error .diverge ∨
        ∃ e, rangeLoop mem paddr fuel steps h it (iterEnd size) = .error e ∧
          dictIterAt mem paddr fuel root size h0 = .error e) ∧
      (j < steps → rangeLoop mem paddr fuel steps h it (iterEnd size) =
        (dictIterAt mem paddr fuel root size h0).map fun r =>
          ((List.range' i j).map (valueAt mem paddr fuel root h0), r.1, r.2)) := by
  induction j with
  | zero =>
    intro i steps h it hi he
    refine ⟨fun hst => ?_, fun hst => ?_⟩
    · rw [show steps = 0 by omega]; exact .inl rfl
    · obtain ⟨s, rfl⟩ : ∃ s, steps = s + 1 := ⟨steps - 1, by omega⟩
      have : iterEq it (iterEnd size) = true := by have := hidx _ _ _ he; simp [iterEq, iterEnd]; omega
      rw [show size = i by omega] at this ⊢
      simp [rangeLoop, this, he, Except.map]
  | succ j ih =>
    intro i steps h it hi he
    have hne : iterEq it (iterEnd size) = false := by have := hidx _ _ _ he; simp [iterEq, iterEnd]; omega
    have hnext : dictIterAt mem paddr fuel root (i + 1) h0 = iterNext mem paddr fuel h it := by
      simp [dictIterAt, he, bind, Except.bind]
    have hval : valueAt mem paddr fuel root h0 i = it.value := by simp [valueAt, he]
    cases hn : iterNext mem paddr fuel h it with
    | error e =>
      have hsz := dictIterAt_error (hnext.trans hn) j
      rw [show i + 1 + j = size by omega] at hsz
      have hrun : ∀ s, rangeLoop mem paddr fuel (s + 1) h it (iterEnd size) = .error e := by
        intro s
        simp only [rangeLoop, hne, Bool.false_eq_true, if_false, hn, bind, Except.bind]
      refine ⟨fun hst => ?_, fun hst => ?_⟩
      · cases steps with
        | zero => exact .inl rfl
        | succ s => exact .inr ⟨e, hrun s, hsz⟩
      · obtain ⟨s, rfl⟩ : ∃ s, steps = s + 1 := ⟨steps - 1, by omega⟩
        rw [hrun, hsz]; rfl
    | ok r =>
      obtain ⟨h1, it1⟩ := r
      have hrun : ∀ s, rangeLoop mem paddr fuel (s + 1) h it (iterEnd size) =
          (rangeLoop mem paddr fuel s h1 it1 (iterEnd size)).map fun r => (it.value :: r.1, r.2.1, r.2.2) := by
        intro s
        simp only [rangeLoop, hne, Bool.false_eq_true, if_false, hn, bind, Except.bind]
        cases rangeLoop mem paddr fuel s h1 it1 (iterEnd size) <;> rfl
      refine ⟨fun hst => ?_, fun hst => ?_⟩
      · cases steps with
        | zero => exact .inl rfl
        | succ s =>
          rw [hrun]
          rcases (ih (i := i + 1) (steps := s) (by omega) (hnext.trans hn)).1 (by omega) with g | ⟨e, g1, g2⟩
          · rw [g]; exact .inl rfl
          · rw [g1]; exact .inr ⟨e, rfl, g2⟩
      · obtain ⟨s, rfl⟩ : ∃ s, steps = s + 1 := ⟨steps - 1, by omega⟩
        rw [hrun, (ih (i := i + 1) (by omega) (hnext.trans hn)).2 (by omega), List.range'_succ, List.map_cons, hval]
        cases dictIterAt mem paddr fuel root size h0 <;> rfl

theorem dictIterAt_index (hs : EdgesSorted sgn mem root) {h : PHeap} (ha : PAllocator paddr h) {fuel i : Nat} {h' : PHeap}
    {it : DIter} (he : dictIterAt mem paddr fuel root i h = .ok (h', it)) :
    it.index = i ∧ PHeapOk paddr h.count h.mem h' it.prefixes := by
  have := dictIterAt_any hs ha fuel i
  rw [he] at this
  generalize hr : (Except.ok (h', it) : Except Err (PHeap × DIter)) = r at this
  cases this with
  | loops => cases hr
  | missing => cases hr
  | found _ _ g3 _ g5 => cases hr; exact ⟨g5, g3⟩
  | none _ _ g3 _ g5 => cases hr; exact ⟨g5, g3⟩

/-- A range-for comes out as the iterator after `size` increments. -/
theorem rangeFor_at (hs : EdgesSorted sgn mem root) {h : PHeap} (ha : PAllocator paddr h) (fuel size : Nat) :
    (∀ e, dictIterAt mem paddr fuel root size h = .error e → rangeFor mem paddr fuel root size h = .error .diverge ∨
      rangeFor mem paddr fuel root size h = .error e) ∧
    (∀ e, size < fuel → dictIterAt mem paddr fuel root size h = .error e → rangeFor mem paddr fuel root size h = .error e) ∧
    (∀ h' it, size < fuel → dictIterAt mem paddr fuel root size h = .ok (h', it) → ∃ h'', iterDestroy h' it = .ok h'' ∧
      rangeFor mem paddr fuel root size h = .ok ((List.range size).map (valueAt mem paddr fuel root h), h'') ∧
      ∀ a, h''.mem a = h.mem a) := by
  have h0 : dictIterAt mem paddr fuel root 0 h = iterBegin mem paddr fuel root h := rfl
  cases hb : iterBegin mem paddr fuel root h with
  | error e =>
    have hall := dictIterAt_error (h0.trans hb) size
    rw [Nat.zero_add] at hall
    have hr : rangeFor mem paddr fuel root size h = .error e := by simp only [rangeFor, hb, bind, Except.bind]
    refine ⟨fun e' he => ?_, fun e' _ he => ?_, fun h' it _ he => ?_⟩ <;> rw [hall] at he <;> cases he
    · exact .inr hr
    · exact hr
  | ok r =>
    obtain ⟨h1, it1⟩ := r
    obtain ⟨g1, g2⟩ := rangeLoop_at (h0 := h) size (fun i h' it he => (dictIterAt_index hs ha he).1) size (i := 0)
      (steps := fuel) (by omega) (h0.trans hb)
    have hfor : ∀ e, rangeLoop mem paddr fuel fuel h1 it1 (iterEnd size) = .error e →
        rangeFor mem paddr fuel root size h = .error e := by
      intro e he
      simp only [rangeFor, hb, bind, Except.bind, he]
    refine ⟨fun e he => ?_, fun e hf he => ?_, fun h' it hf he => ?_⟩
    · by_cases hf : size < fuel
      · exact .inr (hfor e (by rw [g2 hf, he]; rfl))
      · rcases g1 (by omega) with g | ⟨e', g, g'⟩
        · exact .inl (hfor _ g)
        · rw [he] at g'; cases g'; exact .inr (hfor _ g)
    · exact hfor e (by rw [g2 hf, he]; rfl)
    · have hrl := g2 hf
      rw [he] at hrl
      obtain ⟨h'', d1, d2⟩ := (dictIterAt_index hs ha he).2.destroy ha.fresh
      refine ⟨h'', d1, ?_, d2⟩
      have b3 : iterDestroy h' (iterEnd size) = .ok h' := rfl
      simp only [rangeFor, hb, bind, Except.bind, hrl, Except.map, b3, d1, List.range_eq_range']

end

end Lev
