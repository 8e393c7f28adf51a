import Verif.Proofs.StateSem
import Verif.Proofs.Forest
import Verif.Proofs.DistEval

/-!
A query walks through the dictionary breadth-first and yields the terms within the maximum distance.
-/

namespace Lev

open Spec

/-! ### Viable prefixes -/

section
variable {A : Algorithm} {n : Nat} {q : Str}

theorem PosOk.acc {m : Nat} {p : Pos} (h : PosOk A n q m p) : ∃ u, PAcc A q p u n := by
  obtain ⟨i, e, sp⟩ := p
  have he := h.errors_le
  have hself : ∀ v : Str, AlignLe A v v 0 := fun v => by
    have := AlignLe.keep_prefix (A := A) v (AlignLe.nil (c := 0))
    simpa using this
  cases sp with
  | false => exact ⟨q.drop i, 0, by simpa using he, by simpa [Rem] using hself _⟩
  | true =>
    cases A with
    | standard => exact absurd rfl (h.special_alg rfl).1
    | transposition =>
      have hi := h.special_trans rfl rfl
      simp only at hi
      refine ⟨q[i] :: q.drop (i + 2), 0, by simpa using he, ?_⟩
      refine ⟨q[i], q[i + 1], q.drop (i + 2), q.drop (i + 2), ?_, rfl, hself _⟩
      show q.drop i = _
      rw [List.drop_eq_getElem_cons (by omega), List.drop_eq_getElem_cons (by omega)]
    | mergeAndSplit =>
      have hi := h.special_ms rfl rfl
      simp only at hi
      refine ⟨0 :: q.drop (i + 1), 0, by simpa using he, ?_⟩
      have hdrop : q.drop i = q[i] :: q.drop (i + 1) := List.drop_eq_getElem_cons (by omega)
      exact ⟨q[i], q.drop (i + 1), 0, q.drop (i + 1), hdrop, rfl, hself _⟩

theorem viable_iff {w : Str} : Viable A q n w ↔ ∃ u, AlignLe A q (w ++ u) n := by
  constructor
  · rintro ⟨u, c, hc, h⟩; exact ⟨u, c, hc, h⟩
  · rintro ⟨u, c, hc, h⟩; exact ⟨u, c, hc, h⟩

theorem StateSem.viable {w : Str} {l : List Pos} (h : StateSem A n q w l) : Viable A q n w := by
  cases l with
  | nil => exact absurd rfl h.inv.ne
  | cons p l =>
    obtain ⟨u, hu⟩ := (h.inv.ok p (by simp)).acc
    exact viable_iff.2 ⟨u, (h.sem u n (Nat.le_refl _)).1 ⟨p, by simp, hu⟩⟩

end

/-- The least cost, as a function. -/
def cost (A : Algorithm) (q t : Str) : Nat := evalCost A (q.length + t.length) q t

theorem cost_spec (A : Algorithm) (q t : Str) : IsMinCost A q t (cost A q t) :=
  evalCost_spec A _ q t (Nat.le_refl _)

/-- The result due when the walk meets an item. -/
def resultOf (A : Algorithm) (n : Nat) (q : Str) (it : Item) : Option (Str × Nat) :=
  if it.fin = true ∧ cost A q it.path ≤ n then some (it.path, cost A q it.path) else none

/-- Nothing at or below the item is within the maximum distance. -/
def Dead (A : Algorithm) (n : Nat) (q : Str) (it : Item) : Prop :=
  ∀ u c, c ≤ n → ¬ AlignLe A q (it.path ++ u) c

theorem Dead.result {A : Algorithm} {n : Nat} {q : Str} {it : Item} (h : Dead A n q it) :
    resultOf A n q it = none := by
  unfold resultOf
  rw [if_neg]
  rintro ⟨_, hc⟩
  exact h [] _ hc (by rw [List.append_nil]; exact (cost_spec A q it.path).1.le)

theorem Dead.child {A : Algorithm} {n : Nat} {q : Str} {it it' : Item} (h : Dead A n q it)
    (hc : it' ∈ it.children) : Dead A n q it' := by
  obtain ⟨l, hl⟩ := mem_items hc
  intro u c hcn hal
  rw [hl, List.append_assoc] at hal
  exact h _ c hcn hal

/-- `P` is `P'` with some dead items left out. -/
inductive Pruned (A : Algorithm) (n : Nat) (q : Str) : List Item → List Item → Prop
  | nil : Pruned A n q [] []
  | keep {P P' : List Item} (it : Item) : Pruned A n q P P' → Pruned A n q (it :: P) (it :: P')
  | drop {P P' : List Item} {it : Item} : Dead A n q it → Pruned A n q P P' → Pruned A n q P (it :: P')

theorem Pruned.refl {A : Algorithm} {n : Nat} {q : Str} (P : List Item) : Pruned A n q P P := by
  induction P with
  | nil => exact .nil
  | cons it P ih => exact .keep it ih

theorem Pruned.append {A : Algorithm} {n : Nat} {q : Str} {P P' L L' : List Item} (h : Pruned A n q P P')
    (h' : Pruned A n q L L') : Pruned A n q (P ++ L) (P' ++ L') := by
  induction h with
  | nil => exact h'
  | keep it _ ih => exact .keep it ih
  | drop hd _ ih => exact .drop hd ih

theorem Pruned.dead {A : Algorithm} {n : Nat} {q : Str} {L : List Item} (h : ∀ it ∈ L, Dead A n q it) :
    Pruned A n q [] L := by
  induction L with
  | nil => exact .nil
  | cons it L ih => exact .drop (h it (by simp)) (ih fun x hx => h x (by simp [hx]))

/-- Functions that skip dead items do not see the difference. -/
theorem Pruned.filterMap {A : Algorithm} {n : Nat} {q : Str} {β : Type} {f : Item → Option β}
    (hf : ∀ it, Dead A n q it → f it = none) {P P' : List Item} (h : Pruned A n q P P') :
    (pushes P).filterMap f = (pushes P').filterMap f := by
  induction P' using queue_induction generalizing P with
  | nil => cases h; rfl
  | cons it rest ih =>
    rw [pushes_cons, List.filterMap_append]
    cases h with
    | @keep P0 _ _ h =>
      rw [pushes_cons, List.filterMap_append, ih (h.append (Pruned.refl it.children))]
    | drop hd h =>
      have h1 : it.children.filterMap f = [] := by
        rw [List.filterMap_eq_nil_iff]
        intro x hx
        exact hf x (hd.child hx)
      have h2 := ih (P := P ++ []) (h.append (Pruned.dead fun x hx => hd.child hx))
      rw [List.append_nil] at h2
      rw [h1, List.nil_append, h2]

theorem Pruned.results {A : Algorithm} {n : Nat} {q : Str} {P P' : List Item} (h : Pruned A n q P P') :
    (pushes P).filterMap (resultOf A n q) = (pushes P').filterMap (resultOf A n q) :=
  h.filterMap fun _ hd => hd.result

open Classical in
/-- The path of an item that is not dead. -/
noncomputable def liveOf (A : Algorithm) (n : Nat) (q : Str) (it : Item) : Option Str :=
  if Dead A n q it then none else some it.path

/-- The prefixes for which a query is still going to make an intersection, in this order; `P` and `ch` as in `outOf`. -/
noncomputable def aheadOf (A : Algorithm) (n : Nat) (q : Str) (P ch : List Item) : List Str :=
  (ch ++ pushes (P ++ ch)).filterMap (liveOf A n q)

/-- What a query still has to yield, `ch` being the children of the current node not looked at yet and `P`
the queue. -/
def outOf (A : Algorithm) (n : Nat) (q : Str) (P ch : List Item) : List (Str × Nat) :=
  (ch ++ pushes (P ++ ch)).filterMap (resultOf A n q)

/-! ### Backends -/

/-- The states `o'` are `o` and one for each of the prefixes `ws`, with which `L` begins and goes on with `L'`. -/
def MadeFor {σ S : Type} (A : Algorithm) (n : Nat) (q : Str) (Rep : σ → S → List Pos → Prop) (m : σ) (o o' : List S)
    (L L' ws : List Str) : Prop :=
  L = ws ++ L' ∧ ∃ new, o' = o ++ new ∧ AllPairs (fun s w => ∃ l, Rep m s l ∧ StateSem A n q w l) new ws

theorem MadeFor.refl {σ S : Type} {A : Algorithm} {n : Nat} {q : Str} {Rep : σ → S → List Pos → Prop} {m : σ} {o : List S}
    {L : List Str} : MadeFor A n q Rep m o o L L [] := ⟨rfl, [], by simp, .nil⟩

theorem AllPairs.join {α β : Type} {r : α → β → Prop} {l k : List α} {l' k' : List β} (h : AllPairs r l l')
    (h' : AllPairs r k k') : AllPairs r (l ++ k) (l' ++ k') := by
  induction h with
  | nil => exact h'
  | cons h _ ih => exact .cons h ih

theorem AllPairs.imp_mem {α β : Type} {r r' : α → β → Prop} {l : List α} {l' : List β} (h : AllPairs r l l')
    (hi : ∀ a ∈ l, ∀ b, r a b → r' a b) : AllPairs r' l l' := by
  induction h with
  | nil => exact .nil
  | cons h _ ih => exact .cons (hi _ (by simp) _ h) (ih fun a ha => hi a (by simp [ha]))

theorem AllPairs.length_eq {α β : Type} {r : α → β → Prop} {l : List α} {l' : List β} (h : AllPairs r l l') :
    l.length = l'.length := by
  induction h with
  | nil => rfl
  | cons _ _ ih => simp [ih]

theorem MadeFor.trans {σ S : Type} {A : Algorithm} {n : Nat} {q : Str} {Rep : σ → S → List Pos → Prop} {m m' : σ}
    {o o' o'' : List S} {L L' L'' ws ws' : List Str} (h : MadeFor A n q Rep m o o' L L' ws)
    (h' : MadeFor A n q Rep m' o' o'' L' L'' ws') (hk : ∀ s l, Rep m s l → Rep m' s l) :
    MadeFor A n q Rep m' o o'' L L'' (ws ++ ws') := by
  obtain ⟨h1, new, h2, h3⟩ := h
  obtain ⟨h1', new', h2', h3'⟩ := h'
  refine ⟨by rw [h1, h1', List.append_assoc], new ++ new', by rw [h2', h2, List.append_assoc], ?_⟩
  exact (h3.imp_mem fun s _ w ⟨l, hl, hw⟩ => ⟨l, hk s l hl, hw⟩).join h3'

/-- `B` implements the list operations on states, `Rep m s l` saying that in memory `m` the state `s` has the
positions `l`.  A transition leaves all states as they are. -/
structure BackendOk {σ S : Type} (A : Algorithm) (n len : Nat) (B : Backend σ S)
    (Rep : σ → S → List Pos → Prop) : Prop where
  head : ∀ {m s p tl}, Rep m s (p :: tl) → B.headIdx m s = .ok p.index
  dist : ∀ {m s l}, Rep m s l → B.dist m s len = .ok (stateDist A l len)
  trans_none : ∀ {m s l cv}, Rep m s l → stateTrans A n len l cv = .ok none →
    ∃ m', B.trans m s cv = .ok (m', none) ∧ ∀ s' l', Rep m s' l' → Rep m' s' l'
  trans_some : ∀ {m s l cv l'}, Rep m s l → stateTrans A n len l cv = .ok (some l') →
    ∃ m' s', B.trans m s cv = .ok (m', some s') ∧ Rep m' s' l' ∧ (∀ s'' l'', Rep m s'' l'' → Rep m' s'' l'')

/-- A property of the memory and the list of states made so far that every transition maintains. -/
structure Stable {σ S : Type} (A : Algorithm) (n len : Nat) (B : Backend σ S) (Rep : σ → S → List Pos → Prop)
    (I : σ → List S → Prop) : Prop where
  none : ∀ {m s l cv m' o}, Rep m s l → stateTrans A n len l cv = .ok none → B.trans m s cv = .ok (m', none) →
    I m o → I m' o
  some : ∀ {m s l cv l' m' s' o}, Rep m s l → stateTrans A n len l cv = .ok (some l') →
    B.trans m s cv = .ok (m', some s') → I m o → I m' (o ++ [s'])

/-- From memory `m` to `m'`, where the states made were `o` and are `o'`, all states were kept, and so was whatever
transitions maintain. -/
structure Grow {σ S : Type} (A : Algorithm) (n len : Nat) (B : Backend σ S) (Rep : σ → S → List Pos → Prop)
    (m m' : σ) (o o' : List S) : Prop where
  keep : ∀ s l, Rep m s l → Rep m' s l
  inv : ∀ I, Stable A n len B Rep I → I m o → I m' o'

section
variable {σ S : Type} {A : Algorithm} {n len : Nat} {B : Backend σ S} {Rep : σ → S → List Pos → Prop}

theorem Grow.refl (m : σ) (o : List S) : Grow A n len B Rep m m o o := ⟨fun _ _ h => h, fun _ _ h => h⟩

theorem Grow.trans {m m' m'' : σ} {o o' o'' : List S} (h : Grow A n len B Rep m m' o o')
    (h' : Grow A n len B Rep m' m'' o' o'') : Grow A n len B Rep m m'' o o'' :=
  ⟨fun s l hr => h'.keep s l (h.keep s l hr), fun I hI hm => h'.inv I hI (h.inv I hI hm)⟩

end

theorem listBackend_ok (A : Algorithm) (n len : Nat) :
    BackendOk A n len (listBackend A n len) (fun _ s l => s = l) where
  head := by rintro m s p tl rfl; rfl
  dist := by rintro m s l rfl; rfl
  trans_none := by
    rintro m s l cv rfl h
    exact ⟨(), by simp [listBackend, h, Except.map], fun _ _ h => h⟩
  trans_some := by
    rintro m s l cv l' rfl h
    exact ⟨(), l', by simp [listBackend, h, Except.map], rfl, fun _ _ h => h⟩

/-! ### The invariant of a query -/

section
variable {σ S R : Type} {A : Algorithm} {n : Nat} {q : Str} {B : Backend σ S}
  {Rep : σ → S → List Pos → Prop} {mem : Mem} {upd : Str → Nat → R} {s0 : S} {D : Nat}

/-- The intersection `I` stands for the item `it`. -/
structure InterSem (A : Algorithm) (n : Nat) (q : Str) (Rep : σ → S → List Pos → Prop) (mem : Mem) (D : Nat)
    (m : σ) (I : Inter S) (it : Item) : Prop where
  str : I.str = it.path
  state : ∃ l, Rep m I.state l ∧ StateSem A n q it.path l
  node : ∃ nd, mem I.node = some nd ∧ it.fin = nd.final ∧ Unf mem nd.edges it.kids
  height : it.path.length + it.kids.height ≤ D

/-- The invariant of a query: `P` are the items in its queue, `ch` those of the edges not looked at yet. -/
structure QueryInv (A : Algorithm) (n : Nat) (q : Str) (Rep : σ → S → List Pos → Prop) (mem : Mem) (s0 : S) (D : Nat)
    (m : σ) (Q : Query S R) (P ch : List Item) : Prop where
  term : Q.term = q
  maxD : Q.maxD = n
  a : Q.a = windowMax n
  pending : AllPairs (InterSem A n q Rep mem D m) Q.pending P
  pendingOwn : ∀ I ∈ Q.pending, I.state = s0 ∨ I.state ∈ Q.owned
  cur : (Q.edges = [] ∧ ch = []) ∨ ∃ I it F hd tl, Q.cur = some I ∧ InterSem A n q Rep mem D m I it ∧
    (I.state = s0 ∨ I.state ∈ Q.owned) ∧ Unf mem Q.edges F ∧
    ch = F.items it.path ∧ it.path.length + F.height ≤ D ∧ Rep m I.state (hd :: tl) ∧
    StateSem A n q it.path (hd :: tl) ∧ Q.i = hd.index ∧
    Q.k = (if windowMax n < wsub q.length hd.index then windowMax n else wsub q.length hd.index)

theorem InterSem.frame {m m' : σ} {I : Inter S} {it : Item} (h : InterSem A n q Rep mem D m I it)
    (hf : ∀ l, Rep m I.state l → Rep m' I.state l) : InterSem A n q Rep mem D m' I it :=
  ⟨h.str, let ⟨l, h1, h2⟩ := h.state; ⟨l, hf l h1, h2⟩, h.node, h.height⟩

theorem forall₂_imp_mem {α β : Type} {r r' : α → β → Prop} {l : List α} {l' : List β}
    (h : AllPairs r l l') (hi : ∀ a ∈ l, ∀ b, r a b → r' a b) : AllPairs r' l l' := by
  induction h with
  | nil => exact .nil
  | cons h _ ih => exact .cons (hi _ (by simp) _ h) (ih fun a ha => hi a (by simp [ha]))

theorem forall₂_snoc {α β : Type} {r : α → β → Prop} {l : List α} {l' : List β} {a : α} {b : β}
    (h : AllPairs r l l') (hab : r a b) : AllPairs r (l ++ [a]) (l' ++ [b]) := by
  induction h with
  | nil => exact .cons hab .nil
  | cons h _ ih => exact .cons h ih

/-- A query is not affected by a change of memory that keeps the initial state and its own states. -/
theorem QueryInv.frame {m m' : σ} {Q : Query S R} {P ch : List Item}
    (h : QueryInv A n q Rep mem s0 D m Q P ch)
    (hf : ∀ s l, (s = s0 ∨ s ∈ Q.owned) → Rep m s l → Rep m' s l) : QueryInv A n q Rep mem s0 D m' Q P ch where
  term := h.term
  maxD := h.maxD
  a := h.a
  pending := forall₂_imp_mem h.pending fun I hI it hit => hit.frame fun l => hf _ l (h.pendingOwn I hI)
  pendingOwn := h.pendingOwn
  cur := by
    rcases h.cur with hc | ⟨I, it, F, hd, tl, h1, h2, h3, h4, h5, h6, h7, h8⟩
    · exact .inl hc
    · exact .inr ⟨I, it, F, hd, tl, h1, h2.frame fun l => hf _ l h3, h3, h4, h5, h6, hf _ _ h3 h7, h8⟩

/-- Work left. -/
def workOf (P ch : List Item) : Nat := itemsWt P + itemsWt ch + ch.length

/-- One iteration of the loop. -/
theorem queryIter_spec (hB : BackendOk A n q.length B Rep) (hn : n ≤ sizeMax) (hq : Spec.QueryFits n q)
    (hD : D < 2 ^ 62) {m : σ} {Q : Query S R} {P ch : List Item}
    (h : QueryInv A n q Rep mem s0 D m Q P ch) (hne : Q.edges ≠ [] ∨ Q.pending ≠ []) :
    ∃ m' Q' stop P' ch', queryIter B mem upd m Q = .ok (m', Q', stop) ∧
      QueryInv A n q Rep mem s0 D m' Q' P' ch' ∧ workOf P' ch' < workOf P ch ∧
      Grow A n q.length B Rep m m' Q.owned Q'.owned ∧
      (stop = true → Q'.complete = false ∧ ∃ t d, outOf A n q P ch = (t, d) :: outOf A n q P' ch' ∧
        Q'.cand = upd t d ∧ (∃ P0 x, P' = P0 ++ [x] ∧ x.path = t) ∧
        MadeFor A n q Rep m' Q.owned Q'.owned (aheadOf A n q P ch) (aheadOf A n q P' ch') [t]) ∧
      (stop = false → Q'.complete = Q.complete ∧ Q'.cand = Q.cand ∧ outOf A n q P ch = outOf A n q P' ch' ∧
        ∃ ws, MadeFor A n q Rep m' Q.owned Q'.owned (aheadOf A n q P ch) (aheadOf A n q P' ch') ws) := by
  cases hes : Q.edges with
  | nil =>
    have hch : ch = [] := by
      rcases h.cur with hc | ⟨I, it, F, hd, tl, h1, h2, h3, h4, h5, _⟩
      · exact hc.2
      · rw [hes] at h4; cases h4; rw [h5]; rfl
    subst hch
    have hpend := h.pending
    cases hp : Q.pending with
    | nil => rw [hes, hp] at hne; simp at hne
    | cons I rest =>
      rw [hp] at hpend
      cases hpend with
      | @cons _ it _ P0 hI hrest =>
        obtain ⟨l, hl, hsem⟩ := hI.state
        obtain ⟨nd, hmn, hfin, hunf⟩ := hI.node
        cases l with
        | nil => exact absurd rfl hsem.inv.ne
        | cons hd tl =>
          have hh := hB.head hl
          have hdr : deref mem I.node = .ok nd := by unfold deref; rw [hmn]
          have heq : queryIter B mem upd m Q = .ok (m, { Q with
              pending := rest, cur := some I, i := hd.index,
              k := if Q.a < wsub Q.term.length hd.index then Q.a else wsub Q.term.length hd.index,
              edges := nd.edges }, false) := by
            simp only [queryIter, hes, hp, hh, hdr, bind, Except.bind]
            rfl
          refine ⟨_, _, _, P0, it.children, heq, ?_, ?_, Grow.refl _ _, by simp, ?_⟩
          · refine ⟨h.term, h.maxD, h.a, hrest, fun J hJ => h.pendingOwn J (by rw [hp]; simp [hJ]), .inr ?_⟩
            refine ⟨I, it, it.kids, hd, tl, rfl, hI, h.pendingOwn I (by rw [hp]; simp), hunf, rfl, hI.height,
              hl, hsem, rfl, ?_⟩
            simp only [h.a, h.term]
          · have := items_length_wt it.path it.kids
            simp only [workOf, itemsWt_cons, Item.children, Item.wt] at *
            simp only [itemsWt, List.map_nil, List.sum_nil, List.length_nil] at *
            omega
          · intro _
            refine ⟨rfl, rfl, ?_, [], ?_⟩
            · unfold outOf
              rw [List.nil_append, List.append_nil, pushes_cons]
            · have : aheadOf A n q (it :: P0) [] = aheadOf A n q P0 it.children := by
                unfold aheadOf
                rw [List.nil_append, List.append_nil, pushes_cons]
              rw [this]
              exact MadeFor.refl
  | cons e es =>
    obtain ⟨label, target⟩ := e
    rcases h.cur with hc | ⟨I, it, F, hd, tl, h1, h2, h3, h4, h5, h6, h7, h8, h9, h10⟩
    · rw [hes] at hc; simp at hc
    · rw [hes] at h4
      cases h4 with
      | @cons _ _ nd _ kids rest hmt hkids hrest =>
        have hlen : it.path.length < 2 ^ 62 := by have := h2.height; omega
        have hsm : Small n q it.path.length := ⟨hn, hq, hlen⟩
        have hhd := h8.inv.ok hd (by simp)
        obtain ⟨cv, hcv, hwin⟩ := charVec_window (x := label) hsm hhd.index_le
          (by have := hhd.behind; have := hhd.errors_le; omega)
        have hcv' : charVec label Q.term Q.k Q.i = .ok cv := by rw [h.term, h9, h10]; exact hcv
        have hcvq : charVec label q Q.k Q.i = .ok cv := by rw [h9, h10]; exact hcv
        have hch : ch = ⟨it.path ++ [label], nd.final, kids⟩ :: rest.items it.path := by rw [h5]; rfl
        have hheight : it.path.length + rest.height ≤ D := by simp only [Forest.height] at h6; omega
        have hheight' : (it.path ++ [label]).length + kids.height ≤ D := by
          simp only [Forest.height] at h6; simp; omega
        rcases h8.trans q.length hsm hwin with ⟨ht, hdead⟩ | ⟨l', ht, hsem'⟩
        · obtain ⟨m', htr, hpres⟩ := hB.trans_none h7 ht
          have heq : queryIter B mem upd m Q = .ok (m', { Q with edges := es }, false) := by
            simp only [queryIter, hes, h1, hcv', htr, bind, Except.bind]
            rfl
          refine ⟨_, _, _, P, rest.items it.path, heq, ?_, ?_,
            ⟨hpres, fun _ hI hm => hI.none h7 ht htr hm⟩, by simp, ?_⟩
          · have hfr := h.frame (m' := m') (fun s l _ => hpres s l)
            refine ⟨hfr.term, hfr.maxD, hfr.a, hfr.pending, hfr.pendingOwn, .inr ?_⟩
            exact ⟨I, it, rest, hd, tl, h1, h2.frame (hpres _), h3, hrest, rfl, hheight, hpres _ _ h7, h8, h9, h10⟩
          · subst hch
            simp only [workOf, itemsWt_cons, List.length_cons]
            omega
          · intro _
            have hd' : Dead A n q ⟨it.path ++ [label], nd.final, kids⟩ := hdead
            have hpr : Pruned A n q (P ++ rest.items it.path)
                (P ++ ⟨it.path ++ [label], nd.final, kids⟩ :: rest.items it.path) :=
              (Pruned.refl P).append (.drop hd' (Pruned.refl _))
            subst hch
            refine ⟨rfl, rfl, ?_, [], ?_⟩
            · unfold outOf
              rw [List.cons_append, List.filterMap_cons, hd'.result, List.filterMap_append, List.filterMap_append]
              rw [hpr.results]
            · have : aheadOf A n q P (⟨it.path ++ [label], nd.final, kids⟩ :: rest.items it.path) =
                  aheadOf A n q P (rest.items it.path) := by
                unfold aheadOf
                rw [List.cons_append, List.filterMap_cons, liveOf, if_pos hd', List.filterMap_append,
                  List.filterMap_append, hpr.filterMap fun _ h => by rw [liveOf, if_pos h]]
              rw [this]
              exact MadeFor.refl
        · obtain ⟨m', s', htr, hrep, hpres⟩ := hB.trans_some h7 ht
          have hdr : deref mem target = .ok nd := by unfold deref; rw [hmt]
          have hlen' : (it.path ++ [label]).length < 2 ^ 62 := by omega
          have hsm' : Small n q (it.path ++ [label]).length := ⟨hn, hq, hlen'⟩
          have hdist := hsem'.dist hsm' (cost_spec A q (it.path ++ [label]))
          have hfr := h.frame (m' := m') (fun s l _ => hpres s l)
          -- the invariant afterwards, whatever happens to the candidate
          have hinv : ∀ (Q' : Query S R), Q'.term = Q.term → Q'.maxD = Q.maxD → Q'.a = Q.a → Q'.i = Q.i →
              Q'.k = Q.k → Q'.cur = Q.cur → Q'.edges = es →
              Q'.pending = Q.pending ++ [Inter.child label target s' I] → Q'.owned = Q.owned ++ [s'] →
              QueryInv A n q Rep mem s0 D m' Q' (P ++ [⟨it.path ++ [label], nd.final, kids⟩])
                (rest.items it.path) := by
            intro Q' e1 e2 e3 e4 e5 e6 e7 e8 e9
            refine ⟨e1.trans h.term, e2.trans h.maxD, e3.trans h.a, ?_, ?_, .inr ?_⟩
            · rw [e8]
              refine forall₂_snoc hfr.pending ⟨?_, ⟨l', hrep, hsem'⟩, ⟨nd, hmt, rfl, hkids⟩, hheight'⟩
              simp only [Inter.str, h2.str]
            · intro J hJ
              rw [e8] at hJ
              rw [e9]
              rcases List.mem_append.1 hJ with hJ | hJ
              · rcases h.pendingOwn J hJ with h' | h'
                · exact .inl h'
                · exact .inr (by simp [h'])
              · simp only [List.mem_singleton] at hJ
                subst hJ
                exact .inr (by simp [Inter.state])
            · refine ⟨I, it, rest, hd, tl, e6.trans h1, h2.frame (hpres _), ?_, by rw [e7]; exact hrest, rfl, hheight,
                hpres _ _ h7, h8, e4.trans h9, e5.trans h10⟩
              rw [e9]
              rcases h3 with h' | h'
              · exact .inl h'
              · exact .inr (by simp [h'])
          have hwork : workOf (P ++ [⟨it.path ++ [label], nd.final, kids⟩]) (rest.items it.path) < workOf P ch := by
            subst hch
            simp only [workOf, itemsWt_append, itemsWt_cons, List.length_cons]
            simp only [itemsWt, List.map_nil, List.sum_nil]
            omega
          have hout : outOf A n q P ch =
              (resultOf A n q ⟨it.path ++ [label], nd.final, kids⟩).toList ++
                outOf A n q (P ++ [⟨it.path ++ [label], nd.final, kids⟩]) (rest.items it.path) := by
            subst hch
            unfold outOf
            rw [List.append_assoc, List.singleton_append, List.cons_append, List.filterMap_cons]
            cases resultOf A n q ⟨it.path ++ [label], nd.final, kids⟩ <;> rfl
          have hmade : MadeFor A n q Rep m' Q.owned (Q.owned ++ [s']) (aheadOf A n q P ch)
              (aheadOf A n q (P ++ [⟨it.path ++ [label], nd.final, kids⟩]) (rest.items it.path)) [it.path ++ [label]] := by
            refine ⟨?_, [s'], rfl, .cons ⟨l', hrep, hsem'⟩ .nil⟩
            subst hch
            have hv : ¬ Dead A n q ⟨it.path ++ [label], nd.final, kids⟩ := by
              obtain ⟨u, hu⟩ := viable_iff.1 hsem'.viable
              exact fun hdd => hdd u n (Nat.le_refl _) hu
            unfold aheadOf
            rw [List.append_assoc, List.singleton_append, List.cons_append, List.filterMap_cons, liveOf, if_neg hv]
            rfl
          have hgrow : Grow A n q.length B Rep m m' Q.owned (Q.owned ++ [s']) :=
            ⟨hpres, fun _ hI hm => hI.some h7 ht htr hm⟩
          by_cases hfin : nd.final = true
          · by_cases hle : cost A q (it.path ++ [label]) ≤ n
            · have hsd := hdist.1 hle
              have heq : queryIter B mem upd m Q = .ok (m', { Q with
                  edges := es, pending := Q.pending ++ [Inter.child label target s' I],
                  owned := Q.owned ++ [s'], cand := upd (Inter.child label target s' I).str (cost A q (it.path ++ [label])), complete := false }, true) := by
                simp only [queryIter, hes, h1, hcvq, htr, bind, Except.bind, hdr, hfin, if_true, h.term, hB.dist hrep, hsd, h.maxD,
                  if_pos hle]
                rfl
              refine ⟨_, _, _, P ++ [⟨it.path ++ [label], nd.final, kids⟩], rest.items it.path,
                heq, ?_, hwork, hgrow, ?_, by simp⟩
              · exact hinv _ rfl rfl rfl rfl rfl rfl rfl rfl rfl
              · intro _
                refine ⟨rfl, it.path ++ [label], cost A q (it.path ++ [label]), ?_, ?_, ⟨_, _, rfl, rfl⟩, hmade⟩
                · rw [hout]
                  simp only [resultOf, hfin, hle, and_self, if_true, Option.toList_some, List.singleton_append]
                · simp only [Inter.str, h2.str]
            · have hsd := hdist.2 hle
              have heq : queryIter B mem upd m Q = .ok (m', { Q with
                  edges := es, pending := Q.pending ++ [Inter.child label target s' I],
                  owned := Q.owned ++ [s'] }, false) := by
                simp only [queryIter, hes, h1, hcvq, htr, bind, Except.bind, hdr, hfin, if_true, h.term, hB.dist hrep, h.maxD,
                  if_neg hsd]
                rfl
              refine ⟨_, _, _, P ++ [⟨it.path ++ [label], nd.final, kids⟩], rest.items it.path,
                heq, ?_, hwork, hgrow, by simp, ?_⟩
              · exact hinv _ rfl rfl rfl rfl rfl rfl rfl rfl rfl
              · intro _
                refine ⟨rfl, rfl, ?_, _, hmade⟩
                rw [hout]
                simp only [resultOf, hfin, hle, and_false, if_false, Option.toList_none, List.nil_append]
          · have heq : queryIter B mem upd m Q = .ok (m', { Q with
                edges := es, pending := Q.pending ++ [Inter.child label target s' I],
                owned := Q.owned ++ [s'] }, false) := by
              simp only [queryIter, hes, h1, hcv', htr, bind, Except.bind, hdr, hfin, if_false, Bool.false_eq_true]
              rfl
            refine ⟨_, _, _, P ++ [⟨it.path ++ [label], nd.final, kids⟩], rest.items it.path,
              heq, ?_, hwork, hgrow, by simp, ?_⟩
            · exact hinv _ rfl rfl rfl rfl rfl rfl rfl rfl rfl
            · intro _
              refine ⟨rfl, rfl, ?_, _, hmade⟩
              rw [hout]
              simp only [resultOf, hfin, false_and, if_false, Option.toList_none, List.nil_append,
                Bool.false_eq_true]

theorem QueryInv.done {m : σ} {Q : Query S R} {P ch : List Item} (h : QueryInv A n q Rep mem s0 D m Q P ch)
    (he : (Q.edges.isEmpty && Q.pending.isEmpty) = true) : P = [] ∧ ch = [] := by
  simp only [Bool.and_eq_true, List.isEmpty_iff] at he
  have hp := h.pending
  rw [he.2] at hp
  constructor
  · cases hp; rfl
  · rcases h.cur with hc | ⟨I, it, F, hd, tl, h1, h2, h3, h4, h5, _⟩
    · exact hc.2
    · rw [he.1] at h4; cases h4; rw [h5]; rfl

theorem QueryInv.more {Q : Query S R} (he : ¬ (Q.edges.isEmpty && Q.pending.isEmpty) = true) :
    Q.edges ≠ [] ∨ Q.pending ≠ [] := by
  simp only [Bool.and_eq_true, List.isEmpty_iff] at he
  by_cases h : Q.edges = []
  · exact .inr fun h' => he ⟨h, h'⟩
  · exact .inl h

theorem outOf_nil : outOf A n q [] [] = [] := by
  simp [outOf, pushes_nil]

theorem aheadOf_nil : aheadOf A n q [] [] = [] := by
  simp [aheadOf, pushes_nil]

theorem MadeFor.toEnd {m : σ} {o o' : List S} {L ws : List Str} (h : MadeFor A n q Rep m o o' L [] ws) :
    MadeFor A n q Rep m o o' L [] L := by
  have h1 : L = ws := by simpa using h.1
  subst h1
  exact h

/-- What `advance` does: either it stops at the next result or there is none left. -/
def Advanced (A : Algorithm) (n : Nat) (q : Str) (Rep : σ → S → List Pos → Prop) (upd : Str → Nat → R) (m' : σ)
    (Q Q' : Query S R) (P ch P' ch' : List Item) : Prop :=
  (Q'.complete = false ∧ workOf P' ch' < workOf P ch ∧
    ∃ t d, outOf A n q P ch = (t, d) :: outOf A n q P' ch' ∧ Q'.cand = upd t d ∧ (∃ P0 x, P' = P0 ++ [x] ∧ x.path = t) ∧
      ∃ ws, MadeFor A n q Rep m' Q.owned Q'.owned (aheadOf A n q P ch) (aheadOf A n q P' ch') (ws ++ [t])) ∨
  (Q'.complete = true ∧ outOf A n q P ch = [] ∧ P' = [] ∧ ch' = [] ∧ Q'.cand = Q.cand ∧
    MadeFor A n q Rep m' Q.owned Q'.owned (aheadOf A n q P ch) [] (aheadOf A n q P ch))

theorem queryLoop_spec (hB : BackendOk A n q.length B Rep) (hn : n ≤ sizeMax) (hq : Spec.QueryFits n q)
    (hD : D < 2 ^ 62) (fuel : Nat) {m : σ} {Q : Query S R} {P ch : List Item}
    (h : QueryInv A n q Rep mem s0 D m Q P ch) (hne : Q.edges ≠ [] ∨ Q.pending ≠ []) (hc : Q.complete = true)
    (hf : workOf P ch < fuel) :
    ∃ m' Q' P' ch', queryLoop B mem upd fuel m Q = .ok (m', Q') ∧ QueryInv A n q Rep mem s0 D m' Q' P' ch' ∧
      Grow A n q.length B Rep m m' Q.owned Q'.owned ∧ Advanced A n q Rep upd m' Q Q' P ch P' ch' := by
  induction fuel generalizing m Q P ch with
  | zero => omega
  | succ fuel ih =>
    obtain ⟨m1, Q1, stop, P1, ch1, heq, hinv, hwork, hgrow, hstop, hgo⟩ :=
      queryIter_spec (upd := upd) hB hn hq hD h hne
    cases stop with
    | true =>
      refine ⟨m1, Q1, P1, ch1, ?_, hinv, hgrow, .inl ?_⟩
      · rw [queryLoop, heq]; rfl
      · obtain ⟨h1, t, d, h2, h3, h4, h5⟩ := hstop rfl
        exact ⟨h1, hwork, t, d, h2, h3, h4, [], h5⟩
    | false =>
      obtain ⟨h1, h2, h3, ws, h4⟩ := hgo rfl
      by_cases he : (Q1.edges.isEmpty && Q1.pending.isEmpty) = true
      · obtain ⟨rfl, rfl⟩ := hinv.done he
        refine ⟨m1, Q1, [], [], ?_, hinv, hgrow, .inr ⟨by rw [h1, hc], ?_, rfl, rfl, h2, ?_⟩⟩
        · rw [queryLoop, heq]
          simp only [bind, Except.bind, he, if_true, Bool.false_eq_true, if_false]
          rfl
        · rw [h3, outOf_nil]
        · exact MadeFor.toEnd (by rw [← aheadOf_nil]; exact h4)
      · obtain ⟨m2, Q2, P2, ch2, heq2, hinv2, hgrow2, hadv⟩ :=
          ih hinv (QueryInv.more he) (by rw [h1, hc]) (by omega)
        refine ⟨m2, Q2, P2, ch2, ?_, hinv2, hgrow.trans hgrow2, ?_⟩
        · rw [queryLoop, heq]
          simp only [bind, Except.bind, he, Bool.false_eq_true, if_false]
          exact heq2
        · rcases hadv with ⟨a1, a2, t, d, a3, a4, al, ws', a5⟩ | ⟨a1, a2, a3, a4, a5, a6⟩
          · exact .inl ⟨a1, by omega, t, d, by rw [h3]; exact a3, a4, al, ws ++ ws', by
              rw [List.append_assoc]; exact h4.trans a5 hgrow2.keep⟩
          · exact .inr ⟨a1, by rw [h3]; exact a2, a3, a4, by rw [a5, h2], MadeFor.toEnd (h4.trans a6 hgrow2.keep)⟩

theorem queryAdvance_spec (hB : BackendOk A n q.length B Rep) (hn : n ≤ sizeMax) (hq : Spec.QueryFits n q)
    (hD : D < 2 ^ 62) (fuel : Nat) {m : σ} {Q : Query S R} {P ch : List Item}
    (h : QueryInv A n q Rep mem s0 D m Q P ch) (hf : workOf P ch < fuel) :
    ∃ m' Q' P' ch', queryAdvance B mem upd fuel m Q = .ok (m', Q') ∧ QueryInv A n q Rep mem s0 D m' Q' P' ch' ∧
      Grow A n q.length B Rep m m' Q.owned Q'.owned ∧ Advanced A n q Rep upd m' Q Q' P ch P' ch' := by
  have h' : QueryInv A n q Rep mem s0 D m { Q with complete := true } P ch :=
    ⟨h.term, h.maxD, h.a, h.pending, h.pendingOwn, h.cur⟩
  unfold queryAdvance
  by_cases he : (Q.edges.isEmpty && Q.pending.isEmpty) = true
  · obtain ⟨rfl, rfl⟩ := h.done he
    rw [if_pos he]
    exact ⟨_, _, [], [], rfl, h', Grow.refl _ _, .inr ⟨rfl, outOf_nil, rfl, rfl, rfl, by
      rw [aheadOf_nil]; exact MadeFor.refl⟩⟩
  · rw [if_neg he]
    obtain ⟨m2, Q2, P2, ch2, heq2, hinv2, hgrow2, hadv⟩ :=
      queryLoop_spec (upd := upd) hB hn hq hD fuel h' (QueryInv.more he) rfl hf
    exact ⟨m2, Q2, P2, ch2, heq2, hinv2, hgrow2, hadv⟩

theorem queryCollect_spec (hB : BackendOk A n q.length B Rep) (hn : n ≤ sizeMax) (hq : Spec.QueryFits n q)
    (hD : D < 2 ^ 62) (fuel : Nat) {m : σ} {Q : Query S R} {P ch : List Item}
    (h : QueryInv A n q Rep mem s0 D m Q P ch) (hf : workOf P ch + 2 ≤ fuel) :
    ∃ m', queryCollect B mem upd fuel m Q = .ok (m', if Q.complete = true then [] else
      Q.cand :: (outOf A n q P ch).map (fun r => upd r.1 r.2)) ∧ ∀ s l, Rep m s l → Rep m' s l := by
  induction fuel generalizing m Q P ch with
  | zero => omega
  | succ fuel ih =>
    rw [queryCollect]
    by_cases hc : Q.complete = true
    · rw [if_pos hc]
      exact ⟨m, by rw [if_pos hc]; rfl, fun _ _ h => h⟩
    · rw [if_neg hc]
      obtain ⟨m1, Q1, P1, ch1, heq, hinv, hgrow, hadv⟩ :=
        queryAdvance_spec (upd := upd) hB hn hq hD fuel h (by omega)
      rcases hadv with ⟨a1, a2, t, d, a3, a4, _⟩ | ⟨a1, a2, _⟩
      · obtain ⟨m2, heq2, hk⟩ := ih hinv (by omega)
        refine ⟨m2, ?_, fun s l h => hk s l (hgrow.keep s l h)⟩
        rw [if_neg (by simp [a1])] at heq2
        rw [if_neg hc]
        simp only [heq, heq2, bind, Except.bind, a3, a4, List.map_cons]
        rfl
      · refine ⟨m1, ?_, hgrow.keep⟩
        rw [if_neg hc]
        obtain ⟨f, rfl⟩ : ∃ f, fuel = f + 1 := ⟨fuel - 1, by omega⟩
        simp only [heq, queryCollect, bind, Except.bind, a1, a2, if_true]
        rfl

/-- The item of the root. -/
def rootItem (nd : DNode) (F : Forest) : Item := ⟨[], nd.final, F⟩

/-- All that a query yields. -/
def allOut (A : Algorithm) (n : Nat) (q : Str) (nd : DNode) (F : Forest) : List (Str × Nat) :=
  (rootItem nd F :: pushes [rootItem nd F]).filterMap (resultOf A n q)

theorem cost_nil (A : Algorithm) (q : Str) : cost A q [] = q.length := by
  have h := cost_spec A q []
  exact h.unique (isMinCost_nil_right q)

/-- A query in progress, started with `begin()`. -/
theorem queryBegin_spec (hB : BackendOk A n q.length B Rep) (hn : n ≤ sizeMax) (hq : Spec.QueryFits n q)
    (hD : D < 2 ^ 62) (fuel : Nat) (dflt : R) {m : σ} {root : Nat} {nd : DNode} {F : Forest}
    (hm : mem root = some nd) (hu : Unf mem nd.edges F) (hh : F.height ≤ D) (hs : Rep m s0 initialState)
    (hf : F.wt + 1 < fuel) :
    ∃ m' Q P ch, queryBegin B mem upd fuel dflt m root s0 q n = .ok (m', Q) ∧
      QueryInv A n q Rep mem s0 D m' Q P ch ∧ workOf P ch ≤ F.wt + 1 ∧ Grow A n q.length B Rep m m' [] Q.owned ∧
      ((Q.complete = false ∧ ∃ t d, allOut A n q nd F = (t, d) :: outOf A n q P ch ∧ Q.cand = upd t d ∧
        (∃ P0 x, P = P0 ++ [x] ∧ x.path = t) ∧ ∃ ws, MadeFor A n q Rep m' [] Q.owned (aheadOf A n q [rootItem nd F] []) (aheadOf A n q P ch) ws ∧
          ([] :: ws).getLast? = some t) ∨
        (Q.complete = true ∧ allOut A n q nd F = [] ∧ P = [] ∧ ch = [] ∧
          MadeFor A n q Rep m' [] Q.owned (aheadOf A n q [rootItem nd F] []) [] (aheadOf A n q [rootItem nd F] []))) := by
  have hinv : ∀ (Q : Query S R), Q.term = q → Q.maxD = n → Q.a = windowMax n → Q.edges = [] →
      Q.pending = [Inter.root root s0] → QueryInv A n q Rep mem s0 D m Q [rootItem nd F] [] := by
    intro Q h1 h2 h3 h4 h5
    refine ⟨h1, h2, h3, ?_, ?_, .inl ⟨h4, rfl⟩⟩
    · rw [h5]
      refine .cons ⟨rfl, ⟨_, hs, initialState_sem A n q⟩, ⟨nd, hm, rfl, hu⟩, ?_⟩ .nil
      simp only [rootItem, List.length_nil, Nat.zero_add]
      exact hh
    · rw [h5]
      intro I hI
      simp only [List.mem_singleton] at hI
      subst hI
      exact .inl rfl
  have hdr : deref mem root = .ok nd := by unfold deref; rw [hm]
  have hwork : workOf [rootItem nd F] [] = F.wt + 1 := by
    simp [workOf, itemsWt, Item.wt, rootItem]; omega
  have hout : outOf A n q [rootItem nd F] [] = (pushes [rootItem nd F]).filterMap (resultOf A n q) := by
    simp [outOf]
  unfold queryBegin
  simp only [hdr, bind, Except.bind]
  by_cases hc : (nd.final && decide (q.length ≤ n)) = true
  · rw [if_pos hc]
    refine ⟨m, _, [rootItem nd F], [], rfl, hinv _ rfl rfl rfl rfl rfl, by omega,
      Grow.refl _ _, .inl ⟨rfl, [], q.length, ?_, rfl, ⟨[], _, rfl, rfl⟩, [], MadeFor.refl, rfl⟩⟩
    rw [hout, allOut, List.filterMap_cons]
    simp only [Bool.and_eq_true, decide_eq_true_eq] at hc
    have : resultOf A n q (rootItem nd F) = some ([], q.length) := by
      simp only [resultOf, rootItem, cost_nil, hc, and_self, if_true]
    rw [this]
  · rw [if_neg hc]
    obtain ⟨m1, Q1, P1, ch1, heq, hinv1, hgrow, hadv⟩ :=
      queryAdvance_spec (upd := upd) hB hn hq hD fuel
        (hinv { pending := [Inter.root root s0], edges := [], owned := [], complete := false, cur := none,
                cand := dflt, term := q, maxD := n, a := windowMax n, k := 0, i := 0 } rfl rfl rfl rfl rfl)
        (by omega)
    have hall : allOut A n q nd F = outOf A n q [rootItem nd F] [] := by
      rw [hout, allOut, List.filterMap_cons]
      have : resultOf A n q (rootItem nd F) = none := by
        simp only [Bool.and_eq_true, decide_eq_true_eq] at hc
        simp only [resultOf, rootItem, cost_nil, hc, if_false]
      rw [this]
    refine ⟨m1, Q1, P1, ch1, heq, hinv1, ?_, hgrow, ?_⟩
    · rcases hadv with ⟨_, a, _⟩ | ⟨_, _, rfl, rfl, _⟩
      · omega
      · simp [workOf, itemsWt]
    · rw [hall]
      rcases hadv with ⟨a1, _, t, d, a2, a3, al, ws, a4⟩ | ⟨a1, a2, a3, a4, _, a5⟩
      · exact .inl ⟨a1, t, d, a2, a3, al, ws ++ [t], a4, by rw [← List.cons_append, List.getLast?_concat]⟩
      · exact .inr ⟨a1, a2, a3, a4, a5⟩

/-- A whole query. -/
theorem queryAll_spec (hB : BackendOk A n q.length B Rep) (hn : n ≤ sizeMax) (hq : Spec.QueryFits n q)
    (fuel : Nat) (dflt : R) {m : σ} {root : Nat} {nd : DNode} {F : Forest}
    (hm : mem root = some nd) (hu : Unf mem nd.edges F) (hh : F.height < 2 ^ 62) (hs : Rep m s0 initialState)
    (hf : F.wt + 3 ≤ fuel) :
    ∃ m', queryAll B mem upd fuel dflt m root s0 q n =
      .ok (m', (allOut A n q nd F).map (fun r => upd r.1 r.2)) ∧ ∀ s l, Rep m s l → Rep m' s l := by
  obtain ⟨m1, Q, P, ch, heq, hinv, hwork, hgrow, hcase⟩ :=
    queryBegin_spec (upd := upd) (s0 := s0) hB hn hq hh fuel dflt hm hu (Nat.le_refl _) hs (by omega)
  obtain ⟨m2, heq2, hk⟩ := queryCollect_spec (upd := upd) hB hn hq hh fuel hinv (by omega)
  refine ⟨m2, ?_, fun s l h => hk s l (hgrow.keep s l h)⟩
  simp only [queryAll, heq, heq2, bind, Except.bind]
  rcases hcase with ⟨a1, t, d, a2, a3⟩ | ⟨a1, a2, _⟩
  · rw [a2, a3.1]; simp [a1]
  · rw [a2]; simp [a1]

end

end Lev
