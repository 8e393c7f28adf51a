import Verif.Spec.Dict

/-!
Unfolding a dictionary graph into a tree, and walking through the tree breadth-first.
-/

namespace Lev

open Spec

/-- Two lists of the same length related element by element. -/
inductive AllPairs {α β : Type} (r : α → β → Prop) : List α → List β → Prop
  | nil : AllPairs r [] []
  | cons {a b l l'} : r a b → AllPairs r l l' → AllPairs r (a :: l) (b :: l')

/-- The edges of a node with everything below them: label, finality of the target, the target's own edges. -/
inductive Forest where
  | nil
  | cons (label : UInt8) (fin : Bool) (kids rest : Forest)
deriving DecidableEq

/-- `F` is what lies below the edges `es` in memory. -/
inductive Unf (mem : Mem) : List (UInt8 × Nat) → Forest → Prop
  | nil : Unf mem [] .nil
  | cons {l : UInt8} {a : Nat} {nd : DNode} {es : List (UInt8 × Nat)} {kids rest : Forest} :
      mem a = some nd → Unf mem nd.edges kids → Unf mem es rest →
      Unf mem ((l, a) :: es) (.cons l nd.final kids rest)

theorem Unf.unique {mem : Mem} {es : List (UInt8 × Nat)} {F G : Forest} (h : Unf mem es F) (h' : Unf mem es G) :
    F = G := by
  induction h generalizing G with
  | nil => cases h'; rfl
  | cons hm _ _ ih1 ih2 =>
    cases h' with
    | cons hm' h1 h2 =>
      rw [hm] at hm'; cases hm'
      rw [ih1 h1, ih2 h2]

/-- Number of edges on the longest path. -/
def Forest.height : Forest → Nat
  | .nil => 0
  | .cons _ _ kids rest => max (1 + kids.height) rest.height

/-- Weight of the work left for the edges of a forest. -/
def Forest.wt : Forest → Nat
  | .nil => 0
  | .cons _ _ kids rest => 2 + kids.wt + rest.wt

/-- A node met on the walk: the string that leads to it, its finality, and what lies below. -/
structure Item where
  path : Str
  fin : Bool
  kids : Forest

def Forest.items (path : Str) : Forest → List Item
  | .nil => []
  | .cons l f kids rest => ⟨path ++ [l], f, kids⟩ :: rest.items path

def Item.children (it : Item) : List Item := it.kids.items it.path

def Item.wt (it : Item) : Nat := 1 + it.kids.wt

def itemsWt (l : List Item) : Nat := (l.map Item.wt).sum

theorem itemsWt_append (l l' : List Item) : itemsWt (l ++ l') = itemsWt l + itemsWt l' := by
  simp [itemsWt]

theorem itemsWt_cons (it : Item) (l : List Item) : itemsWt (it :: l) = it.wt + itemsWt l := by
  simp [itemsWt]

theorem items_length_wt (p : Str) (F : Forest) : itemsWt (F.items p) + (F.items p).length = F.wt := by
  induction F with
  | nil => rfl
  | cons l f kids rest _ ih =>
    simp only [Forest.items, itemsWt_cons, List.length_cons, Forest.wt, Item.wt]
    omega

/-- The nodes found when the walk goes on from the nodes `L` in the queue. -/
def pushes (L : List Item) : List Item :=
  match L with
  | [] => []
  | it :: rest => it.children ++ pushes (rest ++ it.children)
termination_by itemsWt L
decreasing_by
  have := items_length_wt it.path it.kids
  rw [itemsWt_append, itemsWt_cons]
  simp only [Item.children, Item.wt]
  omega

theorem pushes_nil : pushes [] = [] := by rw [pushes.eq_def]

theorem pushes_cons (it : Item) (rest : List Item) :
    pushes (it :: rest) = it.children ++ pushes (rest ++ it.children) := by
  rw [pushes.eq_def]

theorem children_wt (it : Item) (rest : List Item) : itemsWt (rest ++ it.children) < itemsWt (it :: rest) := by
  have := items_length_wt it.path it.kids
  rw [itemsWt_append, itemsWt_cons]
  simp only [Item.children, Item.wt]
  omega

/-- The walk handles a whole level before the next one. -/
theorem pushes_append (L M : List Item) :
    pushes (L ++ M) = L.flatMap Item.children ++ pushes (M ++ L.flatMap Item.children) := by
  induction L generalizing M with
  | nil => simp
  | cons it L ih =>
    rw [List.cons_append, pushes_cons, List.append_assoc, ih]
    simp [List.append_assoc]

theorem pushes_level (L : List Item) :
    pushes L = L.flatMap Item.children ++ pushes (L.flatMap Item.children) := by
  have := pushes_append L []
  simpa using this

/-- Induction along the queue. -/
theorem queue_induction {motive : List Item → Prop} (nil : motive [])
    (cons : ∀ it rest, motive (rest ++ it.children) → motive (it :: rest)) (L : List Item) : motive L := by
  induction hn : itemsWt L using Nat.strongRecOn generalizing L with
  | ind k ih =>
    cases L with
    | nil => exact nil
    | cons it rest =>
      exact cons it rest (ih _ (by rw [← hn]; exact children_wt it rest) _ rfl)

theorem mem_items {p : Str} {F : Forest} {it : Item} (h : it ∈ F.items p) : ∃ l, it.path = p ++ [l] := by
  induction F with
  | nil => simp [Forest.items] at h
  | cons l f kids rest _ ih =>
    simp only [Forest.items, List.mem_cons] at h
    rcases h with rfl | h
    · exact ⟨l, rfl⟩
    · exact ih h

theorem mem_items_height {p : Str} {F : Forest} {it : Item} (h : it ∈ F.items p) :
    it.path.length + it.kids.height ≤ p.length + F.height := by
  induction F with
  | nil => simp [Forest.items] at h
  | cons l f kids rest _ ih =>
    simp only [Forest.items, List.mem_cons] at h
    simp only [Forest.height]
    rcases h with rfl | h
    · simp; omega
    · have := ih h; omega

/-- What lies below a node of a dictionary. -/
theorem DictNode.unf {sgn : Bool} {mem : Mem} {d a : Nat} (h : DictNode sgn mem d a) :
    ∃ nd F, mem a = some nd ∧ Unf mem nd.edges F ∧ F.height < d := by
  induction h with
  | @mk d _ nd hm hs hk ih =>
      have : ∀ es, (∀ c b, (c, b) ∈ es → (c, b) ∈ nd.edges) → ∃ F, Unf mem es F ∧ F.height ≤ d := by
        intro es
        induction es with
        | nil => intro _; exact ⟨.nil, .nil, by simp [Forest.height]⟩
        | cons e es ihes =>
          intro hsub
          obtain ⟨c, b⟩ := e
          obtain ⟨F, hF, hh⟩ := ihes (fun c b h => hsub c b (by simp [h]))
          obtain ⟨ndb, K, hmb, hK, hKh⟩ := ih c b (hsub c b (by simp))
          refine ⟨.cons c ndb.final K F, .cons hmb hK hF, ?_⟩
          simp only [Forest.height]
          omega
      obtain ⟨F, hF, hh⟩ := this nd.edges (fun _ _ h => h)
      exact ⟨nd, F, hm, hF, by omega⟩

/-- Edges are in the order of the map on every level. -/
inductive Forest.Sorted (sgn : Bool) : Forest → Prop
  | nil : Sorted sgn .nil
  | cons {l f kids rest} : Sorted sgn kids → Sorted sgn rest →
      (∀ it ∈ rest.items [], ∀ c, it.path = [c] → charLt sgn l c) → Sorted sgn (.cons l f kids rest)

theorem Unf.mem_items {mem : Mem} {es : List (UInt8 × Nat)} {F : Forest} (h : Unf mem es F) (p : Str)
    (it : Item) : it ∈ F.items p ↔ ∃ c a nd, (c, a) ∈ es ∧ mem a = some nd ∧ it.path = p ++ [c] ∧
      it.fin = nd.final ∧ Unf mem nd.edges it.kids := by
  induction h with
  | nil => simp [Forest.items]
  | @cons l a nd es kids rest hm h1 _ _ ih2 =>
    simp only [Forest.items, List.mem_cons, ih2]
    constructor
    · rintro (rfl | ⟨c, a', nd', h, rest⟩)
      · exact ⟨l, a, nd, .inl rfl, hm, rfl, rfl, h1⟩
      · exact ⟨c, a', nd', .inr h, rest⟩
    · rintro ⟨c, a', nd', h | h, hm', hp, hf, hu⟩
      · cases h
        rw [hm] at hm'; cases hm'
        left
        cases it
        simp only at hp hf hu
        rw [hp, hf, h1.unique hu]
      · exact .inr ⟨c, a', nd', h, hm', hp, hf, hu⟩

theorem DictNode.sorted {sgn : Bool} {mem : Mem} {d a : Nat} (h : DictNode sgn mem d a) {nd : DNode} {F : Forest}
    (hm : mem a = some nd) (hu : Unf mem nd.edges F) : F.Sorted sgn := by
  induction h generalizing nd F with
  | mk hm' hs hk ih =>
      rw [hm] at hm'; obtain rfl := Option.some.inj hm'
      clear hm
      have : ∀ es F, (∀ c b, (c, b) ∈ es → (c, b) ∈ nd.edges) →
          es.Pairwise (fun e f => charLt sgn e.1 f.1) → Unf mem es F → F.Sorted sgn := by
        intro es F hsub hp hu
        induction hu with
        | nil => exact .nil
        | @cons l b ndb es' kids rest hmb hkids hrest _ ihrest =>
          have hp' := List.pairwise_cons.1 hp
          refine .cons (ih l b (hsub l b (by simp)) hmb hkids) (ihrest (fun c b h => hsub c b (by simp [h])) hp'.2) ?_
          intro it hit c hc
          obtain ⟨c', a', nd', hmem, _, hpath, _⟩ := (hrest.mem_items [] it).1 hit
          rw [hc] at hpath
          simp only [List.nil_append, List.cons.injEq, and_true] at hpath
          subst hpath
          exact hp'.1 _ hmem
      exact this nd.edges F (fun _ _ h => h) hs hu

/-- Strings below an item. -/
inductive Below' : Item → Str → Prop
  | here {it : Item} : it.fin = true → Below' it it.path
  | step {it it' : Item} {t : Str} : it' ∈ it.children → Below' it' t → Below' it t

theorem mem_pushes (L : List Item) (t : Str) :
    (∃ it ∈ pushes L, it.fin = true ∧ it.path = t) ↔ ∃ it ∈ L, ∃ it' ∈ it.children, Below' it' t := by
  induction L using queue_induction with
  | nil => simp [pushes_nil]
  | cons it rest ih =>
    rw [pushes_cons]
    constructor
    · rintro ⟨x, hx, hf, hp⟩
      rcases List.mem_append.1 hx with hx | hx
      · exact ⟨it, by simp, x, hx, hp ▸ .here hf⟩
      · obtain ⟨y, hy, y', hy', hb⟩ := ih.1 ⟨x, hx, hf, hp⟩
        rcases List.mem_append.1 hy with hy | hy
        · exact ⟨y, by simp [hy], y', hy', hb⟩
        · exact ⟨it, by simp, y, hy, .step hy' hb⟩
    · rintro ⟨y, hy, y', hy', hb⟩
      rcases List.mem_cons.1 hy with rfl | hy
      · cases hb with
        | here hf => exact ⟨y', by simp [hy'], hf, rfl⟩
        | step hz hb =>
          obtain ⟨x, hx, hf, hp⟩ := ih.2 ⟨y', by simp [hy'], _, hz, hb⟩
          exact ⟨x, by simp [hx], hf, hp⟩
      · obtain ⟨x, hx, hf, hp⟩ := ih.2 ⟨y, by simp [hy], y', hy', hb⟩
        exact ⟨x, by simp [hx], hf, hp⟩

/-- The strings below the item of a node are those the node accepts. -/
theorem below_iff {mem : Mem} {it : Item} {a : Nat} {nd : DNode} (hm : mem a = some nd) (hf : it.fin = nd.final)
    (hu : Unf mem nd.edges it.kids) (t : Str) : Below' it t ↔ ∃ u, t = it.path ++ u ∧ Accepts mem a u := by
  constructor
  · intro h
    induction h generalizing a nd with
    | @here it hfin => exact ⟨[], by simp, .here hm (by rw [← hf]; exact hfin)⟩
    | @step it it' t hmem _ ih =>
      obtain ⟨c, b, ndb, hb, hmb, hp, hfb, hub⟩ := (hu.mem_items it.path it').1 hmem
      obtain ⟨u, rfl, hacc⟩ := ih hmb hfb hub
      exact ⟨c :: u, by simp [hp], .step hm hb hacc⟩
  · rintro ⟨u, rfl, hacc⟩
    induction hacc generalizing it nd with
    | here hm' hfin =>
      rw [hm] at hm'; cases hm'
      rw [List.append_nil]
      exact .here (by rw [hf]; exact hfin)
    | @step a nd' c b u hm' hb hacc ih =>
      rw [hm] at hm'; obtain rfl := Option.some.inj hm'
      have hex : ∃ ndb K, mem b = some ndb ∧ Unf mem ndb.edges K := by
        generalize hes : nd.edges = es at hb hu
        generalize it.kids = F at hu
        clear hes
        induction hu with
        | nil => simp at hb
        | cons hmx hx _ _ ih2 =>
          rcases List.mem_cons.1 hb with h | h
          · cases h; exact ⟨_, _, hmx, hx⟩
          · exact ih2 h
      obtain ⟨ndb, K, hmb, hK⟩ := hex
      have h1 : (⟨it.path ++ [c], ndb.final, K⟩ : Item) ∈ it.children :=
        (hu.mem_items it.path _).2 ⟨c, b, ndb, hb, hmb, rfl, rfl, hK⟩
      have h2 := ih (it := ⟨it.path ++ [c], ndb.final, K⟩) hmb rfl hK
      simp only [List.append_assoc, List.singleton_append] at h2
      exact .step h1 h2

/-! ### The order of the walk -/

theorem charLt_trans {sgn : Bool} {a b c : UInt8} (h : charLt sgn a b) (h' : charLt sgn b c) : charLt sgn a c :=
  Nat.lt_trans h h'

theorem charLt_irrefl {sgn : Bool} {a : UInt8} (h : charLt sgn a a) : False := Nat.lt_irrefl _ h

theorem lex_append_left {sgn : Bool} {s t : Str} (p : Str) (h : List.Lex (charLt sgn) s t) :
    List.Lex (charLt sgn) (p ++ s) (p ++ t) := by
  induction p with
  | nil => exact h
  | cons a p ih => exact .cons ih

theorem lex_extend {sgn : Bool} {s t : Str} (hl : s.length = t.length) (h : List.Lex (charLt sgn) s t) (a b : Str) :
    List.Lex (charLt sgn) (s ++ a) (t ++ b) := by
  induction h with
  | nil => simp at hl
  | rel h => exact .rel h
  | cons _ ih => exact .cons (ih (by simpa using hl))

theorem Forest.Sorted.items {sgn : Bool} {F : Forest} (h : F.Sorted sgn) (p : Str) :
    (F.items p).Pairwise (fun a b => List.Lex (charLt sgn) a.path b.path) := by
  induction h with
  | nil => exact .nil
  | @cons l f kids rest _ _ hlt _ ih =>
    refine List.pairwise_cons.2 ⟨fun it hit => ?_, ih⟩
    obtain ⟨c, hc⟩ := mem_items hit
    have hit' : ∃ it' ∈ rest.items [], it'.path = [c] := by
      clear hlt ih
      induction rest with
      | nil => simp [Forest.items] at hit
      | cons l' f' k' r' _ ihr =>
        simp only [Forest.items, List.mem_cons] at hit ⊢
        rcases hit with rfl | hit
        · simp only [List.append_cancel_left_eq, List.cons.injEq, and_true] at hc
          subst hc
          exact ⟨_, .inl rfl, rfl⟩
        · rename_i hrest
          cases hrest with
          | cons _ hr _ =>
            obtain ⟨x, hx, hxp⟩ := ihr hr hit
            exact ⟨x, .inr hx, hxp⟩
    obtain ⟨it', h1, h2⟩ := hit'
    have := hlt it' h1 c h2
    show List.Lex _ (p ++ [l]) it.path
    rw [hc]
    exact lex_append_left p (.rel this)

theorem Forest.Sorted.mem {sgn : Bool} {F : Forest} (h : F.Sorted sgn) {p : Str} {it : Item} (hit : it ∈ F.items p) :
    it.kids.Sorted sgn := by
  induction h with
  | nil => simp [Forest.items] at hit
  | cons hk _ _ _ ih =>
    simp only [Forest.items, List.mem_cons] at hit
    rcases hit with rfl | hit
    · exact hk
    · exact ih hit

/-- One level: same length, lexicographically ascending, sorted below. -/
structure Level (sgn : Bool) (k : Nat) (L : List Item) : Prop where
  len : ∀ it ∈ L, it.path.length = k
  asc : L.Pairwise (fun a b => List.Lex (charLt sgn) a.path b.path)
  kids : ∀ it ∈ L, it.kids.Sorted sgn

theorem Level.next {sgn : Bool} {k : Nat} {L : List Item} (h : Level sgn k L) :
    Level sgn (k + 1) (L.flatMap Item.children) := by
  refine ⟨?_, ?_, ?_⟩
  · intro it hit
    obtain ⟨x, hx, hit⟩ := List.mem_flatMap.1 hit
    obtain ⟨c, hc⟩ := mem_items hit
    rw [hc]; simp [h.len x hx]
  · obtain ⟨hlen, hasc, hkids⟩ := h
    induction L with
    | nil => simp
    | cons x L ih =>
      have hasc' := List.pairwise_cons.1 hasc
      rw [List.flatMap_cons, List.pairwise_append]
      refine ⟨(hkids x (by simp)).items _, ih (fun it h => hlen it (by simp [h])) hasc'.2
        (fun it h => hkids it (by simp [h])), ?_⟩
      intro a ha b hb
      obtain ⟨y, hy, hb⟩ := List.mem_flatMap.1 hb
      obtain ⟨c, hc⟩ := mem_items ha
      obtain ⟨c', hc'⟩ := mem_items hb
      rw [hc, hc']
      exact lex_extend (by rw [hlen x (by simp), hlen y (by simp [hy])]) (hasc'.1 y hy) _ _
  · intro it hit
    obtain ⟨x, hx, hit⟩ := List.mem_flatMap.1 hit
    exact (h.kids x hx).mem hit

theorem flatMap_children_wt (L : List Item) : itemsWt (L.flatMap Item.children) + L.length ≤ itemsWt L := by
  induction L with
  | nil => simp [itemsWt]
  | cons it L ih =>
    have := items_length_wt it.path it.kids
    rw [List.flatMap_cons, itemsWt_append, itemsWt_cons, List.length_cons]
    simp only [Item.children, Item.wt] at *
    omega

theorem pushes_shortLex {sgn : Bool} {k : Nat} {L : List Item} (h : Level sgn k L) :
    (pushes L).Pairwise (fun a b => shortLex sgn a.path b.path) ∧ ∀ it ∈ pushes L, k < it.path.length := by
  induction hn : itemsWt L using Nat.strongRecOn generalizing L k with
  | ind n ih =>
    cases L with
    | nil => simp [pushes_nil]
    | cons x L =>
      have hnext := h.next
      have hwt := flatMap_children_wt (x :: L)
      rw [List.length_cons] at hwt
      obtain ⟨h1, h2⟩ := ih _ (by omega) hnext rfl
      rw [pushes_level]
      constructor
      · rw [List.pairwise_append]
        refine ⟨?_, h1, ?_⟩
        · exact (List.pairwise_and_iff.2 ⟨hnext.asc, List.pairwise_of_forall_mem_list (fun a ha b hb => (⟨hnext.len a ha, hnext.len b hb⟩ : a.path.length = k + 1 ∧ b.path.length = k + 1))⟩).imp
            fun ⟨h3, h4⟩ => .inr ⟨by omega, h3⟩
        · intro a ha b hb
          have h3 := hnext.len a ha
          have h4 := h2 b hb
          exact .inl (by omega)
      · intro it hit
        rcases List.mem_append.1 hit with hit | hit
        · have := hnext.len it hit; omega
        · have := h2 it hit; omega

end Lev
