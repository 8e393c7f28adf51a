import Verif.Proofs.Forest
import Verif.Model.Dawg

/-!
Node comparison, node hash and the language of a node as functions of the tree below it.
-/

namespace Lev

open Spec

/-! ### Forests as lists -/

def Forest.toList : Forest → List (UInt8 × Bool × Forest)
  | .nil => []
  | .cons l f kids rest => (l, f, kids) :: rest.toList

theorem Forest.toList_inj {F G : Forest} (h : F.toList = G.toList) : F = G := by
  induction F generalizing G with
  | nil => cases G with
    | nil => rfl
    | cons => simp [Forest.toList] at h
  | cons l f k r _ ih => cases G with
    | nil => simp [Forest.toList] at h
    | cons l' f' k' r' =>
      simp only [Forest.toList, List.cons.injEq, Prod.mk.injEq] at h
      obtain ⟨⟨rfl, rfl, rfl⟩, h⟩ := h
      rw [ih h]

theorem mem_toList_items {F : Forest} (p : Str) {l : UInt8} {f : Bool} {k : Forest} (h : (l, f, k) ∈ F.toList) :
    (⟨p ++ [l], f, k⟩ : Item) ∈ F.items p := by
  induction F with
  | nil => simp [Forest.toList] at h
  | cons l' f' k' r' _ ih =>
    simp only [Forest.toList, List.mem_cons] at h
    simp only [Forest.items, List.mem_cons]
    rcases h with h | h
    · cases h; exact .inl rfl
    · exact .inr (ih h)

theorem Forest.Sorted.toList {sgn : Bool} {F : Forest} (h : F.Sorted sgn) :
    F.toList.Pairwise (fun a b => charLt sgn a.1 b.1) ∧ ∀ e ∈ F.toList, e.2.2.Sorted sgn := by
  induction h with
  | nil => simp [Forest.toList]
  | @cons l f k r hk _ hlt _ ih =>
    simp only [Forest.toList, List.pairwise_cons, List.mem_cons]
    refine ⟨⟨?_, ih.1⟩, ?_⟩
    · rintro ⟨l', f', k'⟩ he
      exact hlt _ (mem_toList_items [] he) l' rfl
    · rintro e (rfl | he)
      · exact hk
      · exact ih.2 e he

theorem charKey_inj {sgn : Bool} {a b : UInt8} (h : charKey sgn a = charKey sgn b) : a = b := by
  have ha := a.toNat_lt
  have hb := b.toNat_lt
  have : a.toNat = b.toNat := by
    unfold charKey at h
    split at h <;> omega
  exact UInt8.toNat_inj.1 this

/-- A strictly sorted list that is contained in another strictly sorted list is a sublist of it. -/
theorem sorted_sublist {α : Type} {lt : α → α → Prop} (irr : ∀ a, ¬ lt a a) (asym : ∀ a b, lt a b → ¬ lt b a)
    {l1 l2 : List α} (h1 : l1.Pairwise lt) (h2 : l2.Pairwise lt) (hs : ∀ a ∈ l1, a ∈ l2) : l1.Sublist l2 := by
  induction l2 generalizing l1 with
  | nil =>
    cases l1 with
    | nil => exact .slnil
    | cons a l => have := hs a (by simp); simp at this
  | cons b l2 ih =>
    have h2' := List.pairwise_cons.1 h2
    cases l1 with
    | nil => exact List.nil_sublist _
    | cons a l1 =>
      have h1' := List.pairwise_cons.1 h1
      rcases List.mem_cons.1 (hs a (by simp)) with rfl | ha
      · refine (ih h1'.2 h2'.2 fun x hx => ?_).cons_cons _
        rcases List.mem_cons.1 (hs x (by simp [hx])) with rfl | hx'
        · exact absurd (h1'.1 _ hx) (irr _)
        · exact hx'
      · refine (ih h1 h2'.2 fun x hx => ?_).cons _
        rcases List.mem_cons.1 (hs x hx) with rfl | hx'
        · rcases List.mem_cons.1 hx with rfl | hx
          · exact ha
          · exact absurd (h1'.1 _ hx) (asym _ _ (h2'.1 a ha))
        · exact hx'

theorem forest_sublist {sgn : Bool} {F G : Forest} (hF : F.Sorted sgn) (hG : G.Sorted sgn)
    (hs : ∀ e ∈ F.toList, e ∈ G.toList) : F.toList.Sublist G.toList :=
  sorted_sublist (lt := fun a b : UInt8 × Bool × Forest => charLt sgn a.1 b.1) (fun _ h => charLt_irrefl h)
    (fun _ _ h h' => charLt_irrefl (charLt_trans h h')) hF.toList.1 hG.toList.1 hs

theorem forest_label_unique {sgn : Bool} {F : Forest} (hF : F.Sorted sgn) {l : UInt8} {x y : Bool × Forest}
    (hx : (l, x) ∈ F.toList) (hy : (l, y) ∈ F.toList) : x = y := by
  have h := hF.toList.1
  generalize F.toList = L at *
  induction L with
  | nil => simp at hx
  | cons e L ih =>
    have h' := List.pairwise_cons.1 h
    rcases List.mem_cons.1 hx with rfl | hx <;> rcases List.mem_cons.1 hy with hy | hy
    · cases hy; rfl
    · exact absurd (h'.1 _ hy) charLt_irrefl
    · rw [← hy] at h'; exact absurd (h'.1 _ hx) charLt_irrefl
    · exact ih hx hy h'.2

/-! ### The language of a tree -/

/-- Strings that start with an edge of the forest and end at a final node. -/
def Forest.Acc : Forest → Str → Prop
  | .nil, _ => False
  | .cons l f kids rest, t => (∃ u, t = l :: u ∧ ((u = [] ∧ f = true) ∨ kids.Acc u)) ∨ rest.Acc t

/-- Strings of a node that is final or not and has a forest below. -/
def AccT (b : Bool) (F : Forest) (t : Str) : Prop := (t = [] ∧ b = true) ∨ F.Acc t

theorem Forest.acc_nil {F : Forest} : ¬ F.Acc [] := by
  induction F with
  | nil => exact id
  | cons l f k r _ ih =>
    rintro (⟨u, h, _⟩ | h)
    · cases h
    · exact ih h

theorem Forest.acc_cons {F : Forest} {c : UInt8} {u : Str} :
    F.Acc (c :: u) ↔ ∃ f k, (c, f, k) ∈ F.toList ∧ AccT f k u := by
  induction F with
  | nil => simp [Forest.Acc, Forest.toList]
  | cons l f k r _ ih =>
    simp only [Forest.Acc, ih, Forest.toList, List.mem_cons]
    constructor
    · rintro (⟨v, h, hv⟩ | ⟨f', k', hm, ha⟩)
      · cases h; exact ⟨f, k, .inl rfl, hv⟩
      · exact ⟨f', k', .inr hm, ha⟩
    · rintro ⟨f', k', h | h, ha⟩
      · cases h; exact .inl ⟨u, rfl, ha⟩
      · exact .inr ⟨f', k', h, ha⟩

theorem Unf.acc {mem : Mem} {es : List (UInt8 × Nat)} {F : Forest} (h : Unf mem es F) (t : Str) :
    F.Acc t ↔ ∃ c b u, t = c :: u ∧ (c, b) ∈ es ∧ Accepts mem b u := by
  induction h generalizing t with
  | nil => simp [Forest.Acc]
  | @cons l a nd es kids rest hm _ _ ih1 ih2 =>
    have hnode : ∀ u, AccT nd.final kids u ↔ Accepts mem a u := by
      intro u
      unfold AccT
      rw [ih1]
      constructor
      · rintro (⟨rfl, hf⟩ | ⟨c, b, v, rfl, hb, hacc⟩)
        · exact .here hm hf
        · exact .step hm hb hacc
      · intro hacc
        cases hacc with
        | here hm' hf => rw [hm] at hm'; obtain rfl := Option.some.inj hm'; exact .inl ⟨rfl, hf⟩
        | step hm' hb hacc =>
          rw [hm] at hm'; obtain rfl := Option.some.inj hm'
          exact .inr ⟨_, _, _, rfl, hb, hacc⟩
    simp only [Forest.Acc, ih2, List.mem_cons]
    constructor
    · rintro (⟨u, rfl, hu⟩ | ⟨c, b, u, rfl, hb, hacc⟩)
      · exact ⟨l, a, u, rfl, .inl rfl, (hnode u).1 hu⟩
      · exact ⟨c, b, u, rfl, .inr hb, hacc⟩
    · rintro ⟨c, b, u, rfl, h | hb, hacc⟩
      · cases h; exact .inl ⟨u, rfl, (hnode u).2 hacc⟩
      · exact .inr ⟨c, b, u, rfl, hb, hacc⟩

theorem accepts_iff {mem : Mem} {a : Nat} {nd : DNode} {F : Forest} (hm : mem a = some nd) (h : Unf mem nd.edges F)
    (t : Str) : Accepts mem a t ↔ AccT nd.final F t := by
  unfold AccT
  rw [h.acc]
  constructor
  · intro hacc
    cases hacc with
    | here hm' hf => rw [hm] at hm'; obtain rfl := Option.some.inj hm'; exact .inl ⟨rfl, hf⟩
    | step hm' hb hacc =>
      rw [hm] at hm'; obtain rfl := Option.some.inj hm'
      exact .inr ⟨_, _, _, rfl, hb, hacc⟩
  · rintro (⟨rfl, hf⟩ | ⟨c, b, v, rfl, hb, hacc⟩)
    · exact .here hm hf
    · exact .step hm hb hacc

/-- Below every edge there is a final node. -/
def Forest.Trim : Forest → Prop
  | .nil => True
  | .cons _ f kids rest => (f = true ∨ kids ≠ .nil) ∧ kids.Trim ∧ rest.Trim

theorem Forest.Trim.mem {F : Forest} (h : F.Trim) {l : UInt8} {f : Bool} {k : Forest} (he : (l, f, k) ∈ F.toList) :
    (f = true ∨ k ≠ .nil) ∧ k.Trim := by
  induction F with
  | nil => simp [Forest.toList] at he
  | cons l' f' k' r' _ ih =>
    simp only [Forest.toList, List.mem_cons] at he
    rcases he with he | he
    · cases he; exact ⟨h.1, h.2.1⟩
    · exact ih h.2.2 he

/-- Number of edges of a forest. -/
def Forest.size : Forest → Nat
  | .nil => 0
  | .cons _ _ kids rest => 1 + kids.size + rest.size

theorem Forest.size_mem {F : Forest} {l : UInt8} {f : Bool} {k : Forest} (he : (l, f, k) ∈ F.toList) :
    k.size < F.size := by
  induction F with
  | nil => simp [Forest.toList] at he
  | cons l' f' k' r' _ ih =>
    simp only [Forest.toList, List.mem_cons] at he
    simp only [Forest.size]
    rcases he with he | he
    · cases he; omega
    · have := ih he; omega

theorem Forest.Trim.exists_acc {F : Forest} (h : F.Trim) (hne : F ≠ .nil) : ∃ t, F.Acc t := by
  induction F with
  | nil => exact absurd rfl hne
  | cons l f k r ih _ =>
    obtain ⟨h1, h2, _⟩ := h
    rcases h1 with h1 | h1
    · exact ⟨[l], .inl ⟨[], rfl, .inl ⟨rfl, h1⟩⟩⟩
    · obtain ⟨u, hu⟩ := ih h2 h1
      exact ⟨l :: u, .inl ⟨u, rfl, .inr hu⟩⟩

theorem accT_exists {b : Bool} {F : Forest} (h : F.Trim) (hne : b = true ∨ F ≠ .nil) : ∃ t, AccT b F t := by
  rcases hne with hb | hne
  · exact ⟨[], .inl ⟨rfl, hb⟩⟩
  · obtain ⟨t, ht⟩ := h.exists_acc hne
    exact ⟨t, .inr ht⟩

/-- A trim sorted tree is determined by its language. -/
theorem forest_ext {sgn : Bool} {F G : Forest} (hF : F.Sorted sgn) (hG : G.Sorted sgn) (tF : F.Trim) (tG : G.Trim)
    (h : ∀ t, F.Acc t ↔ G.Acc t) : F = G := by
  induction hn : F.size using Nat.strongRecOn generalizing F G with
  | ind n ih =>
    have key : ∀ c f k, (c, f, k) ∈ F.toList → ∃ f' k', (c, f', k') ∈ G.toList ∧ ∀ u, AccT f k u ↔ AccT f' k' u := by
      intro c f k he
      obtain ⟨u0, hu0⟩ := accT_exists (tF.mem he).2 (tF.mem he).1
      obtain ⟨f', k', he', _⟩ := Forest.acc_cons.1 ((h _).1 (Forest.acc_cons.2 ⟨f, k, he, hu0⟩))
      refine ⟨f', k', he', fun u => ?_⟩
      constructor
      · intro hu
        obtain ⟨f2, k2, he2, hu2⟩ := Forest.acc_cons.1 ((h _).1 (Forest.acc_cons.2 ⟨f, k, he, hu⟩))
        cases forest_label_unique hG he' he2
        exact hu2
      · intro hu
        obtain ⟨f2, k2, he2, hu2⟩ := Forest.acc_cons.1 ((h _).2 (Forest.acc_cons.2 ⟨f', k', he', hu⟩))
        cases forest_label_unique hF he he2
        exact hu2
    have ext : ∀ f k f' k', (∀ u, AccT f k u ↔ AccT f' k' u) → f = f' ∧ ∀ u, k.Acc u ↔ k'.Acc u := by
      intro f k f' k' hk
      constructor
      · have := hk []
        simp only [AccT, true_and, Forest.acc_nil, or_false] at this
        exact Bool.eq_iff_iff.2 this
      · intro u
        cases u with
        | nil => simp [Forest.acc_nil]
        | cons c u => simpa [AccT] using hk (c :: u)
    have sub : ∀ e ∈ F.toList, e ∈ G.toList := by
      rintro ⟨c, f, k⟩ he
      obtain ⟨f', k', he', hk⟩ := key c f k he
      obtain ⟨hff, hkk⟩ := ext _ _ _ _ hk
      have := ih k.size (by rw [← hn]; exact Forest.size_mem he) (hF.toList.2 _ he) (hG.toList.2 _ he') (tF.mem he).2
        (tG.mem he').2 hkk rfl
      simp only at this
      rw [this, hff]; exact he'
    have sub' : ∀ e ∈ G.toList, e ∈ F.toList := by
      rintro ⟨c, f', k'⟩ he'
      obtain ⟨u0, hu0⟩ := accT_exists (tG.mem he').2 (tG.mem he').1
      obtain ⟨f, k, he, _⟩ := Forest.acc_cons.1 ((h _).2 (Forest.acc_cons.2 ⟨f', k', he', hu0⟩))
      have he2 := sub _ he
      cases forest_label_unique hG he' he2
      exact he
    have s1 := forest_sublist hF hG sub
    have s2 := forest_sublist hG hF sub'
    exact Forest.toList_inj (s1.eq_of_length_le s2.length_le)

/-! ### Comparison -/

theorem Unf.find {mem : Mem} {es : List (UInt8 × Nat)} {G : Forest} (h : Unf mem es G) (b : Bool) (l : UInt8) :
    (∃ a nd k, nodeTransition ⟨b, es⟩ l = a ∧ mem a = some nd ∧ Unf mem nd.edges k ∧ (l, nd.final, k) ∈ G.toList) ∨
    (nodeTransition ⟨b, es⟩ l = 0 ∧ ∀ f k, (l, f, k) ∉ G.toList) := by
  induction h with
  | nil => right; simp [nodeTransition, Forest.toList]
  | @cons c a nd es kids rest hm h1 _ _ ih =>
    by_cases hc : c = l
    · subst hc
      left
      exact ⟨a, nd, kids, by simp [nodeTransition], hm, h1, by simp [Forest.toList]⟩
    · have : nodeTransition ⟨b, (c, a) :: es⟩ l = nodeTransition ⟨b, es⟩ l := by
        simp [nodeTransition, hc]
      rw [this]
      rcases ih with ⟨a', nd', k', h1, h2, h3, h4⟩ | ⟨h1, h2⟩
      · exact .inl ⟨a', nd', k', h1, h2, h3, by simp [Forest.toList, h4]⟩
      · refine .inr ⟨h1, fun f k => ?_⟩
        simp only [Forest.toList, List.mem_cons, Prod.mk.injEq, not_or]
        exact ⟨fun h => hc h.1.symm, h2 f k⟩

theorem Unf.length {mem : Mem} {es : List (UInt8 × Nat)} {F : Forest} (h : Unf mem es F) :
    F.toList.length = es.length := by
  induction h with
  | nil => rfl
  | cons _ _ _ _ ih => simp [Forest.toList, ih]

theorem edgesEq_spec {sgn : Bool} {mem : Mem} (h0 : mem 0 = none) {eq : DNode → DNode → Except Err Bool} {y : DNode}
    {G : Forest} (hG : Unf mem y.edges G) (sG : G.Sorted sgn) {es : List (UInt8 × Nat)} {F : Forest}
    (hF : Unf mem es F)
    (heq : ∀ l f k, (l, f, k) ∈ F.toList → ∀ x y f' k', x.final = f → Unf mem x.edges k → y.final = f' →
      Unf mem y.edges k' → (l, f', k') ∈ G.toList → eq x y = .ok (decide (f = f' ∧ k = k'))) :
    edgesEq mem eq y es = .ok (decide (∀ e ∈ F.toList, e ∈ G.toList)) := by
  induction hF with
  | nil => simp [edgesEq, Forest.toList]
  | @cons l a nd es kids rest hm h1 _ _ ih =>
    have ih := ih fun l f k he => heq l f k (by simp [Forest.toList, he])
    rw [edgesEq]
    rcases hG.find y.final l with ⟨b, ndb, k, hb, hmb, hub, hmem⟩ | ⟨hb, hno⟩
    · have hb' : nodeTransition y l = b := hb
      have hb0 : b ≠ 0 := by rintro rfl; rw [h0] at hmb; cases hmb
      simp only [hb', hb0, if_false, deref, hm, hmb, bind, Except.bind]
      rw [heq l nd.final kids (by simp [Forest.toList]) nd ndb ndb.final k rfl h1 rfl hub hmem]
      simp only [ih, Forest.toList, List.forall_mem_cons]
      by_cases hk : nd.final = ndb.final ∧ kids = k
      · have : (l, nd.final, kids) ∈ G.toList := by rw [hk.1, hk.2]; exact hmem
        simp [hk, hmem]
      · have : (l, nd.final, kids) ∉ G.toList := fun h' => hk (by
          have := forest_label_unique sG h' hmem; simpa using this)
        simp [hk, this]
    · have hb' : nodeTransition y l = 0 := hb
      simp only [hb', if_true]
      have : ¬ ∀ e ∈ (Forest.cons l nd.final kids rest).toList, e ∈ G.toList := fun h =>
        hno _ _ (h (l, nd.final, kids) (by simp [Forest.toList]))
      rw [decide_eq_false this]

theorem Forest.height_mem {F : Forest} {l : UInt8} {f : Bool} {k : Forest} (he : (l, f, k) ∈ F.toList) :
    k.height < F.height := by
  induction F with
  | nil => simp [Forest.toList] at he
  | cons l' f' k' r' _ ih =>
    simp only [Forest.toList, List.mem_cons] at he
    simp only [Forest.height]
    rcases he with he | he
    · cases he; omega
    · have := ih he; omega

/-- `operator==` decides whether the trees below two nodes are the same. -/
theorem nodeEq_spec {sgn : Bool} {mem : Mem} (h0 : mem 0 = none) {fuel : Nat} {x y : DNode} {F G : Forest}
    (hF : Unf mem x.edges F) (hG : Unf mem y.edges G) (sF : F.Sorted sgn) (sG : G.Sorted sgn)
    (hfuel : F.height < fuel) : nodeEq mem fuel x y = .ok (decide (x.final = y.final ∧ F = G)) := by
  induction fuel generalizing x y F G with
  | zero => omega
  | succ fuel ih =>
    rw [nodeEq]
    by_cases hf : x.final = y.final
    · by_cases hl : x.edges.length = y.edges.length
      · simp only [hf, ne_eq, not_true_eq_false, if_false, hl]
        rw [edgesEq_spec h0 hG sG hF]
        · congr 1
          rw [decide_eq_decide]
          constructor
          · intro h
            refine ⟨trivial, Forest.toList_inj ((forest_sublist sF sG h).eq_of_length ?_)⟩
            rw [hF.length, hG.length, hl]
          · rintro ⟨_, rfl⟩ e he; exact he
        · intro l f k he x' y' f' k' hx hux hy huy he'
          subst hx; subst hy
          exact ih hux huy (sF.toList.2 _ he) (sG.toList.2 _ he') (by have := Forest.height_mem he; omega)
      · have : F ≠ G := by rintro rfl; exact hl (hF.length ▸ hG.length ▸ rfl)
        simp [hf, hl, this]
    · simp [hf]

/-! ### Hash -/

/-- `mix` stands for `MurmurHash64A` on one byte. -/
def Forest.hashWith (mix : UInt8 → UInt64 → UInt64) (seed : UInt64) : Forest → UInt64 → UInt64
  | .nil, h => h
  | .cons l f kids rest, h =>
      rest.hashWith mix seed (mix (lowByte (mix (cond f 1 0) (kids.hashWith mix seed seed))) (mix l h))

/-- `MurmurHash64A` on one byte. -/
def mixByte (b : UInt8) (h : UInt64) : UInt64 := murmur64A [b] h

/-- The hash code of a node as a function of its tree. -/
def treeHash (b : Bool) (F : Forest) : UInt64 :=
  mixByte (cond b 1 0) (F.hashWith mixByte hashSeed hashSeed)

theorem edgesHash_spec {mem : Mem} {hash : DNode → Except Err UInt64} {es : List (UInt8 × Nat)} {F : Forest}
    (hF : Unf mem es F)
    (hh : ∀ l f k, (l, f, k) ∈ F.toList → ∀ x, x.final = f → Unf mem x.edges k → hash x = .ok (treeHash f k))
    (h : UInt64) : edgesHash mem hash es h = .ok (F.hashWith mixByte hashSeed h) := by
  induction hF generalizing h with
  | nil => rw [edgesHash, Forest.hashWith]
  | @cons l a nd es kids rest hm h1 _ _ ih =>
    have h2 := hh l nd.final kids (by simp [Forest.toList]) nd rfl h1
    have h3 := fun h => ih (fun l f k he => hh l f k (by simp [Forest.toList, he])) h
    rw [edgesHash]
    simp only [deref, hm, bind, Except.bind]
    rw [h2, Forest.hashWith, ← treeHash]
    exact h3 _

theorem nodeHash_spec {mem : Mem} {fuel : Nat} {x : DNode} {F : Forest} (hF : Unf mem x.edges F)
    (hfuel : F.height < fuel) : nodeHash mem fuel x = .ok (treeHash x.final F) := by
  induction fuel generalizing x F with
  | zero => omega
  | succ fuel ih =>
    rw [nodeHash, edgesHash_spec hF]
    · simp only [bind, Except.bind, treeHash, mixByte]
      cases x.final <;> rfl
    · intro l f k he x hx hu
      subst hx
      exact ih hu (by have := Forest.height_mem he; omega)

end Lev
