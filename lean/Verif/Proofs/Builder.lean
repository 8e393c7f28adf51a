import Verif.Proofs.DawgMem

/-!
The invariant of the construction of a dictionary (`SortedDawg::add`, `minimize`).
-/

namespace Lev

open Spec

/-! ### Inserting an edge -/

/-- `mapSet` on trees. -/
def insF (sgn : Bool) (c : UInt8) (b : Bool) (k : Forest) : Forest → Forest
  | .nil => .cons c b k .nil
  | .cons l f kids rest =>
      if c = l then .cons l b k rest
      else if charKey sgn c < charKey sgn l then .cons c b k (.cons l f kids rest)
      else .cons l f kids (insF sgn c b k rest)

theorem Forest.mem_ins {sgn : Bool} {c : UInt8} {b : Bool} {k F : Forest} (hc : ∀ e ∈ F.toList, e.1 ≠ c)
    (e : UInt8 × Bool × Forest) : e ∈ (insF sgn c b k F).toList ↔ e = (c, b, k) ∨ e ∈ F.toList := by
  induction F with
  | nil => simp [insF, Forest.toList]
  | cons l f kids rest _ ih =>
    have hcl : c ≠ l := fun h => hc (l, f, kids) (by simp [Forest.toList]) h.symm
    have ih := ih fun e he => hc e (by simp [Forest.toList, he])
    rw [insF, if_neg hcl]
    split
    · simp [Forest.toList]
    · simp only [Forest.toList, List.mem_cons, ih]
      constructor
      · rintro (h | h | h)
        · exact .inr (.inl h)
        · exact .inl h
        · exact .inr (.inr h)
      · rintro (h | h | h)
        · exact .inr (.inl h)
        · exact .inl h
        · exact .inr (.inr h)

theorem Forest.acc_iff_toList {F : Forest} {t : Str} :
    F.Acc t ↔ ∃ c f k u, t = c :: u ∧ (c, f, k) ∈ F.toList ∧ AccT f k u := by
  cases t with
  | nil => simp [Forest.acc_nil]
  | cons c u =>
    rw [Forest.acc_cons]
    constructor
    · rintro ⟨f, k, h1, h2⟩; exact ⟨c, f, k, u, rfl, h1, h2⟩
    · rintro ⟨c', f, k, u', h, h1, h2⟩; cases h; exact ⟨f, k, h1, h2⟩

theorem Forest.acc_ins {sgn : Bool} {c : UInt8} {b : Bool} {k F : Forest} (hc : ∀ e ∈ F.toList, e.1 ≠ c) (t : Str) :
    (insF sgn c b k F).Acc t ↔ (∃ u, t = c :: u ∧ AccT b k u) ∨ F.Acc t := by
  rw [Forest.acc_iff_toList, Forest.acc_iff_toList]
  simp only [Forest.mem_ins hc]
  constructor
  · rintro ⟨c', f, k', u, rfl, h | h, ha⟩
    · cases h; exact .inl ⟨u, rfl, ha⟩
    · exact .inr ⟨c', f, k', u, rfl, h, ha⟩
  · rintro (⟨u, rfl, ha⟩ | ⟨c', f, k', u, rfl, h, ha⟩)
    · exact ⟨c, b, k, u, rfl, .inl rfl, ha⟩
    · exact ⟨c', f, k', u, rfl, .inr h, ha⟩

theorem Forest.trim_iff {F : Forest} : F.Trim ↔ ∀ e ∈ F.toList, (e.2.1 = true ∨ e.2.2 ≠ .nil) ∧ e.2.2.Trim := by
  induction F with
  | nil => simp [Forest.Trim, Forest.toList]
  | cons l f k r _ ih =>
    simp only [Forest.Trim, Forest.toList, List.forall_mem_cons, ih]
    constructor
    · rintro ⟨h1, h2, h3⟩; exact ⟨⟨h1, h2⟩, h3⟩
    · rintro ⟨⟨h1, h2⟩, h3⟩; exact ⟨h1, h2, h3⟩

theorem Forest.ins_ne_nil {sgn : Bool} {c : UInt8} {b : Bool} {k F : Forest} : insF sgn c b k F ≠ .nil := by
  cases F with
  | nil => simp [insF]
  | cons =>
    simp only [insF]
    split
    · simp
    · split <;> simp

theorem Unf.mapSet {mem : Mem} {sgn : Bool} {c : UInt8} {a : Nat} {nd : DNode} {k : Forest} (hm : mem a = some nd)
    (hk : Unf mem nd.edges k) {es : List (UInt8 × Nat)} {F : Forest} (h : Unf mem es F) :
    Unf mem (Lev.mapSet sgn c a es) (insF sgn c nd.final k F) := by
  induction h with
  | nil => exact .cons hm hk .nil
  | @cons l b ndb es kids rest hmb h1 h2 _ ih =>
    simp only [Lev.mapSet, insF]
    split
    · exact .cons hm hk h2
    · split
      · exact .cons hm hk (.cons hmb h1 h2)
      · exact .cons hmb h1 ih

theorem mem_mapSet {sgn : Bool} {c : UInt8} {a : Nat} {es : List (UInt8 × Nat)} {e : UInt8 × Nat}
    (h : e ∈ mapSet sgn c a es) : e = (c, a) ∨ e ∈ es := by
  induction es with
  | nil => simpa [mapSet] using h
  | cons x es ih =>
    obtain ⟨l, t⟩ := x
    simp only [mapSet] at h
    split at h
    · next hcl =>
      rcases List.mem_cons.1 h with h | h
      · exact .inl (by rw [h, hcl])
      · exact .inr (by simp [h])
    · split at h
      · simpa using h
      · rcases List.mem_cons.1 h with h | h
        · exact .inr (by simp [h])
        · rcases ih h with h | h
          · exact .inl h
          · exact .inr (by simp [h])

theorem mapSet_sorted {sgn : Bool} {c : UInt8} {a : Nat} {es : List (UInt8 × Nat)}
    (h : es.Pairwise (fun e f => charLt sgn e.1 f.1)) :
    (mapSet sgn c a es).Pairwise (fun e f => charLt sgn e.1 f.1) := by
  induction es with
  | nil => simp [mapSet]
  | cons x es ih =>
    obtain ⟨l, t⟩ := x
    have h' := List.pairwise_cons.1 h
    simp only [mapSet]
    split
    · exact List.pairwise_cons.2 h'
    · next hcl =>
      split
      · next hlt =>
        refine List.pairwise_cons.2 ⟨fun e he => ?_, h⟩
        rcases List.mem_cons.1 he with rfl | he
        · exact hlt
        · exact charLt_trans hlt (h'.1 e he)
      · next hlt =>
        refine List.pairwise_cons.2 ⟨fun e he => ?_, ih h'.2⟩
        rcases mem_mapSet he with rfl | he
        · have : charKey sgn c ≠ charKey sgn l := fun h => hcl (charKey_inj h)
          simp only [charLt]; omega
        · exact h'.1 e he

/-! ### Nodes, register, stack -/

/-- What is below a node of the stack, without the unchecked transition to the next one. -/
structure Frame where
  fin : Bool
  kids : Forest

/-- The node at `a` is the frame `f`; its edges are sorted and lead into `Z`. -/
def NodeIs (sgn : Bool) (mem : Mem) (Z : Nat → Prop) (a : Nat) (f : Frame) : Prop :=
  ∃ nd, mem a = some nd ∧ nd.final = f.fin ∧ Unf mem nd.edges f.kids ∧
    nd.edges.Pairwise (fun e g => charLt sgn e.1 g.1) ∧ ∀ c b, (c, b) ∈ nd.edges → Z b

theorem NodeIs.frame {sgn : Bool} {mem mem' : Mem} {Z Z' : Nat → Prop} {a : Nat} {f : Frame}
    (h : NodeIs sgn mem Z a f) (hZ : Closed mem Z) (hmm : ∀ x, Z x → mem' x = mem x) (ha : mem' a = mem a)
    (hZZ : ∀ x, Z x → Z' x) : NodeIs sgn mem' Z' a f := by
  obtain ⟨nd, h1, h2, h3, h4, h5⟩ := h
  exact ⟨nd, by rw [ha]; exact h1, h2, h3.frame hZ hmm h5, h4, fun c b hb => hZZ b (h5 c b hb)⟩

/-- The addresses in the register. -/
def InReg (reg : List RegEntry) (a : Nat) : Prop := ∃ e ∈ reg, e.val = a

/-- The register: copies of the nodes it refers to, correct hash codes, no node useless, no two the same. -/
structure RegOk (sgn : Bool) (mem : Mem) (reg : List RegEntry) : Prop where
  node : ∀ e ∈ reg, mem e.val = some e.key ∧ e.key.edges.Pairwise (fun e g => charLt sgn e.1 g.1) ∧
    (∀ c b, (c, b) ∈ e.key.edges → InReg reg b) ∧
    ∃ F, Unf mem e.key.edges F ∧ e.hash = treeHash e.key.final F ∧ F.Trim ∧ (e.key.final = true ∨ F ≠ .nil)
  distinct : reg.Pairwise (fun e e' => ∀ F, Unf mem e.key.edges F → Unf mem e'.key.edges F → e.key.final ≠ e'.key.final)

theorem RegOk.closed {sgn : Bool} {mem : Mem} {reg : List RegEntry} (h : RegOk sgn mem reg) : Closed mem (InReg reg) := by
  rintro a ⟨e, he, rfl⟩
  obtain ⟨h1, _, h3, _⟩ := h.node e he
  exact ⟨e.key, h1, h3⟩

theorem RegOk.sortedOn {sgn : Bool} {mem : Mem} {reg : List RegEntry} (h : RegOk sgn mem reg) :
    ∀ a nd, InReg reg a → mem a = some nd → nd.edges.Pairwise (fun e f => charLt sgn e.1 f.1) := by
  rintro a nd ⟨e, he, rfl⟩ hm
  obtain ⟨h1, h2, _, _⟩ := h.node e he
  rw [h1] at hm; obtain rfl := Option.some.inj hm
  exact h2

theorem RegOk.frame {sgn : Bool} {mem mem' : Mem} {reg : List RegEntry} (h : RegOk sgn mem reg)
    (hmm : ∀ x, InReg reg x → mem' x = mem x) : RegOk sgn mem' reg := by
  have hZ := h.closed
  have hZ' := hZ.frame hmm
  refine ⟨fun e he => ?_, ?_⟩
  · obtain ⟨h1, h2, h3, F, h4, h5⟩ := h.node e he
    exact ⟨by rw [hmm _ ⟨e, he, rfl⟩]; exact h1, h2, h3, F, h4.frame hZ hmm h3, h5⟩
  · have hmm' : ∀ x, InReg reg x → mem x = mem' x := fun x hx => (hmm x hx).symm
    refine List.Pairwise.imp_of_mem ?_ h.distinct
    intro e e' he he' hd F hF hF'
    exact hd F (hF.frame hZ' hmm' (h.node e he).2.2.1) (hF'.frame hZ' hmm' (h.node e' he').2.2.1)

/-- A node with edges into the register lies above a dictionary. -/
theorem NodeIs.dictNode {sgn : Bool} {mem : Mem} {reg : List RegEntry} (h : RegOk sgn mem reg) {a : Nat} {f : Frame}
    (hn : NodeIs sgn mem (InReg reg) a f) : DictNode sgn mem (f.kids.height + 1) a := by
  obtain ⟨nd, h1, _, h3, h4, h5⟩ := hn
  exact .mk h1 h4 (dictNode_of_closed h.closed h.sortedOn h3 h5)

theorem NodeIs.sorted {sgn : Bool} {mem : Mem} {reg : List RegEntry} (h : RegOk sgn mem reg) {a : Nat} {f : Frame}
    (hn : NodeIs sgn mem (InReg reg) a f) : f.kids.Sorted sgn := by
  have hd := hn.dictNode h
  obtain ⟨nd, h1, _, h3, _⟩ := hn
  exact DictNode.sorted hd h1 h3

theorem RegOk.nodeIs {sgn : Bool} {mem : Mem} {reg : List RegEntry} (h : RegOk sgn mem reg) {e : RegEntry}
    (he : e ∈ reg) {F : Forest} (hF : Unf mem e.key.edges F) :
    NodeIs sgn mem (InReg reg) e.val ⟨e.key.final, F⟩ := by
  obtain ⟨h1, h2, h3, _⟩ := h.node e he
  exact ⟨e.key, h1, rfl, hF, h2, h3⟩

/-! ### Looking up and registering -/

theorem regFind_spec {sgn : Bool} {mem : Mem} (h0 : mem 0 = none) {fuel : Nat} {nd : DNode} {F : Forest}
    (hF : Unf mem nd.edges F) (sF : F.Sorted sgn) (hfuel : F.height < fuel) (reg : List RegEntry)
    (hreg : ∀ e ∈ reg, ∃ G, Unf mem e.key.edges G ∧ G.Sorted sgn ∧ e.hash = treeHash e.key.final G) :
    (∃ e ∈ reg, regFind mem fuel (treeHash nd.final F) nd reg = .ok (some e.val) ∧ Unf mem e.key.edges F ∧
      e.key.final = nd.final) ∨
    (regFind mem fuel (treeHash nd.final F) nd reg = .ok none ∧
      ∀ e ∈ reg, Unf mem e.key.edges F → e.key.final ≠ nd.final) := by
  induction reg with
  | nil => right; simp [regFind]
  | cons e reg ih =>
    obtain ⟨G, hG, sG, hh⟩ := hreg e (by simp)
    have ih := ih fun e he => hreg e (by simp [he])
    have heq := nodeEq_spec h0 hF hG sF sG hfuel
    by_cases hk : nd.final = e.key.final ∧ F = G
    · left
      refine ⟨e, by simp, ?_, by rw [hk.2]; exact hG, hk.1.symm⟩
      have hhash : e.hash = treeHash nd.final F := by rw [hh, hk.1, hk.2]
      rw [regFind, if_pos hhash, heq]
      simp [bind, Except.bind, hk]
    · have hskip : regFind mem fuel (treeHash nd.final F) nd (e :: reg) =
          regFind mem fuel (treeHash nd.final F) nd reg := by
        rw [regFind]
        split
        · rw [heq]; simp [bind, Except.bind, hk]
        · rfl
      rw [hskip]
      rcases ih with ⟨e', he', h1⟩ | ⟨h1, h2⟩
      · exact .inl ⟨e', by simp [he'], h1⟩
      · refine .inr ⟨h1, fun e' he' hU => ?_⟩
        rcases List.mem_cons.1 he' with rfl | he'
        · intro hf
          exact hk ⟨hf.symm, hU.unique hG⟩
        · exact h2 e' he' hU

theorem regSet_spec {sgn : Bool} {mem : Mem} (h0 : mem 0 = none) {fuel : Nat} {nd : DNode} {F : Forest}
    (hF : Unf mem nd.edges F) (sF : F.Sorted sgn) (hfuel : F.height < fuel) (a : Nat) (reg : List RegEntry)
    (hreg : ∀ e ∈ reg, ∃ G, Unf mem e.key.edges G ∧ G.Sorted sgn ∧ ¬ (nd.final = e.key.final ∧ F = G)) :
    regSet mem fuel (treeHash nd.final F) nd a reg = .ok (reg ++ [⟨treeHash nd.final F, nd, a⟩]) := by
  induction reg with
  | nil => simp [regSet]
  | cons e reg ih =>
    obtain ⟨G, hG, sG, hk⟩ := hreg e (by simp)
    have ih := ih fun e he => hreg e (by simp [he])
    have heq := nodeEq_spec h0 hF hG sF sG hfuel
    rw [regSet]
    split
    · rw [heq]; simp [bind, Except.bind, hk, ih]
    · simp [bind, Except.bind, ih]

end Lev
