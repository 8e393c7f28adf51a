import Verif.Proofs.BuilderAdd

/-!
The whole construction: `sorted_dawg`, `finish`, `clean_up`, destruction.
-/

namespace Lev

open Spec

theorem reaches_frame {mem mem' : Mem} {Z : Nat → Prop} (hZ : Closed mem Z) (hmm : ∀ a, Z a → mem' a = mem a)
    {a x : Nat} (ha : Z a) (h : Reaches mem a x) : Reaches mem' a x := by
  induction h with
  | refl => exact .refl
  | step hm hb _ ih =>
    obtain ⟨nd', hm', hc⟩ := hZ _ ha
    rw [hm] at hm'; obtain rfl := Option.some.inj hm'
    exact .step (by rw [hmm _ ha]; exact hm) hb (ih (hc _ _ hb))

theorem reaches_frame_iff {mem mem' : Mem} {Z : Nat → Prop} (hZ : Closed mem Z) (hmm : ∀ a, Z a → mem' a = mem a)
    {a : Nat} (ha : Z a) (x : Nat) : Reaches mem' a x ↔ Reaches mem a x :=
  ⟨fun h => reaches_frame (hZ.frame hmm) (fun a ha => (hmm a ha).symm) ha h, fun h => reaches_frame hZ hmm ha h⟩

theorem accepts_frame {mem mem' : Mem} {Z : Nat → Prop} (hZ : Closed mem Z) (hmm : ∀ a, Z a → mem' a = mem a)
    {a : Nat} {t : Str} (ha : Z a) (h : Accepts mem a t) : Accepts mem' a t := by
  induction h with
  | here hm hf => exact .here (by rw [hmm _ ha]; exact hm) hf
  | step hm hb _ ih =>
    obtain ⟨nd', hm', hc⟩ := hZ _ ha
    rw [hm] at hm'; obtain rfl := Option.some.inj hm'
    exact .step (by rw [hmm _ ha]; exact hm) hb (ih (hc _ _ hb))

theorem accepts_frame_iff {mem mem' : Mem} {Z : Nat → Prop} (hZ : Closed mem Z) (hmm : ∀ a, Z a → mem' a = mem a)
    {a : Nat} (ha : Z a) (t : Str) : Accepts mem' a t ↔ Accepts mem a t :=
  ⟨fun h => accepts_frame (hZ.frame hmm) (fun a ha => (hmm a ha).symm) ha h, fun h => accepts_frame hZ hmm ha h⟩

/-- A trim tree has a string as long as it is high. -/
theorem Forest.Trim.long {F : Forest} (h : F.Trim) (hne : F ≠ .nil) : ∃ t, F.Acc t ∧ F.height ≤ t.length := by
  induction F with
  | nil => exact absurd rfl hne
  | cons l f k r ihk ihr =>
    obtain ⟨h1, h2, h3⟩ := h
    have hk : ∃ t, (Forest.cons l f k r).Acc t ∧ 1 + k.height ≤ t.length := by
      by_cases hkn : k = .nil
      · subst hkn
        rcases h1 with h1 | h1
        · exact ⟨[l], .inl ⟨[], rfl, .inl ⟨rfl, h1⟩⟩, by simp [Forest.height]⟩
        · exact absurd rfl h1
      · obtain ⟨u, hu, hl⟩ := ihk h2 hkn
        exact ⟨l :: u, .inl ⟨u, rfl, .inr hu⟩, by simp; omega⟩
    have hr : r = .nil ∨ ∃ t, (Forest.cons l f k r).Acc t ∧ r.height ≤ t.length := by
      by_cases hrn : r = .nil
      · exact .inl hrn
      · obtain ⟨u, hu, hl⟩ := ihr h3 hrn
        exact .inr ⟨u, .inr hu, hl⟩
    simp only [Forest.height]
    by_cases hle : r.height ≤ 1 + k.height
    · obtain ⟨t, ht, hl⟩ := hk
      exact ⟨t, ht, by omega⟩
    · rcases hr with rfl | ⟨t, ht, hl⟩
      · simp [Forest.height] at hle
      · exact ⟨t, ht, by omega⟩

section
variable {sgn : Bool} {addr : Nat → Nat} {c0 : Nat} {m0 : Mem} {h : Heap} {d : SDawg} {reg : List RegEntry}
  {st : List Trans} {fl : List Nat} {fs : List (UInt8 × Frame)} {rf : Frame}

theorem StackOk.rootNode {mem : Mem} {Z : Nat → Prop} {root : Nat} (h : StackOk sgn mem Z root st fs rf) :
    NodeIs sgn mem Z root rf := by
  induction h with
  | nil h => exact h
  | cons _ _ _ ih => exact ih

theorem Core.reach (hc : Core sgn addr c0 m0 h d reg st fl fs rf) {x : Nat} (hx : Reaches h.mem d.root x) :
    x = d.root ∨ InReg reg x := by
  obtain ⟨nd, hm, _, _, _, hZ⟩ := hc.stack.rootNode
  have hcl : Closed h.mem (fun a => a = d.root ∨ InReg reg a) := by
    rintro a (rfl | ha)
    · exact ⟨nd, hm, fun c b hb => .inr (hZ c b hb)⟩
    · obtain ⟨nd', h1, h2⟩ := hc.regOk.closed a ha
      exact ⟨nd', h1, fun c b hb => .inr (h2 c b hb)⟩
  exact hcl.reaches (.inl rfl) hx

theorem Core.reachRange (hc : Core sgn addr c0 m0 h d reg st fl fs rf) {x : Nat} (hx : Reaches h.mem d.root x) :
    InRange addr c0 h x := by
  rcases hc.reach hx with rfl | hx
  · exact hc.stackRange _ (by simp [stackNodes])
  · exact hc.regRange x hx

/-- Memory after `clean_up`: of the nodes allocated for the dictionary those reachable from the root are left. -/
noncomputable def cleaned (addr : Nat → Nat) (c0 : Nat) (h : Heap) (root : Nat) : Mem := fun a =>
  open Classical in if InRange addr c0 h a ∧ ¬ Reaches h.mem root a then none else h.mem a

theorem cleaned_reach {root a : Nat} (ha : Reaches h.mem root a) : cleaned addr c0 h root a = h.mem a := by
  simp [cleaned, ha]

theorem cleanUp_spec (hc : Core sgn addr c0 m0 h d reg st fl fs rf) :
    Ends (fun fuel => cleanUp fuel h d)
      (⟨cleaned addr c0 h d.root, h.count⟩, { d with unchecked := none, minimized := none, floating := none }) := by
  obtain ⟨nd, hm, _, hF, _, _⟩ := hc.stack.rootNode
  obtain ⟨r, hr, hnd, hmem⟩ := allNodes_spec hm hF
  have hdel := deleteAll_spec (l := fl.filter (fun a => decide (a ∉ r))) (h := h) (hc.float.1.filter _) hc.heap.null (by
    intro a ha
    obtain ⟨j, h1, h2, rfl⟩ := (hc.float.2 a).1 (List.mem_filter.1 ha).1
    exact hc.heap.live j (by omega) h2)
  have hmemeq : (fun a => if a ∈ fl.filter (fun a => decide (a ∉ r)) then none else h.mem a) =
      cleaned addr c0 h d.root := by
    funext a
    have : a ∈ fl.filter (fun a => decide (a ∉ r)) ↔ InRange addr c0 h a ∧ ¬ Reaches h.mem d.root a := by
      simp only [List.mem_filter, hc.float.2, hmem, decide_eq_true_eq, InRange]
      constructor
      · rintro ⟨⟨j, h1, h2, h3⟩, h4⟩; exact ⟨⟨j, by omega, h2, h3⟩, h4⟩
      · rintro ⟨⟨j, h1, h2, h3⟩, h4⟩
        refine ⟨⟨j, ?_, h2, h3⟩, h4⟩
        have : j ≠ c0 := by
          rintro rfl
          rw [h3, ← hc.root] at h4
          exact h4 .refl
        omega
    simp only [cleaned]
    by_cases hp : a ∈ fl.filter (fun a => decide (a ∉ r))
    · rw [if_pos hp, if_pos (this.1 hp)]
    · rw [if_neg hp, if_neg (fun h' => hp (this.2 h'))]
  rw [hmemeq] at hdel
  obtain ⟨N, hN⟩ := hr
  refine ⟨N, fun fuel hf => ?_⟩
  simp only [cleanUp, hc.floating, hN fuel hf, bind, Except.bind]
  rw [hdel]

/-- Deleting the nodes reachable from a root. -/
theorem deleteReach_spec {root : Nat} {nd : DNode} {F : Forest} (hm : h.mem root = some nd)
    (hF : Unf h.mem nd.edges F) (h0 : h.mem 0 = none) (hcl : Closed h.mem (Reaches h.mem root)) :
    ∃ h', Ends (fun fuel => do let nodes ← allNodes h.mem fuel root; deleteAll nodes h) h' ∧ h'.count = h.count ∧
      (∀ a, Reaches h.mem root a → h'.mem a = none) ∧ ∀ a, ¬ Reaches h.mem root a → h'.mem a = h.mem a := by
  obtain ⟨r, ⟨N, hN⟩, hnd, hmem⟩ := allNodes_spec hm hF
  have hdel := deleteAll_spec hnd h0 (fun a ha => by
    obtain ⟨nd, h1, _⟩ := hcl a ((hmem a).1 ha)
    rw [h1]; simp)
  refine ⟨⟨fun a => if a ∈ r then none else h.mem a, h.count⟩, ⟨N, fun fuel hf => ?_⟩, rfl, fun a ha => ?_,
    fun a ha => ?_⟩
  · have h1 : allNodes h.mem fuel root = .ok r := hN fuel hf
    simp only [bind, Except.bind, h1]; exact hdel
  · simp [hmem, ha]
  · simp [hmem, ha]

theorem Core.rootClosed (hc : Core sgn addr c0 m0 h d reg st fl fs rf) : Closed h.mem (Reaches h.mem d.root) :=
  DictNode.closed (hc.stack.rootNode.dictNode hc.regOk)

/-- Destroying a dictionary under construction restores memory as it was before. -/
theorem destroy_spec (hc : Core sgn addr c0 m0 h d reg st fl fs rf) (haddr : AddrOk addr)
    (hm0 : ∀ j, c0 ≤ j → m0 (addr j) = none) :
    ∃ h', Ends (fun fuel => destroyDawg fuel h d) h' ∧ h'.count = h.count ∧ ∀ a, h'.mem a = m0 a := by
  have hclean := cleanUp_spec hc
  obtain ⟨nd, hm, _, hF, _, hZ⟩ := hc.stack.rootNode
  have hcl := hc.rootClosed
  have hmm : ∀ a, Reaches h.mem d.root a → cleaned addr c0 h d.root a = h.mem a := fun a ha => cleaned_reach ha
  have hri := reaches_frame_iff hcl hmm (a := d.root) .refl
  have hcl' : Closed (cleaned addr c0 h d.root) (Reaches (cleaned addr c0 h d.root) d.root) := by
    have := hcl.frame hmm
    intro a ha
    obtain ⟨nd', h1, h2⟩ := this a ((hri a).1 ha)
    exact ⟨nd', h1, fun c b hb => (hri b).2 (h2 c b hb)⟩
  obtain ⟨h', hrun, hcnt, hdead, hold⟩ := deleteReach_spec (h := ⟨cleaned addr c0 h d.root, h.count⟩) (root := d.root) (nd := nd) (F := rf.kids)
    (by simp only; rw [hmm _ .refl]; exact hm)
    (hF.frame hcl hmm (fun c b hb => .step hm hb .refl))
    (by
      have : ¬ InRange addr c0 h 0 := by
        rintro ⟨j, _, _, hj⟩; exact haddr.1 j hj.symm
      simp only [cleaned, this, false_and, if_false]
      exact hc.heap.null)
    hcl'
  refine ⟨h', ?_, hcnt, fun a => ?_⟩
  · exact (hclean.bind (g := fun fuel r => do let nodes ← allNodes r.1.mem fuel r.2.root; deleteAll nodes r.1) hrun).congr
      fun n => rfl
  · by_cases ha : Reaches h.mem d.root a
    · rw [hdead a ((hri a).2 ha)]
      obtain ⟨j, h1, _, rfl⟩ := hc.reachRange ha
      exact (hm0 j h1).symm
    · rw [hold a (fun h' => ha ((hri a).1 h'))]
      simp only [cleaned]
      by_cases hr : InRange addr c0 h a
      · rw [if_pos ⟨hr, ha⟩]
        obtain ⟨j, h1, _, rfl⟩ := hr
        exact (hm0 j h1).symm
      · rw [if_neg (fun h' => hr h'.1)]
        exact hc.heap.old a fun j h1 h2 h3 => hr ⟨j, h1, h2, h3⟩

/-- Two registered nodes with the same tree are the same. -/
theorem RegOk.eq_of_tree {mem : Mem} (h : RegOk sgn mem reg) {a b : Nat} (ha : InReg reg a) (hb : InReg reg b)
    {na nb : DNode} (hna : mem a = some na) (hnb : mem b = some nb) {F : Forest} (hF : Unf mem na.edges F)
    (hF' : Unf mem nb.edges F) (hf : na.final = nb.final) : a = b := by
  obtain ⟨e, he, rfl⟩ := ha
  obtain ⟨e', he', rfl⟩ := hb
  rw [(h.node e he).1] at hna; obtain rfl := Option.some.inj hna
  rw [(h.node e' he').1] at hnb; obtain rfl := Option.some.inj hnb
  have hd := h.distinct
  clear h
  induction reg with
  | nil => simp at he
  | cons x rg ih =>
    have hd' := List.pairwise_cons.1 hd
    rcases List.mem_cons.1 he with rfl | hx <;> rcases List.mem_cons.1 he' with rfl | hx'
    · rfl
    · exact absurd hf (hd'.1 _ hx' _ hF hF')
    · exact absurd hf.symm (hd'.1 _ hx _ hF' hF)
    · exact ih hx hx' hd'.2

/-- Nodes below others have lower trees. -/
theorem reach_height {mem : Mem} {a x : Nat} (hx : Reaches mem a x) {na nx : DNode} {F G : Forest}
    (ha : mem a = some na) (hF : Unf mem na.edges F) (hnx : mem x = some nx) (hG : Unf mem nx.edges G) :
    x = a ∨ G.height < F.height := by
  have key : ∀ es F, Unf mem es F → ∀ c b, (c, b) ∈ es → ∃ nb K, mem b = some nb ∧ Unf mem nb.edges K ∧
      K.height < F.height := by
    intro es F h
    induction h with
    | nil => simp
    | @cons l a nd es kids rest hm h1 _ _ ih2 =>
      intro c b hb
      simp only [Forest.height]
      rcases List.mem_cons.1 hb with h | h
      · cases h; exact ⟨nd, kids, hm, h1, by omega⟩
      · obtain ⟨nb, K, h3, h4, h5⟩ := ih2 c b h
        exact ⟨nb, K, h3, h4, by omega⟩
  induction hx generalizing na F with
  | refl => exact .inl rfl
  | step hm hb _ ih =>
    rw [hm] at ha; obtain rfl := Option.some.inj ha
    obtain ⟨nb, K, h1, h2, h3⟩ := key _ _ hF _ _ hb
    right
    rcases ih h1 h2 hnx with rfl | hlt
    · rw [h1] at hnx; obtain rfl := Option.some.inj hnx
      rw [hG.unique h2]; exact h3
    · omega

end

/-- A dictionary that `sorted_dawg` has returned. -/
structure Finished (sgn : Bool) (addr : Nat → Nat) (c0 : Nat) (m0 : Mem) (terms : List Str) (h : Heap) (d : SDawg) :
    Prop where
  root : d.root = addr c0
  ptrs : d.unchecked = none ∧ d.minimized = none ∧ d.floating = none
  prev : d.prev = terms.getLast?.getD []
  size : d.size = terms.length
  null : h.mem 0 = none
  count : c0 < h.count
  fresh : ∀ j, h.count ≤ j → h.mem (addr j) = none
  old : ∀ a, ¬ InRange addr c0 h a → h.mem a = m0 a
  alive : ∀ a, InRange addr c0 h a → (h.mem a ≠ none ↔ Reaches h.mem d.root a)
  range : ∀ a, Reaches h.mem d.root a → InRange addr c0 h a
  dict : ∃ nd F, h.mem d.root = some nd ∧ Unf h.mem nd.edges F ∧ F.Trim ∧ F.Sorted sgn ∧
    DictNode sgn h.mem (F.height + 1) d.root
  accepts : ∀ t, Accepts h.mem d.root t ↔ t ∈ terms
  minimal : ∀ a b, Reaches h.mem d.root a → Reaches h.mem d.root b →
    (∀ t, Accepts h.mem a t ↔ Accepts h.mem b t) → a = b

section
variable {sgn : Bool} {addr : Nat → Nat} {c0 : Nat} {m0 : Mem}

theorem Core.node_tree {h : Heap} {d : SDawg} {reg : List RegEntry}
    {st : List Trans} {fl : List Nat} {fs : List (UInt8 × Frame)} {rf : Frame}
    (hc : Core sgn addr c0 m0 h d reg st fl fs rf) {x : Nat} (hx : Reaches h.mem d.root x) :
    ∃ nd F, h.mem x = some nd ∧ Unf h.mem nd.edges F ∧ F.Trim ∧ F.Sorted sgn := by
  rcases hc.reach hx with rfl | ⟨e, he, rfl⟩
  · have hn := hc.stack.rootNode
    have hs := hn.sorted hc.regOk
    obtain ⟨nd, h1, _, h3, _⟩ := hn
    exact ⟨nd, rf.kids, h1, h3, hc.trim.1, hs⟩
  · obtain ⟨h1, _, _, F, h4, _, h6, _⟩ := hc.regOk.node e he
    exact ⟨e.key, F, h1, h4, h6, (hc.regOk.nodeIs he h4).sorted hc.regOk⟩

/-- What `clean_up` makes of a dictionary that is complete. -/
theorem Core.finished {h1 : Heap} {d1 : SDawg} {reg1 : List RegEntry} {st1 : List Trans} {fl : List Nat} {rf1 : Frame}
    (hc1 : Core sgn addr c0 m0 h1 d1 reg1 st1 fl [] rf1) (haddr : AddrOk addr) {terms : List Str}
    (hprev : d1.prev = terms.getLast?.getD []) (hsize : d1.size = terms.length) (hlang : ∀ t, Lang [] rf1 t ↔ t ∈ terms) :
    Finished sgn addr c0 m0 terms ⟨cleaned addr c0 h1 d1.root, h1.count⟩
      { d1 with unchecked := none, minimized := none, floating := none } := by
  have hcl := hc1.rootClosed
  have hmm : ∀ a, Reaches h1.mem d1.root a → cleaned addr c0 h1 d1.root a = h1.mem a := fun a ha => cleaned_reach ha
  have hri := reaches_frame_iff hcl hmm (a := d1.root) .refl
  have hacc : ∀ a, Reaches h1.mem d1.root a → ∀ t, Accepts (cleaned addr c0 h1 d1.root) a t ↔ Accepts h1.mem a t :=
    fun a ha t => accepts_frame_iff hcl hmm ha t
  have hrootN := hc1.stack.rootNode
  have hroot := hrootN
  have hrootD := hrootN.dictNode hc1.regOk
  have hrootS := hrootN.sorted hc1.regOk
  obtain ⟨nd, hm, hfinr, hF, hsr, hZ⟩ := hroot
  refine ⟨hc1.root, ⟨rfl, rfl, rfl⟩, hprev, hsize, ?_, hc1.heap.base, ?_, ?_, ?_, ?_, ?_, ?_, ?_⟩
  · have : ¬ InRange addr c0 h1 0 := by
      rintro ⟨j, _, _, hj⟩; exact haddr.1 j hj.symm
    simp only [cleaned, this, false_and, if_false]
    exact hc1.heap.null
  · intro j hj
    simp only [cleaned]
    split
    · rfl
    · exact hc1.heap.fresh j hj
  · intro a ha
    have ha' : ¬ InRange addr c0 h1 a := ha
    simp only [cleaned, ha', false_and, if_false]
    exact hc1.heap.old a fun j h1 h2 h3 => ha' ⟨j, h1, h2, h3⟩
  · intro a ha
    have ha' : InRange addr c0 h1 a := ha
    simp only [hri]
    by_cases hr : Reaches h1.mem d1.root a
    · simp only [hr, iff_true]
      rw [cleaned_reach hr]
      obtain ⟨j, h2, h3, rfl⟩ := ha'
      exact hc1.heap.live j h2 h3
    · simp [cleaned, ha', hr]
  · intro a ha
    exact hc1.reachRange ((hri a).1 ha)
  · refine ⟨nd, rf1.kids, by simp only; rw [hmm _ .refl]; exact hm, ?_, hc1.trim.1, hrootS, ?_⟩
    · exact hF.frame hcl hmm (fun c b hb => .step hm hb .refl)
    · exact DictNode.frame hcl hmm hrootD .refl
  · intro t
    rw [hacc _ .refl, accepts_iff hm hF, hfinr, ← hlang]
    rfl
  · intro a b ha hb heq
    have ha := (hri a).1 ha
    have hb := (hri b).1 hb
    simp only [hacc a ha, hacc b hb] at heq
    obtain ⟨na, Fa, ha1, ha2, ha3, ha4⟩ := hc1.node_tree ha
    obtain ⟨nb, Fb, hb1, hb2, hb3, hb4⟩ := hc1.node_tree hb
    simp only [accepts_iff ha1 ha2, accepts_iff hb1 hb2] at heq
    have hfin : na.final = nb.final := by
      have := heq []
      simp only [AccT, true_and, Forest.acc_nil, or_false] at this
      exact Bool.eq_iff_iff.2 this
    have hFab : Fa = Fb := forest_ext ha4 hb4 ha3 hb3 fun t => by
      cases t with
      | nil => simp [Forest.acc_nil]
      | cons c u => simpa [AccT] using heq (c :: u)
    subst hFab
    rcases hc1.reach ha with rfl | hra <;> rcases hc1.reach hb with rfl | hrb
    · rfl
    · rcases reach_height hb ha1 ha2 hb1 hb2 with h | h
      · exact h.symm
      · omega
    · rcases reach_height ha hb1 hb2 ha1 ha2 with h | h
      · exact h
      · omega
    · exact hc1.regOk.eq_of_tree hra hrb ha1 hb1 ha2 hb2 hfin

/-- `finish` and `clean_up`. -/
theorem finish_spec (haddr : AddrOk addr) {terms : List Str} {h : Heap} {d : SDawg}
    (hb : Built sgn addr c0 m0 terms h d) :
    ∃ h1 d1 h2 d2, Ends (fun fuel => finishDawg sgn fuel h d) (h1, d1) ∧ Ends (fun fuel => cleanUp fuel h1 d1) (h2, d2) ∧
      Finished sgn addr c0 m0 terms h2 d2 := by
  obtain ⟨⟨reg, st, fl, fs, rf, hc, hpath, hnil, hfin, hlang⟩, hprev, hsize⟩ := hb
  have hlen := hc.stack.length
  obtain ⟨h1, d1, reg1, st1, fs1, rf1, hrun1, hc1, hpath1, hlang1, hp1, hs1, _⟩ :=
      minimizeLoop_spec haddr st.length hc (by omega) (fun hpos => .inl (hfin (by
        rintro rfl
        simp at hlen
        omega)))
  have hfs1 : fs1 = [] := by
    simp only [Nat.sub_self, List.take_zero] at hpath1
    simpa [path] using hpath1
  subst hfs1
  have hclean := cleanUp_spec hc1
  refine ⟨h1, d1, ⟨cleaned addr c0 h1 d1.root, h1.count⟩, _, ?_, hclean, ?_⟩
  · refine hrun1.congr fun n => ?_
    simp only [finishDawg, minimize, hc.unchecked, Nat.sub_zero]
  · exact hc1.finished haddr (hp1.trans hprev) (hs1.trans hsize) fun t => (hlang1 t).trans (hlang t)

/-- No term is smaller than the one before it, `prev` being before the first. -/
def Asc (prev : Str) : List Str → Prop
  | [] => True
  | t :: ts => strLt t prev = false ∧ Asc t ts

theorem buildLoop_asc (haddr : AddrOk addr) (rest : List Str) {terms : List Str} {h : Heap} {d : SDawg}
    (hb : Built sgn addr c0 m0 terms h d) (hasc : Asc d.prev rest) :
    ∃ h' d', Ends (fun fuel => buildLoop sgn addr fuel rest h d) (h', some d') ∧
      Built sgn addr c0 m0 (terms ++ rest) h' d' := by
  induction rest generalizing terms h d with
  | nil => exact ⟨h, d, .of_eq fun _ => rfl, by simpa using hb⟩
  | cons t rest ih =>
    obtain ⟨h1, d1, hrun, hb1⟩ := addTerm_spec haddr hb t hasc.1
    have hprev : d1.prev = t := by rw [hb1.prev]; simp
    obtain ⟨h2, d2, hrun2, hb2⟩ := ih hb1 (by rw [hprev]; exact hasc.2)
    refine ⟨h2, d2, ?_, by simpa using hb2⟩
    exact (hrun.bind (g := fun fuel r => if r.1 then buildLoop sgn addr fuel rest r.2.1 r.2.2 else do
      let h ← destroyDawg fuel r.2.1 r.2.2
      .ok (h, none)) (by simpa using hrun2)).congr fun n => rfl

theorem buildLoop_desc (haddr : AddrOk addr) (hm0 : ∀ j, c0 ≤ j → m0 (addr j) = none) (rest : List Str)
    {terms : List Str} {h : Heap} {d : SDawg}
    (hb : Built sgn addr c0 m0 terms h d) (hasc : ¬ Asc d.prev rest) :
    ∃ h', Ends (fun fuel => buildLoop sgn addr fuel rest h d) (h', none) ∧ (∀ a, h'.mem a = m0 a) ∧ c0 < h'.count := by
  induction rest generalizing terms h d with
  | nil => exact absurd trivial hasc
  | cons t rest ih =>
    by_cases hlt : strLt t d.prev = false
    · obtain ⟨h1, d1, hrun, hb1⟩ := addTerm_spec haddr hb t hlt
      have hprev : d1.prev = t := by rw [hb1.prev]; simp
      obtain ⟨h2, hrun2, hb2⟩ := ih hb1 (by rw [hprev]; exact fun h' => hasc ⟨hlt, h'⟩)
      refine ⟨h2, ?_, hb2⟩
      exact (hrun.bind (g := fun fuel r => if r.1 then buildLoop sgn addr fuel rest r.2.1 r.2.2 else do
        let h ← destroyDawg fuel r.2.1 r.2.2
        .ok (h, none)) (by simpa using hrun2)).congr fun n => rfl
    · have hlt' : strLt t d.prev = true := by simpa using hlt
      obtain ⟨⟨reg, st, fl, fs, rf, hc, _⟩, _, _⟩ := hb
      obtain ⟨h', hrun, hcnt, hmem⟩ := destroy_spec hc haddr hm0
      refine ⟨h', ?_, hmem, by rw [hcnt]; exact hc.heap.base⟩
      obtain ⟨N, hN⟩ := hrun
      refine ⟨N, fun fuel hf => ?_⟩
      simp only [buildLoop, addTerm, hlt', if_true, bind, Except.bind, Bool.false_eq_true, if_false, hN fuel hf]

/-- A new dictionary is empty. -/
theorem newDawg_built (haddr : AddrOk addr) {h : Heap} (h0 : h.mem 0 = none)
    (hfresh : ∀ j, h.count ≤ j → h.mem (addr j) = none) :
    Built sgn addr h.count h.mem [] (newDawg addr h).1 (initDawg (newDawg addr h).2) := by
  refine ⟨⟨[], [], [], [], ⟨false, .nil⟩, ?_, rfl, rfl, by simp, ?_⟩, rfl, rfl⟩
  · refine ⟨⟨?_, ?_, ?_, ?_, ?_⟩, rfl, rfl, rfl, rfl, ⟨List.nodup_nil, ?_⟩, ⟨by simp, by simp⟩, ?_, ?_, ?_, ?_, ?_, trivial,
      ⟨trivial, by simp⟩⟩
    · simp only [newDawg, newNode, Mem.set]
      rw [if_neg (fun h' => haddr.1 _ h'.symm)]; exact h0
    · intro j hj
      simp only [newDawg, newNode, Mem.set] at hj ⊢
      rw [if_neg (fun h' => by have := haddr.2 _ _ h'; omega)]
      exact hfresh j (by omega)
    · simp [newDawg, newNode]
    · intro a ha
      simp only [newDawg, newNode, Mem.set] at ha ⊢
      rw [if_neg (ha h.count (Nat.le_refl _) (by omega))]
    · intro j h1 h2
      simp only [newDawg, newNode, Mem.set] at h2 ⊢
      have : j = h.count := by omega
      simp [this]
    · intro a
      simp only [newDawg, newNode, List.not_mem_nil, false_iff]
      rintro ⟨j, h1, h2, _⟩
      omega
    · rintro a ⟨e, he, _⟩; simp at he
    · exact .nil ⟨⟨false, []⟩, by simp [newDawg, newNode, initDawg, Mem.set], rfl, .nil, .nil, by simp⟩
    · intro a ha
      simp only [stackNodes, List.map_nil, List.mem_singleton] at ha
      subst ha
      exact ⟨h.count, Nat.le_refl _, by simp [newDawg, newNode], rfl⟩
    · simp [stackNodes]
    · rintro a _ ⟨e, he, _⟩; simp at he
  · intro t
    simp [Lang, AccT, Forest.Acc]

/-- `sorted_dawg` on ascending terms. -/
theorem sortedDawg_asc (haddr : AddrOk addr) {h : Heap} (h0 : h.mem 0 = none)
    (hfresh : ∀ j, h.count ≤ j → h.mem (addr j) = none) {terms : List Str} (hasc : Asc [] terms) :
    ∃ h' d, Ends (fun fuel => sortedDawg sgn addr fuel terms h) (h', some d) ∧
      Finished sgn addr h.count h.mem terms h' d := by
  have hnew := newDawg_built (sgn := sgn) haddr h0 hfresh
  obtain ⟨h1, d1, hrun1, hb1⟩ := buildLoop_asc haddr terms hnew hasc
  obtain ⟨h2, d2, h3, d3, hrun2, hrun3, hfin⟩ := finish_spec haddr hb1
  refine ⟨h3, d3, ?_, by simpa using hfin⟩
  obtain ⟨N1, hN1⟩ := hrun1
  obtain ⟨N2, hN2⟩ := hrun2
  obtain ⟨N3, hN3⟩ := hrun3
  refine ⟨max N1 (max N2 N3), fun fuel hf => ?_⟩
  simp only [sortedDawg, bind, Except.bind, hN1 fuel (by omega), hN2 fuel (by omega), hN3 fuel (by omega)]

/-- `sorted_dawg` on other terms. -/
theorem sortedDawg_desc (haddr : AddrOk addr) {h : Heap} (h0 : h.mem 0 = none)
    (hfresh : ∀ j, h.count ≤ j → h.mem (addr j) = none) {terms : List Str} (hasc : ¬ Asc [] terms) :
    ∃ h', Ends (fun fuel => sortedDawg sgn addr fuel terms h) (h', none) ∧ (∀ a, h'.mem a = h.mem a) ∧
      h.count < h'.count := by
  have hnew := newDawg_built (sgn := sgn) haddr h0 hfresh
  obtain ⟨h1, ⟨N, hN⟩, hmem, hcnt⟩ := buildLoop_desc haddr hfresh terms hnew hasc
  refine ⟨h1, ⟨N, fun fuel hf => ?_⟩, hmem, hcnt⟩
  simp only [sortedDawg, bind, Except.bind, hN fuel hf]

end

end Lev
