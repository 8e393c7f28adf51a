import Verif.Proofs.SiteRun
import Verif.Proofs.DictSem

/-!
The loop of `add`, `add` itself, and destruction, when allocations fail.
-/

namespace Lev

open Spec

section
variable {sgn : Bool} {addr : Nat → Nat} {c0 : Nat} {m0 : Mem} {h : Heap} {d : SDawg} {reg : List RegEntry}
  {st : List Trans} {fl lk : List Nat} {fs : List (UInt8 × Frame)} {rf : Frame} {Z : Nat → Prop}

theorem InRange.fresh (haddr : AddrOk addr) {a : Nat} (ha : InRange addr c0 h a) : a ≠ addr h.count := by
  obtain ⟨j, _, h2, rfl⟩ := ha
  intro h3
  have := haddr.2 _ _ h3; omega

theorem InRange.newNode {a : Nat} (ha : InRange addr c0 h a) : InRange addr c0 (newNode addr h).2 a := by
  obtain ⟨j, h1, h2, h3⟩ := ha
  exact ⟨j, h1, by simp only [Lev.newNode]; omega, h3⟩

theorem HeapOk.newNode (hh : HeapOk addr c0 m0 h) (haddr : AddrOk addr) : HeapOk addr c0 m0 (newNode addr h).2 := by
  have hbase := hh.base
  refine ⟨?_, ?_, ?_, ?_, ?_⟩
  · simp only [Lev.newNode, Mem.set]; rw [if_neg (fun h' => haddr.1 _ h'.symm)]; exact hh.null
  · intro j hj
    simp only [Lev.newNode, Mem.set] at hj ⊢
    rw [if_neg (fun h' => by have := haddr.2 _ _ h'; omega)]
    exact hh.fresh j (by omega)
  · simp only [Lev.newNode]; omega
  · intro a ha
    simp only [Lev.newNode, Mem.set] at ha ⊢
    rw [if_neg (ha h.count (by omega) (by omega))]
    exact hh.old a fun j h1 h2 => ha j h1 (by omega)
  · intro j h1 h2
    simp only [Lev.newNode, Mem.set] at h2 ⊢
    split
    · simp
    · next hne =>
      refine hh.live j h1 ?_
      have : j ≠ h.count := by rintro rfl; exact hne rfl
      omega

/-- A new node, which is put among the floating nodes or forgotten. -/
theorem Site.alloc (hc : Site sgn addr c0 m0 h d reg st fl lk fs rf Z) (haddr : AddrOk addr) (b : Bool) :
    Site sgn addr c0 m0 (newNode addr h).2 { d with floating := some (if b then addr h.count :: fl else fl) } reg st
      (if b then addr h.count :: fl else fl) (if b then lk else addr h.count :: lk) fs rf Z := by
  have hbase := hc.heap.base
  have hmem : ∀ a, InRange addr c0 h a → (newNode addr h).2.mem a = h.mem a := by
    intro a ha
    simp only [newNode, Mem.set]
    rw [if_neg (ha.fresh haddr)]
  have hmm : ∀ x, Z x → (newNode addr h).2.mem x = h.mem x := fun x hx => hmem x (hc.zoneRange x hx).1
  have hclosed := hc.closed
  have hlk : addr h.count ∉ lk := by
    intro h'
    obtain ⟨j, _, h2, h3⟩ := hc.leak.2 _ h'
    have := haddr.2 _ _ h3; omega
  have hfl : addr h.count ∉ fl := by
    intro h'
    obtain ⟨⟨j, _, h2, h3⟩, _⟩ := (hc.float.2 _).1 h'
    have := haddr.2 _ _ h3; omega
  have hlk' : ∀ a, InRange addr c0 h a → a ∉ lk → a ∉ (if b then lk else addr h.count :: lk) := by
    intro a ha hn
    cases b with
    | true => exact hn
    | false =>
      simp only [Bool.false_eq_true, if_false, List.mem_cons, not_or]
      exact ⟨ha.fresh haddr, hn⟩
  exact {
    heap := hc.heap.newNode haddr
    root := hc.root
    unchecked := hc.unchecked
    minimized := hc.minimized
    floating := rfl
    float := by
      cases b with
      | true =>
        simp only [if_true]
        refine ⟨List.nodup_cons.2 ⟨hfl, hc.float.1⟩, fun a => ?_⟩
        simp only [newNode, List.mem_cons, hc.float.2]
        constructor
        · rintro (rfl | ⟨⟨j, h1, h2, h3⟩, h4⟩)
          · exact ⟨⟨h.count, hbase, by omega, rfl⟩, hlk⟩
          · exact ⟨⟨j, h1, by omega, h3⟩, h4⟩
        · rintro ⟨⟨j, h1, h2, h3⟩, h4⟩
          by_cases hj : j = h.count
          · left; rw [h3, hj]
          · right; exact ⟨⟨j, h1, by omega, h3⟩, h4⟩
      | false =>
        simp only [Bool.false_eq_true, if_false]
        refine ⟨hc.float.1, fun a => ?_⟩
        simp only [newNode, List.mem_cons, hc.float.2, not_or]
        constructor
        · rintro ⟨⟨j, h1, h2, h3⟩, h4⟩
          refine ⟨⟨j, h1, by omega, h3⟩, ?_, h4⟩
          rintro rfl
          have := haddr.2 _ _ h3; omega
        · rintro ⟨⟨j, h1, h2, h3⟩, h4, h5⟩
          refine ⟨⟨j, h1, ?_, h3⟩, h5⟩
          have : j ≠ h.count := by rintro rfl; exact h4 h3
          omega
    leak := by
      cases b with
      | true =>
        exact ⟨hc.leak.1, fun a ha => by
          obtain ⟨j, h1, h2, h3⟩ := hc.leak.2 a ha
          exact ⟨j, h1, by simp only [newNode]; omega, h3⟩⟩
      | false =>
        refine ⟨List.nodup_cons.2 ⟨hlk, hc.leak.1⟩, fun a ha => ?_⟩
        rcases List.mem_cons.1 ha with rfl | ha
        · exact ⟨h.count, hbase, by simp [newNode], rfl⟩
        · obtain ⟨j, h1, h2, h3⟩ := hc.leak.2 a ha
          exact ⟨j, h1, by simp only [newNode]; omega, h3⟩
    zone := fun a ha => by
      obtain ⟨f, hf⟩ := hc.zone a ha
      exact ⟨f, hf.frame hclosed hmm (hmm a ha) fun _ hx => hx⟩
    zoneRange := fun a ha => ⟨(hc.zoneRange a ha).1.newNode, hlk' a (hc.zoneRange a ha).1 (hc.zoneRange a ha).2⟩
    regOk := fun e he => by
      obtain ⟨r1, r2, F, r3, r4⟩ := hc.regOk e he
      refine ⟨r1, by rw [hmm _ r1]; exact r2, F, r3.frame hclosed hmm ?_, r4⟩
      obtain ⟨nd', z1, z2⟩ := hclosed _ r1
      rw [r2] at z1; obtain rfl := Option.some.inj z1
      exact z2
    stack := hc.stack.frame hclosed hmm (fun a ha => hmem a (hc.stackRange a ha).1) fun _ h => h
    stackRange := fun a ha => ⟨(hc.stackRange a ha).1.newNode, hlk' a (hc.stackRange a ha).1 (hc.stackRange a ha).2⟩
    nodup := hc.nodup
    notZone := hc.notZone }

/-- Pushing one more node. -/
theorem Site.push (hc : Site sgn addr c0 m0 h d reg st fl lk fs rf Z) (haddr : AddrOk addr) (c : UInt8) :
    Site sgn addr c0 m0 (newNode addr h).2
      { d with
        floating := some (addr h.count :: fl)
        unchecked := some (⟨c, topNode d.root st, addr h.count⟩ :: st) }
      reg (⟨c, topNode d.root st, addr h.count⟩ :: st) (addr h.count :: fl) lk ((c, ⟨false, .nil⟩) :: fs) rf Z := by
  have hbase := hc.heap.base
  have ha := hc.alloc haddr true
  simp only [if_true] at ha
  have hstack := ha.stack
  simp only at hstack
  exact { ha with
    unchecked := rfl
    floating := rfl
    stack := .cons (t := ⟨c, topNode d.root st, addr h.count⟩) hstack rfl
      ⟨⟨false, []⟩, by simp [newNode, Mem.set], rfl, .nil, .nil, by simp⟩
    stackRange := fun a hm => by
      simp only [stackNodes, List.map_cons, List.mem_cons] at hm
      rcases hm with rfl | rfl | hm
      · exact ha.stackRange _ (by simp [stackNodes])
      · refine ⟨⟨h.count, by omega, by simp [newNode], rfl⟩, fun h' => ?_⟩
        obtain ⟨j, _, h2, h3⟩ := hc.leak.2 _ h'
        have := haddr.2 _ _ h3; omega
      · exact ha.stackRange a (by simp only [stackNodes, List.mem_cons]; exact .inr hm)
    nodup := by
      have := hc.nodup
      simp only [stackNodes, List.map_cons, List.nodup_cons, List.mem_cons] at this ⊢
      refine ⟨?_, ?_, this.2⟩
      · rintro (h' | h')
        · exact (hc.stackRange _ (by simp [stackNodes])).1.fresh haddr h'
        · exact this.1 h'
      · intro h'
        exact (hc.stackRange _ (by simp only [stackNodes, List.mem_cons]; exact .inr h')).1.fresh haddr rfl
    notZone := fun a hm => by
      simp only [stackNodes, List.map_cons, List.mem_cons] at hm
      rcases hm with rfl | rfl | hm
      · exact hc.notZone _ (by simp [stackNodes])
      · exact fun h' => (hc.zoneRange _ h').1.fresh haddr rfl
      · exact hc.notZone a (by simp only [stackNodes, List.mem_cons]; exact .inr hm) }

theorem lang_push (c : UInt8) (fs : List (UInt8 × Frame)) (rf : Frame) (t : Str) :
    Lang ((c, ⟨false, .nil⟩) :: fs) rf t ↔ Lang fs rf t := by
  simp only [Lang]
  constructor
  · rintro (⟨u, _, h1 | h1⟩ | h1)
    · simp at h1
    · exact h1.elim
    · exact h1
  · exact .inr

/-- Some edge will be overwritten. -/
def Clash : List (UInt8 × Frame) → Frame → Prop
  | [], _ => False
  | (c, _) :: fs, rf => (∃ e ∈ (topFrame fs rf).kids.toList, e.1 = c) ∨ Clash fs rf

theorem Clash.setTop {fs : List (UInt8 × Frame)} {rf : Frame} (h : Clash fs rf) (g : Frame) :
    Clash (setTopS g fs) (setTopR g fs rf) := by
  cases fs with
  | nil => exact h
  | cons x fs => exact h

/-- The loop of `add` comes to an end. -/
structure Pushed (sgn : Bool) (addr : Nat → Nat) (c0 : Nat) (m0 : Mem) (d : SDawg) (fs : List (UInt8 × Frame)) (rf : Frame)
    (reg : List RegEntry) (Z : Nat → Prop) (w : Str)
    (h' : Heap) (d' : SDawg) (st' : List Trans) (fl' lk' : List Nat) (fs' : List (UInt8 × Frame)) : Prop where
  site : Site sgn addr c0 m0 h' d' reg st' fl' lk' fs' rf Z
  fits : Fits fs rf → (∀ c, w.head? = some c → ∀ e ∈ (topFrame fs rf).kids.toList, e.1.toNat < c.toNat) → Fits fs' rf
  path : Lev.path fs' = Lev.path fs ++ w
  lang : ∀ t, Lang fs' rf t ↔ Lang fs rf t
  prev : d'.prev = d.prev
  size : d'.size = d.size
  nil : w ≠ [] → (topFrame fs' rf).kids = .nil
  same : w = [] → fs' = fs
  low : ∀ L, Low L fs rf → (Lev.path fs).length + w.length ≤ L → Low L fs' rf
  clash : Clash fs rf → Clash fs' rf

/-- Where the loop of `add` throws, and how many nodes it loses. -/
def PushStop (j : Nat) (f : Option BFault) (stray : Nat) : Prop :=
  f = some (.node j) ∧ stray = 0 ∨ f = some (.float j) ∧ stray = 1 ∨ f = some (.emplace j) ∧ stray = 0

theorem pushSuffixF_spec (haddr : AddrOk addr) (f : Option BFault) (rest : Str) (j : Nat)
    (hc : Site sgn addr c0 m0 h d reg st fl lk fs rf Z) :
    (∃ h' d' st' fl' fs', pushSuffixF addr f j (topNode d.root st) rest h d = .ok (some (topNode d'.root st'), h', d') ∧
      Pushed sgn addr c0 m0 d fs rf reg Z rest h' d' st' fl' lk fs' ∧ ∀ i, i < rest.length → ∀ n, ¬ PushStop (j + i) f n) ∨
    (∃ h' d' st' fl' lk' fs' i n, i < rest.length ∧ PushStop (j + i) f n ∧
      pushSuffixF addr f j (topNode d.root st) rest h d = .ok (none, h', d') ∧
      Pushed sgn addr c0 m0 d fs rf reg Z (rest.take i) h' d' st' fl' lk' fs' ∧ lk'.length = lk.length + n) := by
  induction rest generalizing j h d st fl fs with
  | nil =>
    left
    exact ⟨h, d, st, fl, fs, rfl, ⟨hc, fun h _ => h, by simp, fun _ => Iff.rfl, rfl, rfl, by simp, fun _ => rfl, fun _ h _ => h, fun h => h⟩, by simp⟩
  | cons c rest ih =>
    by_cases h1 : f = some (.node j)
    · right
      refine ⟨h, d, st, fl, lk, fs, 0, 0, by simp, .inl ⟨h1, rfl⟩, ?_,
        ⟨hc, fun h _ => h, by simp, fun _ => Iff.rfl, rfl, rfl, by simp, fun _ => rfl, fun _ h _ => h, fun h => h⟩, rfl⟩
      simp [pushSuffixF, hc.floating, hc.unchecked, h1]
    · by_cases h2 : f = some (.float j)
      · right
        have ha := hc.alloc haddr false
        simp only [Bool.false_eq_true, if_false] at ha
        have hd : { d with floating := some fl } = d := by
          have := hc.floating
          cases d; simp_all
        rw [hd] at ha
        refine ⟨(newNode addr h).2, d, st, fl, addr h.count :: lk, fs, 0, 1, by simp, .inr (.inl ⟨h2, rfl⟩), ?_,
          ⟨ha, fun h _ => h, by simp, fun _ => Iff.rfl, rfl, rfl, by simp, fun _ => rfl, fun _ h _ => h, fun h => h⟩, by simp⟩
        simp [pushSuffixF, hc.floating, hc.unchecked, h2]
      · by_cases h3 : f = some (.emplace j)
        · right
          have ha := hc.alloc haddr true
          simp only [if_true] at ha
          refine ⟨(newNode addr h).2, _, st, _, lk, fs, 0, 0, by simp, .inr (.inr ⟨h3, rfl⟩), ?_,
            ⟨ha, fun h _ => h, by simp, fun _ => Iff.rfl, rfl, rfl, by simp, fun _ => rfl, fun _ h _ => h, fun h => h⟩, rfl⟩
          simp [pushSuffixF, hc.floating, hc.unchecked, h3, newNode]
        · have hp := hc.push haddr c
          have hrun : pushSuffixF addr f j (topNode d.root st) (c :: rest) h d =
              pushSuffixF addr f (j + 1) (addr h.count) rest (newNode addr h).2
                { d with
                  floating := some (addr h.count :: fl)
                  unchecked := some (⟨c, topNode d.root st, addr h.count⟩ :: st) } := by
            rw [pushSuffixF, hc.floating, hc.unchecked]
            simp only [h1, h2, h3, if_false, newNode]
          have hns : ∀ n, ¬ PushStop j f n := by
            rintro n (⟨x, _⟩ | ⟨x, _⟩ | ⟨x, _⟩)
            · exact h1 x
            · exact h2 x
            · exact h3 x
          have hpl : (path fs).length = fs.length := by simp [path]
          have hlow : ∀ L, Low L fs rf → (path fs).length + (c :: rest).length ≤ L → Low L ((c, ⟨false, .nil⟩) :: fs) rf := by
            intro L hL hl
            refine ⟨?_, hL⟩
            simp only [List.length_cons, Forest.height] at hl ⊢; omega
          have hlow1 : ∀ L n, Low L fs rf → (path fs).length + (n + 1) ≤ L → Low L ((c, ⟨false, .nil⟩) :: fs) rf := by
            intro L n hL hl
            refine ⟨?_, hL⟩
            simp only [List.length_cons, Forest.height] at hl ⊢; omega
          have hlow' : ∀ L, (path fs).length + (c :: rest).length ≤ L → (path ((c, ⟨false, .nil⟩) :: fs)).length + rest.length ≤ L := by
            intro L hl
            rw [path_cons]; simp only [List.length_cons, List.length_append, List.length_nil] at hl ⊢; omega
          rcases ih (j + 1) hp with ⟨h', d', st', fl', fs', e1, e2, e3⟩ | ⟨h', d', st', fl', lk', fs', i, n, e0, e1, e2, e3, e4⟩
          · left
            refine ⟨h', d', st', fl', fs', by rw [hrun]; exact e1, ⟨e2.site, fun hf hl => ?_, ?_, fun t => ?_, e2.prev, e2.size,
              fun _ => ?_, by simp, fun L hL hl => e2.low L (hlow L hL hl) (hlow' L hl), fun h => e2.clash (.inr h)⟩, ?_⟩
            · refine e2.fits ⟨hl c rfl, hf⟩ fun c' _ e he => ?_
              simp [topFrame, Forest.toList] at he
            · rw [e2.path, path_cons]; simp
            · rw [e2.lang, lang_push]
            · by_cases hr : rest = []
              · rw [e2.same hr]; rfl
              · exact e2.nil hr
            · intro i hi n
              cases i with
              | zero => exact hns n
              | succ i =>
                have := e3 i (by simpa using hi) n
                rwa [show j + 1 + i = j + (i + 1) by omega] at this
          · right
            refine ⟨h', d', st', fl', lk', fs', i + 1, n, by simpa using e0, by rwa [show j + 1 + i = j + (i + 1) by omega] at e1,
              by rw [hrun]; exact e2, ⟨e3.site, fun hf hl => ?_, ?_, fun t => ?_, e3.prev, e3.size, fun _ => ?_, by simp,
              fun L hL hl => e3.low L (hlow1 L _ hL (by simpa using hl)) (by
                rw [path_cons]; simp only [List.take_succ_cons, List.length_cons, List.length_append, List.length_nil] at hl ⊢; omega), fun h => e3.clash (.inr h)⟩, e4⟩
            · refine e3.fits ⟨hl c (by simp), hf⟩ fun c' _ e he => ?_
              simp [topFrame, Forest.toList] at he
            · rw [e3.path, path_cons]; simp
            · rw [e3.lang, lang_push]
            · by_cases hr : rest.take i = []
              · rw [e3.same hr]; rfl
              · exact e3.nil hr

/-- Marking the topmost node final. -/
theorem Site.setFinal (hc : Site sgn addr c0 m0 h d reg st fl lk fs rf Z) (haddr : AddrOk addr) :
    ∃ h', Lev.setFinal (topNode d.root st) h = .ok h' ∧
      Site sgn addr c0 m0 h' d reg st fl lk (setTopS ⟨true, (topFrame fs rf).kids⟩ fs)
        (setTopR ⟨true, (topFrame fs rf).kids⟩ fs rf) Z ∧
      ∀ t, Lang (setTopS ⟨true, (topFrame fs rf).kids⟩ fs) (setTopR ⟨true, (topFrame fs rf).kids⟩ fs rf) t ↔
        Lang fs rf t ∨ t = path fs := by
  obtain ⟨nd, h1, h2, h3, h4, h5⟩ := hc.stack.top
  refine ⟨_, ?_, hc.setTop haddr (nd := { nd with final := true }) (g := ⟨true, (topFrame fs rf).kids⟩) rfl h3 h4 h5,
    fun t => ?_⟩
  · simp only [Lev.setFinal, deref, h1, bind, Except.bind]
  · rw [lang_setTop (P := fun u => u = [])]
    · constructor
      · rintro (h | ⟨_, rfl, rfl⟩)
        · exact .inl h
        · exact .inr (by simp)
      · rintro (h | rfl)
        · exact .inl h
        · exact .inr ⟨[], by simp, rfl⟩
    · intro u
      simp only [AccT]
      constructor
      · rintro (⟨rfl, _⟩ | h)
        · exact .inr rfl
        · exact .inl (.inr h)
      · rintro ((⟨rfl, _⟩ | h) | rfl)
        · exact .inl ⟨rfl, trivial⟩
        · exact .inr h
        · exact .inl ⟨rfl, trivial⟩

end

end Lev
