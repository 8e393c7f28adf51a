import Verif.Proofs.Session
import Verif.Proofs.Alloc
import Verif.Props.Query

/-!
# C42: queries do not influence each other

Queries at the level of pointers: states and positions are objects in a memory that all queries share.
-/

namespace Lev.Props

open Lev Spec

/-- C42: on a transducer built on any dictionary in any memory, any number of queries may be started, advanced and
destroyed in any order.  Nothing goes wrong; every query that was not destroyed shows after `k` increments the `k`-th
candidate it would yield alone, and is complete when there is none; no object that was there before the first query,
the initial state of the transducer included, changes. -/
theorem c42_queries_independent {paddr saddr : SMem → Nat} (hA : SAlloc paddr saddr) (first : Bool) {sgn : Bool}
    {mem : Mem} {root : Nat} (hd : Dictionary sgn mem root) (A : Algorithm) {R : Type} [Inhabited R] (upd : Str → Nat → R)
    {m : SMem} (hm : m.Finite) :
    ∃ s0 m0 N, newTransducer paddr saddr m = .ok (s0, m0) ∧ ∀ fuel, N ≤ fuel → ∀ (dflt : R) ops, SessionOk ops →
      ∃ m' T, session paddr saddr first A upd dflt mem root s0 fuel ops m0 [] = .ok (m', T) ∧
        (∀ i q n, (starts ops)[i]? = some (q, n) → QOp.destroy i ∉ ops →
          ∃ Q, T[i]? = some (some Q) ∧ ∃ rs, Yields A upd mem root q n rs ∧
            (Q.complete = true ↔ rs.length ≤ ops.count (.next i)) ∧
            ∀ r, rs[ops.count (.next i)]? = some r → Q.cand = r) ∧
        (∀ a c, m0.pos a = some c → m'.pos a = some c) ∧ (∀ s h, m0.st s = some h → m'.st s = some h) := by
  obtain ⟨m0, s0, e, hrep, _⟩ := newTransducer_ok hA hm
  obtain ⟨nd, F, ht⟩ := hd.tree
  refine ⟨s0, m0, F.wt + 3, e, fun fuel hf dflt ops hok => ?_⟩
  obtain ⟨m', T, e', hinv⟩ := session_ok (first := first) (A := A) (upd := upd) (dflt := dflt) hA ht hrep.1 hrep hf
    ops.reverse (by simpa using hok)
  simp only [List.reverse_reverse] at e' hinv
  refine ⟨m', T, e', fun i q n hi hdi => ?_, fun a c hc => ?_, fun s h hs => ?_⟩
  · obtain ⟨Q, h1, P, ch, h2, h3, hq, hn, _, h4⟩ := hinv.live i q n hi hdi
    refine ⟨Q, h1, _, ht.yields (A := A) (n := n) (q := q) (by have := sizeMax_val; omega) (by omega) upd, ?_, ?_⟩
    · rw [List.length_map, ← List.drop_eq_nil_iff]
      rcases h4 with ⟨c1, t, d, c2, _⟩ | ⟨c1, c2, _⟩
      · rw [c1, c2]; simp
      · simp [c1, c2]
    · intro r hr
      rw [List.getElem?_map] at hr
      rcases h4 with ⟨c1, t, d, c2, c3⟩ | ⟨c1, c2, _⟩
      · have : (allOut A n q nd F)[ops.count (.next i)]? = some (t, d) := by
          rw [← List.head?_drop, c2]; rfl
        rw [this] at hr
        rw [c3]
        simpa using hr
      · have := List.drop_eq_nil_iff.1 c2
        rw [List.getElem?_eq_none this] at hr
        simp at hr
  · rw [hinv.acc.pos a fun s hs l hl hal => ?_]
    · exact hc
    · obtain ⟨_, _, l', h1, h2⟩ := hinv.acc.states s hs
      rw [hl.unique h1] at hal
      rw [h2 a hal] at hc
      cases hc
  · rw [hinv.acc.st s fun hc => ?_]
    · exact hs
    · have := (hinv.acc.states s hc).2.1
      rw [hs] at this
      cases this

/-- C42, memory: when all queries have been destroyed the memory is what it was before the first one, and when the
transducer is destroyed, too, it is what it was before the transducer was made.  Nothing is leaked and nothing is freed
twice (which would be undefined behaviour). -/
theorem c42_no_leak {paddr saddr : SMem → Nat} (hA : SAlloc paddr saddr) (first : Bool) {sgn : Bool}
    {mem : Mem} {root : Nat} (hd : Dictionary sgn mem root) (A : Algorithm) {R : Type} (upd : Str → Nat → R)
    {m : SMem} (hm : m.Finite) :
    ∃ s0 m0 N, newTransducer paddr saddr m = .ok (s0, m0) ∧ ∀ fuel, N ≤ fuel → ∀ (dflt : R) ops, SessionOk ops →
      (∀ i, i < (starts ops).length → QOp.destroy i ∈ ops) →
      ∃ m' T m'', session paddr saddr first A upd dflt mem root s0 fuel ops m0 [] = .ok (m', T) ∧
        m'.pos = m0.pos ∧ m'.st = m0.st ∧ deleteState s0 m' = .ok m'' ∧ m''.pos = m.pos ∧ m''.st = m.st := by
  obtain ⟨m0, s0, e, hrep, hacc0⟩ := newTransducer_ok hA hm
  obtain ⟨nd, F, ht⟩ := hd.tree
  refine ⟨s0, m0, F.wt + 3, e, fun fuel hf dflt ops hok hall => ?_⟩
  obtain ⟨m', T, e', hinv⟩ := session_ok (first := first) (A := A) (upd := upd) (dflt := dflt) hA ht hrep.1 hrep hf
    ops.reverse (by simpa using hok)
  simp only [List.reverse_reverse] at e' hinv
  have hown : ownedAll T = [] := by
    unfold ownedAll
    rw [List.flatMap_eq_nil_iff]
    intro o ho
    obtain ⟨i, hi, rfl⟩ := List.getElem_of_mem ho
    have := hinv.dead i (hall i (by rw [← hinv.len]; exact hi))
    rw [List.getElem?_eq_getElem hi] at this
    simp only [Option.some.injEq] at this
    rw [this]; rfl
  have hacc := hinv.acc
  rw [hown] at hacc
  obtain ⟨h1, h2⟩ := hacc.all
  obtain ⟨m'', e'', hacc'', _⟩ := (hacc0.same h1 h2 hacc.finite).delete
  exact ⟨m', T, m'', e', h1, h2, e'', hacc''.all.1, hacc''.all.2⟩

/-- Two interleaved queries on the dictionary {"", "ab", "abc", "cb", "cbc"}. -/
def exOps : List QOp :=
  [.start [97, 99] 1, .start [98] 1, .next 1, .next 0, .destroy 0, .start [97, 98] 0, .next 1, .destroy 1, .destroy 2]

instance (p : List QOp) (op : QOp) : Decidable (OpOk p op) := by
  cases op <;> exact inferInstanceAs (Decidable (_ ∧ _))

theorem sessionOk_of {ops : List QOp} (h : ∀ i, (hi : i < ops.length) → OpOk (ops.take i) ops[i]) : SessionOk ops := by
  rintro p op r rfl
  simpa using h p.length (by simp)

theorem exOps_ok : SessionOk exOps := sessionOk_of (by decide)

/-- What the queries show: complete or the candidate. -/
def shown {R : Type} (T : List (Option (Query Nat R))) : List (Option (Option R)) :=
  T.map (Option.map fun Q => if Q.complete then none else some Q.cand)

/-- The number of live positions and states below 100. -/
def liveBelow (m : SMem) : Nat × Nat :=
  (((List.range 100).filter fun a => (m.pos a).isSome).length, ((List.range 100).filter fun a => (m.st a).isSome).length)

def exShown (k : Nat) : Except Err (List (Option (Option (Str × Nat))) × Nat × Nat) := do
  let (s0, m0) ← newTransducer lowPos lowSt SMem.empty
  let (m, T) ← session lowPos lowSt true .standard updCandidate ([], 0) exMem 0 s0 100 (exOps.take k) m0 []
  .ok (shown T, liveBelow m)

set_option synthInstance.maxSize 1000 in
example : exShown 4 = .ok ([some (some ([97, 98, 99], 1)), some (some ([97, 98], 1))], 13, 8) ∧
    exShown 8 = .ok ([none, none, some (some ([97, 98], 0))], 3, 3) ∧
    exShown 9 = .ok ([none, none, none], 1, 1) := by decide +kernel

end Lev.Props
