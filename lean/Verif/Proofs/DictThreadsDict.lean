import Verif.Proofs.DictThreadsSafe
import Verif.Proofs.FuelBound
import Verif.Proofs.Demo

/-!
The functions of the interface are safe in a thread.
-/

namespace Lev

open Spec

namespace NThr

/-- No nodes. -/
def noNodes : Mem := fun _ => none

/-- `V` are the nodes of the finished dictionary `d` with the terms `ts`. -/
def OwnDict (sgn : Bool) (ts : List Str) (V : Mem) (d : SDawg) : Prop :=
  ∃ addr n, AddrOk addr ∧ Finished sgn addr 0 noNodes ts ⟨V, n⟩ d

section
variable {sgn : Bool} {S V : Mem} {fuel : Nat}

theorem distinct_addrOk {addr : Nat → Nat} (h : Distinct addr) : AddrOk addr := h

theorem buildLoop_append (t1 t2 : List Str) (d : SDawg) :
    buildLoop sgn fuel (t1 ++ t2) d = (buildLoop sgn fuel t1 d).bind fun r =>
      match r with
      | some d => buildLoop sgn fuel t2 d
      | none => NProg.ret none := by
  induction t1 generalizing d with
  | nil => rfl
  | cons t t1 ih =>
    simp only [List.cons_append, buildLoop, bind, nbind_assoc]
    congr 1
    funext r
    split
    · rw [ih]
    · rw [nbind_assoc]
      rfl

/-- The ascending part of the terms, for any addresses. -/
theorem safe_build {ts : List Str} (hf : fuelFor ts ≤ fuel) (hasc : Asc [] ts) :
    Safe S (fun r V => ∃ addr h' d, Distinct addr ∧ h'.mem = V ∧ r = some d ∧ Built sgn addr 0 noNodes ts h' d)
      (newDawg.bind fun d => buildLoop sgn fuel ts (initDawg d)) noNodes := by
  refine (Safe.of_fresh (pre := []) (Q := fun addr r h' => ∃ d, r = some d ∧ Built sgn addr 0 noNodes ts h' d)
    List.nodup_nil (by simp) (by simp [noNodes]) fun addr haddr _ => ?_).mono ?_
  · have hnew := newDawg_built (sgn := sgn) (addr := addr) (distinct_addrOk haddr) (h := ⟨noNodes, 0⟩) rfl (fun _ _ => rfl)
    obtain ⟨h', d', hrun, hb⟩ := buildLoop_ok (distinct_addrOk haddr) ts hnew hasc
    refine ⟨some d', h', ?_, ⟨d', rfl, by simpa using hb⟩, fun j hj => ?_⟩
    · have e := hrun fuel (by simpa using hf)
      simp only [Lev.newDawg] at e
      rw [run_bind]
      simp only [newDawg, bind, run_bind, run_newNode, ebind_ok, run_ret, run_buildLoop, List.length_nil, e, onB]
    · obtain ⟨reg, st, fl, fs, rf, hc, _⟩ := hb.ex
      exact hc.heap.live j (Nat.zero_le _) hj
  · rintro x V ⟨addr, h', h1, h2, d, h3, h4⟩
    exact ⟨addr, h', d, h1, h2, h3, h4⟩

theorem not_asc_split {prev : Str} {ts : List Str} (h : ¬ Asc prev ts) :
    ∃ t1 t t2, ts = t1 ++ t :: t2 ∧ Asc prev t1 ∧ strLt t (t1.getLast?.getD prev) = true := by
  induction ts generalizing prev with
  | nil => exact absurd trivial h
  | cons u ts ih =>
    by_cases hu : strLt u prev = false
    · obtain ⟨t1, t, t2, h1, h2, h3⟩ := ih (prev := u) (fun h' => h ⟨hu, h'⟩)
      refine ⟨u :: t1, t, t2, by rw [h1]; rfl, ⟨hu, h2⟩, ?_⟩
      cases t1 with
      | nil => simpa using h3
      | cons v t1 =>
        rw [List.getLast?_cons_cons]
        rw [List.getLast?_eq_some_getLast (by simp)] at h3 ⊢
        exact h3
    · exact ⟨[], u, ts, rfl, trivial, by simpa using hu⟩

/-- `sorted_dawg` in a thread. -/
theorem safe_sortedDawg {ts : List Str} (hf : fuelFor ts ≤ fuel) :
    Safe S (fun r V => (SortedTerms ts ∧ ∃ d, r = some d ∧ OwnDict sgn ts V d) ∨ (¬ SortedTerms ts ∧ r = none ∧ V = noNodes))
      (sortedDawg sgn fuel ts) noNodes := by
  by_cases hs : SortedTerms ts
  · have e : sortedDawg sgn fuel ts = (newDawg.bind fun d => buildLoop sgn fuel ts (initDawg d)).bind fun r =>
        match r with
        | none => NProg.ret none
        | some d => (finishDawg sgn fuel d).bind fun d => (cleanUp fuel d).bind fun d => NProg.ret (some d) := by
      rw [nbind_assoc]; rfl
    rw [e]
    refine Safe.bind ((safe_build hf ((asc_nil_iff _).2 hs)).mono ?_)
    rintro x V ⟨addr, h', d, hd, rfl, rfl, hb⟩
    obtain ⟨h1, d1, h2, d2, r1, r2, hfin⟩ := finish_ok (distinct_addrOk hd) hb
    have c1 := minimize_count (r1 fuel hf)
    have c2 := cleanUp_count (r2 fuel hf)
    refine (Safe.of_run (addr := addr) (h := h') (h' := h2) (x := some d2) ?_ (by omega)).mono ?_
    · simp only [run_bind, run_finishDawg, onB, r1 fuel hf, ebind_ok, run_cleanUp, r2 fuel hf, run_ret]
    · rintro y W ⟨rfl, rfl⟩
      exact .inl ⟨hs, d2, rfl, addr, h2.count, distinct_addrOk hd, hfin⟩
  · obtain ⟨t1, t, t2, rfl, hasc, hlt⟩ := not_asc_split (fun h => hs ((asc_nil_iff _).1 h))
    have hf1 : fuelFor t1 ≤ fuel := Nat.le_trans (fuelFor_le (by rw [totalLen_append]; omega)) hf
    have e : sortedDawg sgn fuel (t1 ++ t :: t2) =
        (newDawg.bind fun d => buildLoop sgn fuel t1 (initDawg d)).bind fun r =>
        (match r with
          | some d => buildLoop sgn fuel (t :: t2) d
          | none => NProg.ret none).bind fun r => match r with
            | none => NProg.ret none
            | some d => (finishDawg sgn fuel d).bind fun d => (cleanUp fuel d).bind fun d => NProg.ret (some d) := by
      simp only [sortedDawg, buildLoop_append, bind, nbind_assoc]
      congr 1
    rw [e]
    refine Safe.bind ((safe_build hf1 hasc).mono ?_)
    rintro x V ⟨addr, h', d, hd, rfl, rfl, hb⟩
    obtain ⟨h1, r1, hc, hm⟩ := destroy_ok (distinct_addrOk hd) hb (fun _ _ => rfl)
    have hlt' : strLt t d.prev = true := by rw [hb.prev]; exact hlt
    refine (Safe.of_run (addr := addr) (h := h') (h' := h1) (x := none) ?_ hc).mono ?_
    · simp only [run_bind, run_buildLoop, Lev.buildLoop, Lev.addTerm, hlt', if_true, bind, Except.bind, onB,
        Bool.false_eq_true, if_false, r1 fuel hf1, run_ret]
    · rintro y W ⟨rfl, rfl⟩
      exact .inr ⟨hs, rfl, funext hm⟩

/-- `contains` on a dictionary of the thread's own. -/
theorem safe_contains {ts : List Str} {d : SDawg} (hd : OwnDict sgn ts V d) {t : Str} (ht : t.length < 2 ^ 31) :
    Safe S (fun b V' => b = decide (t ∈ ts) ∧ V' = V) (containsTerm d.root t) V := by
  obtain ⟨addr, n, _, hf⟩ := hd
  have h1 := hf.contains t (.inl (by omega))
  refine Safe.of_run (addr := addr) (h := ⟨V, n⟩) (h' := ⟨V, n⟩) ?_ rfl
  rw [run_containsTerm, h1]; rfl

/-- `contains` on a dictionary that is shared. -/
theorem safe_shared (h0 : S 0 = none) {ts : List Str} {root : Nat} (hd : HoldsDict sgn S root ts) {t : Str}
    (ht : t.length < 2 ^ 31) : Safe S (fun b V' => b = decide (t ∈ ts) ∧ V' = V) (containsTerm root t) V := by
  obtain ⟨⟨n, hn⟩, hacc⟩ := hd
  obtain ⟨nd, F, hm, hF, _⟩ := DictNode.unf hn
  obtain ⟨b, h1, h2⟩ := contains_spec h0 hm hF (DictNode.sorted hn hm hF) t (.inl (by omega))
  have hb : b = decide (t ∈ ts) := by
    rw [hacc] at h2
    by_cases h : t ∈ ts
    · simp [h, h2]
    · cases b with
      | false => simp [h]
      | true => exact absurd (h2.1 rfl) h
  subst hb
  refine Safe.of_shared (addr := fun k => k) (readOnly_containsTerm root t) (n := 0) (h' := ⟨S, 0⟩) ?_
  rw [run_containsTerm, h1]; rfl

/-- `delete` of a dictionary of the thread's own. -/
theorem safe_destroy {ts : List Str} {d : SDawg} (hd : OwnDict sgn ts V d) (hfu : fuelFor ts ≤ fuel) :
    Safe S (fun _ V' => V' = noNodes) (destroyDawg fuel d) V := by
  obtain ⟨addr, n, _, hf⟩ := hd
  obtain ⟨h', r, hc, hm⟩ := hf.destroy_ok (fun _ _ => rfl)
  refine (Safe.of_run (addr := addr) (h := ⟨V, n⟩) (h' := h') (x := ()) ?_ hc).mono ?_
  · rw [run_destroyDawg, r fuel hfu]; rfl
  · rintro _ _ ⟨_, rfl⟩
    exact funext hm

end

end NThr

end Lev
