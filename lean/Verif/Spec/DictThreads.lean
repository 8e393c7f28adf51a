import Verif.Spec.Dict
import Verif.Model.DictThreads

/-!
# What threads that build, read and destroy dictionaries may do and must show
-/

namespace Lev.Spec

/-- A thread with the dictionaries `own` (the terms of each; `none` for a null pointer and for one that was destroyed) may do
the statements, shows `outs` and is left with the dictionaries `own'`.  `shared` are the terms of the dictionaries that were
there before.  It reads and destroys no null pointer and nothing that was destroyed, and asks for words of fewer than 2^31
characters. -/
inductive DRun (shared : List (List Str)) :
    List (Option (List Str)) → List DOp → List DOut → List (Option (List Str)) → Prop
  | nil {own} : DRun shared own [] [] own
  | build {own ts ops outs own'} : SortedTerms ts → DRun shared (own ++ [some ts]) ops outs own' →
      DRun shared own (.build ts :: ops) (.built true :: outs) own'
  | refuse {own ts ops outs own'} : ¬ SortedTerms ts → DRun shared (own ++ [none]) ops outs own' →
      DRun shared own (.build ts :: ops) (.built false :: outs) own'
  | has {own i ts t ops outs own'} : own[i]? = some (some ts) → t.length < 2 ^ 31 → DRun shared own ops outs own' →
      DRun shared own (.has i t :: ops) (.answer (decide (t ∈ ts)) :: outs) own'
  | hasShared {own j ts t ops outs own'} : shared[j]? = some ts → t.length < 2 ^ 31 → DRun shared own ops outs own' →
      DRun shared own (.hasShared j t :: ops) (.answer (decide (t ∈ ts)) :: outs) own'
  | drop {own i ts ops outs own'} : own[i]? = some (some ts) → DRun shared (own.set i none) ops outs own' →
      DRun shared own (.drop i :: ops) (.dropped :: outs) own'

/-- In `mem` there is a dictionary with its root at `root`, and its terms are `ts`. -/
def HoldsDict (sgn : Bool) (mem : Mem) (root : Nat) (ts : List Str) : Prop :=
  (∃ n, DictNode sgn mem n root) ∧ ∀ t, Accepts mem root t ↔ t ∈ ts

/-- The dictionaries with these roots have these terms. -/
def SharedOk (sgn : Bool) (mem : Mem) (roots : List Nat) (tss : List (List Str)) : Prop :=
  roots.length = tss.length ∧
  ∀ (j root : Nat) (ts : List Str), roots[j]? = some root → tss[j]? = some ts → HoldsDict sgn mem root ts

/-- The dictionaries `ds` that a thread is left with live in `mem` and have the terms `own`. -/
def Left (sgn : Bool) (mem : Mem) (own : List (Option (List Str))) (ds : List (Option SDawg)) : Prop :=
  own.length = ds.length ∧
  (∀ k : Nat, own[k]? = some none → ds[k]? = some none) ∧
  ∀ (k : Nat) (ts : List Str), own[k]? = some (some ts) →
    ∃ d, ds[k]? = some (some d) ∧ HoldsDict sgn mem d.root ts ∧ d.size = ts.length

/-- An execution without end. -/
def Endless {α : Type} (s : NSys α) : Prop := ∃ f : Nat → NSys α, f 0 = s ∧ ∀ n, NStep (f n) (f (n + 1))

end Lev.Spec
