/-!
Names of temporary files and of RapidCheck's settings.
-/

namespace Lev.Spec

/-- A digit or a letter. -/
def AlphaNum (c : UInt8) : Prop := (48 ≤ c ∧ c ≤ 57) ∨ (65 ≤ c ∧ c ≤ 90) ∨ (97 ≤ c ∧ c ≤ 122)

instance decAlphaNum (c : UInt8) : Decidable (AlphaNum c) := by unfold AlphaNum; infer_instance

/-- `p` is the path of the file `name` in the directory `dir`. -/
def InDir (dir name p : List UInt8) : Prop :=
  (name.head? = some 47 ∧ p = name) ∨ (name.head? ≠ some 47 ∧ (dir = [] ∨ dir.getLast? = some 47) ∧ p = dir ++ name) ∨
    (name.head? ≠ some 47 ∧ dir ≠ [] ∧ dir.getLast? ≠ some 47 ∧ p = dir ++ [47] ++ name)

/-- The settings of RapidCheck. -/
def settingNames : List String :=
  ["seed", "max_success", "max_size", "max_discard_ratio", "noshrink", "verbose_progress", "verbose_shrinking", "reproduce"]

end Lev.Spec
