/-!
# Shared conventions of the model

Outcomes of C++ code and `std::size_t` arithmetic.
-/

namespace Lev

/-- Why a piece of C++ code has no normal outcome. -/
inductive Err where
  /-- Undefined behaviour: null or dangling dereference, double delete, out-of-range access. -/
  | ub
  /-- A loop or recursion did not finish within the fuel it was given. -/
  | diverge
  /-- An unsigned result that does not fit.  This is not an error in C++: the outcome occurs only in the copy of
  the model with checked arithmetic (`Verif/Model/Checked.lean`). -/
  | wrap
deriving DecidableEq, Repr

/-- `std::size_t` has 64 bits. -/
def sizeW : Nat := 18446744073709551616

/-- `SIZE_MAX`. -/
def sizeMax : Nat := 18446744073709551615

/-- `a + b` in `std::size_t`. -/
def wadd (a b : Nat) : Nat := (a + b) % sizeW

/-- `a - b` in `std::size_t`. -/
def wsub (a b : Nat) : Nat := (a + (sizeW - b % sizeW)) % sizeW

/-- A computation with bounded loops and recursions ends with the value `r`: it does so for every sufficiently
large bound. -/
def Ends {α : Type} (f : Nat → Except Err α) (r : α) : Prop := ∃ N, ∀ fuel, N ≤ fuel → f fuel = .ok r

-- Outcomes can be compared (used in the examples only).
deriving instance DecidableEq for Except

end Lev
