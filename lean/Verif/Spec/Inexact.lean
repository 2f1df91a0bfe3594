import Verif.Spec.Fit

/-!
# Linear solvers with a residual
-/

namespace BSpline

open Finset

variable {K : Type} [Field K] [LinearOrder K] {d : ℕ}

/-- `A x = b` up to `rho` in every coordinate of every row. -/
def SolvesWithin (rho : K) (A : List (List K)) (x b : List (Pt K d)) : Prop :=
  A.length = b.length ∧ (∀ row ∈ A, row.length = x.length) ∧
    ∀ g, g < A.length → ∀ r,
      |∑ i ∈ range x.length, (A.getD g []).getD i 0 * (x.getD i 0) r - (b.getD g 0) r| ≤ rho

/-- The linear solver solves every system that has a solution up to the residual `rho`. -/
def Solver.Within (s : Solver K d) (rho : K) : Prop :=
  ∀ A b, (∃ x, Solves A x b) → SolvesWithin rho A (s.run A b) b

end BSpline
