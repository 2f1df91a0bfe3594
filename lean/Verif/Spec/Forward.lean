import Verif.Spec.Basic
import Mathlib.Algebra.BigOperators.Group.Finset.Basic

/-!
# Curves that move forward in a direction (C152)
-/

namespace BSpline

variable {K : Type} [Field K] [LinearOrder K] {d : ℕ}

/-- How far a point lies in the direction `w`. -/
def along (w v : Pt K d) : K := ∑ r, w r * v r

/-- Every control point lies further in the direction `w` than the one before it. -/
def Forward (w : Pt K d) (P : List (Pt K d)) : Prop := (P.map (along w)).Pairwise (· < ·)

/-- The control points of the first derivative, `p (P[i+1] - P[i]) / (U[i+p+1] - U[i+1])`, are at least `m` in the
direction `w`. Nothing is divided: coinciding knots only demand that the control point does not move backwards. -/
def SpeedAtLeast (p n : ℕ) (U : List K) (P : List (Pt K d)) (w : Pt K d) (m : K) : Prop :=
  ∀ i, i < n → m * (U.getD (i + p + 1) 0 - U.getD (i + 1) 0) ≤ p * (along w (P.getD (i + 1) 0) - along w (P.getD i 0))

/-- The same from above. -/
def SpeedAtMost (p n : ℕ) (U : List K) (P : List (Pt K d)) (w : Pt K d) (m : K) : Prop :=
  ∀ i, i < n → p * (along w (P.getD (i + 1) 0) - along w (P.getD i 0)) ≤ m * (U.getD (i + p + 1) 0 - U.getD (i + 1) 0)

end BSpline
