import Verif.Spec.Fit

/-!
# Vocabulary for what a fit keeps of its data (C146)
-/

namespace BSpline

open Finset

variable {K : Type} [Field K] [LinearOrder K] {d : ℕ}

/-- `v g` is the point of the curve at the parameter with index `g`, for the indices in `I` -/
def ValuesAt (c : Curve K d) (τ : List K) (I : Finset ℕ) (v : ℕ → Pt K d) : Prop :=
  ∀ g ∈ I, c.evaluate (τ.getD g 0) = .ok (.ok (v g))

/-- the scalar product -/
def dotp (a b : Pt K d) : K := ∑ r, a r * b r

/-- the differences of two lists of points -/
def pointDiff (P P' : List (Pt K d)) : List (Pt K d) := List.zipWith (fun a b r => a r - b r) P P'

end BSpline
