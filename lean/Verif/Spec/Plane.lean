import Verif.Spec.Basic
import Mathlib.LinearAlgebra.AffineSpace.AffineSubspace.Basic

/-!
# Planes, and the points of a curve

A plane is given by a linear function `f` and a number `b`; it consists of the points with `f q = b`.
-/

namespace BSpline

variable {K : Type} [Field K] [LinearOrder K] {d : ℕ}

/-- the points of the curve with parameters in `S`, as evaluated -/
def Trace (c : Curve K d) (S : Set K) : Set (Pt K d) := {v | ∃ u ∈ S, c.evaluate u = .ok (.ok v)}

/-- the control points with indices in `S` -/
def PolygonOn (P : List (Pt K d)) (S : Set ℕ) : Set (Pt K d) := {q | ∃ i ∈ S, P[i]? = some q}

end BSpline
