import Verif.Spec.Polygon

/-!
# Plane polygons that turn left

Notions about lists of points of the plane, independent of the crate.
-/

namespace BSpline

variable {K : Type} [Ring K]

/-- twice the signed area of a triangle; it is not negative if the way from `a` over `b` to `c` turns left
or goes straight on -/
def turn (a b c : K × K) : K := (b.1 - a.1) * (c.2 - a.2) - (b.2 - a.2) * (c.1 - a.1)

/-- every three points of the polygon, in their order, turn left or go straight on -/
def LeftTurning [LE K] (L : List (K × K)) : Prop := ∀ a b c, [a, b, c].Sublist L → 0 ≤ turn a b c

end BSpline
