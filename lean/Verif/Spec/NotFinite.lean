import Verif.Spec.Ieee
import Verif.Model.Svd

/-!
# Numbers that are not finite

`f64::is_finite` is false for NaN and for the two infinities.
-/

namespace BSpline

open Ieee

variable {K : Type} [Field K] [LinearOrder K] {F : Format K} {d : ℕ}

/-- NaN or infinite: `a` has no finite value -/
def NotFinite (a : Ieee F) : Prop := ∀ x, ¬ Is a x

/-- zero, of either sign, or not a number -/
def ZeroOrNan (a : Ieee F) : Prop := a = nan ∨ Is a 0

/-- What any singular value decomposition satisfies: `u` has as many rows as the matrix, and `v_t` has one row for
each singular value. -/
def Svd.Shaped (decompose : List (List (Ieee F)) → Svd (Ieee F)) : Prop :=
  ∀ A, (decompose A).u.length = A.length ∧ (decompose A).vt.length = (decompose A).s.length

/-- How a solution of a linear system ends if one right-hand side is spoiled: either coordinate `r` of all points is
spoiled, or all points are zero (then every singular value was cut off) -/
def Spoiled (r : Fin d) (X : List (Pt (Ieee F) d)) : Prop :=
  (∀ q ∈ X, NotFinite (q r)) ∨ ∀ q ∈ X, ∀ s, ZeroOrNan (q s)

end BSpline
