import Verif.Spec.Ieee

/-!
# The order of floating-point numbers

`Ieee.le` is the comparison of `f64`; it is false as soon as one side is NaN.
-/

namespace BSpline

variable {K : Type} [Field K] [LinearOrder K] {F : Format K} {d : ℕ}

/-- `a` is not above `b`: either one of them is not a number, or the comparison `a <= b` of `f64` is true -/
def NotAbove (a b : Ieee F) : Prop := a ≠ .nan → b ≠ .nan → Cmp.le a b = true

/-- `a` is not a number, or `0 <= a` -/
def NotNegative (a : Ieee F) : Prop := a ≠ .nan → Cmp.le 0 a = true

end BSpline
