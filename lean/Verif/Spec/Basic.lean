import Verif.Model.Generate
import Verif.Model.Debug
import Mathlib.Algebra.Order.Field.Basic

/-!
# Vocabulary of the specifications

What a well-formed input of the crate is, in terms of the data the user passes in.
-/

namespace BSpline

/-- `U` is a clamped knot vector for degree `p` and `n + 1` control points on `[a, b]`:
`n + p + 2` sorted values, the first `p + 1` equal to `a`, the last `p + 1` equal to `b`, the
others strictly in between. Interior knots may be repeated arbitrarily often. -/
structure ClampedKnots {K : Type} [LinearOrder K] (a b : K) (p n : ℕ) (U : List K) : Prop where
  length : U.length = n + p + 2
  sorted : U.Pairwise (· ≤ ·)
  left : ∀ x ∈ U.take (p + 1), x = a
  right : ∀ x ∈ U.drop (n + 1), x = b
  inner : ∀ x ∈ (U.drop (p + 1)).take (n - p), a < x ∧ x < b
  lt : a < b
  le : p ≤ n

instance {K : Type} [LinearOrder K] (a b : K) (p n : ℕ) (U : List K) :
    Decidable (ClampedKnots a b p n U) :=
  decidable_of_iff (U.length = n + p + 2 ∧ U.Pairwise (· ≤ ·) ∧ (∀ x ∈ U.take (p + 1), x = a) ∧
      (∀ x ∈ U.drop (n + 1), x = b) ∧ (∀ x ∈ (U.drop (p + 1)).take (n - p), a < x ∧ x < b) ∧
      a < b ∧ p ≤ n)
    ⟨fun ⟨h1, h2, h3, h4, h5, h6, h7⟩ => ⟨h1, h2, h3, h4, h5, h6, h7⟩,
      fun ⟨h1, h2, h3, h4, h5, h6, h7⟩ => ⟨h1, h2, h3, h4, h5, h6, h7⟩⟩

section
variable {K : Type} [Add K] [Sub K] [Mul K] [Div K] [Neg K] [Zero K] [One K] [NatCast K] [Cmp K]

/-- `c` is the curve that `Curve::new(Knots::new(p, U), ControlPoints::new(P))` returns. -/
def Built {d : ℕ} (c : Curve K d) (p : ℕ) (U : List K) (P : List (Pt K d)) : Prop :=
  mkCurve p U P = .ok (.ok c)

end

/-- `c` is a curve of degree `p` with `n + 1` control points that was built from a clamped knot
vector on `[a, b]`. -/
def ValidOn {K : Type} [Field K] [LinearOrder K] {d : ℕ} (a b : K) (c : Curve K d) (p n : ℕ)
    (U : List K) (P : List (Pt K d)) : Prop :=
  Built c p U P ∧ ClampedKnots a b p n U ∧ P.length = n + 1

/-- No interior knot below `u` is repeated. -/
def SimpleBelow {K : Type} [Field K] [LinearOrder K] (U : List K) (u : K) : Prop :=
  ∀ x, 0 < x → x < u → U.count x ≤ 1

end BSpline
