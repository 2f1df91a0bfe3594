import Verif.Model.Curve
import Mathlib.Algebra.Field.Basic
import Mathlib.Algebra.Module.Pi

/-!
# What it means that curves and outcomes are superposed
-/

namespace BSpline

/-- three calls which all fail alike, or all succeed with results in the relation `R` -/
def Out3 {ε α β γ : Type} (R : α → β → γ → Prop) : Except ε α → Except ε β → Except ε γ → Prop
  | .ok a, .ok b, .ok c => R a b c
  | .error x, .error y, .error z => x = y ∧ x = z
  | _, _, _ => False

variable {K : Type} [Field K] {d : ℕ}

/-- `z = x v + y w` -/
def Combined (x y : K) (v w z : Pt K d) : Prop := z = x • v + y • w

/-- as many points each, and those of `R` are the combinations of those of `P` and `Q` -/
def CombinedPoints (x y : K) (P Q R : List (Pt K d)) : Prop :=
  P.length = Q.length ∧ R = List.zipWith (fun v w => x • v + y • w) P Q

/-- the same knots, and the control points of `c`, also those of its derivatives, are the combinations of those of
`a` and `b` -/
structure Superposed (x y : K) (a b c : Curve K d) : Prop where
  knots : a.knots = b.knots ∧ a.knots = c.knots
  order : a.points.kMax = b.points.kMax ∧ a.points.kMax = c.points.kMax
  levels : a.points.Pk.length = b.points.Pk.length ∧ a.points.Pk.length = c.points.Pk.length
  points : ∀ (k : ℕ) P Q R, a.points.Pk[k]? = some P → b.points.Pk[k]? = some Q → c.points.Pk[k]? = some R →
    CombinedPoints x y P Q R

end BSpline
