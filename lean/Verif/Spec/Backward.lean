import Verif.Spec.Basic

/-!
# Errors relative to the control points (C150)
-/

namespace BSpline

variable {K : Type} [Field K] [LinearOrder K] {d : ℕ}

/-- The control points `Q'` differ from `Q` in every coordinate by at most the part `γ` of this coordinate, and
the number `α` of this coordinate. -/
def NearTo (γ : K) (α : Pt K d) (Q Q' : List (Pt K d)) : Prop :=
  List.Forall₂ (fun q q' => ∀ r, |q' r - q r| ≤ γ * |q r| + α r) Q Q'

/-- The absolute values of the coordinates of all control points. -/
def absPoints (Q : List (Pt K d)) : List (Pt K d) := Q.map fun q r => |q r|

/-- The coordinate `r` of the control points whose knots reach to `x` is at most `M`. Nothing is said about the
other control points. -/
def ActiveLe (p : ℕ) (V : List K) (Q : List (Pt K d)) (x : K) (r : Fin d) (M : K) : Prop :=
  ∀ i, i < Q.length → V.getD i 0 ≤ x → x ≤ V.getD (i + p + 1) 0 → |Q.getD i 0 r| ≤ M

end BSpline
