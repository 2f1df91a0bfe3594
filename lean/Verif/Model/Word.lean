import Mathlib.Data.Int.Init
import Verif.Model.Generate

/-!
# `isize` arithmetic in the penalty of a fit

`differenceOperator` in Model/Generate.lean computes with unbounded integers. Here the same function with the
64-bit `isize` of the code: a debug build panics when a difference does not fit, a release build wraps it.
-/

namespace BSpline

/-- `a - b` for `isize` in a debug build; `none`: "attempt to subtract with overflow"
curve/points/methods/fit/mod.rs:108 -/
def isub (a b : ℤ) : Option ℤ := if -2 ^ 63 ≤ a - b ∧ a - b < 2 ^ 63 then some (a - b) else none

/-- curve/points/methods/fit/mod.rs:97-111 `difference_operator` in a debug build -/
def differenceOperatorI : (kappa : ℕ) → (i j : ℕ) → Option ℤ
  | 0, _, _ => some 0
  | 1, i, j => some (if i = j then -1 else if i + 1 = j then 1 else 0)
  | k + 2, i, j => do
    let a ← differenceOperatorI (k + 1) (i + 1) j
    let b ← differenceOperatorI (k + 1) i j
    isub a b

/-- curve/points/methods/fit/mod.rs:97-111 `difference_operator` in a release build -/
def differenceOperatorW : (kappa : ℕ) → (i j : ℕ) → ℤ
  | 0, _, _ => 0
  | 1, i, j => if i = j then -1 else if i + 1 = j then 1 else 0
  | k + 2, i, j => Int.bmod (differenceOperatorW (k + 1) (i + 1) j - differenceOperatorW (k + 1) i j) (2 ^ 64)

/-- curve/points/methods/fit/loose.rs:47-60, fixed.rs:108-126: the loops over the rows and columns of the
difference matrix before the conversion `as f64`, in a debug build -/
def differenceMatrixI (kappa rows cols : ℕ) : Option (List (List ℤ)) :=
  (List.range rows).mapM (fun i => (List.range cols).mapM (fun j => differenceOperatorI kappa i j))

/-- the same loops in a release build.
curve/points/methods/fit/loose.rs:51-57, curve/points/methods/fit/fixed.rs:117-123 -/
def differenceMatrixW (kappa rows cols : ℕ) : List (List ℤ) :=
  (List.range rows).map (fun i => (List.range cols).map (fun j => differenceOperatorW kappa i j))

end BSpline
