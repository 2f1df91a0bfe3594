import Verif.Model.Generate

/-!
# The linear solver

All linear systems are solved by `SVD::new(A, true, true).solve(&b, f64::EPSILON.sqrt())` of nalgebra
0.32 (manipulation/merge.rs:400, curve/points/methods/interpolation.rs:26-28,
curve/points/methods/fit/mod.rs:93 with fit/loose.rs:25 and fit/fixed.rs:33). `SVD::solve` is modelled
here operation by operation; the iteration inside `SVD::new` that computes the decomposition is not.
The source of nalgebra is not in the sandbox; this follows its published code and documentation.
-/

namespace BSpline

variable {K : Type} [Add K] [Sub K] [Mul K] [Div K] [Neg K] [Zero K] [One K] [NatCast K]
  [IntCast K] [Cmp K] {d : ℕ}

/-- nalgebra `SVD` (fields `u`, `singular_values`, `v_t`), matrices by rows.
Result of `SVD::new` in manipulation/merge.rs:400. -/
structure Svd (K : Type) where
  u : List (List K)
  s : List K
  vt : List (List K)

/-- One entry (one row of `ut_b`, over all right-hand sides) of the loop in `SVD::solve`:
`if val > eps { col[i].unscale(val) } else { zero }`. Called from manipulation/merge.rs:400. -/
def Svd.cut (eps σ : K) (y : Pt K d) : Pt K d := fun r => if Cmp.lt eps σ then y r / σ else 0

/-- nalgebra `SVD::solve(&b, eps)` for a matrix with `c` columns: `ut_b = u.ad_mul(b)`, the loop over
the singular values, `v_t.ad_mul(&ut_b)`.
Called from manipulation/merge.rs:400, curve/points/methods/fit/loose.rs:25. -/
def Svd.solve (D : Svd K) (eps : K) (c : ℕ) (b : List (Pt K d)) : List (Pt K d) :=
  mulT D.vt c (List.zipWith (Svd.cut eps) D.s (mulT D.u D.s.length b))

/-- The solver that decomposes the matrix with `decompose` and solves with the threshold `eps`.
The threshold of the crate is in manipulation/merge.rs:400. -/
def Solver.svd (decompose : List (List K) → Svd K) (eps : K) : Solver K d where
  run A b := (decompose A).solve eps (ncols A) b
  shape A b := by simp [Svd.solve, mulT]

end BSpline
