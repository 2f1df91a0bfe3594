import Verif.Spec.Fit
import Verif.Model.Svd
import Verif.Model.Debug

/-!
# Vocabulary for the singular value decomposition
-/

namespace BSpline

open Finset

variable {K : Type} [Field K] [LinearOrder K]

/-- all rows have the same length -/
def Rect (A : List (List K)) : Prop := ∀ row ∈ A, row.length = ncols A

/-- entry of a matrix -/
def at2 (A : List (List K)) (g j : ℕ) : K := (A.getD g []).getD j 0

/-- `D` is a singular value decomposition `A = U Σ Vᵀ` with as many singular values as the smaller
dimension of `A`: orthonormal columns of `U`, orthonormal rows of `Vᵀ`, nonnegative `σ`. -/
structure IsSvd (A : List (List K)) (D : Svd K) : Prop where
  count : D.s.length = min A.length (ncols A)
  u_rows : D.u.length = A.length
  u_cols : ∀ row ∈ D.u, row.length = D.s.length
  vt_rows : D.vt.length = D.s.length
  vt_cols : ∀ row ∈ D.vt, row.length = ncols A
  left : ∀ i i', i < D.s.length → i' < D.s.length →
    ∑ g ∈ range A.length, at2 D.u g i * at2 D.u g i' = if i = i' then 1 else 0
  right : ∀ i i', i < D.s.length → i' < D.s.length →
    ∑ j ∈ range (ncols A), at2 D.vt i j * at2 D.vt i' j = if i = i' then 1 else 0
  nonneg : ∀ σ ∈ D.s, 0 ≤ σ
  product : ∀ g j, g < A.length → j < ncols A →
    at2 A g j = ∑ i ∈ range D.s.length, at2 D.u g i * D.s.getD i 0 * at2 D.vt i j

/-- `decompose` finds a singular value decomposition of every nonempty matrix. -/
def Decomposes (decompose : List (List K) → Svd K) : Prop :=
  ∀ A, Rect A → A ≠ [] → 0 < ncols A → IsSvd A (decompose A)

/-- sum of the squared coordinates of points -/
def sqSize {d : ℕ} (x : List (Pt K d)) : K := ∑ j ∈ range x.length, ∑ r, (x.getD j 0 r) ^ 2

/-- sum of the squared distances between the rows of `A x` and of `b` -/
def residual {d : ℕ} (A : List (List K)) (x b : List (Pt K d)) : K :=
  ∑ g ∈ range A.length, ∑ r, (∑ j ∈ range x.length, at2 A g j * x.getD j 0 r - b.getD g 0 r) ^ 2

/-- a computation uses the solver for systems with the matrix `A` only -/
def OnlyThrough {d : ℕ} {α : Type} (F : Solver K d → α) (A : List (List K)) : Prop :=
  ∀ s s' : Solver K d, (∀ b, s.run A b = s'.run A b) → F s = F s'

end BSpline
