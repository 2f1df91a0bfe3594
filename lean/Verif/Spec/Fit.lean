import Verif.Spec.Basic
import Mathlib.Algebra.Group.ForwardDiff

/-!
# Vocabulary for fitting and interpolation
-/

namespace BSpline

open Finset fwdDiff

section
variable {K : Type} [Add K] [Sub K] [Mul K] [Div K] [Neg K] [Zero K] [One K] [NatCast K] [IntCast K]
  [Cmp K]

/-- The documented error of a fit with `n` requested segments, `m` data segments, `mp` parameter
segments and degree `p`, in the order of the checks (curve/points/methods/fit/mod.rs:21-44):
the number of data segments must not be below the number of requested segments, there must be one
parameter per data point, the degree must not exceed the number of segments, `kappa` must be below
the number of segments, `lambda` must not be negative, and penalising needs uniform knots. -/
def fitErrorOf (n m mp p : ℕ) (pen : Option (Penalization K)) (uniform : Bool) : Option (FitError K) :=
  if n > m then some (.requestedPolynomialSegmentAndDataSegementMismatch n m)
  else if m ≠ mp then some (.dataSegmentsAndParameterSegmentsMismatch m mp)
  else if n < p then some (.requestedPolynomialSegmentAndSplineDegreeMismatch n p)
  else match pen with
    | none => none
    | some pen =>
      if pen.kappa > n - 1 then
        some (.requestedPolynomialSegmentAndPenalizationKappaMismatch n pen.kappa)
      else if Cmp.lt pen.lambda 0 = true then some (.negativeLambda pen.lambda)
      else if Cmp.lt 0 pen.lambda = true ∧ uniform = false then some .nonUniformKnots
      else none

end

variable {K : Type} [Field K] [LinearOrder K] {d : ℕ}

/-- `A x = b` for a matrix given by its rows and right-hand sides in `Kᵈ`. -/
def Solves (A : List (List K)) (x b : List (Pt K d)) : Prop :=
  A.length = b.length ∧ (∀ row ∈ A, row.length = x.length) ∧
    ∀ g, g < A.length → ∀ r,
      ∑ i ∈ range x.length, (A.getD g []).getD i 0 * (x.getD i 0) r = (b.getD g 0) r

/-- The linear solver solves every system that has a solution. -/
def Solver.Exact (s : Solver K d) : Prop :=
  ∀ A b, (∃ x, Solves A x b) → Solves A (s.run A b) b

/-- squared Euclidean distance -/
def sqDist (a b : Pt K d) : K := ∑ r, (a r - b r) ^ 2

/-- `e` is the sum of the squared distances between the points of the curve at the parameters with
indices in `I` and the data points -/
def SqError (c : Curve K d) (τ : List K) (Q : List (Pt K d)) (I : Finset ℕ) (e : K) : Prop :=
  ∃ v : ℕ → Pt K d, (∀ g ∈ I, c.evaluate (τ.getD g 0) = .ok (.ok (v g))) ∧
    e = ∑ g ∈ I, sqDist (v g) (Q.getD g 0)

/-- the sum of the squared `κ`-th forward differences of the points -/
def roughness (κ : ℕ) (P : List (Pt K d)) : K :=
  ∑ i ∈ range (P.length - κ), ∑ r, ((Δ_[1]^[κ] (fun i => (P.getD i 0) r)) i) ^ 2

/-- the penalty: `lambda` times the roughness; nothing for `kappa = 0` -/
def penaltyCost (pen : Option (Penalization K)) (P : List (Pt K d)) : K :=
  match pen with
  | none => 0
  | some q => if q.kappa = 0 then 0 else q.lambda * roughness q.kappa P

end BSpline
