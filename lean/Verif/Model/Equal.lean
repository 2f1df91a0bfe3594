import Verif.Model.Merge

/-!
# The derived comparisons

`ControlPoints`, `DataPoints` and the error types derive `PartialEq`. What is derived compares the fields, `f64` with
`==`, and nalgebra's matrices by their shapes and elements.
-/

namespace BSpline

variable {K : Type} [Cmp K] {d : ℕ}

/-- nalgebra's `==` of two columns of the same dimension, as in the tests of curve/mod.rs:371-391 -/
def ptEq (v w : Pt K d) : Bool := (List.finRange d).all fun r => Cmp.eq (v r) (w r)

/-- `Vec<T> == Vec<T>`: the same length and equal elements; for `ControlPoints::Pk` of curve/points/mod.rs:25 -/
def listEq {α : Type} (eq : α → α → Bool) : List α → List α → Bool
  | [], [] => true
  | a :: l, b :: m => eq a b && listEq eq l m
  | _, _ => false

/-- curve/points/mod.rs:29 `PartialEq` of `DataPoints`: nalgebra's `==` of the matrices, which compares the shapes and
then the elements column by column -/
def DataPoints.eq (a b : DataPoints K d) : Bool := listEq ptEq a b

/-- curve/points/mod.rs:23 `PartialEq` of `ControlPoints`: the matrices of all stored derivatives and `k_max` -/
def ControlPoints.eq (a b : ControlPoints K d) : Bool :=
  listEq (listEq ptEq) a.Pk b.Pk && a.kMax == b.kMax

/-- curve/points/methods/fit/mod.rs:21 `PartialEq` of `FitError` -/
def FitError.eq : FitError K → FitError K → Bool
  | .negativeLambda a, .negativeLambda b => Cmp.eq a b
  | .requestedPolynomialSegmentAndDataSegementMismatch n m, .requestedPolynomialSegmentAndDataSegementMismatch n' m' =>
    n == n' && m == m'
  | .requestedPolynomialSegmentAndSplineDegreeMismatch n p, .requestedPolynomialSegmentAndSplineDegreeMismatch n' p' =>
    n == n' && p == p'
  | .requestedPolynomialSegmentAndPenalizationKappaMismatch n k,
      .requestedPolynomialSegmentAndPenalizationKappaMismatch n' k' => n == n' && k == k'
  | .dataSegmentsAndParameterSegmentsMismatch m mp, .dataSegmentsAndParameterSegmentsMismatch m' mp' =>
    m == m' && mp == mp'
  | .nonUniformKnots, .nonUniformKnots => true
  | _, _ => false

/-- curve/mod.rs:50 `PartialEq` of `CurveError` -/
def CurveError.eq : CurveError K → CurveError K → Bool
  | .parameterOutOfBounds u a b, .parameterOutOfBounds u' a' b' => Cmp.eq u u' && Cmp.eq a a' && Cmp.eq b b'
  | .degreeAndSegmentsMismatch p n, .degreeAndSegmentsMismatch p' n' => p == p' && n == n'
  | .degreeTooLow p l, .degreeTooLow p' l' => p == p' && l == l'
  | .fitError e, .fitError e' => e.eq e'
  | _, _ => false

/-- manipulation/insert.rs:20 `PartialEq` of `InsertError` -/
def InsertError.eq : InsertError K → InsertError K → Bool
  | .outOfBounds u a b, .outOfBounds u' a' b' => Cmp.eq u u' && Cmp.eq a a' && Cmp.eq b b'
  | .multiplicityError u m p, .multiplicityError u' m' p' => Cmp.eq u u' && m == m' && p == p'
  | _, _ => false

/-- manipulation/split.rs:26 `PartialEq` of `SplitError` -/
def SplitError.eq : SplitError K → SplitError K → Bool
  | .multiplicityTooHigh u p m, .multiplicityTooHigh u' p' m' => Cmp.eq u u' && p == p' && m == m'
  | .outOfBounds u a b, .outOfBounds u' a' b' => Cmp.eq u u' && Cmp.eq a a' && Cmp.eq b b'
  | .curveError e, .curveError e' => e.eq e'
  | _, _ => false

/-- manipulation/merge.rs:55 `PartialEq` of `MergeError` -/
def MergeError.eq : MergeError K → MergeError K → Bool
  | .degreeMismatch l r, .degreeMismatch l' r' => l == l' && r == r'
  | .dimensionMismatch l r, .dimensionMismatch l' r' => l == l' && r == r'
  | .unclampedCurve, .unclampedCurve => true
  | .unnormedCurve, .unnormedCurve => true
  | .tooManyConstraints t p, .tooManyConstraints t' p' => t == t' && p == p'
  | .curveGenerationFailure e, .curveGenerationFailure e' => e.eq e'
  | _, _ => false

/-- `Result<VecD, CurveError> == Result<VecD, CurveError>`, with which the tests of curve/mod.rs:379-391 compare the
results of `evaluate_derivative` -/
def resultEq : Except (CurveError K) (Pt K d) → Except (CurveError K) (Pt K d) → Bool
  | .ok v, .ok w => ptEq v w
  | .error e, .error e' => e.eq e'
  | _, _ => false

end BSpline
