import Verif.Model.Generate

/-!
# Fits with another matrix product

`gram` and `mulT` in Model/Generate.lean add the products of a row and a column one after the other, which fixes the
rounding errors. nalgebra leaves the order open. Here the two fits are defined for any matrix product, so that
theorems can be stated for all of them; `Products.sequential` gives the functions of Model/Generate.lean back.
-/

namespace BSpline

variable {K : Type} [Add K] [Sub K] [Mul K] [Div K] [Neg K] [Zero K] [One K] [NatCast K] [IntCast K] [Cmp K] {d : ℕ}

/-- how nalgebra computes the matrix products of the fits.
curve/points/methods/fit/mod.rs:79, 87, curve/points/methods/fit/loose.rs:24-25. -/
structure Products (K : Type) (d : ℕ) where
  /-- `A.transpose() * A` for `A` with `c` columns -/
  gram : List (List K) → ℕ → List (List K)
  /-- `A.transpose() * B` where row `g` of `B` is the point `B[g]` -/
  mulT : List (List K) → ℕ → List (Pt K d) → List (Pt K d)

/-- the products of the model. curve/points/methods/fit/mod.rs:79, 87, read as sums from left to right. -/
def Products.sequential : Products K d := ⟨BSpline.gram, BSpline.mulT⟩

/-- curve/points/methods/fit/mod.rs:73-94 `compute_svd`: the matrix that is decomposed. -/
def computeSvdMatrixWith [Build] (mm : Products K d) (kn : Knots K) (N : List (List K)) (c : ℕ)
    (pen : Option (Penalization K)) (fd : ℕ → Knots K → Exec (List (List K))) :
    Exec (Except (FitError K) (List (List K))) := do
  let mat := mm.gram N c
  match pen with
  | none => pure (.ok mat)
  | some pen =>
    let l := pen.lambda
    if Cmp.lt l 0 then pure (.error (.negativeLambda l))
    else do
      let nonUniform ← if Cmp.lt 0 l then do
          let r ← isUniform kn
          let b ← unwrap r
          pure (!b)
        else pure false
      if nonUniform then pure (.error .nonUniformKnots)
      else do
        let D ← fd pen.kappa kn
        let G := mm.gram D c
        pure (.ok (addRows mat (G.map (List.map (fun x => l * x)))))

/-- curve/points/methods/fit/loose.rs:13-28 `fit`. -/
def Loose.fitWith [Build] (mm : Products K d) (solver : Solver K d) (kn : Knots K) (pts : DataPoints K d)
    (params : Parameters K) (pen : Option (Penalization K)) : Exec (Except (FitError K) (List (Pt K d))) := do
  let r ← inputChecks kn pts params pen
  match r with
  | .error e => pure (.error e)
  | .ok () => do
    let N ← Loose.coefficientMatrix kn pts params
    let n ← kn.segments
    let r ← computeSvdMatrixWith mm kn N (n + 1) pen Loose.finiteDifferenceMatrix
    match r with
    | .error e => pure (.error e)
    | .ok A => do
      let b := mm.mulT N (n + 1) pts
      let x ← svdSolve solver A b
      pure (.ok x)

/-- curve/points/methods/fit/fixed.rs:15-44 `fit`; the constant terms are accumulated by the crate itself. -/
def Fixed.fitWith [Build] (mm : Products K d) (solver : Solver K d) (kn : Knots K) (pts : DataPoints K d)
    (params : Parameters K) (pen : Option (Penalization K)) : Exec (Except (FitError K) (List (Pt K d))) := do
  let r ← inputChecks kn pts params pen
  match r with
  | .error e => pure (.error e)
  | .ok () => do
    let Q ← Fixed.qvectors kn pts params
    let Qmat ← Fixed.constantTerms kn pts params Q
    let N ← Fixed.coefficientMatrix kn pts params
    let n ← kn.segments
    let n1 ← usub n 1
    let r ← computeSvdMatrixWith mm kn N n1 pen Fixed.finiteDifferenceMatrix
    match r with
    | .error e => pure (.error e)
    | .ok A => do
      let X ← svdSolve solver A Qmat
      let m ← pts.segments
      let P := zeroCols d (n + 1)
      let q0 ← column pts 0
      let P ← setIdx P 0 q0
      let qm ← column pts m
      let P ← setIdx P n qm
      let P ← forRangeIncl 1 n1 P (fun P i => do
        let x ← column X (i - 1)
        setIdx P i x)
      pure (.ok P)

/-- curve/generation/mod.rs:80-150 `generate` for a least-squares fit -/
def generateFit [Build] [Trunc K] [Sqrt K] (mm : Products K d) (solver : Solver K d) (degree : ℕ)
    (points : DataPoints K d) (intended : ℕ) (method : FitMethod) (pen : Option (Penalization K)) :
    Exec (Except (CurveError K) (Curve K d)) := do
  let params ← generateParams points .equallySpaced
  let knots ← generateKnots degree intended params .uniform
  match knots with
  | .error e => pure (.error e)
  | .ok knots => do
    let r ← match method with
      | .fixedEnds => Fixed.fitWith mm solver knots points params pen
      | .looseEnds => Loose.fitWith mm solver knots points params pen
    match r with
    | .error err => pure (.error (.fitError err))
    | .ok P => Curve.new knots (ControlPoints.new P)

end BSpline
