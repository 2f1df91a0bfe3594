import Verif.Model.Merge

/-!
# Knot generation, parameters, fitting, interpolation, curve generation

Models `src/curve/knots/methods.rs`, `src/curve/parameters/*`, `src/curve/points/methods/*`,
`src/curve/generation/mod.rs`.
-/

namespace BSpline

variable {K : Type} [Add K] [Sub K] [Mul K] [Div K] [Neg K] [Zero K] [One K] [NatCast K]
  [IntCast K] [Cmp K] [Trunc K] [Sqrt K]

/-- curve/parameters/mod.rs:11-15 `Parameters`. -/
structure Parameters (K : Type) where
  vector : List K
  segments : ℕ
  deriving DecidableEq, Repr

/-- curve/parameters/mod.rs:31-35 `Method`. -/
inductive ParamMethod
  | equallySpaced | centripetal | chordLength
  deriving DecidableEq, Repr

/-- curve/knots/mod.rs:48-52 `Method`. -/
inductive KnotMethod
  | uniform | deBoor | averaging
  deriving DecidableEq, Repr

section KnotMethods

/-- curve/knots/methods.rs:6-12 `inputCheck`. -/
def inputCheck (degree segments : ℕ) : Except (CurveError K) Unit :=
  if degree = 0 then .error (.degreeTooLow degree 0)
  else if segments < degree then .error (.degreeAndSegmentsMismatch degree segments)
  else .ok ()

/-- `for i in n+1..U.len() { U[i] = 1.0 }` (knots/methods.rs:33-35, 64-66, 107-109). -/
def setTailOnes (n : ℕ) (U : List K) : Exec (List K) :=
  forRange (n + 1) U.length U (fun U i => setIdx U i 1)

/-- curve/knots/methods.rs:18-39 `uniform`. -/
def uniform [Build] (degree segments : ℕ) : Exec (Except (CurveError K) (Knots K)) := do
  let p := degree
  let n := segments
  match inputCheck (K := K) p n with
  | .error e => pure (.error e)
  | .ok () => do
    let c ← usub n p
    let U : List K := zeros (p + n + 2)
    let U ← forRangeIncl 1 c U (fun U i => setIdx U (degree + i) ((i : K) / ((c + 1 : ℕ) : K)))
    let U ← setTailOnes n U
    let kn ← Knots.new degree U
    pure (.ok kn)

/-- curve/knots/methods.rs:42-69 `averaging`. -/
def averaging [Build] (degree segments : ℕ) (params : Parameters K) :
    Exec (Except (CurveError K) (Knots K)) := do
  let p := degree
  let n := segments
  match inputCheck (K := K) p n with
  | .error e => pure (.error e)
  | .ok () => do
    let c ← usub n p
    let Ubar := params.vector
    let U : List K := zeros (p + n + 2)
    let U ← forRangeIncl 1 c U (fun U j => do
      let lim ← usub (j + p) 1
      let sum ← forRangeIncl j lim 0 (fun s i => do
        let x ← idx Ubar i
        pure (s + x))
      setIdx U (p + j) (sum / (p : K)))
    let U ← setTailOnes n U
    let kn ← Knots.new degree U
    pure (.ok kn)

/-- curve/knots/methods.rs:79-112 `de_boor`. -/
def deBoor [Build] (degree segments : ℕ) (params : Parameters K) :
    Exec (Except (CurveError K) (Knots K)) := do
  let p := degree
  let n := segments
  match inputCheck (K := K) p n with
  | .error e => pure (.error e)
  | .ok () => do
    let Ubar := params.vector
    let c ← usub n p
    let spans := c + 1
    let dd : K := ((n + 1 : ℕ) : K) / (spans : K)
    let U : List K := zeros (p + n + 2)
    let U ← forRangeIncl 1 c U (fun U j => do
      let jd := (j : K) * dd
      let i := Trunc.trunc jd
      let alpha := jd - (i : K)
      let i1 ← usub i 1
      let x ← idx Ubar i1
      let y ← idx Ubar i
      setIdx U (degree + j) ((1 - alpha) * x + alpha * y))
    let U ← setTailOnes n U
    let kn ← Knots.new degree U
    pure (.ok kn)

/-- curve/knots/mod.rs:63-69 `generate`. -/
def generateKnots [Build] (degree segments : ℕ) (params : Parameters K) (m : KnotMethod) :
    Exec (Except (CurveError K) (Knots K)) :=
  match m with
  | .uniform => uniform degree segments
  | .deBoor => deBoor degree segments params
  | .averaging => averaging degree segments params

/-- nalgebra `PartialEq` of two vectors: same length and element-wise `==`. curve/knots/mod.rs:319. -/
def vecEq (a b : List K) : Bool :=
  a.length == b.length && (List.zipWith Cmp.eq a b).all id

/-- curve/knots/mod.rs:314-321 `is_uniform`. -/
def isUniform [Build] (kn : Knots K) : Exec (Except (CurveError K) Bool) := do
  let U0 ← kn.vector
  let n ← kn.segments
  let e ← uniform kn.degree n
  match e with
  | .error e => pure (.error e)
  | .ok e => do
    let V ← e.vector
    pure (.ok (vecEq U0 V))

end KnotMethods

section ParameterMethods

variable {d : ℕ}

/-- nalgebra `v.norm()`. curve/parameters/methods.rs:32. -/
def norm (v : Pt K d) : K :=
  Sqrt.sqrt ((List.finRange d).foldl (fun s r => s + v r * v r) 0)

/-- `f64::EPSILON.sqrt()`, which is exactly `2^-26`. curve/parameters/methods.rs:35. -/
def epsSqrt : K := 1 / ((67108864 : ℕ) : K)

/-- curve/parameters/methods.rs:12-22 `equally_spaced`. -/
def equallySpaced (segments : ℕ) : Exec (Parameters K) := do
  let m := segments
  let u : List K := zeros (m + 1)
  let u ← forRange 1 m u (fun u g => setIdx u g ((g : K) / (m : K)))
  let u ← setIdx u m 1
  pure { vector := u, segments := segments }

/-- The chord `points.get(g) - points.get(g - 1)` (`g ≥ 1`). curve/parameters/methods.rs:31, 40. -/
def chord (pts : DataPoints K d) (g : ℕ) : Exec (Pt K d) := do
  let a ← column pts g
  let b ← column pts (g - 1)
  pure (a - b)

/-- `for g in 1..=m { sum += f(chord g) }` (parameters/methods.rs:28-33, 52-57). -/
def chordSum (f : Pt K d → K) (pts : DataPoints K d) (m : ℕ) : Exec K :=
  forRangeIncl 1 m 0 (fun sum g => do
    let diff ← chord pts g
    pure (sum + f diff))

/-- `for g in 1..m { u_bar[g] = u_bar[g-1] + f(chord g) / sum }; u_bar[m] = 1.0`
(parameters/methods.rs:37-44, 59-65). -/
def cumulate (f : Pt K d → K) (pts : DataPoints K d) (m : ℕ) (sum : K) : Exec (List K) := do
  let u : List K := zeros (m + 1)
  let u ← forRange 1 m u (fun u g => do
    let diff ← chord pts g
    let prev ← idx u (g - 1)
    setIdx u g (prev + f diff / sum))
  setIdx u m 1

/-- curve/parameters/methods.rs:25-47 `centripetal`; the `debug_assert!` is only in debug builds. -/
def centripetal [Build] (pts : DataPoints K d) : Exec (Parameters K) := do
  let m ← pts.segments
  let sum ← chordSum (fun v => Sqrt.sqrt (norm v)) pts m
  if Build.assertions && !Cmp.le epsSqrt sum then .error .debugAssert
  else do
    let u ← cumulate (fun v => Sqrt.sqrt (norm v)) pts m sum
    pure { vector := u, segments := m }

/-- curve/parameters/methods.rs:49-68 `chord_length`. -/
def chordLength [Build] (pts : DataPoints K d) : Exec (Parameters K) := do
  let m ← pts.segments
  let sum ← chordSum norm pts m
  let u ← cumulate norm pts m sum
  pure { vector := u, segments := m }

/-- curve/parameters/mod.rs:37-43 `generate`. -/
def generateParams [Build] (pts : DataPoints K d) (m : ParamMethod) : Exec (Parameters K) :=
  match m with
  | .equallySpaced => do
    let s ← pts.segments
    equallySpaced s
  | .chordLength => chordLength pts
  | .centripetal => centripetal pts

end ParameterMethods

section Fit

variable {d : ℕ}

/-- curve/points/methods/fit/mod.rs:46-54 `Penalization`. -/
structure Penalization (K : Type) where
  lambda : K
  kappa : ℕ

/-- curve/points/methods/fit/mod.rs:16-19 `Method`. -/
inductive FitMethod
  | fixedEnds | looseEnds
  deriving DecidableEq, Repr

/-- curve/points/methods/fit/mod.rs:56-71 `input_checks`. -/
def inputChecks [Build] (kn : Knots K) (pts : DataPoints K d) (params : Parameters K)
    (pen : Option (Penalization K)) : Exec (Except (FitError K) Unit) := do
  let n ← kn.segments
  let m ← pts.segments
  let mp := params.segments
  let p := kn.degree
  if m < n then pure (.error (.requestedPolynomialSegmentAndDataSegementMismatch n m))
  else if m ≠ mp then pure (.error (.dataSegmentsAndParameterSegmentsMismatch m mp))
  else if n < p then pure (.error (.requestedPolynomialSegmentAndSplineDegreeMismatch n p))
  else match pen with
    | some pen => do
      let n1 ← usub n 1
      if n1 < pen.kappa then
        pure (.error (.requestedPolynomialSegmentAndPenalizationKappaMismatch n pen.kappa))
      else pure (.ok ())
    | none => pure (.ok ())

/-- curve/points/methods/fit/mod.rs:97-111 `difference_operator`. -/
def differenceOperator : (kappa : ℕ) → (i j : ℕ) → ℤ
  | 0, _, _ => 0
  | 1, i, j => if i = j then -1 else if i + 1 = j then 1 else 0
  | k + 2, i, j => differenceOperator (k + 1) (i + 1) j - differenceOperator (k + 1) i j

/-- Entry `j` of a row, `0` outside (rows of a matrix all have the same length).
For the products in curve/points/methods/fit/mod.rs:79. -/
def entry (row : List K) (j : ℕ) : K := row.getD j 0

/-- `A.transpose() * A` for `A` with `c` columns. curve/points/methods/fit/mod.rs:79, 87. -/
def gram (A : List (List K)) (c : ℕ) : List (List K) :=
  (List.range c).map (fun i => (List.range c).map (fun j =>
    A.foldl (fun s row => s + entry row i * entry row j) 0))

/-- `A.transpose() * B` where row `g` of `B` is the point `B[g]`. curve/points/methods/fit/loose.rs:24-25. -/
def mulT (A : List (List K)) (c : ℕ) (B : List (Pt K d)) : List (Pt K d) :=
  (List.range c).map (fun i =>
    (List.zip A B).foldl (fun s (row, b) => s + scale (entry row i) b) (fun _ => 0))

/-- `A + B` entry-wise. curve/points/methods/fit/mod.rs:87. -/
def addRows (A B : List (List K)) : List (List K) := List.zipWith (List.zipWith (· + ·)) A B

/-- curve/points/methods/fit/mod.rs:73-94 `compute_svd`: the matrix that is decomposed (`c` is the
number of columns of `Nmat`). -/
def computeSvdMatrix [Build] (kn : Knots K) (N : List (List K)) (c : ℕ) (pen : Option (Penalization K))
    (fd : ℕ → Knots K → Exec (List (List K))) : Exec (Except (FitError K) (List (List K))) := do
  let mat := gram N c
  match pen with
  | none => pure (.ok mat)
  | some pen =>
    let l := pen.lambda
    if Cmp.lt l 0 then pure (.error (.negativeLambda l))
    else do
      let nonUniform ← if Cmp.lt 0 l then do
          let r ← isUniform kn
          let b ← unwrap r
          pure (!b)
        else pure false
      if nonUniform then pure (.error .nonUniformKnots)
      else do
        let D ← fd pen.kappa kn
        let G := gram D c
        pure (.ok (addRows mat (G.map (List.map (fun x => l * x)))))

namespace Loose

/-- curve/points/methods/fit/loose.rs:30-45 `calculate_coefficient_matrix`. -/
def coefficientMatrix [Build] (kn : Knots K) (pts : DataPoints K d) (params : Parameters K) :
    Exec (List (List K)) := do
  let p := kn.degree
  let n ← kn.segments
  let m ← pts.segments
  tabulateIncl 0 m (fun g => do
    let u ← idx params.vector g
    tabulateIncl 0 n (fun i => kn.evaluate 0 i p u))

/-- curve/points/methods/fit/loose.rs:47-60 `calculate_finite_difference_matrix`. -/
def finiteDifferenceMatrix [Build] (kappa : ℕ) (kn : Knots K) : Exec (List (List K)) := do
  let n ← kn.segments
  if kappa ≤ n then do
    let hi ← usub n kappa
    tabulateIncl 0 hi (fun i => tabulateIncl 0 n (fun j =>
      pure ((differenceOperator kappa i j : ℤ) : K)))
  else .error .assertion

/-- curve/points/methods/fit/loose.rs:13-28 `fit`. -/
def fit [Build] (solver : Solver K d) (kn : Knots K) (pts : DataPoints K d) (params : Parameters K)
    (pen : Option (Penalization K)) : Exec (Except (FitError K) (List (Pt K d))) := do
  let r ← inputChecks kn pts params pen
  match r with
  | .error e => pure (.error e)
  | .ok () => do
    let N ← coefficientMatrix kn pts params
    let n ← kn.segments
    let r ← computeSvdMatrix kn N (n + 1) pen finiteDifferenceMatrix
    match r with
    | .error e => pure (.error e)
    | .ok A => do
      let b := mulT N (n + 1) pts
      let x ← svdSolve solver A b
      pure (.ok x)

end Loose

namespace Fixed

/-- curve/points/methods/fit/fixed.rs:46-65 `generate_qvectors` (columns `0..=m`; columns `0` and
`m` stay zero). -/
def qvectors [Build] (kn : Knots K) (pts : DataPoints K d) (params : Parameters K) :
    Exec (List (Pt K d)) := do
  let p := kn.degree
  let n ← kn.segments
  let m ← pts.segments
  let m1 ← usub m 1
  forRangeIncl 1 m1 (zeroCols d (m + 1)) (fun Q g => do
    let q ← column pts g
    let u ← idx params.vector g
    let N0 ← kn.evaluate 0 0 p u
    let q0 ← column pts 0
    let q := q - scale N0 q0
    let Nn ← kn.evaluate 0 n p u
    let qm ← column pts m
    let q := q - scale Nn qm
    setIdx Q g q)

/-- curve/points/methods/fit/fixed.rs:67-89 `calculate_constant_terms_matrix` (columns). The
accumulator is reset by `accum *= 0.0`. -/
def constantTerms [Build] (kn : Knots K) (pts : DataPoints K d) (params : Parameters K)
    (Q : List (Pt K d)) : Exec (List (Pt K d)) := do
  let p := kn.degree
  let n ← kn.segments
  let m ← pts.segments
  let n1 ← usub n 1
  let (_, cols) ← forRangeIncl 1 n1 (((fun _ => 0) : Pt K d), ([] : List (Pt K d))) (fun st i => do
    let accum : Pt K d := fun r => st.1 r * 0
    let m1 ← usub m 1
    let accum ← forRangeIncl 1 m1 accum (fun accum g => do
      let u ← idx params.vector g
      let N ← kn.evaluate 0 i p u
      let q ← column Q g
      pure (accum + scale N q))
    pure (accum, st.2 ++ [accum]))
  pure cols

/-- curve/points/methods/fit/fixed.rs:91-106 `calculate_coefficient_matrix` (rows). -/
def coefficientMatrix [Build] (kn : Knots K) (pts : DataPoints K d) (params : Parameters K) :
    Exec (List (List K)) := do
  let p := kn.degree
  let n ← kn.segments
  let m ← pts.segments
  let m1 ← usub m 1
  let n1 ← usub n 1
  tabulateIncl 1 m1 (fun g => do
    let u ← idx params.vector g
    tabulateIncl 1 n1 (fun i => kn.evaluate 0 i p u))

/-- curve/points/methods/fit/fixed.rs:108-126 `calculate_finite_difference_matrix` (rows). -/
def finiteDifferenceMatrix [Build] (kappa : ℕ) (kn : Knots K) : Exec (List (List K)) := do
  let n ← kn.segments
  let n2 ← usub n 2
  if kappa ≤ n2 then do
    let a ← usub n kappa
    let hi ← usub a 2
    tabulateIncl 0 hi (fun i => tabulateIncl 0 n2 (fun j =>
      pure ((differenceOperator kappa i j : ℤ) : K)))
  else .error .assertion

/-- curve/points/methods/fit/fixed.rs:15-44 `fit`. -/
def fit [Build] (solver : Solver K d) (kn : Knots K) (pts : DataPoints K d) (params : Parameters K)
    (pen : Option (Penalization K)) : Exec (Except (FitError K) (List (Pt K d))) := do
  let r ← inputChecks kn pts params pen
  match r with
  | .error e => pure (.error e)
  | .ok () => do
    let Q ← qvectors kn pts params
    let Qmat ← constantTerms kn pts params Q
    let N ← coefficientMatrix kn pts params
    let n ← kn.segments
    let n1 ← usub n 1
    let r ← computeSvdMatrix kn N n1 pen finiteDifferenceMatrix
    match r with
    | .error e => pure (.error e)
    | .ok A => do
      let X ← svdSolve solver A Qmat
      let m ← pts.segments
      let P := zeroCols d (n + 1)
      let q0 ← column pts 0
      let P ← setIdx P 0 q0
      let qm ← column pts m
      let P ← setIdx P n qm
      let P ← forRangeIncl 1 n1 P (fun P i => do
        let x ← column X (i - 1)
        setIdx P i x)
      pure (.ok P)

end Fixed

/-- curve/points/methods/interpolation.rs:12-29 `interpolate`. -/
def interpolate [Build] (solver : Solver K d) (kn : Knots K) (pts : DataPoints K d)
    (params : Parameters K) : Exec (List (Pt K d)) := do
  let p := kn.degree
  let m ← pts.segments
  let n := m
  let N ← tabulateIncl 0 m (fun g => tabulateIncl 0 n (fun i => do
    let u ← idx params.vector g
    kn.evaluate 0 i p u))
  svdSolve solver N pts

end Fit

section Generation

variable {d : ℕ}

/-- curve/knots/mod.rs:42-46 `knots::Generation`. -/
inductive KnotGeneration (K : Type)
  | uniform
  | manual (knots : Knots K)
  | method (parameterMethod : ParamMethod) (knotMethod : KnotMethod)

/-- curve/generation/mod.rs:38-55 `Generation`. -/
inductive Generation (K : Type) (d : ℕ)
  | manual (degree : ℕ) (points : ControlPoints K d) (knots : KnotGeneration K)
  | interpolation (degree : ℕ) (points : DataPoints K d)
  | leastSquaresFit (degree : ℕ) (points : DataPoints K d) (intendedSegments : ℕ)
      (method : FitMethod) (penalization : Option (Penalization K))

/-- curve/generation/mod.rs:92-103: the knots for `Manual`. -/
def generateManualKnots [Build] (p n : ℕ) (data : DataPoints K d) (g : KnotGeneration K) :
    Exec (Except (CurveError K) (Knots K)) :=
  match g with
  | .uniform => uniform p n
  | .manual knots => pure (.ok knots)
  | .method pm km => do
    let params ← generateParams data pm
    generateKnots p n params km

/-- curve/generation/mod.rs:80-150 `generate`. -/
def generate [Build] (solver : Solver K d) (g : Generation K d) :
    Exec (Except (CurveError K) (Curve K d)) :=
  match g with
  | .manual degree points method => do
    let n ← points.segments
    let p := degree
    if n < p then pure (.error (.degreeAndSegmentsMismatch p n))
    else do
      let data ← points.matrix
      let knots ← generateManualKnots p n data method
      match knots with
      | .error e => pure (.error e)
      | .ok knots => Curve.new knots points
  | .interpolation degree points => do
    let params ← generateParams points .equallySpaced
    let n ← points.segments
    let knots ← generateKnots degree n params .uniform
    match knots with
    | .error e => pure (.error e)
    | .ok knots => do
      let P ← interpolate solver knots points params
      Curve.new knots (ControlPoints.new P)
  | .leastSquaresFit degree points intended method pen => do
    let params ← generateParams points .equallySpaced
    let knots ← generateKnots degree intended params .uniform
    match knots with
    | .error e => pure (.error e)
    | .ok knots => do
      let r ← match method with
        | .fixedEnds => Fixed.fit solver knots points params pen
        | .looseEnds => Loose.fit solver knots points params pen
      match r with
      | .error err => pure (.error (.fitError err))
      | .ok P => Curve.new knots (ControlPoints.new P)

end Generation

end BSpline
