import Verif.Model.Points

/-!
# Curves, knot insertion, reversal, splitting

Models `src/curve/mod.rs`, `src/manipulation/{insert,reverse,split}.rs`.
-/

namespace BSpline

variable {K : Type} [Add K] [Sub K] [Mul K] [Div K] [Neg K] [Zero K] [One K] [NatCast K] [Cmp K]

/-- curve/points/methods/fit/mod.rs:21-44 `FitError`. -/
inductive FitError (K : Type)
  | negativeLambda (lambda : K)
  | requestedPolynomialSegmentAndDataSegementMismatch (n m : ℕ)
  | requestedPolynomialSegmentAndSplineDegreeMismatch (n p : ℕ)
  | requestedPolynomialSegmentAndPenalizationKappaMismatch (n kappa : ℕ)
  | dataSegmentsAndParameterSegmentsMismatch (m mp : ℕ)
  | nonUniformKnots
  deriving DecidableEq, Repr

/-- curve/mod.rs:50-74 `CurveError` (the variants that the crate constructs). -/
inductive CurveError (K : Type)
  | parameterOutOfBounds (u lower upper : K)
  | degreeAndSegmentsMismatch (p n : ℕ)
  | degreeTooLow (p limit : ℕ)
  | fitError (err : FitError K)
  deriving DecidableEq, Repr

/-- manipulation/insert.rs:20-31 `InsertError`. -/
inductive InsertError (K : Type)
  | outOfBounds (u lower upper : K)
  | multiplicityError (u : K) (m p : ℕ)
  deriving DecidableEq, Repr

/-- manipulation/split.rs:26-35 `SplitError`. -/
inductive SplitError (K : Type)
  | multiplicityTooHigh (u : K) (p multiplicity : ℕ)
  | outOfBounds (u lower upper : K)
  | curveError (e : CurveError K)
  deriving DecidableEq, Repr

/-- curve/mod.rs:45-48 `Curve`. -/
structure Curve (K : Type) (d : ℕ) where
  knots : Knots K
  points : ControlPoints K d
  deriving DecidableEq

namespace Curve

variable {d : ℕ}

/-- curve/mod.rs:315-318 `calculate_derivatives`. -/
def calculateDerivatives [Build] (c : Curve K d) : Exec (Curve K d) := do
  let kn ← c.knots.derive
  let pts ← c.points.derive kn
  pure { knots := kn, points := pts }

/-- curve/mod.rs:103-114 `Curve::new`. -/
def new [Build] (knots : Knots K) (points : ControlPoints K d) :
    Exec (Except (CurveError K) (Curve K d)) := do
  let p := knots.degree
  let n ← points.segments
  if n < p then pure (.error (.degreeAndSegmentsMismatch p n))
  else do
    let c ← calculateDerivatives { knots := knots, points := points }
    pure (.ok c)

/-- curve/mod.rs:116-118 `degree`. -/
def degree (c : Curve K d) : ℕ := c.knots.degree

/-- curve/mod.rs:120-122 `segments`. -/
def segments [Build] (c : Curve K d) : Exec ℕ := c.points.segments

/-- curve/mod.rs:133-151 `evaluate_derivative`. `(0.0..=1.0).contains(&u)` is
`0.0 <= u && u <= 1.0`. -/
def evaluateDerivative [Build] (c : Curve K d) (u : K) (k : ℕ) :
    Exec (Except (CurveError K) (Pt K d)) := do
  if !(Cmp.le 0 u && Cmp.le u 1) then pure (.error (.parameterOutOfBounds u 0 1))
  else do
    let p := c.degree
    let value : Pt K d := fun _ => 0
    if k ≤ p then do
      let n ← c.segments
      let l ← c.knots.findIdx u k .leftOrEqual
      let pk ← usub p k
      let lo ← usub l pk
      let hi ← usub n k
      let value ← forRangeIncl lo hi value (fun value i => do
        let N ← c.knots.evaluate k i p u
        let m ← c.points.matrixDerivative k
        let col ← column m i
        pure (value + scale N col))
      pure (.ok value)
    else pure (.ok value)

/-- curve/mod.rs:129-131 `evaluate`. -/
def evaluate [Build] (c : Curve K d) (u : K) : Exec (Except (CurveError K) (Pt K d)) :=
  c.evaluateDerivative u 0

/-- curve/mod.rs:153-164 `max_derivative`. -/
def maxDerivative (c : Curve K d) : Exec ℕ :=
  if c.knots.maxDerivative = c.points.maxDerivative then pure c.knots.maxDerivative
  else .error .assertion

/-- curve/mod.rs:167-171 `reverse`; manipulation/reverse.rs:13-24 `reverse`, `reversed`. -/
def reverse (c : Curve K d) : Exec (Curve K d) := do
  let kn := c.knots.reverse
  let pts ← c.points.reverse
  pure { knots := kn, points := pts }

/-- curve/mod.rs:324-328 `get_derivative_curve`. The result is *not* passed through
`Curve::new`: its control points carry no derivatives. -/
def getDerivativeCurve [Build] (c : Curve K d) (k : ℕ) : Exec (Curve K d) := do
  let q ← usub c.degree k
  let U ← c.knots.vectorDerivative k
  let kn ← Knots.new q U
  let m ← c.points.matrixDerivative k
  pure { knots := kn, points := ControlPoints.new m }

end Curve

section Insert

variable {d : ℕ}

/-- nalgebra `insert_row(i, val)` on a column vector: asserts `i <= nrows`. manipulation/insert.rs:55. -/
def insertRow (v : List K) (i : ℕ) (x : K) : Exec (List K) :=
  if i ≤ v.length then .ok (v.take i ++ x :: v.drop i) else .error .view

/-- `P_new.column_mut(i).add_assign(v)`. manipulation/insert.rs:73. -/
def addCol (m : List (Pt K d)) (i : ℕ) (v : Pt K d) : Exec (List (Pt K d)) := do
  let c ← column m i
  pure (m.set i (c + v))

/-- manipulation/insert.rs:69-74: the loop that fills the changed control points. -/
def insertLoop [Build] (u : K) (Uold : List K) (Pold : List (Pt K d)) (p lo hi : ℕ)
    (Pnew : List (Pt K d)) : Exec (List (Pt K d)) :=
  forRangeIncl lo hi Pnew (fun Pnew i => do
    let a ← idx Uold i
    let b ← idx Uold (i + p)
    let a' ← idx Uold i
    let alpha := (u - a) / (b - a')
    let i1 ← usub i 1
    let c0 ← column Pold i1
    let c1 ← column Pold i
    addCol Pnew i (scale (1 - alpha) c0 + scale alpha c1))

/-- manipulation/insert.rs:35-80 `insert(c: &mut Curve, u)`: returns the new state of `c` and the
`Result`. -/
def insert [Build] (c : Curve K d) (u : K) : Exec (Curve K d × Except (InsertError K) Unit) := do
  if Cmp.le u 0 || Cmp.le 1 u then pure (c, .error (.outOfBounds u 0 1))
  else do
    let p := c.degree
    let m ← c.knots.multiplicity u
    if p < m then pure (c, .error (.multiplicityError u m p))
    else do
      let Uold ← c.knots.vector
      let Pold ← c.points.matrix
      let l ← c.knots.findIdx u 0 .leftOrEqual
      let Unew ← insertRow Uold (l + 1) u
      let count ← c.points.count
      let Pnew := zeroCols d (count + 1)
      let lp ← usub l p
      let topCols := lp + 1
      let top ← segment Pold 0 topCols
      let Pnew ← setSegment Pnew 0 top
      let botCols ← usub count l
      let s1 ← usub Pnew.length botCols
      let s0 ← usub Pold.length botCols
      let bot ← segment Pold s0 botCols
      let Pnew ← setSegment Pnew s1 bot
      let Pnew ← insertLoop u Uold Pold p (lp + 1) l Pnew
      let Uk ← setIdx c.knots.Uk 0 Unew
      let Pk ← setIdx c.points.Pk 0 Pnew
      let c' ← Curve.calculateDerivatives
        { knots := { c.knots with Uk := Uk }, points := { c.points with Pk := Pk } }
      pure (c', .ok ())

/-- curve/mod.rs:308-313 `insert_times`: the loop stops at the first error. -/
def Curve.insertTimes [Build] (c : Curve K d) (u : K) : (x : ℕ) →
    Exec (Curve K d × Except (InsertError K) Unit)
  | 0 => pure (c, .ok ())
  | x + 1 => do
    let (c', r) ← insert c u
    match r with
    | .error e => pure (c', .error e)
    | .ok () => Curve.insertTimes c' u x

/-- curve/mod.rs:298-301 `Curve::insert`. -/
def Curve.insert [Build] (c : Curve K d) (u : K) : Exec (Curve K d × Except (InsertError K) Unit) :=
  c.insertTimes u 1

end Insert

section Split

variable {d : ℕ}

/-- `for _ in 0..x { insert(&mut bs_inserted, u).unwrap(); }` (manipulation/split.rs:61-63). -/
def insertUnwrapTimes [Build] (c : Curve K d) (u : K) : (x : ℕ) → Exec (Curve K d)
  | 0 => pure c
  | x + 1 => do
    let (c', r) ← BSpline.insert c u
    let _ ← unwrap r
    insertUnwrapTimes c' u x

/-- `Curve::new(Knots::new(p, U), ControlPoints::new(P))`.
E.g. manipulation/split.rs:81, manipulation/merge.rs:142. -/
def mkCurve [Build] (p : ℕ) (U : List K) (P : List (Pt K d)) :
    Exec (Except (CurveError K) (Curve K d)) := do
  let kn ← Knots.new p U
  Curve.new kn (ControlPoints.new P)

/-- `if flag { normalize(&mut v); }`. manipulation/split.rs:75-77. -/
def normalizeIf (flag : Bool) (v : List K) : List K := if flag then normalizeKnots v else v

/-- manipulation/split.rs:69-82 (`multiplicity > 0`: `len = l + p`) and 99-112
(`multiplicity == 0`: `len = l + p + 1`): the left part. `len + 1 + 1 - (p + 2)` control points
(`U_left.len() - (p + 2) + 1` in the first case, `U_left.len() + 1 - (p + 2)` in the second). -/
def splitLeft [Build] (p : ℕ) (U : List K) (P : List (Pt K d)) (u : K) (len : ℕ) (multPos : Bool)
    (norm : Bool) : Exec (Except (CurveError K) (Curve K d)) := do
  let Ul : List K := zeros (len + 1)
  let src ← head U len
  let Ul ← setSegment Ul 0 src
  let Ul ← setIdx Ul len u
  let Ul := normalizeIf norm Ul
  let cols ← if multPos then do
      let x ← usub Ul.length (p + 2)
      pure (x + 1)
    else usub (Ul.length + 1) (p + 2)
  let Pl ← segment P 0 cols
  mkCurve p Ul Pl

/-- manipulation/split.rs:84-96 (`from = l`) and 114-126 (`from = l + 1`): the right part. -/
def splitRight [Build] (p : ℕ) (U : List K) (P : List (Pt K d)) (u : K) (frm : ℕ) (multPos : Bool)
    (norm : Bool) : Exec (Except (CurveError K) (Curve K d)) := do
  let len ← usub (U.length + 1) frm
  let Ur : List K := zeros len
  let Ur ← setIdx Ur 0 u
  let t ← usub U.length frm
  let src ← tail U t
  let Ur ← setTail Ur src
  let Ur := normalizeIf norm Ur
  let cols ← if multPos then do
      let x ← usub Ur.length (p + 2)
      pure (x + 1)
    else usub (Ur.length + 1) (p + 2)
  let s ← usub P.length cols
  let Pr ← segment P s cols
  mkCurve p Ur Pr

/-- manipulation/split.rs:41-129 `split_and_normalize`. -/
def splitAndNormalize [Build] (c : Curve K d) (u : K) (norm : Bool × Bool) :
    Exec (Except (SplitError K) (Curve K d × Curve K d)) := do
  if Cmp.le u 0 || Cmp.le 1 u then pure (.error (.outOfBounds u 0 1))
  else do
    let p := c.degree
    let l ← c.knots.findIdx u 0 .leftOrEqual
    let U0 ← c.knots.vector
    let multiplicity := ((U0.drop l).takeWhile (fun x => Cmp.eq x u)).length
    if p < multiplicity then pure (.error (.multiplicityTooHigh u p multiplicity))
    else do
      let times ← usub p multiplicity
      let b ← insertUnwrapTimes c u times
      let U ← b.knots.vector
      let P ← b.points.matrix
      let multPos := decide (0 < multiplicity)
      let left ← splitLeft p U P u (if multPos then l + p else l + p + 1) multPos norm.1
      match left with
      | .error e => pure (.error (.curveError e))
      | .ok left => do
        let right ← splitRight p U P u (if multPos then l else l + 1) multPos norm.2
        match right with
        | .error e => pure (.error (.curveError e))
        | .ok right => pure (.ok (left, right))

/-- manipulation/split.rs:37-39 `split`; curve/mod.rs:290-292 `Curve::split`. -/
def split [Build] (c : Curve K d) (u : K) : Exec (Except (SplitError K) (Curve K d × Curve K d)) :=
  splitAndNormalize c u (true, true)

end Split

end BSpline
