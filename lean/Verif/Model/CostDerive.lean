import Verif.Model.Cost

/-!
# Construction, insertion and splitting with a count of the calls of `derive_single_point`

The functions of `Model/Points.lean` and `Model/Curve.lean` once more, each returning the number of calls of
`derive_single_point` besides its result. A call does a bounded number of operations on points besides its recursive
calls. That the results are those of the model is a theorem (`C136_faithful`).
-/

namespace BSpline

variable {K : Type} [Add K] [Sub K] [Mul K] [Div K] [Neg K] [Zero K] [One K] [NatCast K] [Cmp K] {d : ℕ}

namespace ControlPoints

/-- curve/points/mod.rs:146-160 `derive_single_point`, with the number of calls (this one included). -/
def deriveSinglePointT [Build] (cp : ControlPoints K d) (kn : Knots K) : (k : ℕ) → (i : ℕ) → Exec (Pt K d × ℕ)
  | 0, i => do
    let P0 ← idx cp.Pk 0
    let v ← column P0 i
    pure (v, 1)
  | k + 1, i => do
    let kmax := k + 1
    let p := kn.degree
    let U0 ← kn.vector
    let a ← idx U0 (i + p + 1)
    let b ← idx U0 (i + kmax)
    if Cmp.eq a b then pure ((fun _ => 0), 1)
    else do
      let c ← usub p kmax
      let a' ← idx U0 (i + p + 1)
      let b' ← idx U0 (i + kmax)
      let (x, s) ← deriveSinglePointT cp kn k (i + 1)
      let (y, t) ← deriveSinglePointT cp kn k i
      pure (scale (((c + 1 : ℕ) : K) / (a' - b')) (x - y), 1 + s + t)

/-- curve/points/mod.rs:130-144 `derive`, with the number of calls of `derive_single_point`. -/
def deriveT [Build] (cp : ControlPoints K d) (kn : Knots K) : Exec (ControlPoints K d × ℕ) := do
  let p := kn.degree
  let n ← cp.segments
  let (Pk, t) ← forRangeIncl 1 p (cp.Pk.take 1, 0) (fun (Pk, t) k => do
    let nk ← usub n k
    let cols ← (List.range (nk + 1)).mapM (fun i =>
      deriveSinglePointT { Pk := Pk, kMax := cp.kMax } kn k i)
    pure (Pk ++ [cols.map Prod.fst], t + (cols.map Prod.snd).sum))
  pure ({ Pk := Pk, kMax := p }, t)

end ControlPoints

/-- curve/mod.rs:315-318 `calculate_derivatives`, with the number of calls. -/
def Curve.calculateDerivativesT [Build] (c : Curve K d) : Exec (Curve K d × ℕ) := do
  let kn ← c.knots.derive
  let (pts, t) ← c.points.deriveT kn
  pure ({ knots := kn, points := pts }, t)

/-- curve/mod.rs:103-114 `Curve::new`, with the number of calls. -/
def Curve.newT [Build] (knots : Knots K) (points : ControlPoints K d) :
    Exec (Except (CurveError K) (Curve K d) × ℕ) := do
  let p := knots.degree
  let n ← points.segments
  if n < p then pure (.error (.degreeAndSegmentsMismatch p n), 0)
  else do
    let (c, t) ← calculateDerivativesT { knots := knots, points := points }
    pure (.ok c, t)

/-- `Curve::new(Knots::new(p, U), ControlPoints::new(P))`, with the number of calls.
E.g. manipulation/split.rs:81. -/
def mkCurveT [Build] (p : ℕ) (U : List K) (P : List (Pt K d)) :
    Exec (Except (CurveError K) (Curve K d) × ℕ) := do
  let kn ← Knots.new p U
  Curve.newT kn (ControlPoints.new P)

/-- manipulation/insert.rs:35-80 `insert`, with the number of calls. -/
def insertT [Build] (c : Curve K d) (u : K) : Exec ((Curve K d × Except (InsertError K) Unit) × ℕ) := do
  if Cmp.le u 0 || Cmp.le 1 u then pure ((c, .error (.outOfBounds u 0 1)), 0)
  else do
    let p := c.degree
    let m ← c.knots.multiplicity u
    if p < m then pure ((c, .error (.multiplicityError u m p)), 0)
    else do
      let Uold ← c.knots.vector
      let Pold ← c.points.matrix
      let l ← c.knots.findIdx u 0 .leftOrEqual
      let Unew ← insertRow Uold (l + 1) u
      let count ← c.points.count
      let Pnew := zeroCols d (count + 1)
      let lp ← usub l p
      let topCols := lp + 1
      let top ← segment Pold 0 topCols
      let Pnew ← setSegment Pnew 0 top
      let botCols ← usub count l
      let s1 ← usub Pnew.length botCols
      let s0 ← usub Pold.length botCols
      let bot ← segment Pold s0 botCols
      let Pnew ← setSegment Pnew s1 bot
      let Pnew ← insertLoop u Uold Pold p (lp + 1) l Pnew
      let Uk ← setIdx c.knots.Uk 0 Unew
      let Pk ← setIdx c.points.Pk 0 Pnew
      let (c', t) ← Curve.calculateDerivativesT
        { knots := { c.knots with Uk := Uk }, points := { c.points with Pk := Pk } }
      pure ((c', .ok ()), t)

/-- curve/mod.rs:308-313 `insert_times`, with the number of calls. -/
def Curve.insertTimesT [Build] (c : Curve K d) (u : K) : (x : ℕ) →
    Exec ((Curve K d × Except (InsertError K) Unit) × ℕ)
  | 0 => pure ((c, .ok ()), 0)
  | x + 1 => do
    let ((c', r), t) ← insertT c u
    match r with
    | .error e => pure ((c', .error e), t)
    | .ok () => do
      let (c'', t') ← Curve.insertTimesT c' u x
      pure (c'', t + t')

/-- manipulation/split.rs:61-63: the repeated insertion, with the number of calls. -/
def insertUnwrapTimesT [Build] (c : Curve K d) (u : K) : (x : ℕ) → Exec (Curve K d × ℕ)
  | 0 => pure (c, 0)
  | x + 1 => do
    let ((c', r), t) ← insertT c u
    let _ ← unwrap r
    let (c'', t') ← insertUnwrapTimesT c' u x
    pure (c'', t + t')

/-- manipulation/split.rs:69-82, 99-112: the left part, with the number of calls. -/
def splitLeftT [Build] (p : ℕ) (U : List K) (P : List (Pt K d)) (u : K) (len : ℕ) (multPos : Bool)
    (norm : Bool) : Exec (Except (CurveError K) (Curve K d) × ℕ) := do
  let Ul : List K := zeros (len + 1)
  let src ← head U len
  let Ul ← setSegment Ul 0 src
  let Ul ← setIdx Ul len u
  let Ul := normalizeIf norm Ul
  let cols ← if multPos then do
      let x ← usub Ul.length (p + 2)
      pure (x + 1)
    else usub (Ul.length + 1) (p + 2)
  let Pl ← segment P 0 cols
  mkCurveT p Ul Pl

/-- manipulation/split.rs:84-96, 114-126: the right part, with the number of calls. -/
def splitRightT [Build] (p : ℕ) (U : List K) (P : List (Pt K d)) (u : K) (frm : ℕ) (multPos : Bool)
    (norm : Bool) : Exec (Except (CurveError K) (Curve K d) × ℕ) := do
  let len ← usub (U.length + 1) frm
  let Ur : List K := zeros len
  let Ur ← setIdx Ur 0 u
  let t ← usub U.length frm
  let src ← tail U t
  let Ur ← setTail Ur src
  let Ur := normalizeIf norm Ur
  let cols ← if multPos then do
      let x ← usub Ur.length (p + 2)
      pure (x + 1)
    else usub (Ur.length + 1) (p + 2)
  let s ← usub P.length cols
  let Pr ← segment P s cols
  mkCurveT p Ur Pr

/-- manipulation/split.rs:41-129 `split_and_normalize`, with the number of calls. -/
def splitAndNormalizeT [Build] (c : Curve K d) (u : K) (norm : Bool × Bool) :
    Exec (Except (SplitError K) (Curve K d × Curve K d) × ℕ) := do
  if Cmp.le u 0 || Cmp.le 1 u then pure (.error (.outOfBounds u 0 1), 0)
  else do
    let p := c.degree
    let l ← c.knots.findIdx u 0 .leftOrEqual
    let U0 ← c.knots.vector
    let multiplicity := ((U0.drop l).takeWhile (fun x => Cmp.eq x u)).length
    if p < multiplicity then pure (.error (.multiplicityTooHigh u p multiplicity), 0)
    else do
      let times ← usub p multiplicity
      let (b, t) ← insertUnwrapTimesT c u times
      let U ← b.knots.vector
      let P ← b.points.matrix
      let multPos := decide (0 < multiplicity)
      let (left, t1) ← splitLeftT p U P u (if multPos then l + p else l + p + 1) multPos norm.1
      match left with
      | .error e => pure (.error (.curveError e), t + t1)
      | .ok left => do
        let (right, t2) ← splitRightT p U P u (if multPos then l else l + 1) multPos norm.2
        match right with
        | .error e => pure (.error (.curveError e), t + t1 + t2)
        | .ok right => pure (.ok (left, right), t + t1 + t2)

end BSpline
