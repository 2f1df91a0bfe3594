import Verif.Model.Generate
import Verif.Model.Debug
import Mathlib.Algebra.Order.Field.Basic

/-!
# Numbers with an undefined value

`NF K` adds to the numbers of a field one value `nan` for everything that is not a finite number:
every division by zero yields `nan`, every operation on `nan` yields `nan`, and every comparison with
`nan` is false. Running the model over `NF K` makes divisions by zero observable, which the
convention `x / 0 = 0` of a field hides.
-/

namespace BSpline

inductive NF (K : Type)
  | num (x : K)
  | nan
  deriving DecidableEq, Repr

namespace NF

variable {K : Type}

/-- an operation that is undefined as soon as one operand is -/
def op (f : K → K → NF K) : NF K → NF K → NF K
  | num a, num b => f a b
  | _, _ => nan

/-- a comparison that is false as soon as one operand is `nan` -/
def cmp (f : K → K → Bool) : NF K → NF K → Bool
  | num a, num b => f a b
  | _, _ => false

variable [Field K] [LinearOrder K]

instance : Zero (NF K) := ⟨num 0⟩
instance : One (NF K) := ⟨num 1⟩
instance : NatCast (NF K) := ⟨fun n => num n⟩
instance : Add (NF K) := ⟨op fun a b => num (a + b)⟩
instance : Sub (NF K) := ⟨op fun a b => num (a - b)⟩
instance : Mul (NF K) := ⟨op fun a b => num (a * b)⟩
instance : Neg (NF K) := ⟨fun x => op (fun a _ => num (-a)) x 0⟩
instance : Div (NF K) := ⟨op fun a b => if b = 0 then nan else num (a / b)⟩
instance : Cmp (NF K) := ⟨cmp fun a b => decide (a ≤ b), cmp fun a b => decide (a < b),
  cmp fun a b => decide (a = b)⟩

end NF

section Map

variable {K L : Type} {d : ℕ}

/-! The same data with `f` applied to every number. -/

def FitError.map (f : K → L) : FitError K → FitError L
  | .negativeLambda l => .negativeLambda (f l)
  | .requestedPolynomialSegmentAndDataSegementMismatch n m =>
    .requestedPolynomialSegmentAndDataSegementMismatch n m
  | .requestedPolynomialSegmentAndSplineDegreeMismatch n p =>
    .requestedPolynomialSegmentAndSplineDegreeMismatch n p
  | .requestedPolynomialSegmentAndPenalizationKappaMismatch n k =>
    .requestedPolynomialSegmentAndPenalizationKappaMismatch n k
  | .dataSegmentsAndParameterSegmentsMismatch m mp => .dataSegmentsAndParameterSegmentsMismatch m mp
  | .nonUniformKnots => .nonUniformKnots

def CurveError.map (f : K → L) : CurveError K → CurveError L
  | .parameterOutOfBounds u a b => .parameterOutOfBounds (f u) (f a) (f b)
  | .degreeAndSegmentsMismatch p n => .degreeAndSegmentsMismatch p n
  | .degreeTooLow p l => .degreeTooLow p l
  | .fitError e => .fitError (e.map f)

def InsertError.map (f : K → L) : InsertError K → InsertError L
  | .outOfBounds u a b => .outOfBounds (f u) (f a) (f b)
  | .multiplicityError u m p => .multiplicityError (f u) m p

def SplitError.map (f : K → L) : SplitError K → SplitError L
  | .multiplicityTooHigh u p m => .multiplicityTooHigh (f u) p m
  | .outOfBounds u a b => .outOfBounds (f u) (f a) (f b)
  | .curveError e => .curveError (e.map f)

def mapPt (f : K → L) (v : Pt K d) : Pt L d := fun r => f (v r)

def Knots.map (f : K → L) (kn : Knots K) : Knots L := ⟨kn.Uk.map (·.map f), kn.p, kn.kMax⟩

def ControlPoints.map (f : K → L) (cp : ControlPoints K d) : ControlPoints L d :=
  ⟨cp.Pk.map (·.map (mapPt f)), cp.kMax⟩

def Curve.map (f : K → L) (c : Curve K d) : Curve L d := ⟨c.knots.map f, c.points.map f⟩

/-- both sides of a `Result` -/
def mapResult {ε ε' α α' : Type} (g : ε → ε') (f : α → α') : Except ε α → Except ε' α'
  | .error e => .error (g e)
  | .ok a => .ok (f a)

end Map

end BSpline
