import Verif.Model.Merge

/-!
# The mutable accessors

Models `vector_mut` (curve/knots/mod.rs:88-90), `vector_derivative_mut` (98-100), `matrix_mut`
(curve/points/mod.rs:88-90, 63-65), `get`, `get_mut` (38-44), `is_empty` (54-56) and
`matrix_derivative_mut` (114-117). The crate hands out a `&mut`; what the caller does with it is
modelled as one assignment of a new value. `Curve` has public fields (curve/mod.rs:45-48), so
`c.points.matrix_mut()` and `c.knots.vector_mut()` are available to every user of a curve, and so
are `c.knots.derive()` and `c.points.derive(&c.knots)`.
-/

namespace BSpline

variable {K : Type} [Add K] [Sub K] [Mul K] [Div K] [Neg K] [Zero K] [One K] [NatCast K] [Cmp K]
variable {d : ℕ}

/-- curve/knots/mod.rs:88-90 `*vector_mut() = U`. -/
def Knots.setVector (kn : Knots K) (U : List K) : Exec (Knots K) := do
  let Uk ← setIdx kn.Uk 0 U
  pure { kn with Uk := Uk }

/-- curve/knots/mod.rs:98-100 `*vector_derivative_mut(k) = U`. -/
def Knots.setVectorDerivative (kn : Knots K) (k : ℕ) (U : List K) : Exec (Knots K) := do
  let Uk ← setIdx kn.Uk k U
  pure { kn with Uk := Uk }

namespace ControlPoints

/-- curve/points/mod.rs:88-90 `*matrix_mut() = m`. -/
def setMatrix (cp : ControlPoints K d) (m : List (Pt K d)) : Exec (ControlPoints K d) := do
  let Pk ← setIdx cp.Pk 0 m
  pure { cp with Pk := Pk }

/-- curve/points/mod.rs:114-117 `*matrix_derivative_mut(k) = m` (with its assertion). -/
def setMatrixDerivative (cp : ControlPoints K d) (k : ℕ) (m : List (Pt K d)) :
    Exec (ControlPoints K d) :=
  if k ≤ cp.kMax then do
    let Pk ← setIdx cp.Pk k m
    pure { cp with Pk := Pk }
  else .error .assertion

/-- curve/points/mod.rs:38-40 `get(i)`. -/
def get (cp : ControlPoints K d) (i : ℕ) : Exec (Pt K d) := do
  let m ← cp.matrix
  column m i

/-- curve/points/mod.rs:42-44 `get_mut(i).copy_from(v)`. -/
def setPoint (cp : ControlPoints K d) (i : ℕ) (v : Pt K d) : Exec (ControlPoints K d) := do
  let m ← cp.matrix
  let _ ← column m i
  cp.setMatrix (m.set i v)

/-- curve/points/mod.rs:54-56 `is_empty`: a matrix is empty when it has no entries. -/
def isEmpty (cp : ControlPoints K d) : Exec Bool := do
  let m ← cp.matrix
  pure (decide (d * m.length = 0))

end ControlPoints

namespace Curve

/-- `*c.points.matrix_mut() = m`. The field is public (curve/mod.rs:45-48); curve/points/mod.rs:88-90. -/
def setMatrix (c : Curve K d) (m : List (Pt K d)) : Exec (Curve K d) := do
  let pts ← c.points.setMatrix m
  pure { c with points := pts }

/-- `c.points.get_mut(i).copy_from(v)`. curve/mod.rs:45-48, curve/points/mod.rs:42-44. -/
def setPoint (c : Curve K d) (i : ℕ) (v : Pt K d) : Exec (Curve K d) := do
  let pts ← c.points.setPoint i v
  pure { c with points := pts }

/-- `*c.knots.vector_mut() = U`. curve/mod.rs:45-48, curve/knots/mod.rs:88-90. -/
def setVector (c : Curve K d) (U : List K) : Exec (Curve K d) := do
  let kn ← c.knots.setVector U
  pure { c with knots := kn }

/-- `c.points.derive(&c.knots)`. curve/mod.rs:45-48, curve/points/mod.rs:130-144. -/
def derivePoints [Build] (c : Curve K d) : Exec (Curve K d) := do
  let pts ← c.points.derive c.knots
  pure { c with points := pts }

/-- `c.knots.derive()`. curve/mod.rs:45-48, curve/knots/mod.rs:174-186. -/
def deriveKnots [Build] (c : Curve K d) : Exec (Curve K d) := do
  let kn ← c.knots.derive
  pure { c with knots := kn }

end Curve

end BSpline
