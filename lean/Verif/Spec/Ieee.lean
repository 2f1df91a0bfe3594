import Verif.Model.Basic
import Verif.Model.Debug
import Mathlib.Algebra.Order.Round
import Mathlib.Data.Int.Log
import Mathlib.Algebra.Ring.Int.Parity
import Mathlib.Tactic.Linarith
import Mathlib.Tactic.FieldSimp
import Mathlib.Tactic.Ring
import Mathlib.Tactic.Positivity

/-!
# Binary floating-point numbers of IEEE 754

The scalars of the code are `f64`. `Ieee F` has everything that `f64` has: infinities, NaN, signed
zeros, subnormal numbers, and the default rounding to nearest, ties to even. A `Format` states what
the proofs use about the rounding; `binaryFormat` constructs it, `binaryFormat K 52 (-1022) 1023` is
the one of `f64`. (Not distinguished: payloads of NaNs. Fused operations, which Rust does not introduce
by itself but nalgebra's matrix products may use, are in Spec/AnyOrder.lean.)
-/

namespace BSpline

/-- Rounding to the numbers of a format, for results that do not overflow. -/
structure Format (K : Type) [Field K] [LinearOrder K] where
  rnd : K → K
  /-- relative error of an operation -/
  eps : K
  /-- absolute error of a product or quotient that underflows -/
  eta : K
  /-- the largest finite number -/
  max : K
  eps_nonneg : 0 ≤ eps
  eps_lt_one : eps < 1
  eta_nonneg : 0 ≤ eta
  one_le_max : 1 ≤ max
  err : ∀ x, |rnd x - x| ≤ eps * |x| + eta
  sub : ∀ x y, rnd x = x → rnd y = y → |rnd (x - y) - (x - y)| ≤ eps * |x - y|
  idem : ∀ x, rnd (rnd x) = rnd x
  mono : ∀ x y, x ≤ y → rnd x ≤ rnd y
  neg : ∀ x, rnd (-x) = -rnd x
  one : rnd 1 = 1
  rnd_max : rnd max = max

variable {K : Type} [Field K] [LinearOrder K]

/-- the finite numbers of a format -/
def Format.Finite (F : Format K) (x : K) : Prop := F.rnd x = x ∧ |x| ≤ F.max

/-- The numbers of a format. `fin neg v`: the finite number `v`, where `neg` is the sign if `v = 0`. -/
inductive Ieee (F : Format K) where
  | nan
  | inf (neg : Bool)
  | fin (neg : Bool) (v : {x : K // F.Finite x})
deriving DecidableEq

namespace Ieee

variable {F : Format K}

/-- the sign of a finite number -/
def sgn (s : Bool) (v : K) : Bool := if v = 0 then s else decide (v < 0)

/-- Round an exact result; `s` is the sign of an exact zero. -/
def mk (F : Format K) (s : Bool) (x : K) : Ieee F :=
  if h : |F.rnd x| ≤ F.max then fin (sgn s x) ⟨F.rnd x, F.idem x, h⟩ else inf (decide (x < 0))

def add : Ieee F → Ieee F → Ieee F
  | fin s x, fin t y => mk F (s && t) (x.val + y.val)
  | inf s, inf t => if s = t then inf s else nan
  | inf s, fin _ _ => inf s
  | fin _ _, inf t => inf t
  | nan, _ => nan
  | _, nan => nan

/-- change the sign; this never rounds -/
def neg : Ieee F → Ieee F
  | fin s x => mk F (!s) (-x.val)
  | inf s => inf (!s)
  | nan => nan

def mul : Ieee F → Ieee F → Ieee F
  | fin s x, fin t y => mk F (s ^^ t) (x.val * y.val)
  | inf s, inf t => inf (s ^^ t)
  | inf s, fin t y => if y.val = 0 then nan else inf (s ^^ sgn t y.val)
  | fin s x, inf t => if x.val = 0 then nan else inf (sgn s x.val ^^ t)
  | nan, _ => nan
  | _, nan => nan

def div : Ieee F → Ieee F → Ieee F
  | fin s x, fin t y =>
    if y.val = 0 then if x.val = 0 then nan else inf (sgn s x.val ^^ sgn t y.val)
    else mk F (s ^^ sgn t y.val) (x.val / y.val)
  | inf _, inf _ => nan
  | inf s, fin t y => inf (s ^^ sgn t y.val)
  | fin s x, inf t => mk F (sgn s x.val ^^ t) 0
  | nan, _ => nan
  | _, nan => nan

def le : Ieee F → Ieee F → Bool
  | fin _ x, fin _ y => decide (x.val ≤ y.val)
  | inf s, inf t => s || !t
  | inf s, fin _ _ => s
  | fin _ _, inf t => !t
  | nan, _ => false
  | _, nan => false

def eq : Ieee F → Ieee F → Bool
  | fin _ x, fin _ y => decide (x.val = y.val)
  | inf s, inf t => s == t
  | _, _ => false

def lt (a b : Ieee F) : Bool := le a b && !eq a b

instance : Zero (Ieee F) := ⟨mk F false 0⟩
instance : One (Ieee F) := ⟨mk F false 1⟩
instance : NatCast (Ieee F) := ⟨fun n => mk F false n⟩
instance : Add (Ieee F) := ⟨add⟩
instance : Sub (Ieee F) := ⟨fun a b => add a (neg b)⟩
instance : Mul (Ieee F) := ⟨mul⟩
instance : Div (Ieee F) := ⟨div⟩
instance : Neg (Ieee F) := ⟨neg⟩
instance : Cmp (Ieee F) := ⟨le, lt, eq⟩

/-- `x` is the finite number `v` -/
def Is (x : Ieee F) (v : K) : Prop := ∃ s h, x = fin s ⟨v, h⟩

/-- `P` has the finite coordinates `Q` -/
def PtIs {d : ℕ} (P : Pt (Ieee F) d) (Q : Pt K d) : Prop := ∀ r, Is (P r) (Q r)

end Ieee

/-! ### Round to nearest, ties to even -/

section Binary

variable [FloorRing K]

/-- the nearest integer, the even one if there are two -/
def roundEven (x : K) : ℤ :=
  if x - ⌊x⌋ < 1 / 2 then ⌊x⌋ else if 1 / 2 < x - ⌊x⌋ then ⌊x⌋ + 1
  else if Even ⌊x⌋ then ⌊x⌋ else ⌊x⌋ + 1

/-- the exponent of the distance of neighbouring numbers near `x`, with `m` fractional bits and smallest
exponent `emin` of a normal number -/
def quantExp (m : ℕ) (emin : ℤ) (x : K) : ℤ := max (Int.log 2 |x|) emin - m

/-- round `x` -/
def roundIeee (m : ℕ) (emin : ℤ) (x : K) : K :=
  roundEven (x / 2 ^ quantExp m emin x) * 2 ^ quantExp m emin x

end Binary

end BSpline
