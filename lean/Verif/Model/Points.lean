import Verif.Model.Knots

/-!
# Control points and data points

Models `src/curve/points/mod.rs`. A `MatD` with one point per column is the list of its
columns; the number of rows is the type parameter `d`.
-/

namespace BSpline

variable {K : Type} [Add K] [Sub K] [Mul K] [Div K] [Neg K] [Zero K] [One K] [NatCast K] [Cmp K]

/-- curve/points/mod.rs:23-27 `ControlPoints`. -/
structure ControlPoints (K : Type) (d : ℕ) where
  Pk : List (List (Pt K d))
  kMax : ℕ
  deriving DecidableEq

/-- curve/points/mod.rs:176-189 `reverse` / `reversed` on a matrix: swap columns. -/
def reverseCols {α : Type} (m : List α) : List α := swapLoop m

/-- curve/points/mod.rs:29-32, 69-81 `DataPoints`: just a matrix. -/
abbrev DataPoints (K : Type) (d : ℕ) : Type := List (Pt K d)

namespace DataPoints

/-- curve/points/mod.rs:74-77 `DataPoints::reverse`. -/
def reverse {d : ℕ} (m : DataPoints K d) : DataPoints K d := reverseCols m

/-- curve/points/mod.rs:50-52 `count`. -/
def count {d : ℕ} (m : DataPoints K d) : ℕ := List.length m

/-- curve/points/mod.rs:78-80 `DataPoints::segments`: `count() - 1`. -/
def segments [Build] {d : ℕ} (m : DataPoints K d) : Exec ℕ := usub (List.length m) 1

end DataPoints

namespace ControlPoints

variable {d : ℕ}

/-- curve/points/mod.rs:94-96 `new` (and `new_with_capacity`, 98-103, which differs only in the
reserved capacity). -/
def new (m : List (Pt K d)) : ControlPoints K d := { Pk := [m], kMax := 0 }

/-- curve/points/mod.rs:84-86 `matrix`. -/
def matrix (cp : ControlPoints K d) : Exec (List (Pt K d)) := idx cp.Pk 0

/-- curve/points/mod.rs:122-124 `count_derivative`. -/
def countDerivative (cp : ControlPoints K d) (k : ℕ) : Exec ℕ := do
  let m ← idx cp.Pk k
  pure m.length

/-- curve/points/mod.rs:119-121 `count`. -/
def count (cp : ControlPoints K d) : Exec ℕ := cp.countDerivative 0

/-- curve/points/mod.rs:105-107 `segments`: `count() - 1`. -/
def segments [Build] (cp : ControlPoints K d) : Exec ℕ := do
  let c ← cp.count
  usub c 1

/-- curve/points/mod.rs:109-112 `matrix_derivative` (with its assertion). -/
def matrixDerivative (cp : ControlPoints K d) (k : ℕ) : Exec (List (Pt K d)) :=
  if k ≤ cp.kMax then idx cp.Pk k else .error .assertion

/-- curve/points/mod.rs:126-128 `max_derivative`. -/
def maxDerivative (cp : ControlPoints K d) : ℕ := cp.kMax

/-- curve/points/mod.rs:146-160 `derive_single_point(i, k_max, knots)`. -/
def deriveSinglePoint [Build] (cp : ControlPoints K d) (kn : Knots K) : (k : ℕ) → (i : ℕ) → Exec (Pt K d)
  | 0, i => do
    let P0 ← idx cp.Pk 0
    column P0 i
  | k + 1, i => do
    let kmax := k + 1
    let p := kn.degree
    let U0 ← kn.vector
    let a ← idx U0 (i + p + 1)
    let b ← idx U0 (i + kmax)
    if Cmp.eq a b then pure (fun _ => 0)
    else do
      let c ← usub p kmax                      -- `(p - k_max + 1) as f64`
      let a' ← idx U0 (i + p + 1)
      let b' ← idx U0 (i + kmax)
      let x ← deriveSinglePoint cp kn k (i + 1)
      let y ← deriveSinglePoint cp kn k i
      pure (scale (((c + 1 : ℕ) : K) / (a' - b')) (x - y))

/-- curve/points/mod.rs:130-144 `derive`. `derive_single_point` only reads `Pk[0]`, which the
loop does not change. -/
def derive [Build] (cp : ControlPoints K d) (kn : Knots K) : Exec (ControlPoints K d) := do
  let p := kn.degree
  let n ← cp.segments
  let Pk ← forRangeIncl 1 p (cp.Pk.take 1) (fun Pk k => do
    let nk ← usub n k                          -- `MatD::zeros(dim, n - k + 1)`
    let Pnew ← (List.range (nk + 1)).mapM (fun i =>
      deriveSinglePoint { Pk := Pk, kMax := cp.kMax } kn k i)
    pure (Pk ++ [Pnew]))
  pure { Pk := Pk, kMax := p }

/-- curve/points/mod.rs:162-173 `reverse`: for `k in 0..=k_max` reverse `Pk[k]` and negate it for
odd `k`. -/
def reverse (cp : ControlPoints K d) : Exec (ControlPoints K d) :=
  forRangeIncl 0 cp.kMax cp (fun cp k => do
    let m ← cp.matrixDerivative k
    let m := reverseCols m
    let m := if k % 2 = 1 then m.map (fun v => fun r => v r * -1) else m
    let Pk ← setIdx cp.Pk k m
    pure { cp with Pk := Pk })

end ControlPoints

end BSpline
