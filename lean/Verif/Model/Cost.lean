import Verif.Model.Curve

/-!
# Evaluation with a count of the calls of `basis`

The functions of `Model/Knots.lean` and `Model/Curve.lean` once more, each returning the number of
calls of `basis` besides its result. A call does a bounded number of arithmetic operations besides
its recursive calls, so this number is the running time up to a constant factor. That the results
are those of the model is a theorem (`C115_faithful`).
-/

namespace BSpline

variable {K : Type} [Add K] [Sub K] [Mul K] [Div K] [Neg K] [Zero K] [One K] [NatCast K] [Cmp K]

/-- curve/basis/mod.rs:29-57 `basis`, with the number of calls (this one included). -/
def basisT [Build] (U : List K) (k n : ℕ) (u : K) : (p : ℕ) → (i : ℕ) → Exec (K × ℕ)
  | 0, i => do
    let N ← basis U k n u 0 i
    pure (N, 1)
  | h + 1, i => do
    let p := h + 1
    let a ← idx U (i + p)
    let b ← idx U i
    let (summand1, t1) ← if Cmp.eq a b then pure (0, 0) else do
      let g := i
      let ug ← idx U g
      let ugh ← idx U (g + h + 1)
      let ug' ← idx U g
      let (N, t) ← basisT U k n u h i
      pure ((u - ug) / (ugh - ug') * N, t)
    let a ← idx U (i + 1 + p)
    let b ← idx U (i + 1)
    let (summand2, t2) ← if Cmp.eq a b then pure (0, 0) else do
      let g := i + 1
      let ugp ← idx U (g + p)
      let ugh ← idx U (g + h + 1)
      let ug ← idx U g
      let (N, t) ← basisT U k n u h g
      pure ((ugp - u) / (ugh - ug) * N, t)
    pure (summand1 + summand2, 1 + t1 + t2)

/-- curve/knots/mod.rs:268-274 `evaluate`, with the number of calls of `basis`. -/
def Knots.evaluateT [Build] (kn : Knots K) (k i p : ℕ) (u : K) : Exec (K × ℕ) := do
  let U ← idx kn.Uk k
  let n ← kn.segments
  let pk ← usub p k
  basisT U k n u pk i

variable {d : ℕ}

/-- curve/mod.rs:133-151 `evaluate_derivative`, with the number of calls of `basis`. -/
def Curve.evaluateDerivativeT [Build] (c : Curve K d) (u : K) (k : ℕ) :
    Exec (Except (CurveError K) (Pt K d) × ℕ) := do
  if !(Cmp.le 0 u && Cmp.le u 1) then pure (.error (.parameterOutOfBounds u 0 1), 0)
  else do
    let p := c.degree
    let value : Pt K d := fun _ => 0
    if k ≤ p then do
      let n ← c.segments
      let l ← c.knots.findIdx u k .leftOrEqual
      let pk ← usub p k
      let lo ← usub l pk
      let hi ← usub n k
      let (value, t) ← forRangeIncl lo hi (value, 0) (fun (value, t) i => do
        let (N, t') ← c.knots.evaluateT k i p u
        let m ← c.points.matrixDerivative k
        let col ← column m i
        pure (value + scale N col, t + t'))
      pure (.ok value, t)
    else pure (.ok value, 0)

/-- curve/points/methods/fit/mod.rs:97-111 `difference_operator`, with the number of its calls. -/
def differenceOperatorT : (kappa : ℕ) → (i j : ℕ) → ℤ × ℕ
  | 0, _, _ => (0, 1)
  | 1, i, j => (if i = j then -1 else if i + 1 = j then 1 else 0, 1)
  | k + 2, i, j =>
    let (a, s) := differenceOperatorT (k + 1) (i + 1) j
    let (b, t) := differenceOperatorT (k + 1) i j
    (a - b, 1 + s + t)

end BSpline
