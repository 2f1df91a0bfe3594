import Verif.Model.Curve

/-!
# Merging

Models `src/manipulation/merge.rs` and the `append` / `prepend` family of `src/curve/mod.rs`.

The singular value decomposition of nalgebra is not modelled: `Solver` is an arbitrary function
from a coefficient matrix (list of rows) and a right-hand side (list of rows) to a matrix of the
shape nalgebra returns. Theorems about values state explicitly that it solved the system.
-/

namespace BSpline

variable {K : Type} [Add K] [Sub K] [Mul K] [Div K] [Neg K] [Zero K] [One K] [NatCast K] [Cmp K]

/-- Number of columns of a matrix given by its rows. For manipulation/merge.rs:400. -/
def ncols {α : Type} (A : List (List α)) : ℕ :=
  match A with
  | [] => 0
  | r :: _ => r.length

/-- nalgebra `SVD::new(A, true, true).solve(&b, eps).unwrap()`: an arbitrary function with the
shape contract of nalgebra (one row of the result per column of `A`).
manipulation/merge.rs:400, curve/points/methods/interpolation.rs:28. -/
structure Solver (K : Type) (d : ℕ) where
  run : List (List K) → List (Pt K d) → List (Pt K d)
  shape : ∀ A b, (run A b).length = ncols A

/-- `SVD::new(A, true, true).solve(&b, f64::EPSILON.sqrt()).unwrap()`: `SVD::new` panics on an
empty matrix; `solve` fails only for a negative epsilon and panics if the row counts differ.
manipulation/merge.rs:400, curve/points/methods/interpolation.rs:28. -/
def svdSolve {d : ℕ} (solver : Solver K d) (A : List (List K)) (b : List (Pt K d)) :
    Exec (List (Pt K d)) :=
  if A.length = 0 ∨ ncols A = 0 then .error .emptySvd
  else if A.length ≠ b.length then .error .shape
  else .ok (solver.run A b)

/-- The `f64` literal `0.5`. manipulation/merge.rs:238, 261, 322, 340. -/
def half : K := 1 / ((2 : ℕ) : K)

/-- manipulation/merge.rs:36-38 `Constraints`. -/
structure Constraints (K : Type) where
  params : List K
  deriving DecidableEq

/-- manipulation/merge.rs:41-43 `Constraints::count`. -/
def Constraints.count (c : Constraints K) : ℕ := c.params.length

/-- manipulation/merge.rs:45-47 `Constraints::segments`. -/
def Constraints.segments [Build] (c : Constraints K) : Exec ℕ := usub c.count 1

/-- manipulation/merge.rs:50-53 `ConstrainedCurve`. -/
structure ConstrainedCurve (K : Type) (d : ℕ) where
  curve : Curve K d
  constraints : Constraints K

/-- manipulation/merge.rs:55-78 `MergeError`. -/
inductive MergeError (K : Type)
  | degreeMismatch (left right : ℕ)
  | dimensionMismatch (left right : ℕ)
  | unclampedCurve
  | unnormedCurve
  | tooManyConstraints (totalConstraints degree : ℕ)
  | curveGenerationFailure (err : CurveError K)
  deriving DecidableEq, Repr

/-- manipulation/merge.rs:571-590 `prefactor(p, i, i0, k, P0, U0)`; `P0` is only used for its
number of columns. -/
def prefactor [Build] (p i0 cols : ℕ) (U0 : List K) : (k : ℕ) → (i : ℕ) → Exec K
  | 0, i => do
    let n ← usub cols 1
    let nk ← usub n 0
    if i ≤ nk then (if i = i0 then pure 1 else pure 0) else pure 0
  | k' + 1, i => do
    let k := k' + 1
    let n ← usub cols 1
    let nk ← usub n k
    if i ≤ nk then do
      let a ← idx U0 (i + p + 1)
      let b ← idx U0 (i + k)
      if Cmp.eq a b then pure 0
      else do
        let c ← usub (p + 1) k
        let a' ← idx U0 (i + p + 1)
        let b' ← idx U0 (i + k)
        let x ← prefactor p i0 cols U0 k' (i + 1)
        let y ← prefactor p i0 cols U0 k' i
        pure ((c : K) / (a' - b') * (x - y))
    else pure 0

variable {d : ℕ}

/-- The inner sums of manipulation/merge.rs:186-190 and 230-234 (left curve):
`Σ_{a = m-p}^{m-k} prefactor(p, a, i, k, S, V0) * basis(Vk, a, p-k, 0, m-k, V0[m+1])`. -/
def sumLeft [Build] (c : Curve K d) (k i : ℕ) : Exec K := do
  let p := c.degree
  let m ← c.segments
  let S ← c.points.matrix
  let V0 ← idx c.knots.Uk 0
  let lo ← usub m p
  let hi ← usub m k
  forRangeIncl lo hi 0 (fun sum a => do
    let f ← prefactor p i S.length V0 k a
    let Vk ← idx c.knots.Uk k
    let pk ← usub p k
    let mk ← usub m k
    let e ← idx V0 (m + 1)
    let b ← basis Vk 0 mk e pk a
    pure (sum + f * b))

/-- The inner sums of manipulation/merge.rs:207-211 and 253-257 (right curve):
`Σ_{b = 0}^{p-k} prefactor(p, b, j, k, T, W0) * basis(Wk, b, p-k, 0, o-k, W0[p])`. -/
def sumRight [Build] (c : Curve K d) (k j : ℕ) : Exec K := do
  let p := c.degree
  let o ← c.segments
  let T ← c.points.matrix
  let W0 ← idx c.knots.Uk 0
  let hi ← usub p k
  forRangeIncl 0 hi 0 (fun sum b => do
    let f ← prefactor p j T.length W0 k b
    let Wk ← idx c.knots.Uk k
    let pk ← usub p k
    let ok ← usub o k
    let e ← idx W0 p
    let N ← basis Wk 0 ok e pk b
    pure (sum + f * N))

/-- manipulation/merge.rs:175-195 `calculateKV` (rows). -/
def calculateKV [Build] (c : Curve K d) : Exec (List (List K)) := do
  let p := c.degree
  let m ← c.segments
  let hi ← usub p 1
  tabulateIncl 0 hi (fun k => do
    let lo ← usub m p
    tabulateIncl (lo + 1) m (fun i => sumLeft c k i))

/-- manipulation/merge.rs:197-218 `calculateKW` (rows). -/
def calculateKW [Build] (c : Curve K d) : Exec (List (List K)) := do
  let p := c.degree
  let hi ← usub p 1
  let KW ← tabulateIncl 0 hi (fun k => tabulateIncl 0 hi (fun j => sumRight c k j))
  pure (KW.map (List.map (fun x => x * -1)))

/-- manipulation/merge.rs:220-241 `calculateIV` (rows). -/
def calculateIV [Build] (c : Curve K d) : Exec (List (List K)) := do
  let p := c.degree
  let m ← c.segments
  let lo ← usub m p
  let hi ← usub p 1
  let IV ← tabulateIncl (lo + 1) m (fun i => tabulateIncl 0 hi (fun k => sumLeft c k i))
  pure (IV.map (List.map (fun x => x * half)))

/-- manipulation/merge.rs:243-264 `calculateJW` (rows). -/
def calculateJW [Build] (c : Curve K d) : Exec (List (List K)) := do
  let p := c.degree
  let hi ← usub p 1
  let JW ← tabulateIncl 0 hi (fun j => tabulateIncl 0 hi (fun k => sumRight c k j))
  pure (JW.map (List.map (fun x => x * -half)))

/-- manipulation/merge.rs:266-281 `calculateGV` (rows). -/
def calculateGV [Build] (a : ConstrainedCurve K d) : Exec (List (List K)) := do
  let p := a.curve.degree
  let m ← a.curve.segments
  let V0 ← a.curve.knots.vector
  let mg ← a.constraints.segments
  tabulateIncl 0 mg (fun g => do
    let lo ← usub m p
    tabulateIncl (lo + 1) m (fun i => do
      let u ← idx a.constraints.params g
      basis V0 0 m u p i))

/-- manipulation/merge.rs:283-306 `calculateHW` (rows). -/
def calculateHW [Build] (b : ConstrainedCurve K d) : Exec (List (List K)) := do
  let p := b.curve.degree
  let o ← b.curve.segments
  let W0 ← b.curve.knots.vector
  let oh ← b.constraints.segments
  tabulateIncl 0 oh (fun h => do
    let hi ← usub p 1
    tabulateIncl 0 hi (fun i => do
      let u ← idx b.constraints.params h
      basis W0 0 o u p i))

/-- manipulation/merge.rs:308-324 `calculateIpV` (rows). -/
def calculateIpV [Build] (a : ConstrainedCurve K d) : Exec (List (List K)) := do
  let p := a.curve.degree
  let m ← a.curve.segments
  let V0 ← a.curve.knots.vector
  let mg ← a.constraints.segments
  let lo ← usub m p
  let M ← tabulateIncl (lo + 1) m (fun i => tabulateIncl 0 mg (fun g => do
      let u ← idx a.constraints.params g
      basis V0 0 m u p i))
  pure (M.map (List.map (fun x => x * -half)))

/-- manipulation/merge.rs:326-342 `calculateJppW` (rows). -/
def calculateJppW [Build] (b : ConstrainedCurve K d) : Exec (List (List K)) := do
  let p := b.curve.degree
  let o ← b.curve.segments
  let W0 ← b.curve.knots.vector
  let oh ← b.constraints.segments
  let hi ← usub p 1
  let M ← tabulateIncl 0 hi (fun j => tabulateIncl 0 oh (fun h => do
      let u ← idx b.constraints.params h
      basis W0 0 o u p j))
  pure (M.map (List.map (fun x => x * -half)))

/-- The identity matrix (rows), merge.rs:154. -/
def identityRows (n : ℕ) : List (List K) :=
  (List.range n).map (fun i => (List.range n).map (fun j => if i = j then 1 else 0))

/-- Row-wise juxtaposition of two blocks. For manipulation/merge.rs:152-172. -/
def hcat (A B : List (List K)) : List (List K) := List.zipWith (· ++ ·) A B

/-- A block of zeros. manipulation/merge.rs:152. -/
def zeroRows (r c : ℕ) : List (List K) := List.replicate r (zeros c)

/-- Optional block: `if count > 0 { copy block }`, otherwise an empty block of `r` rows.
manipulation/merge.rs:163-170. -/
def blockIf (count r : ℕ) (b : Exec (List (List K))) : Exec (List (List K)) :=
  if 0 < count then b else pure (zeroRows r 0)

/-- manipulation/merge.rs:145-173 `construct_Nmat`, assembled from its blocks:
```
  I_p   0     IV   IpV   0
  0     I_p   JW   0     JppW
  KV    KW    0    0     0
  GV    0     0    0     0
  0     HW    0    0     0
```
The code copies the blocks into a zero matrix; the blocks do not overlap. -/
def constructNmat [Build] (a b : ConstrainedCurve K d) : Exec (List (List K)) := do
  let p := a.curve.degree
  let na := a.constraints.count
  let nb := b.constraints.count
  let KV ← calculateKV a.curve
  let KW ← calculateKW b.curve
  let IV ← calculateIV a.curve
  let JW ← calculateJW b.curve
  let GV ← blockIf na 0 (calculateGV a)
  let IpV ← blockIf na p (calculateIpV a)
  let HW ← blockIf nb 0 (calculateHW b)
  let JppW ← blockIf nb p (calculateJppW b)
  let I := identityRows (K := K) (2 * p)
  let rows1 := hcat (I.take p) (hcat IV (hcat IpV (zeroRows p nb)))
  let rows2 := hcat (I.drop p) (hcat JW (hcat (zeroRows p na) JppW))
  let rows3 := hcat KV (hcat KW (zeroRows p (p + na + nb)))
  let rows4 := hcat GV (zeroRows na (p + p + na + nb))
  let rows5 := hcat (zeroRows nb p) (hcat HW (zeroRows nb (p + na + nb)))
  pure (rows1 ++ rows2 ++ rows3 ++ rows4 ++ rows5)

/-- manipulation/merge.rs:344-380 `calculateKconst` (list of columns). -/
def calculateKconst [Build] (ca cb : Curve K d) : Exec (List (Pt K d)) := do
  let p := ca.degree
  let m ← ca.segments
  let o ← cb.segments
  let S ← ca.points.matrix
  let T ← cb.points.matrix
  let hi ← usub p 1
  tabulateIncl 0 hi (fun k => do
    let V0 ← idx ca.knots.Uk 0
    let W0 ← idx cb.knots.Uk 0
    let mp ← usub m p
    let sum ← forRangeIncl mp m ((fun _ => 0) : Pt K d) (fun sum i => do
      let mk ← usub m k
      forRangeIncl mp mk sum (fun sum a => do
        let f ← prefactor p i S.length V0 k a
        let Vk ← idx ca.knots.Uk k
        let pk ← usub p k
        let e ← idx V0 (m + 1)
        let N ← basis Vk 0 mk e pk a
        let col ← column S i
        pure (sum + scale (f * N) col)))
    let sum ← forRangeIncl 0 p sum (fun sum j => do
      let pk ← usub p k
      forRangeIncl 0 pk sum (fun sum b => do
        let f ← prefactor p j T.length W0 k b
        let Wk ← idx cb.knots.Uk k
        let ok ← usub o k
        let e ← idx W0 p
        let N ← basis Wk 0 ok e pk b
        let col ← column T j
        pure (sum - scale (f * N) col)))
    pure (fun r => 0 - sum r))

/-- manipulation/merge.rs:382-392 `constructConstMat` (list of columns). -/
def constructConstMat [Build] (ca cb : Curve K d) (totalConstraints : ℕ) : Exec (List (Pt K d)) := do
  let p := ca.degree
  let Kconst ← calculateKconst ca cb
  let mat := zeroCols d (3 * p + totalConstraints)
  setSegment mat (2 * p) Kconst

/-- manipulation/merge.rs:394-401 `solve_linear_equation_system`. -/
def solveLinearEquationSystem [Build] (solver : Solver K d) (a b : ConstrainedCurve K d) :
    Exec (List (Pt K d)) := do
  let total := a.constraints.count + b.constraints.count
  let N ← constructNmat a b
  let const ← constructConstMat a.curve b.curve total
  svdSolve solver N const

/-- `m.columns_mut(start, k).add_assign(src)` with `src` of `k` columns. manipulation/merge.rs:408, 410. -/
def addSegment (m : List (Pt K d)) (start : ℕ) (src : List (Pt K d)) : Exec (List (Pt K d)) := do
  let old ← segment m start src.length
  setSegment m start (List.zipWith (· + ·) old src)

/-- manipulation/merge.rs:403-413 `generate_shifted_control_point_vectors_of_spline1and2`. -/
def generateShifted [Build] (ca cb : Curve K d) (shifts : List (Pt K d)) :
    Exec (List (Pt K d) × List (Pt K d)) := do
  let p := ca.degree
  let S ← ca.points.matrix
  let T ← cb.points.matrix
  let s ← usub S.length p
  let sh1 ← segment shifts 0 p
  let S' ← addSegment S s sh1
  let sh2 ← segment shifts p p
  let T' ← addSegment T 0 sh2
  pure (S', T')

/-- manipulation/merge.rs:436-444 `adjust_knots`. -/
def adjustKnots [Build] (p : ℕ) (Uleft : List K) (nLeft : ℕ) (Uright : List K) : Exec (List K) := do
  let U : List K := zeros (nLeft + p + 2)
  let h ← head Uleft (nLeft + 2)
  let U ← setSegment U 0 h
  let t ← segment Uright (p + 1) p
  setTail U (t.map (· + 1))

/-- manipulation/merge.rs:415-434 `adjust_knots_of_both_splines`. -/
def adjustKnotsOfBoth [Build] (ca cb : Curve K d) : Exec (List K × List K × List K) := do
  let p := ca.degree
  let m ← ca.segments
  let o ← cb.segments
  let V0 ← ca.knots.vector
  let W0 ← cb.knots.vector
  let Vadj ← adjustKnots p V0 m W0
  let Vrev := reverseKnots V0
  let Wrev := reverseKnots W0
  let Wadjrev ← adjustKnots p Wrev o Vrev
  let Wadj := (reverseKnots Wadjrev).map (· + 1)
  pure (Vadj, Wrev, Wadj)

/-- manipulation/merge.rs:446-460 `create_merged_knot_vector`. -/
def createMergedKnotVector [Build] (ca cb : Curve K d) (Vadj Wadj : List K) : Exec (List K) := do
  let m ← ca.segments
  let o ← cb.segments
  let U : List K := zeros (m + 2 + o + 1)
  let h ← head Vadj (m + 2)
  let U ← setSegment U 0 h
  let t ← tail Wadj (o + 1)
  let U ← setTail U t
  let e ← idx U (m + o + 2)
  pure (U.map (fun x => x / e))

/-- manipulation/merge.rs:462-478 `generateDerivativeControlPoint`. -/
def generateDerivativeControlPoint [Build] (i k : ℕ) (P : List (Pt K d)) (U0 : List K) (p n : ℕ) :
    Exec (Pt K d) := do
  let nk ← usub n k
  if i ≤ nk then
    forRangeIncl 0 n ((fun _ => 0) : Pt K d) (fun acc z => do
      let f ← prefactor p z P.length U0 k i
      let c ← column P z
      pure (acc + scale f c))
  else .error .assertion

/-- `Vec::resize(len, value)`. manipulation/merge.rs:501. -/
def vecResize {α : Type} (v : List α) (len : ℕ) (x : α) : List α :=
  v.take len ++ List.replicate (len - v.length) x

/-- manipulation/merge.rs:502-504: `for k in (0..=n-i).rev() { qki[i][k] = .. }`. The entries
read are those of row `i - 1`, which the loop does not change. -/
def adjustRow [Build] (Uadj : List K) (p n i : ℕ) (prev row : List (Pt K d)) : Exec (List (Pt K d)) := do
  let ni ← usub n i
  ((List.range (ni + 1)).reverse).foldlM (fun row k => do
    let a ← idx Uadj (i + p)
    let b ← idx Uadj (i + k)
    let pk ← usub p k
    let x ← idx prev (k + 1)
    let y ← idx prev k
    setIdx row k (scale ((a - b) / (pk : K)) x + y)) row

/-- manipulation/merge.rs:480-512 `adjust_shifted_control_points`. -/
def adjustShifted [Build] (P : List (Pt K d)) (U0 Uadj : List K) (p n : ℕ) : Exec (List (Pt K d)) := do
  let qki ← (List.range (n + 1)).mapM (fun i => do
    let c ← column P i
    pure [c])
  let hi ← usub p 1
  let qki ← forRangeIncl 0 hi qki (fun qki k => do
    let j ← usub n p
    let dp ← generateDerivativeControlPoint (j + 1) k P U0 p n
    let row ← idx qki (j + 1)
    setIdx qki (j + 1) (row ++ [dp]))
  let j ← usub n p
  let qki ← forRangeIncl (j + 2) n qki (fun qki i => do
    let row ← idx qki i
    let ni ← usub n i
    let row := vecResize row (ni + 1) (fun _ => 0)
    let prev ← idx qki (i - 1)                 -- `i ≥ 2`
    let row ← adjustRow Uadj p n i prev row
    setIdx qki i row)
  (List.range (n + 1)).mapM (fun i => do
    let row ← idx qki i
    idx row 0)

/-- manipulation/merge.rs:514-541 `adjust_shifted_control_points_of_both_splines`. The parameter
called `Wadjrev` there is passed `Wadj` by the caller (merge.rs:137); `n` is the segment number of
the *left* curve for both calls. -/
def adjustShiftedOfBoth [Build] (ca : Curve K d) (S T : List (Pt K d)) (Vadj Wrev Wadj : List K) :
    Exec (List (Pt K d) × List (Pt K d)) := do
  let p := ca.degree
  let n ← ca.segments
  let V0 ← ca.knots.vector
  let Sadj ← adjustShifted S V0 Vadj p n
  let Trev := reverseCols T
  let Tadjrev ← adjustShifted Trev Wrev Wadj p n
  pure (Sadj, reverseCols Tadjrev)

/-- manipulation/merge.rs:543-559 `generate_control_point_vector_of_merged_spline`. -/
def generateMergedPoints [Build] (ca cb : Curve K d) (Sadj Tadj : List (Pt K d)) :
    Exec (List (Pt K d)) := do
  let p := ca.degree
  let n1 ← ca.points.count
  let n2 ← cb.points.count
  let len ← usub (n1 + n2) p
  let P := zeroCols d len
  if Sadj.length = n1 then do
    let P ← setSegment P 0 Sadj
    let rc ← usub (n2 + 1) p
    let s ← usub P.length rc
    let t ← usub Tadj.length rc
    let src ← segment Tadj t rc
    setSegment P s src
  else .error .shape

/-- manipulation/merge.rs:128-142: the part of `merge_with_constraints` after the checks. -/
def mergeBody [Build] (solver : Solver K d) (a b : ConstrainedCurve K d) :
    Exec (Except (MergeError K) (Curve K d)) := do
  let shifts ← solveLinearEquationSystem solver a b
  let (S, T) ← generateShifted a.curve b.curve shifts
  let (Vadj, Wrev, Wadj) ← adjustKnotsOfBoth a.curve b.curve
  let U ← createMergedKnotVector a.curve b.curve Vadj Wadj
  let (Sadj, Tadj) ← adjustShiftedOfBoth a.curve S T Vadj Wrev Wadj
  let P ← generateMergedPoints a.curve b.curve Sadj Tadj
  let r ← mkCurve a.curve.degree U P
  match r with
  | .ok c => pure (.ok c)
  | .error err => pure (.error (.curveGenerationFailure err))

/-- Short-circuit `!f(a) || !f(b)`. manipulation/merge.rs:115, 119. -/
def eitherNot (x y : Exec Bool) : Exec Bool := do
  let bx ← x
  if !bx then pure true else do
    let by' ← y
    pure (!by')

/-- manipulation/merge.rs:103-143 `merge_with_constraints`. The two curves may have different
dimensions `d₁`, `d₂` (rows of the control point matrices). -/
def mergeWithConstraints [Build] {d₁ d₂ : ℕ} (solver : Solver K d₁) (a : ConstrainedCurve K d₁)
    (b : ConstrainedCurve K d₂) : Exec (Except (MergeError K) (Curve K d₁)) := do
  let pa := a.curve.degree
  let pb := b.curve.degree
  if pa ≠ pb then pure (.error (.degreeMismatch pa pb))
  else if h : d₁ = d₂ then do
    let b : ConstrainedCurve K d₁ := h.symm ▸ b
    let uncl ← eitherNot a.curve.knots.isClamped b.curve.knots.isClamped
    if uncl then pure (.error .unclampedCurve) else do
    let unn ← eitherNot a.curve.knots.isNormed b.curve.knots.isNormed
    if unn then pure (.error .unnormedCurve) else do
    let total := a.constraints.count + b.constraints.count
    if pa ≤ total then pure (.error (.tooManyConstraints total pa))
    else mergeBody solver a b
  else pure (.error (.dimensionMismatch d₁ d₂))

/-- manipulation/merge.rs:96-101 `merge`. -/
def merge [Build] {d₁ d₂ : ℕ} (solver : Solver K d₁) (a : Curve K d₁) (b : Curve K d₂) :
    Exec (Except (MergeError K) (Curve K d₁)) :=
  mergeWithConstraints solver ⟨a, ⟨[]⟩⟩ ⟨b, ⟨[]⟩⟩

/-- manipulation/merge.rs:81-86 `merge_from`. -/
def mergeFrom [Build] {d₁ d₂ : ℕ} (solver : Solver K d₁) (a : Curve K d₁) (b : Curve K d₂) :
    Exec (Except (MergeError K) (Curve K d₁)) :=
  mergeWithConstraints solver ⟨a, ⟨[1]⟩⟩ ⟨b, ⟨[]⟩⟩

/-- manipulation/merge.rs:89-94 `merge_to`. -/
def mergeTo [Build] {d₁ d₂ : ℕ} (solver : Solver K d₁) (a : Curve K d₁) (b : Curve K d₂) :
    Exec (Except (MergeError K) (Curve K d₁)) :=
  mergeWithConstraints solver ⟨a, ⟨[]⟩⟩ ⟨b, ⟨[0]⟩⟩

namespace Curve

/-- curve/mod.rs:262-267 `append`: the new value of `self`, or a panic on any `MergeError`.
(Dimensions are equal here: `self` keeps its type; a dimension mismatch is an error of `merge`.) -/
def append [Build] (solver : Solver K d) (self other : Curve K d) : Exec (Curve K d) := do
  let r ← merge solver self other
  unwrap r

/-- curve/mod.rs:205-210 `prepend`. -/
def prepend [Build] (solver : Solver K d) (self other : Curve K d) : Exec (Curve K d) := do
  let r ← merge solver other self
  unwrap r

/-- curve/mod.rs:270-284 `append_constrained`. -/
def appendConstrained [Build] (solver : Solver K d) (self : Curve K d) (constraintsSelf : Constraints K)
    (other : Curve K d) (constraintsOther : Constraints K) : Exec (Curve K d) := do
  let r ← mergeWithConstraints solver ⟨self, constraintsSelf⟩ ⟨other, constraintsOther⟩
  unwrap r

/-- curve/mod.rs:213-227 `prepend_constrained`: note that the constraints are attached to the
*other* curve's position, exactly as in lines 220-221. -/
def prependConstrained [Build] (solver : Solver K d) (self : Curve K d) (constraintsSelf : Constraints K)
    (other : Curve K d) (constraintsOther : Constraints K) : Exec (Curve K d) := do
  let r ← mergeWithConstraints solver ⟨other, constraintsSelf⟩ ⟨self, constraintsOther⟩
  unwrap r

end Curve

end BSpline
