import Verif.Model.Generate
import Verif.Model.Debug
import Verif.Spec.Scalars
import Mathlib.Data.Fin.VecNotation

/-!
# The crate's own unit tests, replayed on the model over `ℚ`

These are tests of the model (does it compute what the Rust tests expect?), not proofs.
Test names are those in `/repo/src`. Float tolerances are dropped: the arithmetic is exact.
-/

namespace BSpline.Tests

/-- exact on squares of rationals, which is all the tests need -/
instance : Sqrt ℚ := ⟨fun x => (Nat.sqrt x.num.toNat : ℚ) / (Nat.sqrt x.den : ℚ)⟩

/-- one Gauss-Jordan elimination step list, rows are augmented `coeffs ++ rhs` -/
def gauss (n : ℕ) (rows : List (List ℚ)) : List (List ℚ) :=
  (List.range n).foldl (fun rows c =>
    match (rows.drop c).findIdx? (fun r => r.getD c 0 ≠ 0) with
    | none => rows
    | some j =>
      let piv := rows.getD (c + j) []
      let pv := piv.getD c 0
      let piv := piv.map (· / pv)
      let rows := (rows.set (c + j) (rows.getD c [])).set c piv
      rows.mapIdx (fun i r => if i = c then r else
        let f := r.getD c 0
        List.zipWith (fun x y => x - f * y) r piv)) rows

/-- exact solver for square regular systems -/
def exactSolver (d : ℕ) : Solver ℚ d where
  run A b :=
    let n := ncols A
    let aug := List.zipWith (fun r (v : Pt ℚ d) => r ++ (List.finRange d).map v) A b
    let G := gauss n aug
    (List.range n).map (fun i => fun r => (G.getD i []).getD (n + r.val) 0)
  shape A b := by simp

/-- `ℚ` row matrix with `d` rows given as rows, as columns -/
def cols (rows : List (List ℚ)) : List (Pt ℚ rows.length) :=
  (List.range (rows.headD []).length).map (fun j r => (rows.getD r.val []).getD j 0)

def c1 (row : List ℚ) : List (Pt ℚ 1) := row.map (fun x _ => x)

def gen {d : ℕ} (p : ℕ) (P : List (Pt ℚ d)) : Exec (Curve ℚ d) := do
  let r ← generate (exactSolver d) (.manual p (ControlPoints.new P) .uniform)
  unwrap r

def genUnwrap {d : ℕ} (g : Generation ℚ d) : Exec (Curve ℚ d) := do
  let r ← generate (exactSolver d) g
  unwrap r

def knotsOf (p n : ℕ) : Exec (Knots ℚ) := do
  let r ← uniform p n
  unwrap r

def evalOf {d : ℕ} (c : Exec (Curve ℚ d)) (u : ℚ) (k : ℕ := 0) : Exec (Pt ℚ d) := do
  let c ← c
  let r ← c.evaluateDerivative u k
  unwrap r

def ins {d : ℕ} (c : Exec (Curve ℚ d)) (u : ℚ) : Exec (Curve ℚ d) := do
  let c ← c
  let (c', r) ← insert c u
  let _ ← unwrap r
  pure c'

def vec {d : ℕ} (c : Exec (Curve ℚ d)) : Exec (List ℚ) := do let c ← c; c.knots.vector
def pts {d : ℕ} (c : Exec (Curve ℚ d)) : Exec (List (Pt ℚ d)) := do let c ← c; c.points.matrix

/-! ## types.rs `vec_helpers` -/
#guard head [0, 1, 2, 3] 2 = .ok [(0 : ℚ), 1]
#guard segment [0, 1, 2, 3] 1 2 = .ok [(1 : ℚ), 2]
#guard tail [0, 1, 2, 3] 2 = .ok [(2 : ℚ), 3]

/-! ## basis/mod.rs -/
def kn3 : Exec (Knots ℚ) := Knots.new 3 [0, 0, 0, 0, 1/3, 2/3, 1, 1, 1, 1]
def kn4 : Exec (Knots ℚ) := Knots.new 4 [0, 0, 0, 0, 0, 1/3, 2/3, 1, 1, 1, 1, 1]
def row (kn : Exec (Knots ℚ)) (k p i : ℕ) : Exec (List ℚ) := do
  let kn ← kn
  [0, 1/6, 1/3, 1/2, 2/3, 5/6, 1].mapM (fun u => kn.evaluate k i p u)

-- basis_func_degree3
#guard row kn3 0 3 0 = .ok [1, 1/8, 0, 0, 0, 0, 0]
#guard row kn3 0 3 1 = .ok [0, 19/32, 1/4, 1/32, 0, 0, 0]
#guard row kn3 0 3 2 = .ok [0, 25/96, 7/12, 15/32, 1/6, 1/48, 0]
#guard row kn3 0 3 3 = .ok [0, 1/48, 1/6, 15/32, 7/12, 25/96, 0]
#guard row kn3 0 3 4 = .ok [0, 0, 0, 1/32, 1/4, 19/32, 0]
#guard row kn3 0 3 5 = .ok [0, 0, 0, 0, 0, 1/8, 1]
-- basis_func_degree4
#guard row kn4 1 4 0 = .ok [1, 1/8, 0, 0, 0, 0, 0]
#guard row kn4 1 4 1 = .ok [0, 19/32, 1/4, 1/32, 0, 0, 0]
#guard row kn4 1 4 2 = .ok [0, 25/96, 7/12, 15/32, 1/6, 1/48, 0]
#guard row kn4 1 4 3 = .ok [0, 1/48, 1/6, 15/32, 7/12, 25/96, 0]
#guard row kn4 1 4 4 = .ok [0, 0, 0, 1/32, 1/4, 19/32, 0]
#guard row kn4 1 4 5 = .ok [0, 0, 0, 0, 0, 1/8, 1]

/-! ## curve/mod.rs -/
def cc := gen 2 (cols [[1, 3, 5], [2, 4, 6]])
#guard vec cc = .ok [0, 0, 0, 1, 1, 1]
#guard evalOf cc (1/2) 3 = .ok ![0, 0]
#guard (do let c ← cc; c.evaluateDerivative (-1/10) 0) = .ok (.error (.parameterOutOfBounds (-1/10) 0 1))
#guard (do let c ← cc; c.evaluateDerivative (11/10) 0) = .ok (.error (.parameterOutOfBounds (11/10) 0 1))
-- derivative_out_of_bounds_error
#guard evalOf (ins (gen 2 (c1 [1, 1, 1, 1])) (1/2)) (9/10) 1 = .ok ![0]
-- evaluate_p_repeated_knots
def r0 := gen 3 (c1 [-1, -1/2, 1/2, 1])
def r1 := ins r0 (1/2)
def r2 := ins r1 (1/2)
def r3 := ins r2 (1/2)
#guard vec r0 = .ok [0, 0, 0, 0, 1, 1, 1, 1]
#guard vec r1 = .ok [0, 0, 0, 0, 1/2, 1, 1, 1, 1]
#guard pts r1 = .ok (c1 [-1, -3/4, 0, 3/4, 1])
#guard vec r2 = .ok [0, 0, 0, 0, 1/2, 1/2, 1, 1, 1, 1]
#guard pts r2 = .ok (c1 [-1, -3/4, -3/8, 3/8, 3/4, 1])
#guard vec r3 = .ok [0, 0, 0, 0, 1/2, 1/2, 1/2, 1, 1, 1, 1]
#guard pts r3 = .ok (c1 [-1, -3/4, -3/8, 0, 3/8, 3/4, 1])
#guard [r0, r1, r2, r3].map (evalOf · 0) = List.replicate 4 (.ok ![-1])
#guard [r1, r2, r3].map (evalOf · (1/2)) = List.replicate 3 (.ok ![0])
#guard [r0, r1, r2, r3].map (evalOf · 1) = List.replicate 4 (.ok ![1])
#guard evalOf cc 0 = .ok ![1, 2]
#guard evalOf cc (1/2) = .ok ![3, 4]
#guard evalOf cc 1 = .ok ![5, 6]
-- reverse
#guard pts (do (← cc).reverse) = .ok (cols [[5, 3, 1], [6, 4, 2]])
#guard vec (do (← cc).reverse) = vec cc
#guard (do (← (← cc).reverse).reverse) = cc
-- interpolate_linear
def il := genUnwrap (.interpolation 1 (cols [[1, 2, 3, 4], [1, 2, 3, 4]]))
#guard [0, 1/3, 2/3, 1].map (evalOf il ·) = [.ok ![1, 1], .ok ![2, 2], .ok ![3, 3], .ok ![4, 4]]

/-! ## manipulation/insert.rs -/
#guard vec (ins (gen 1 (c1 [-1, 1])) (1/2)) = .ok [0, 0, 1/2, 1, 1]
#guard pts (ins (gen 1 (c1 [-1, 1])) (1/2)) = .ok (c1 [-1, 0, 1])
#guard pts (ins (gen 2 (c1 [-1, 0, 1])) (1/2)) = .ok (c1 [-1, -1/2, 1/2, 1])
#guard vec (ins (gen 2 (c1 [-3/2, -1/2, 1/2, 3/2])) (1/2)) = .ok [0, 0, 0, 1/2, 1/2, 1, 1, 1]
#guard pts (ins (gen 2 (c1 [-3/2, -1/2, 1/2, 3/2])) (1/2)) = .ok (c1 [-3/2, -1/2, 0, 1/2, 3/2])
#guard vec (ins (ins (gen 1 (c1 [-1, 1])) (1/2)) (1/2)) = .ok [0, 0, 1/2, 1/2, 1, 1]
#guard pts (ins (ins (gen 1 (c1 [-1, 1])) (1/2)) (1/2)) = .ok (c1 [-1, 0, 0, 1])
#guard pts (ins (ins (gen 2 (c1 [-1, 0, 1])) (1/2)) (1/2)) = .ok (c1 [-1, -1/2, 0, 1/2, 1])
#guard pts (ins (ins (ins (gen 2 (c1 [-1, 0, 1])) (1/2)) (1/2)) (1/2)) = .ok (c1 [-1, -1/2, 0, 0, 1/2, 1])

/-! ## manipulation/split.rs -/
def sp := gen 2 (c1 [1, 2, 3, 4, 5, 6])
def spl (u : ℚ) (norm : Bool × Bool) : Exec (Except (SplitError ℚ) (Curve ℚ 1 × Curve ℚ 1)) := do
  let c ← sp
  splitAndNormalize c u norm
def lft (r : Exec (Except (SplitError ℚ) (Curve ℚ 1 × Curve ℚ 1))) : Exec (Curve ℚ 1) := do
  let r ← r; let r ← unwrap r; pure r.1
def rgt (r : Exec (Except (SplitError ℚ) (Curve ℚ 1 × Curve ℚ 1))) : Exec (Curve ℚ 1) := do
  let r ← r; let r ← unwrap r; pure r.2
#guard vec sp = .ok [0, 0, 0, 1/4, 1/2, 3/4, 1, 1, 1]
#guard spl 0 (true, true) = .ok (.error (.outOfBounds 0 0 1))
#guard spl 1 (true, true) = .ok (.error (.outOfBounds 1 0 1))
#guard vec (lft (spl (1/2) (true, true))) = .ok [0, 0, 0, 1/2, 1, 1, 1]
#guard pts (lft (spl (1/2) (true, true))) = .ok (c1 [1, 2, 3, 7/2])
#guard vec (rgt (spl (1/2) (true, true))) = .ok [0, 0, 0, 1/2, 1, 1, 1]
#guard pts (rgt (spl (1/2) (true, true))) = .ok (c1 [7/2, 4, 5, 6])
#guard vec (lft (spl (1/2) (false, false))) = .ok [0, 0, 0, 1/4, 1/2, 1/2, 1/2]
#guard vec (rgt (spl (1/2) (false, false))) = .ok [1/2, 1/2, 1/2, 3/4, 1, 1, 1]
#guard vec (lft (spl (1/1000) (true, true))) = .ok [0, 0, 0, 1, 1, 1]
#guard vec (rgt (spl (999/1000) (true, true))) = .ok [0, 0, 0, 1, 1, 1]

/-! ## knots/mod.rs -/
#guard [1, 2, 3].map (fun p => do (← knotsOf p 4).segments) = [.ok 4, .ok 4, .ok 4]
#guard [1, 2, 3].map (fun p => do (← knotsOf p 4).internalCount) = [.ok 3, .ok 2, .ok 1]
#guard (do (← knotsOf 1 4).internal) = .ok [1/4, 1/2, 3/4]
#guard (do (← knotsOf 2 4).internal) = .ok [1/3, 2/3]
#guard (do (← knotsOf 3 4).internal) = .ok [1/2]
#guard [1, 2, 3].map (fun p => do (← knotsOf p 4).domainCount) = [.ok 5, .ok 4, .ok 3]
#guard (do (← knotsOf 1 4).domain) = .ok [0, 1/4, 1/2, 3/4, 1]
#guard (do (← knotsOf 2 4).domain) = .ok [0, 1/3, 2/3, 1]
#guard (do (← knotsOf 2 4).domainDerivative 1) = .ok [0, 1/3, 2/3, 1]
#guard (do (← knotsOf 3 4).domain) = .ok [0, 1/2, 1]
#guard ([1/5, 1/4, 1/2, 0, 1] : List ℚ).map (fun u => do
    (← Knots.new 2 [0, 0, 0, 1/4, 1/2, 1/2, 3/4, 1, 1, 1]).multiplicity u) =
  [.ok 0, .ok 1, .ok 2, .ok 1, .ok 1]
#guard (knotsOf 3 4) = .ok ⟨[[0, 0, 0, 0, 1/2, 1, 1, 1, 1], [0, 0, 0, 1/2, 1, 1, 1],
  [0, 0, 1/2, 1, 1], [0, 1/2, 1]], 3, 3⟩
#guard (do ((← Knots.new 1 [(1 : ℚ), 1, 3/2, 2, 2]).normalize).vector) = .ok [0, 0, 1/2, 1, 1]
#guard (do ((← Knots.new 1 [(0 : ℚ), 0, 6/10, 1, 1]).reverse).vector) = .ok [0, 0, 4/10, 1, 1]
#guard (do (← Knots.new 1 [(0 : ℚ), 0, 1/2, 1, 1]).isSorted) = .ok true
#guard (do (← Knots.new 1 [(0 : ℚ), 1, 1/2, 1, 1]).isSorted) = .ok false
#guard (do (← Knots.new 1 [(0 : ℚ), 0, 1/2, 1, 1]).isClamped) = .ok true
#guard (do isUniform (← Knots.new 1 [(0 : ℚ), 1, 1/2, 1, 1])) = .ok (.ok false)
#guard (do (← Knots.new 1 [(0 : ℚ), 0, 1/2, 1, 1]).isNormed) = .ok true
#guard (do (← Knots.new 1 [(0 : ℚ), 0, 3/2, 1, 1]).isNormed) = .ok false
#guard (do isUniform (← Knots.new 1 [(0 : ℚ), 0, 1/4, 1/2, 3/4, 1, 1])) = .ok (.ok true)
#guard (do isUniform (← Knots.new 1 [(0 : ℚ), 0, 1/4, 3/4, 1, 1])) = .ok (.ok false)
def us : List ℚ := [24/100, 25/100, 26/100, 74/100, 75/100, 76/100]
#guard (us.mapM fun u => do (← knotsOf 1 4).findIdx u 0 .left) = .ok [1, 1, 2, 3, 3, 4]
#guard (us.mapM fun u => do (← knotsOf 1 4).findIdx u 0 .leftOrEqual) = .ok [1, 2, 2, 3, 4, 4]
#guard (us.mapM fun u => do (← knotsOf 1 4).findIndex u 0) = .ok [some 1, some 2, some 2, some 3, some 4, some 4]
#guard ([-1/10, 0, 1, 12/10].mapM fun u => do (← knotsOf 1 4).findIndex u 0) = .ok [none, some 1, some 5, some 5]
#guard (us.mapM fun u => do (← knotsOf 1 4).findIdx u 0 .rightOrEqual) = .ok [2, 2, 3, 4, 4, 5]
#guard (us.mapM fun u => do (← knotsOf 1 4).findIdx u 0 .right) = .ok [2, 3, 3, 4, 5, 5]

/-! ## knots/methods.rs -/
def eqs (n : ℕ) : Exec (Parameters ℚ) := equallySpaced n
def avg (p n : ℕ) (m := n) : Exec (List ℚ) := do
  let r ← averaging p n (← eqs m); (← unwrap r).vector
def dbo (p n : ℕ) (m := n) : Exec (List ℚ) := do
  let r ← deBoor p n (← eqs m); (← unwrap r).vector
#guard (uniform 0 1 : Exec (Except (CurveError ℚ) (Knots ℚ))) = .ok (.error (.degreeTooLow 0 0))
#guard (do (← knotsOf 1 4).vector) = .ok [0, 0, 1/4, 1/2, 3/4, 1, 1]
#guard (do (← knotsOf 2 4).vector) = .ok [0, 0, 0, 1/3, 2/3, 1, 1, 1]
#guard avg 1 4 = .ok [0, 0, 1/4, 1/2, 3/4, 1, 1]
#guard avg 2 4 = .ok [0, 0, 0, 3/8, 5/8, 1, 1, 1]
#guard avg 3 4 = .ok [0, 0, 0, 0, 1/2, 1, 1, 1, 1]
#guard avg 2 2 4 = .ok [0, 0, 0, 1, 1, 1]
#guard dbo 1 4 = .ok [0, 0, 1/16, 3/8, 11/16, 1, 1]
#guard dbo 2 4 = .ok [0, 0, 0, 1/6, 1/3 + 1/4, 1, 1, 1]
#guard dbo 3 4 = .ok [0, 0, 0, 0, 3/8, 1, 1, 1, 1]
#guard [1, 2, 3].map (fun p => dbo p (p + 1)) =
  [.ok [0, 0, 1/4, 1, 1], .ok [0, 0, 0, 2/6, 1, 1, 1], .ok [0, 0, 0, 0, 3/8, 1, 1, 1, 1]]

/-! ## parameters/methods.rs -/
def pv (r : Exec (Parameters ℚ)) : Exec (List ℚ) := do pure (← r).vector
#guard pv (eqs 4) = .ok [0, 1/4, 1/2, 3/4, 1]
#guard pv (chordLength (c1 [1, 2, 3, 4, 5])) = .ok [0, 1/4, 1/2, 3/4, 1]
#guard pv (chordLength (c1 [1, 3, 5])) = .ok [0, 1/2, 1]
#guard pv (chordLength (c1 [1, 2, 5])) = .ok [0, 1/4, 1]
#guard pv (chordLength (c1 [1, 4, 5])) = .ok [0, 3/4, 1]
#guard pv (centripetal (c1 [1, 2, 3, 4, 5])) = .ok [0, 1/4, 1/2, 3/4, 1]
#guard pv (centripetal (c1 [1, 2, 11])) = .ok [0, 1/4, 1]
#guard pv (centripetal (c1 [1, 10, 11])) = .ok [0, 3/4, 1]

/-! ## points/methods -/
#guard (do Loose.finiteDifferenceMatrix 1 (← knotsOf 1 4)) =
  .ok [[(-1 : ℚ), 1, 0, 0, 0], [0, -1, 1, 0, 0], [0, 0, -1, 1, 0], [0, 0, 0, -1, 1]]
#guard (do Loose.finiteDifferenceMatrix 2 (← knotsOf 1 4)) =
  .ok [[(1 : ℚ), -2, 1, 0, 0], [0, 1, -2, 1, 0], [0, 0, 1, -2, 1]]
#guard (do Fixed.finiteDifferenceMatrix 1 (← knotsOf 1 4)) = .ok [[(-1 : ℚ), 1, 0], [0, -1, 1]]
#guard (do Fixed.finiteDifferenceMatrix 2 (← knotsOf 1 4)) = .ok [[(1 : ℚ), -2, 1]]
def lin5 : List (Pt ℚ 2) := cols [[1, 2, 3, 4, 5], [1, 2, 3, 4, 5]]
#guard (do Loose.fit (exactSolver 2) (← knotsOf 1 4) lin5 (← eqs 4) none) = .ok (.ok lin5)
#guard (do Loose.fit (exactSolver 2) (← knotsOf 1 4) lin5 (← eqs 4) (some ⟨1/2, 2⟩)) = .ok (.ok lin5)
#guard (do Fixed.fit (exactSolver 2) (← knotsOf 1 4) lin5 (← eqs 4) none) = .ok (.ok lin5)
#guard (do Fixed.fit (exactSolver 2) (← knotsOf 1 4) lin5 (← eqs 4) (some ⟨1/2, 2⟩)) = .ok (.ok lin5)
def zig : List (Pt ℚ 2) := (List.range 10).map (fun (c : ℕ) =>
  ![(c : ℚ) * (5/10) - 9 * (5/10) / 2, if c % 2 = 0 then 1/2 else -1/2])
#guard (do Fixed.fit (exactSolver 2) (← knotsOf 1 9) zig (← eqs 9) none) = .ok (.ok zig)
#guard (do Loose.fit (exactSolver 2) (← knotsOf 1 9) zig (← eqs 9) none) = .ok (.ok zig)
def fitCurve : Exec (Curve ℚ 2) :=
  genUnwrap (.leastSquaresFit 2 zig 9 .fixedEnds (some ⟨1, 2⟩))
#guard evalOf fitCurve (1/2) = .ok ![0, 0]
def lin4 : List (Pt ℚ 2) := cols [[1, 2, 3, 4], [1, 2, 3, 4]]
#guard (do
  let r ← averaging 2 3 (← eqs 3)
  interpolate (exactSolver 2) (← unwrap r) lin4 (← eqs 3)) =
    .ok (cols [[1, 7/4, 13/4, 4], [1, 7/4, 13/4, 4]])

/-! ## manipulation/merge.rs -/
def mg {d : ℕ} (f : Solver ℚ d → Curve ℚ d → Curve ℚ d → Exec (Except (MergeError ℚ) (Curve ℚ d)))
    (p : ℕ) (A B : List (Pt ℚ d)) : Exec (Curve ℚ d) := do
  let r ← f (exactSolver d) (← gen p A) (← gen p B)
  unwrap r
#guard vec (mg merge 1 (c1 [-2, -1, 0]) (c1 [0, 1, 2])) = .ok [0, 0, 1/4, 1/2, 3/4, 1, 1]
#guard pts (mg merge 1 (cols [[-2, -1, 0], [-2, -1, 0]]) (cols [[0, 1, 2], [0, 1, 2]])) =
  .ok (cols [[-2, -1, 0, 1, 2], [-2, -1, 0, 1, 2]])
#guard pts (mg merge 2 (c1 [-2, -1, 0]) (c1 [0, 1, 2])) = .ok (c1 [-2, -1, 1, 2])
#guard pts (mg merge 1 (c1 [-2, -1, -1/2]) (c1 [1/2, 1, 2])) = .ok (c1 [-2, -1, 0, 1, 2])
#guard pts (mg merge 2 (c1 [-2, -1, -1/2]) (c1 [1/2, 1, 2])) = .ok (c1 [-2, -1, 1, 2])
#guard pts (mg mergeFrom 2 (c1 [-2, -1, -1/2]) (c1 [1/2, 1, 2])) = .ok (c1 [-2, -3/2, 1/2, 2])
#guard pts (mg mergeTo 2 (c1 [-2, -1, -1/2]) (c1 [1/2, 1, 2])) = .ok (c1 [-2, -1/2, 3/2, 2])
#guard vec (mg mergeTo 2 (c1 [-2, -1, -1/2]) (c1 [1/2, 1, 2])) = .ok [0, 0, 0, 1/2, 1, 1, 1]

/-! ## points/mod.rs -/
#guard (ControlPoints.new (cols [[1, 3, 5, 7], [2, 4, 6, 8]])).segments = .ok 3
#guard (ControlPoints.new (cols [[1, 3, 5, 7], [2, 4, 6, 8]])).reverse =
  .ok (ControlPoints.new (cols [[7, 5, 3, 1], [8, 6, 4, 2]]))

end BSpline.Tests
