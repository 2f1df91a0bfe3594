import Verif.Model.Merge
import Verif.Model.Debug

/-!
# Release builds: views after a subtraction that wrapped

In a release build `usize` arithmetic is taken modulo `2^64`, also in nalgebra, which is compiled with the
same settings. nalgebra checks the range of a view with `start + n <= len` (nalgebra 0.32,
base/matrix_view.rs `assert_view_index`: "we don't do any subtraction to avoid underflow"), so that the
sum can wrap as well. The functions below are those of the crate that take a view with a start or a length
which is the result of a subtraction; all other functions use the model with `Build.release`.
-/

namespace BSpline

/-- a release build: subtraction of `usize` wraps modulo `2^64`, `debug_assert!` is not checked.
Matters for types.rs:45 and curve/parameters/methods.rs:35. -/
@[reducible] def Build.release : Build where
  underflow a b := .ok (2 ^ 64 + a - b)
  assertions := false

/-- what can happen instead of a result in a release build. The accesses are those of types.rs:36-50. -/
inductive Fault
  /-- the call panics -/
  | panic (e : Panic)
  /-- all checks pass, but an element outside of the buffer is read or written -/
  | outside
  deriving DecidableEq, Repr

/-- a computation in a release build. For the calls of types.rs:28-50. -/
abbrev Mem (α : Type) : Type := Except Fault α

/-- a computation without an access outside of a buffer. For the rest of manipulation/merge.rs:106-143. -/
def Mem.of {α : Type} : Exec α → Mem α
  | .ok a => .ok a
  | .error e => .error (.panic e)

/-- `a - b` modulo `2^64`. types.rs:45, 49 -/
def wsub (a b : ℕ) : ℕ := if b ≤ a then a - b else 2 ^ 64 + a - b

/-- `a + b` modulo `2^64`. manipulation/insert.rs:63 -/
def wadd (a b : ℕ) : ℕ := (a + b) % 2 ^ 64

/-- a view of `len` elements (or columns) of a buffer, whose first one has the index `start` modulo `2^64`.
types.rs:36-42 -/
structure View (α : Type) where
  buffer : List α
  start : ℕ
  len : ℕ

/-- nalgebra `generic_view((start, 0), (n, 1))` and `columns(start, n)`. types.rs:36-38 -/
def view {α : Type} (v : List α) (start n : ℕ) : Mem (View α) :=
  if wadd start n ≤ v.length then .ok ⟨v, start, n⟩ else .error (.panic .view)

namespace View

/-- all elements of the view are in the buffer. What the views of types.rs:36-42 need -/
def Inside {α : Type} (w : View α) : Prop := ∀ i < w.len, wadd w.start i < w.buffer.length

/-- decidable, for the concrete accesses through types.rs:36-50 -/
instance {α : Type} (w : View α) : Decidable w.Inside :=
  inferInstanceAs (Decidable (∀ i < w.len, wadd w.start i < w.buffer.length))

/-- `view[i]`: the index is compared with the length of the view. On the views of types.rs:36-50 -/
def get {α : Type} (w : View α) (i : ℕ) : Mem α :=
  if i < w.len then
    match w.buffer[wadd w.start i]? with
    | some x => .ok x
    | none => .error .outside
  else .error (.panic .index)

/-- reading all elements, as `copy_from` does with its source. E.g. manipulation/merge.rs:439 -/
def read {α : Type} (w : View α) : Mem (List α) :=
  if w.Inside then .ok ((w.buffer.drop w.start).take w.len) else .error .outside

/-- `view.copy_from(src)`: the buffer afterwards. E.g. manipulation/merge.rs:439-441 -/
def write {α : Type} (w : View α) (src : List α) : Mem (List α) :=
  if src.length = w.len then
    if w.Inside then .ok (w.buffer.take w.start ++ src ++ w.buffer.drop (w.start + w.len))
    else .error .outside
  else .error (.panic .shape)

end View

/-- types.rs:44-50 `tail(n)`, `tail_mut(n)` in a release build -/
def tailView {α : Type} (v : List α) (n : ℕ) : Mem (View α) := view v (wsub v.length n) n

variable {K : Type} [Add K] [Sub K] [Mul K] [Div K] [Neg K] [Zero K] [One K] [NatCast K] [Cmp K] {d : ℕ}

/-- curve/knots/mod.rs:106-112, 118-124 `internal` in a release build -/
def Knots.internalView (kn : Knots K) : Mem (View K) := do
  let U ← Mem.of (idx kn.Uk 0)
  view U (kn.p + 1) (wsub (wsub U.length (kn.p + 2)) kn.p)

/-- curve/knots/mod.rs:126-128 `internal_knot` in a release build -/
def Knots.internalKnotRelease (kn : Knots K) (i : ℕ) : Mem K := do
  let w ← kn.internalView
  w.get i

/-- curve/knots/mod.rs:130-140 `domain` in a release build -/
def Knots.domainView (kn : Knots K) : Mem (View K) := do
  let U ← Mem.of (idx kn.Uk 0)
  view U kn.p (wadd (wsub (wsub U.length (kn.p + 2)) kn.p) 2)

/-- manipulation/merge.rs:543-559 `generate_control_point_vector_of_merged_spline` in a release build -/
def generateMergedPointsRelease (ca cb : Curve K d) (Sadj Tadj : List (Pt K d)) : Mem (List (Pt K d)) := do
  let p := ca.degree
  let n1 ← Mem.of ca.points.count
  let n2 ← Mem.of cb.points.count
  let P := zeroCols d (wsub (n1 + n2) p)
  let top ← view P 0 n1
  let P ← top.write Sadj
  let rc := wsub (n2 + 1) p
  let dst ← view P (wsub P.length rc) rc
  let src ← view Tadj (wsub Tadj.length rc) rc
  let cols ← src.read
  dst.write cols

/-- manipulation/merge.rs:128-142: the part of `merge_with_constraints` after the checks, in a release build -/
def mergeBodyRelease (solver : Solver K d) (a b : ConstrainedCurve K d) :
    Mem (Except (MergeError K) (Curve K d)) := do
  let shifts ← Mem.of (letI := Build.release; solveLinearEquationSystem solver a b)
  let (S, T) ← Mem.of (letI := Build.release; generateShifted a.curve b.curve shifts)
  let (Vadj, Wrev, Wadj) ← Mem.of (letI := Build.release; adjustKnotsOfBoth a.curve b.curve)
  let U ← Mem.of (letI := Build.release; createMergedKnotVector a.curve b.curve Vadj Wadj)
  let (Sadj, Tadj) ← Mem.of (letI := Build.release; adjustShiftedOfBoth a.curve S T Vadj Wrev Wadj)
  let P ← generateMergedPointsRelease a.curve b.curve Sadj Tadj
  let r ← Mem.of (letI := Build.release; mkCurve a.curve.degree U P)
  match r with
  | .ok c => pure (.ok c)
  | .error err => pure (.error (.curveGenerationFailure err))

/-- manipulation/merge.rs:103-143 `merge_with_constraints` in a release build, for curves of the same
dimension -/
def mergeWithConstraintsRelease (solver : Solver K d) (a b : ConstrainedCurve K d) :
    Mem (Except (MergeError K) (Curve K d)) := do
  let pa := a.curve.degree
  let pb := b.curve.degree
  if pa ≠ pb then pure (.error (.degreeMismatch pa pb))
  else do
    let uncl ← Mem.of (eitherNot a.curve.knots.isClamped b.curve.knots.isClamped)
    if uncl then pure (.error .unclampedCurve) else do
    let unn ← Mem.of (eitherNot a.curve.knots.isNormed b.curve.knots.isNormed)
    if unn then pure (.error .unnormedCurve) else do
    let total := a.constraints.count + b.constraints.count
    if pa ≤ total then pure (.error (.tooManyConstraints total pa))
    else mergeBodyRelease solver a b

end BSpline
