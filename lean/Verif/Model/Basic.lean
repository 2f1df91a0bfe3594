import Mathlib.Order.Defs.LinearOrder
import Mathlib.Data.Nat.Notation
import Mathlib.Algebra.Notation.Pi.Defs
import Mathlib.Data.Fintype.Defs
import Mathlib.Data.Fintype.Basic

/-!
# Execution model: panics, scalars, vectors

Everything in this file models the parts of Rust and nalgebra that the crate uses:
panicking index access, checked `usize` subtraction, views and column copies.
-/

namespace BSpline

/-- The ways a Rust call can panic. `Result::Err` is *not* a panic.
What each stands for in the crate: `index` curve/basis/mod.rs:36-60, `underflow` types.rs:45, `view` types.rs:37,
`shape` manipulation/insert.rs:64, `assertion` curve/points/mod.rs:110, `debugAssert` curve/parameters/methods.rs:35,
`unwrap` curve/knots/mod.rs:294, `emptySvd` manipulation/merge.rs:400. -/
inductive Panic
  /-- element index out of bounds (`v[i]`, `Uk[k]`) -/
  | index
  /-- `usize` subtraction below zero (debug / overflow-checked builds) -/
  | underflow
  /-- nalgebra view / `column(s)` / `insert_row` out of range -/
  | view
  /-- nalgebra shape mismatch (`copy_from`, `+=`) -/
  | shape
  /-- failed `assert!` / `assert_eq!` -/
  | assertion
  /-- failed `debug_assert!` -/
  | debugAssert
  /-- `unwrap()` on `Err` / `None` -/
  | unwrap
  /-- nalgebra: "Cannot compute the SVD of an empty matrix." -/
  | emptySvd
  deriving DecidableEq, Repr

/-- A computation that returns a value or panics.
Stands for every return type of the crate, e.g. curve/mod.rs:129-133. -/
abbrev Exec (α : Type) : Type := Except Panic α

/-- Outcomes can be compared, for concrete cases like those of the tests of the crate (manipulation/insert.rs:84-130). -/
instance {ε α : Type} [DecidableEq ε] [DecidableEq α] : DecidableEq (Except ε α)
  | .ok a, .ok b => if h : a = b then .isTrue (h ▸ rfl) else .isFalse (fun e => h (by cases e; rfl))
  | .error a, .error b =>
      if h : a = b then .isTrue (h ▸ rfl) else .isFalse (fun e => h (by cases e; rfl))
  | .ok _, .error _ => .isFalse (fun e => nomatch e)
  | .error _, .ok _ => .isFalse (fun e => nomatch e)

/-- The Boolean comparisons `<=`, `<`, `==` of the scalar type (`f64`). No laws: NaN may
compare false with everything. `a >= b` is `le b a`, `a > b` is `lt b a`.
For `f64` in types.rs:3-14; used e.g. in curve/basis/mod.rs:36-60. -/
class Cmp (K : Type) where
  le : K → K → Bool
  lt : K → K → Bool
  eq : K → K → Bool

/-- In a linear order the comparisons are the mathematical ones.
The exact reading of the comparisons of types.rs:3-14. -/
instance (priority := 100) Cmp.ofLinearOrder {K : Type} [LinearOrder K] : Cmp K where
  le a b := decide (a ≤ b)
  lt a b := decide (a < b)
  eq a b := decide (a = b)

/-- Rust's `x as usize` for a float `x` (truncation toward zero). Used in curve/knots/methods.rs:98. -/
class Trunc (K : Type) where
  trunc : K → ℕ

/-- `f64::sqrt`. Used in curve/parameters/methods.rs:32, 41. -/
class Sqrt (K : Type) where
  sqrt : K → K

/-- A point (a matrix column) of dimension `d`.
A column of the matrices of types.rs:9, as in curve/points/mod.rs:38-40. -/
abbrev Pt (K : Type) (d : ℕ) : Type := Fin d → K

/-- How the crate was built: what a `usize` subtraction below zero does, and whether `debug_assert!`
is compiled. All of the model is generic in this.
Matters for subtractions as in types.rs:45 and for curve/parameters/methods.rs:35. -/
class Build where
  /-- the outcome of `a - b` for `a < b` -/
  underflow : ℕ → ℕ → Exec ℕ
  /-- `cfg!(debug_assertions)` -/
  assertions : Bool

/-- `usize` subtraction `a - b`. E.g. types.rs:45, manipulation/insert.rs:63. -/
def usub [Build] (a b : ℕ) : Exec ℕ := if b ≤ a then .ok (a - b) else Build.underflow a b

/-- `v[i]` on a `Vec`, vector or matrix. E.g. curve/basis/mod.rs:36-60, curve/knots/mod.rs:84-86. -/
def idx {α : Type} (v : List α) (i : ℕ) : Exec α :=
  match v[i]? with
  | some x => .ok x
  | none => .error .index

/-- `m.column(i)` (nalgebra asserts the range). E.g. curve/points/mod.rs:38-40, curve/mod.rs:147. -/
def column {α : Type} (m : List α) (i : ℕ) : Exec α :=
  match m[i]? with
  | some x => .ok x
  | none => .error .view

/-- types.rs:36-38 `segment(start, n)`; also `m.columns(start, n)` on a list of columns. -/
def segment {α : Type} (v : List α) (start n : ℕ) : Exec (List α) :=
  if start + n ≤ v.length then .ok ((v.drop start).take n) else .error .view

/-- types.rs:28-30 `head(n)`. -/
def head {α : Type} (v : List α) (n : ℕ) : Exec (List α) := segment v 0 n

/-- types.rs:44-46 `tail(n)`: the start index is a checked subtraction. -/
def tail [Build] {α : Type} (v : List α) (n : ℕ) : Exec (List α) := do
  let s ← usub v.length n
  segment v s n

/-- `v[i] = x`. E.g. curve/knots/methods.rs:29, 34. -/
def setIdx {α : Type} (v : List α) (i : ℕ) (x : α) : Exec (List α) :=
  if i < v.length then .ok (v.set i x) else .error .index

/-- `v.segment_mut(start, src.len()).copy_from(src)` (types.rs:40-42), also
`m.columns_mut(start, k).copy_from(src)`: overwrite a contiguous range. -/
def setSegment {α : Type} (v : List α) (start : ℕ) (src : List α) : Exec (List α) :=
  if start + src.length ≤ v.length then
    .ok (v.take start ++ src ++ v.drop (start + src.length))
  else .error .view

/-- types.rs:48-50 `tail_mut(n).copy_from(src)` with `src.len() = n`. -/
def setTail [Build] {α : Type} (v : List α) (src : List α) : Exec (List α) := do
  let s ← usub v.length src.length
  setSegment v s src

/-- `VecD::zeros(n)`. E.g. curve/knots/methods.rs:26, 52. -/
def zeros {K : Type} [Zero K] (n : ℕ) : List K := List.replicate n 0

/-- `MatD::zeros(d, n)` as a list of `n` zero columns. E.g. curve/points/mod.rs:136, manipulation/insert.rs:61. -/
def zeroCols {K : Type} [Zero K] (d n : ℕ) : List (Pt K d) := List.replicate n (fun _ => 0)

/-- scalar times column, `s * v`. E.g. curve/mod.rs:146-148, manipulation/insert.rs:73. -/
def scale {K : Type} [Mul K] {d : ℕ} (s : K) (v : Pt K d) : Pt K d := fun r => s * v r

/-- `for i in lo..hi { st = f(st, i) }` (exclusive bound).
E.g. curve/knots/methods.rs:33-35, curve/parameters/methods.rs:39-42. -/
def forRange {σ : Type} (lo hi : ℕ) (st : σ) (f : σ → ℕ → Exec σ) : Exec σ :=
  (List.range' lo (hi - lo)).foldlM f st

/-- `for i in lo..=hi { st = f(st, i) }` (inclusive bound).
E.g. curve/mod.rs:146-148, manipulation/insert.rs:70-74. -/
def forRangeIncl {σ : Type} (lo hi : ℕ) (st : σ) (f : σ → ℕ → Exec σ) : Exec σ :=
  (List.range' lo (hi + 1 - lo)).foldlM f st

/-- Fill a matrix row / vector: the list of `f i` for `i in lo..=hi`. Models a loop whose
body only writes entry `i`.
E.g. curve/points/methods/interpolation.rs:20-24, curve/points/methods/fit/loose.rs:38-43. -/
def tabulateIncl {α : Type} (lo hi : ℕ) (f : ℕ → Exec α) : Exec (List α) :=
  (List.range' lo (hi + 1 - lo)).mapM f

/-- `.unwrap()` on a `Result`. E.g. manipulation/split.rs:62, curve/points/methods/fit/mod.rs:84. -/
def unwrap {ε α : Type} (r : Except ε α) : Exec α :=
  match r with
  | .ok a => .ok a
  | .error _ => .error .unwrap

end BSpline
