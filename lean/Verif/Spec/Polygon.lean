import Mathlib.Algebra.Order.Field.Basic
import Mathlib.Algebra.Module.Defs
import Mathlib.Data.List.Basic

/-!
# Polygons: corner cutting, sign changes, length

Notions about lists of points, independent of the crate.
-/

namespace BSpline

/-- `Q` arises from the polygon `P` by corner cutting: finitely many times a point is put on an edge,
or points are dropped. -/
inductive CornerCut {K V : Type} [Ring K] [LE K] [AddCommGroup V] [Module K V] (P : List V) :
    List V → Prop
  | refl : CornerCut P P
  | edge {A B : List V} {x y : V} {s : K} : CornerCut P (A ++ x :: y :: B) → 0 ≤ s → s ≤ 1 →
      CornerCut P (A ++ x :: ((1 - s) • x + s • y) :: y :: B)
  | drop {Q R : List V} : CornerCut P Q → R.Sublist Q → CornerCut P R

/-- the number of sign changes in a list that follows a number of the sign of `s`; zeros are
ignored -/
def signChangesFrom {K : Type} [Ring K] [LinearOrder K] : K → List K → ℕ
  | _, [] => 0
  | s, x :: l => if x = 0 then signChangesFrom s l
      else (if s * x < 0 then 1 else 0) + signChangesFrom x l

/-- the number of sign changes in a list of numbers; zeros are ignored -/
def signChanges {K : Type} [Ring K] [LinearOrder K] (l : List K) : ℕ := signChangesFrom 0 l

/-- the length of a polygon, with edges measured by `w` -/
def polyLength {K V : Type} [Add K] [Zero K] (w : V → V → K) : List V → K
  | x :: y :: B => w x y + polyLength w (y :: B)
  | _ => 0

end BSpline
