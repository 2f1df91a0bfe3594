import Verif.Spec.Fit

/-!
# Vocabulary for merging
-/

namespace BSpline

open Finset

variable {K : Type} [Field K] [LinearOrder K]

/-- the first `p + 1` knots are `0` and the last `p + 1` knots are `1` -/
def EndsClamped (p : ℕ) (U : List K) : Prop :=
  ∀ i (hi : i < U.length), i ≤ p → U[i] = 0 ∧ U[U.length - 1 - i] = 1

/-- the smallest knot is `0` and the largest `1` -/
def Normed (U : List K) : Prop := (0 : K) ∈ U ∧ (1 : K) ∈ U ∧ ∀ x ∈ U, 0 ≤ x ∧ x ≤ 1

open Classical in
/-- The documented error of merging a curve of degree `pa`, dimension `da`, knots `V` with `na`
constraints and a curve of degree `pb`, dimension `db`, knots `W` with `nb` constraints. -/
noncomputable def mergeErrorOf (pa pb da db : ℕ) (V W : List K) (na nb : ℕ) : Option (MergeError K) :=
  if pa ≠ pb then some (.degreeMismatch pa pb)
  else if da ≠ db then some (.dimensionMismatch da db)
  else if ¬ (EndsClamped pa V ∧ EndsClamped pb W) then some .unclampedCurve
  else if ¬ (Normed V ∧ Normed W) then some .unnormedCurve
  else if na + nb ≥ pa then some (.tooManyConstraints (na + nb) pa)
  else none

variable {d : ℕ}

/-- The control points `S'`, `T'` are a way to join the left curve (knots `V`, `m + 1` control
points `S`) and the right curve (knots `W`, `o + 1` control points `T`): only the last `p` points of
the left curve and the first `p` points of the right curve are moved, the derivatives `0, …, p - 1` of
the two moved curves agree at the junction, and the points of the left curve at the parameters `ua`
and of the right curve at the parameters `ub` do not move. -/
structure Joins (p m o : ℕ) (V W : List K) (S T : List (Pt K d)) (ua ub : List K)
    (S' T' : List (Pt K d)) : Prop where
  lenS : S'.length = m + 1
  lenT : T'.length = o + 1
  keepS : ∀ i, i + p ≤ m → S'[i]? = S[i]?
  keepT : ∀ j, p ≤ j → T'[j]? = T[j]?
  agree : ∀ a' b' : Curve K d, Built a' p V S' → Built b' p W T' →
    ∀ k, k < p → a'.evaluateDerivative 1 k = b'.evaluateDerivative 0 k
  fixA : ∀ a a' : Curve K d, Built a p V S → Built a' p V S' → ∀ u ∈ ua, a'.evaluate u = a.evaluate u
  fixB : ∀ b b' : Curve K d, Built b p W T → Built b' p W T' → ∀ u ∈ ub, b'.evaluate u = b.evaluate u

/-- sum of the squared distances by which the control points are moved -/
def moved (P P' : List (Pt K d)) : K := ∑ i ∈ range P.length, sqDist (P'.getD i 0) (P.getD i 0)

/-- the left knots up to the junction, the right knots after the junction moved by one, all halved -/
def concatKnots (p m : ℕ) (V W : List K) : List K :=
  (V.take (m + 2) ++ (W.drop (p + 1)).map (· + 1)).map (· / 2)

/-- `c` runs through `a` on `[0, 1/2]` and through `b` on `[1/2, 1]`, derivatives included (each order
multiplies by the speed `2`); at the end of `a` only the orders below `p` are considered -/
structure Halves (p : ℕ) (c a b : Curve K d) : Prop where
  left : ∀ u k, 0 ≤ u → u ≤ 1 → (u = 1 → k < p) → ∃ w, a.evaluateDerivative u k = .ok (.ok w) ∧
    c.evaluateDerivative (u / 2) k = .ok (.ok ((2 : K) ^ k • w))
  right : ∀ u k, 0 ≤ u → u ≤ 1 → ∃ w, b.evaluateDerivative u k = .ok (.ok w) ∧
    c.evaluateDerivative ((1 + u) / 2) k = .ok (.ok ((2 : K) ^ k • w))

end BSpline
