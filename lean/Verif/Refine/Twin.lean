import Verif.Refine.Shape
import Verif.Model.Merge

/-!
# Curves with the same knots and control points

Insertion, splitting and merging use the knots and the control points of a curve, not the control points
of its derivatives. No law of arithmetic is used.
-/

set_option linter.unusedSectionVars false

namespace BSpline

variable {K : Type} [Add K] [Sub K] [Mul K] [Div K] [Neg K] [Zero K] [One K] [NatCast K] [Cmp K] {d : ℕ}

/-- equal knots (with their derivatives) and equal control points -/
structure Twin (a a' : Curve K d) : Prop where
  knots : a.knots = a'.knots
  matrix : a.points.matrix = a'.points.matrix

namespace Twin

variable {a a' b b' : Curve K d}

theorem degree (h : Twin a a') : a.degree = a'.degree := by rw [Curve.degree, h.knots]; rfl

theorem count (h : Twin a a') : a.points.count = a'.points.count := by
  have e : ∀ cp : ControlPoints K d, cp.count = (do let m ← cp.matrix; pure m.length) := fun _ => rfl
  rw [e, e, h.matrix]

theorem segments (h : Twin a a') : a.segments = a'.segments := by
  rw [Curve.segments, Curve.segments, ControlPoints.segments, ControlPoints.segments, h.count]

theorem sumLeft (h : Twin a a') : BSpline.sumLeft a = BSpline.sumLeft a' := by
  funext k i
  simp only [BSpline.sumLeft, h.degree, h.segments, h.matrix, h.knots]

theorem sumRight (h : Twin a a') : BSpline.sumRight a = BSpline.sumRight a' := by
  funext k i
  simp only [BSpline.sumRight, h.degree, h.segments, h.matrix, h.knots]

theorem nmat (h : Twin a a') (h' : Twin b b') (ca cb : Constraints K) :
    constructNmat ⟨a, ca⟩ ⟨b, cb⟩ = constructNmat ⟨a', ca⟩ ⟨b', cb⟩ := by
  simp only [constructNmat, calculateKV, calculateKW, calculateIV, calculateJW, calculateGV, calculateIpV,
    calculateHW, calculateJppW, h.sumLeft, h'.sumRight, h.degree, h.segments, h'.degree, h'.segments, h.knots, h'.knots]

theorem constMat (h : Twin a a') (h' : Twin b b') (t : ℕ) :
    constructConstMat a b t = constructConstMat a' b' t := by
  simp only [constructConstMat, calculateKconst, h.degree, h.segments, h'.segments, h.matrix, h'.matrix, h.knots,
    h'.knots]

theorem body (h : Twin a a') (h' : Twin b b') (ca cb : Constraints K) (solver : Solver K d) :
    mergeBody solver ⟨a, ca⟩ ⟨b, cb⟩ = mergeBody solver ⟨a', ca⟩ ⟨b', cb⟩ := by
  simp only [mergeBody, solveLinearEquationSystem, h.nmat h', h.constMat h', generateShifted, adjustKnotsOfBoth,
    createMergedKnotVector, adjustShiftedOfBoth, generateMergedPoints, h.degree, h.segments, h'.segments, h.matrix,
    h'.matrix, h.knots, h'.knots, h.count, h'.count]

/-- merging -/
theorem merge (h : Twin a a') (h' : Twin b b') (ca cb : Constraints K) (solver : Solver K d) :
    mergeWithConstraints solver ⟨a, ca⟩ ⟨b, cb⟩ = mergeWithConstraints solver ⟨a', ca⟩ ⟨b', cb⟩ := by
  simp only [mergeWithConstraints, h.degree, h'.degree, h.knots, h'.knots, h.body h']

/-- insertion: the same result, and the same curve unless there is an error -/
theorem insert (h : Twin a a') {p n : ℕ} (hs : Shaped a p n) (hs' : Shaped a' p n) (u : K) :
    (∃ c, BSpline.insert a u = .ok (c, .ok ()) ∧ BSpline.insert a' u = .ok (c, .ok ())) ∨
    ∃ e, BSpline.insert a u = .ok (a, .error e) ∧ BSpline.insert a' u = .ok (a', .error e) := by
  have hm : a.points.Pk.getD 0 [] = a'.points.Pk.getD 0 [] := by
    have := h.matrix
    rw [hs.matrix, hs'.matrix] at this
    exact Except.ok.inj this
  rw [hs.insert_eq, hs'.insert_eq, h.knots, hm]
  split
  · exact Or.inr ⟨_, rfl, rfl⟩
  split
  · exact Or.inr ⟨_, rfl, rfl⟩
  · exact Or.inl ⟨_, rfl, rfl⟩

theorem unwrapTimes (h : Twin a a') {p n : ℕ} (hs : Shaped a p n) (hs' : Shaped a' p n) (u : K) (t : ℕ) :
    (∃ e, insertUnwrapTimes a u t = .error e ∧ insertUnwrapTimes a' u t = .error e) ∨
    ∃ c c', insertUnwrapTimes a u t = .ok c ∧ insertUnwrapTimes a' u t = .ok c' ∧ Twin c c' := by
  cases t with
  | zero => exact Or.inr ⟨a, a', rfl, rfl, h⟩
  | succ t =>
    rw [insertUnwrapTimes, insertUnwrapTimes]
    rcases h.insert hs hs' u with ⟨c, h1, h2⟩ | ⟨e, h1, h2⟩
    · rw [h1, h2, ok_bind]
      dsimp only [unwrap]
      simp only [ok_bind]
      cases hc : insertUnwrapTimes c u t with
      | error e => exact Or.inl ⟨e, rfl, rfl⟩
      | ok c' => exact Or.inr ⟨c', c', rfl, rfl, rfl, rfl⟩
    · rw [h1, h2]
      exact Or.inl ⟨.unwrap, rfl, rfl⟩

/-- splitting -/
theorem split (h : Twin a a') {p n : ℕ} (hs : Shaped a p n) (hs' : Shaped a' p n) (u : K) (norm : Bool × Bool) :
    splitAndNormalize a u norm = splitAndNormalize a' u norm := by
  rw [splitAndNormalize, splitAndNormalize, h.degree, h.knots]
  split
  · rfl
  dsimp only
  congr 1
  funext l
  congr 1
  funext U0
  split
  · rfl
  congr 1
  funext t
  rcases h.unwrapTimes hs hs' u t with ⟨e, h1, h2⟩ | ⟨c, c', h1, h2, h3⟩
  · rw [h1, h2]
  · rw [h1, h2]
    simp only [ok_bind, h3.knots, h3.matrix]

end Twin

end BSpline
