import Verif.Model.Access
import Verif.Model.Generate
import Verif.Model.Debug
import Verif.Refine.Exec

/-!
# The model in two builds

For each function of the model that depends on the `Build`: a call does in every build what it does
in a debug build, unless it panics there because of a subtraction below zero or a failed
`debug_assert!`. The proofs go through the text of the function in both builds at the same time.
-/

set_option linter.unusedSectionVars false

namespace BSpline

/-- `y` does what `x` does, unless `x` panics because of a subtraction below zero or a failed
`debug_assert!` -/
class SameRun {α : Type} (x y : Exec α) : Prop where
  out : x = .error .underflow ∨ x = .error .debugAssert ∨ y = x

namespace SameRun

theorem rfl' {α : Type} {x : Exec α} : SameRun x x := ⟨Or.inr (Or.inr rfl)⟩

theorem bind {α β : Type} {x y : Exec α} {f g : α → Exec β} (h : SameRun x y)
    (hf : ∀ a, SameRun (f a) (g a)) : SameRun (x >>= f) (y >>= g) := by
  rcases h.out with rfl | rfl | rfl
  · exact ⟨Or.inl rfl⟩
  · exact ⟨Or.inr (Or.inl rfl)⟩
  · cases y with
    | error e => exact rfl'
    | ok a => exact hf a

theorem ite {α : Type} {c : Prop} [Decidable c] {x x' y y' : Exec α} (h : SameRun x y) (h' : SameRun x' y') :
    SameRun (if c then x else x') (if c then y else y') := by
  split; exacts [h, h']

theorem foldlM {α : Type} {f g : α → ℕ → Exec α} (h : ∀ a i, SameRun (f a i) (g a i)) (l : List ℕ) :
    ∀ a, SameRun (l.foldlM f a) (l.foldlM g a) := by
  induction l with
  | nil => intro a; exact rfl'
  | cons i l ih => intro a; simp only [List.foldlM_cons]; exact (h a i).bind ih

theorem forRange {α : Type} {lo hi : ℕ} {a : α} {f g : α → ℕ → Exec α} (h : ∀ a i, SameRun (f a i) (g a i)) :
    SameRun (forRange lo hi a f) (BSpline.forRange lo hi a g) := foldlM h _ _

theorem forRangeIncl {α : Type} {lo hi : ℕ} {a : α} {f g : α → ℕ → Exec α} (h : ∀ a i, SameRun (f a i) (g a i)) :
    SameRun (forRangeIncl lo hi a f) (BSpline.forRangeIncl lo hi a g) := foldlM h _ _

theorem mapM {α β : Type} {f g : α → Exec β} (h : ∀ i, SameRun (f i) (g i)) (l : List α) :
    SameRun (l.mapM f) (l.mapM g) := by
  induction l with
  | nil => exact rfl'
  | cons i l ih => simp only [List.mapM_cons]; exact (h i).bind fun _ => ih.bind fun _ => rfl'

theorem tabulateIncl {α : Type} {lo hi : ℕ} {f g : ℕ → Exec α} (h : ∀ i, SameRun (f i) (g i)) :
    SameRun (tabulateIncl lo hi f) (BSpline.tabulateIncl lo hi g) := mapM h _

theorem blockIf {K : Type} [Zero K] {count r : ℕ} {x y : Exec (List (List K))} (h : SameRun x y) :
    SameRun (blockIf count r x) (BSpline.blockIf count r y) := ite h rfl'

end SameRun

/-- the same call in a debug build and in the build `β` -/
macro "builds% " β:term ", " e:term : term =>
  `(SameRun (letI := Build.debug; $e) (letI : Build := $β; $e))

/-- one step through the text of a function, in both builds at the same time -/
macro "same_step" : tactic => `(tactic| first
  | with_reducible exact SameRun.rfl'
  | (intro _; try beta_reduce)
  | with_reducible infer_instance
  | with_reducible refine SameRun.forRange ?_
  | with_reducible refine SameRun.forRangeIncl ?_
  | with_reducible refine SameRun.tabulateIncl ?_
  | with_reducible refine SameRun.mapM ?_ _
  | with_reducible refine SameRun.foldlM ?_ _ _
  | with_reducible refine SameRun.blockIf ?_
  | with_reducible refine SameRun.ite ?_ ?_
  | with_reducible refine SameRun.bind ?_ ?_
  | split)

/-- go through the text of a function -/
macro "same" : tactic => `(tactic| repeat' same_step)

/-- go through the text of a recursive function -/
macro "same_ih " ih:ident : tactic => `(tactic| repeat' (first
  | with_reducible exact $ih | with_reducible exact $ih _ | with_reducible exact $ih _ _ | same_step))

instance usub_builds (β : Build) (a b : ℕ) : builds% β, usub a b := by
  rcases Nat.lt_or_ge a b with h | h
  · exact ⟨Or.inl (if_neg (by omega))⟩
  · exact ⟨Or.inr (Or.inr ((@usub_ok β _ _ h).trans (@usub_ok Build.debug _ _ h).symm))⟩

instance tail_builds (β : Build) {α : Type} (v : List α) (n : ℕ) : builds% β, tail v n := by
  unfold tail; same

instance setTail_builds (β : Build) {α : Type} (v s : List α) : builds% β, setTail v s := by
  unfold setTail; same

variable {K : Type} [Add K] [Sub K] [Mul K] [Div K] [Neg K] [Zero K] [One K] [NatCast K]
  [IntCast K] [Cmp K] [Trunc K] [Sqrt K] {d : ℕ}

instance basis_builds (β : Build) (U : List K) (k n : ℕ) (u : K) (p : ℕ) : ∀ i, builds% β, basis U k n u p i := by
  induction p with
  | zero => intros; unfold basis; same
  | succ p ih => intros; unfold basis; same_ih ih

instance knots_derive_builds (β : Build) (kn : Knots K) : builds% β, Knots.derive kn := by
  unfold Knots.derive; try dsimp only
  same

instance knots_new_builds (β : Build) (degree : ℕ) (knots : List K) : builds% β, Knots.new degree knots := by
  unfold Knots.new; try dsimp only
  same

instance knots_segmentsDerivative_builds (β : Build) (kn : Knots K) (k : ℕ) : builds% β, Knots.segmentsDerivative kn k := by
  unfold Knots.segmentsDerivative; try dsimp only
  same

instance knots_segments_builds (β : Build) (kn : Knots K) : builds% β, Knots.segments kn := by
  unfold Knots.segments; try dsimp only
  same

instance knots_internalCount_builds (β : Build) (kn : Knots K) : builds% β, Knots.internalCount kn := by
  unfold Knots.internalCount; try dsimp only
  same

instance knots_internal_builds (β : Build) (kn : Knots K) : builds% β, Knots.internal kn := by
  unfold Knots.internal; try dsimp only
  same

instance knots_internalKnot_builds (β : Build) (kn : Knots K) (i : ℕ) : builds% β, Knots.internalKnot kn i := by
  unfold Knots.internalKnot; try dsimp only
  same

instance knots_domainCount_builds (β : Build) (kn : Knots K) : builds% β, Knots.domainCount kn := by
  unfold Knots.domainCount; try dsimp only
  same

instance knots_domainDerivative_builds (β : Build) (kn : Knots K) (k : ℕ) : builds% β, Knots.domainDerivative kn k := by
  unfold Knots.domainDerivative; try dsimp only
  same

instance knots_domain_builds (β : Build) (kn : Knots K) : builds% β, Knots.domain kn := by
  unfold Knots.domain; try dsimp only
  same

instance knots_domainKnot_builds (β : Build) (kn : Knots K) (i : ℕ) : builds% β, Knots.domainKnot kn i := by
  unfold Knots.domainKnot; try dsimp only
  same

instance knots_multiplicity_builds (β : Build) (kn : Knots K) (u : K) : builds% β, Knots.multiplicity kn u := by
  unfold Knots.multiplicity; try dsimp only
  same

instance knots_bisect_builds (β : Build) (U : List K) (u : K) (fuel : ℕ) : ∀ low high, builds% β, Knots.bisect U u fuel low high := by
  induction fuel with
  | zero => intros; unfold Knots.bisect; same
  | succ fuel ih => intros; unfold Knots.bisect; same_ih ih

instance knots_findIndex_builds (β : Build) (kn : Knots K) (u : K) (k : ℕ) : builds% β, Knots.findIndex kn u k := by
  unfold Knots.findIndex; try dsimp only
  same

instance knots_loopRightOrEqual_builds (β : Build) (U : List K) (u : K) (r : ℕ) : ∀ i, builds% β, Knots.loopRightOrEqual U u r i := by
  induction r with
  | zero => intros; unfold Knots.loopRightOrEqual; same
  | succ r ih => intros; unfold Knots.loopRightOrEqual; same_ih ih

instance knots_loopRight_builds (β : Build) (U : List K) (u : K) (r : ℕ) : ∀ i, builds% β, Knots.loopRight U u r i := by
  induction r with
  | zero => intros; unfold Knots.loopRight; same
  | succ r ih => intros; unfold Knots.loopRight; same_ih ih

instance knots_findIdx_builds (β : Build) (kn : Knots K) (u : K) (k : ℕ) (c : Comparator) : builds% β, Knots.findIdx kn u k c := by
  unfold Knots.findIdx; try dsimp only
  same

instance knots_evaluate_builds (β : Build) (kn : Knots K) (k i p : ℕ) (u : K) : builds% β, Knots.evaluate kn k i p u := by
  unfold Knots.evaluate; try dsimp only
  same

instance knots_isValid_builds (β : Build) (kn : Knots K) : builds% β, Knots.isValid kn := by
  unfold Knots.isValid; try dsimp only
  same

instance dataPoints_segments_builds (β : Build) {d : ℕ} (m : DataPoints K d) : builds% β, DataPoints.segments m := by
  unfold DataPoints.segments; try dsimp only
  same

instance controlPoints_segments_builds (β : Build) (cp : ControlPoints K d) : builds% β, ControlPoints.segments cp := by
  unfold ControlPoints.segments; try dsimp only
  same

instance controlPoints_deriveSinglePoint_builds (β : Build) (cp : ControlPoints K d) (kn : Knots K) (k : ℕ) : ∀ i, builds% β, ControlPoints.deriveSinglePoint cp kn k i := by
  induction k with
  | zero => intros; unfold ControlPoints.deriveSinglePoint; same
  | succ k ih => intros; unfold ControlPoints.deriveSinglePoint; same_ih ih

instance controlPoints_derive_builds (β : Build) (cp : ControlPoints K d) (kn : Knots K) : builds% β, ControlPoints.derive cp kn := by
  unfold ControlPoints.derive; try dsimp only
  same

instance curve_calculateDerivatives_builds (β : Build) (c : Curve K d) : builds% β, Curve.calculateDerivatives c := by
  unfold Curve.calculateDerivatives; try dsimp only
  same

instance curve_new_builds (β : Build) (knots : Knots K) (points : ControlPoints K d) : builds% β, Curve.new knots points := by
  unfold Curve.new; try dsimp only
  same

instance curve_segments_builds (β : Build) (c : Curve K d) : builds% β, Curve.segments c := by
  unfold Curve.segments; try dsimp only
  same

instance curve_evaluateDerivative_builds (β : Build) (c : Curve K d) (u : K) (k : ℕ) : builds% β, Curve.evaluateDerivative c u k := by
  unfold Curve.evaluateDerivative; try dsimp only
  same

instance curve_evaluate_builds (β : Build) (c : Curve K d) (u : K) : builds% β, Curve.evaluate c u := by
  unfold Curve.evaluate; try dsimp only
  same

instance curve_getDerivativeCurve_builds (β : Build) (c : Curve K d) (k : ℕ) : builds% β, Curve.getDerivativeCurve c k := by
  unfold Curve.getDerivativeCurve; try dsimp only
  same

instance insertLoop_builds (β : Build) (u : K) (Uold : List K) (Pold : List (Pt K d)) (p lo hi : ℕ) (Pnew : List (Pt K d)) : builds% β, insertLoop u Uold Pold p lo hi Pnew := by
  unfold insertLoop; try dsimp only
  same

instance insert_builds (β : Build) (c : Curve K d) (u : K) : builds% β, insert c u := by
  unfold insert; try dsimp only
  same

instance curve_insertTimes_builds (β : Build) (u : K) (x : ℕ) : ∀ c : Curve K d, builds% β, Curve.insertTimes c u x := by
  induction x with
  | zero => intros; unfold Curve.insertTimes; same
  | succ x ih => intros; unfold Curve.insertTimes; same_ih ih

instance curve_insert_builds (β : Build) (c : Curve K d) (u : K) : builds% β, Curve.insert c u := by
  unfold Curve.insert; try dsimp only
  same

instance insertUnwrapTimes_builds (β : Build) (u : K) (x : ℕ) : ∀ c : Curve K d, builds% β, insertUnwrapTimes c u x := by
  induction x with
  | zero => intros; unfold insertUnwrapTimes; same
  | succ x ih => intros; unfold insertUnwrapTimes; same_ih ih

instance mkCurve_builds (β : Build) (p : ℕ) (U : List K) (P : List (Pt K d)) : builds% β, mkCurve p U P := by
  unfold mkCurve; try dsimp only
  same

instance splitLeft_builds (β : Build) (p : ℕ) (U : List K) (P : List (Pt K d)) (u : K) (len : ℕ) (multPos : Bool) (norm : Bool) : builds% β, splitLeft p U P u len multPos norm := by
  unfold splitLeft; try dsimp only
  same

instance splitRight_builds (β : Build) (p : ℕ) (U : List K) (P : List (Pt K d)) (u : K) (frm : ℕ) (multPos : Bool) (norm : Bool) : builds% β, splitRight p U P u frm multPos norm := by
  unfold splitRight; try dsimp only
  same

instance splitAndNormalize_builds (β : Build) (c : Curve K d) (u : K) (norm : Bool × Bool) : builds% β, splitAndNormalize c u norm := by
  unfold splitAndNormalize; try dsimp only
  same

instance split_builds (β : Build) (c : Curve K d) (u : K) : builds% β, split c u := by
  unfold split; try dsimp only
  same

instance constraints_segments_builds (β : Build) (c : Constraints K) : builds% β, Constraints.segments c := by
  unfold Constraints.segments; try dsimp only
  same

instance prefactor_builds (β : Build) (p i0 cols : ℕ) (U0 : List K) (k : ℕ) : ∀ i, builds% β, prefactor p i0 cols U0 k i := by
  induction k with
  | zero => intros; unfold prefactor; same
  | succ k ih => intros; unfold prefactor; same_ih ih

instance sumLeft_builds (β : Build) (c : Curve K d) (k i : ℕ) : builds% β, sumLeft c k i := by
  unfold sumLeft; try dsimp only
  same

instance sumRight_builds (β : Build) (c : Curve K d) (k j : ℕ) : builds% β, sumRight c k j := by
  unfold sumRight; try dsimp only
  same

instance calculateKV_builds (β : Build) (c : Curve K d) : builds% β, calculateKV c := by
  unfold calculateKV; try dsimp only
  same

instance calculateKW_builds (β : Build) (c : Curve K d) : builds% β, calculateKW c := by
  unfold calculateKW; try dsimp only
  same

instance calculateIV_builds (β : Build) (c : Curve K d) : builds% β, calculateIV c := by
  unfold calculateIV; try dsimp only
  same

instance calculateJW_builds (β : Build) (c : Curve K d) : builds% β, calculateJW c := by
  unfold calculateJW; try dsimp only
  same

instance calculateGV_builds (β : Build) (a : ConstrainedCurve K d) : builds% β, calculateGV a := by
  unfold calculateGV; try dsimp only
  same

instance calculateHW_builds (β : Build) (b : ConstrainedCurve K d) : builds% β, calculateHW b := by
  unfold calculateHW; try dsimp only
  same

instance calculateIpV_builds (β : Build) (a : ConstrainedCurve K d) : builds% β, calculateIpV a := by
  unfold calculateIpV; try dsimp only
  same

instance calculateJppW_builds (β : Build) (b : ConstrainedCurve K d) : builds% β, calculateJppW b := by
  unfold calculateJppW; try dsimp only
  same

instance constructNmat_builds (β : Build) (a b : ConstrainedCurve K d) : builds% β, constructNmat a b := by
  unfold constructNmat; try dsimp only
  same

instance calculateKconst_builds (β : Build) (ca cb : Curve K d) : builds% β, calculateKconst ca cb := by
  unfold calculateKconst; try dsimp only
  same

instance constructConstMat_builds (β : Build) (ca cb : Curve K d) (totalConstraints : ℕ) : builds% β, constructConstMat ca cb totalConstraints := by
  unfold constructConstMat; try dsimp only
  same

instance solveLinearEquationSystem_builds (β : Build) (solver : Solver K d) (a b : ConstrainedCurve K d) : builds% β, solveLinearEquationSystem solver a b := by
  unfold solveLinearEquationSystem; try dsimp only
  same

instance generateShifted_builds (β : Build) (ca cb : Curve K d) (shifts : List (Pt K d)) : builds% β, generateShifted ca cb shifts := by
  unfold generateShifted; try dsimp only
  same

instance adjustKnots_builds (β : Build) (p : ℕ) (Uleft : List K) (nLeft : ℕ) (Uright : List K) : builds% β, adjustKnots p Uleft nLeft Uright := by
  unfold adjustKnots; try dsimp only
  same

instance adjustKnotsOfBoth_builds (β : Build) (ca cb : Curve K d) : builds% β, adjustKnotsOfBoth ca cb := by
  unfold adjustKnotsOfBoth; try dsimp only
  same

instance createMergedKnotVector_builds (β : Build) (ca cb : Curve K d) (Vadj Wadj : List K) : builds% β, createMergedKnotVector ca cb Vadj Wadj := by
  unfold createMergedKnotVector; try dsimp only
  same

instance generateDerivativeControlPoint_builds (β : Build) (i k : ℕ) (P : List (Pt K d)) (U0 : List K) (p n : ℕ) : builds% β, generateDerivativeControlPoint i k P U0 p n := by
  unfold generateDerivativeControlPoint; try dsimp only
  same

instance adjustRow_builds (β : Build) (Uadj : List K) (p n i : ℕ) (prev row : List (Pt K d)) : builds% β, adjustRow Uadj p n i prev row := by
  unfold adjustRow; try dsimp only
  same

instance adjustShifted_builds (β : Build) (P : List (Pt K d)) (U0 Uadj : List K) (p n : ℕ) : builds% β, adjustShifted P U0 Uadj p n := by
  unfold adjustShifted; try dsimp only
  same

instance adjustShiftedOfBoth_builds (β : Build) (ca : Curve K d) (S T : List (Pt K d)) (Vadj Wrev Wadj : List K) : builds% β, adjustShiftedOfBoth ca S T Vadj Wrev Wadj := by
  unfold adjustShiftedOfBoth; try dsimp only
  same

instance generateMergedPoints_builds (β : Build) (ca cb : Curve K d) (Sadj Tadj : List (Pt K d)) : builds% β, generateMergedPoints ca cb Sadj Tadj := by
  unfold generateMergedPoints; try dsimp only
  same

instance mergeBody_builds (β : Build) (solver : Solver K d) (a b : ConstrainedCurve K d) : builds% β, mergeBody solver a b := by
  unfold mergeBody; try dsimp only
  same

instance mergeWithConstraints_builds (β : Build) {d₁ d₂ : ℕ} (solver : Solver K d₁) (a : ConstrainedCurve K d₁) (b : ConstrainedCurve K d₂) : builds% β, mergeWithConstraints solver a b := by
  unfold mergeWithConstraints; try dsimp only
  same

instance merge_builds (β : Build) {d₁ d₂ : ℕ} (solver : Solver K d₁) (a : Curve K d₁) (b : Curve K d₂) : builds% β, merge solver a b := by
  unfold merge; try dsimp only
  same

instance mergeFrom_builds (β : Build) {d₁ d₂ : ℕ} (solver : Solver K d₁) (a : Curve K d₁) (b : Curve K d₂) : builds% β, mergeFrom solver a b := by
  unfold mergeFrom; try dsimp only
  same

instance mergeTo_builds (β : Build) {d₁ d₂ : ℕ} (solver : Solver K d₁) (a : Curve K d₁) (b : Curve K d₂) : builds% β, mergeTo solver a b := by
  unfold mergeTo; try dsimp only
  same

instance curve_append_builds (β : Build) (solver : Solver K d) (self other : Curve K d) : builds% β, Curve.append solver self other := by
  unfold Curve.append; try dsimp only
  same

instance curve_prepend_builds (β : Build) (solver : Solver K d) (self other : Curve K d) : builds% β, Curve.prepend solver self other := by
  unfold Curve.prepend; try dsimp only
  same

instance curve_appendConstrained_builds (β : Build) (solver : Solver K d) (self : Curve K d) (constraintsSelf : Constraints K) (other : Curve K d) (constraintsOther : Constraints K) : builds% β, Curve.appendConstrained solver self constraintsSelf other constraintsOther := by
  unfold Curve.appendConstrained; try dsimp only
  same

instance curve_prependConstrained_builds (β : Build) (solver : Solver K d) (self : Curve K d) (constraintsSelf : Constraints K) (other : Curve K d) (constraintsOther : Constraints K) : builds% β, Curve.prependConstrained solver self constraintsSelf other constraintsOther := by
  unfold Curve.prependConstrained; try dsimp only
  same

instance uniform_builds (β : Build) (degree segments : ℕ) : builds% β, uniform (K := K) degree segments := by
  unfold uniform; try dsimp only
  same

instance averaging_builds (β : Build) (degree segments : ℕ) (params : Parameters K) : builds% β, averaging degree segments params := by
  unfold averaging; try dsimp only
  same

instance deBoor_builds (β : Build) (degree segments : ℕ) (params : Parameters K) : builds% β, deBoor degree segments params := by
  unfold deBoor; try dsimp only
  same

instance generateKnots_builds (β : Build) (degree segments : ℕ) (params : Parameters K) (m : KnotMethod) : builds% β, generateKnots degree segments params m := by
  unfold generateKnots; try dsimp only
  same

instance isUniform_builds (β : Build) (kn : Knots K) : builds% β, isUniform kn := by
  unfold isUniform; try dsimp only
  same

instance centripetal_builds (β : Build) (pts : DataPoints K d) : builds% β, centripetal pts := by
  unfold centripetal
  refine SameRun.bind inferInstance fun m => SameRun.bind SameRun.rfl' fun sum => ?_
  by_cases h : Cmp.le (epsSqrt : K) sum
  · simp only [h, Bool.not_true, Bool.and_false]
    exact SameRun.rfl'
  · exact ⟨Or.inr (Or.inl (if_pos (by simp [h])))⟩

instance chordLength_builds (β : Build) (pts : DataPoints K d) : builds% β, chordLength pts := by
  unfold chordLength; try dsimp only
  same

instance generateParams_builds (β : Build) (pts : DataPoints K d) (m : ParamMethod) : builds% β, generateParams pts m := by
  unfold generateParams; try dsimp only
  same

instance inputChecks_builds (β : Build) (kn : Knots K) (pts : DataPoints K d) (params : Parameters K) (pen : Option (Penalization K)) : builds% β, inputChecks kn pts params pen := by
  unfold inputChecks; try dsimp only
  same

theorem computeSvdMatrix_builds (β : Build) (kn : Knots K) (N : List (List K)) (c : ℕ)
    (pen : Option (Penalization K)) (fd fd' : ℕ → Knots K → Exec (List (List K)))
    (h : ∀ k kn, SameRun (fd k kn) (fd' k kn)) :
    SameRun (letI := Build.debug; computeSvdMatrix kn N c pen fd) (letI := β; computeSvdMatrix kn N c pen fd') := by
  unfold computeSvdMatrix; try dsimp only
  same_ih h

instance loose_coefficientMatrix_builds (β : Build) (kn : Knots K) (pts : DataPoints K d) (params : Parameters K) : builds% β, Loose.coefficientMatrix kn pts params := by
  unfold Loose.coefficientMatrix; try dsimp only
  same

instance loose_finiteDifferenceMatrix_builds (β : Build) (kappa : ℕ) (kn : Knots K) : builds% β, Loose.finiteDifferenceMatrix kappa kn := by
  unfold Loose.finiteDifferenceMatrix; try dsimp only
  same

instance loose_fit_builds (β : Build) (solver : Solver K d) (kn : Knots K) (pts : DataPoints K d)
    (params : Parameters K) (pen : Option (Penalization K)) : builds% β, Loose.fit solver kn pts params pen := by
  have h := fun N c => computeSvdMatrix_builds β kn N c pen (letI := Build.debug; Loose.finiteDifferenceMatrix)
    (letI := β; Loose.finiteDifferenceMatrix) fun _ _ => inferInstance
  unfold Loose.fit
  same_ih h

instance fixed_qvectors_builds (β : Build) (kn : Knots K) (pts : DataPoints K d) (params : Parameters K) : builds% β, Fixed.qvectors kn pts params := by
  unfold Fixed.qvectors; try dsimp only
  same

instance fixed_constantTerms_builds (β : Build) (kn : Knots K) (pts : DataPoints K d) (params : Parameters K) (Q : List (Pt K d)) : builds% β, Fixed.constantTerms kn pts params Q := by
  unfold Fixed.constantTerms; try dsimp only
  same

instance fixed_coefficientMatrix_builds (β : Build) (kn : Knots K) (pts : DataPoints K d) (params : Parameters K) : builds% β, Fixed.coefficientMatrix kn pts params := by
  unfold Fixed.coefficientMatrix; try dsimp only
  same

instance fixed_finiteDifferenceMatrix_builds (β : Build) (kappa : ℕ) (kn : Knots K) : builds% β, Fixed.finiteDifferenceMatrix kappa kn := by
  unfold Fixed.finiteDifferenceMatrix; try dsimp only
  same

instance fixed_fit_builds (β : Build) (solver : Solver K d) (kn : Knots K) (pts : DataPoints K d)
    (params : Parameters K) (pen : Option (Penalization K)) : builds% β, Fixed.fit solver kn pts params pen := by
  have h := fun N c => computeSvdMatrix_builds β kn N c pen (letI := Build.debug; Fixed.finiteDifferenceMatrix)
    (letI := β; Fixed.finiteDifferenceMatrix) fun _ _ => inferInstance
  unfold Fixed.fit
  same_ih h

instance interpolate_builds (β : Build) (solver : Solver K d) (kn : Knots K) (pts : DataPoints K d) (params : Parameters K) : builds% β, interpolate solver kn pts params := by
  unfold interpolate; try dsimp only
  same

instance generateManualKnots_builds (β : Build) (p n : ℕ) (data : DataPoints K d) (g : KnotGeneration K) : builds% β, generateManualKnots p n data g := by
  unfold generateManualKnots; try dsimp only
  same

instance generate_builds (β : Build) (solver : Solver K d) (g : Generation K d) : builds% β, generate solver g := by
  unfold generate; try dsimp only
  same

instance curve_derivePoints_builds (β : Build) (c : Curve K d) : builds% β, Curve.derivePoints c := by
  unfold Curve.derivePoints; try dsimp only
  same

instance curve_deriveKnots_builds (β : Build) (c : Curve K d) : builds% β, Curve.deriveKnots c := by
  unfold Curve.deriveKnots; try dsimp only
  same

end BSpline
