import Verif.Refine.PointRelMerge
import Verif.Props.Mirror
import Verif.Spec.Rounding

/-!
# Powers of two and NaN (C134, C135)

Multiplying all points by a power of two commutes with rounding, so that everything computed from the points is
multiplied by it exactly (C134; overflow and underflow are not modelled by `Fl`). Replacing coordinates by NaN turns
coordinates of the results into NaN and changes nothing else (C135).
-/

set_option linter.unusedSectionVars false

namespace BSpline

section Scaling

variable {K : Type} [Field K] [LinearOrder K] [IsStrictOrderedRing K] {R : Rounding K} {d : ℕ}

/-- `w` is `c` times `v`, without any error -/
def Scaled (c : K) (v w : Pt (Fl R) d) : Prop := ∀ r, (w r).val = c * (v r).val

/-- rounding commutes with the multiplication by `c` -/
def Rounding.Invariant (R : Rounding K) (c : K) : Prop := ∀ x, R.rnd (c * x) = c * R.rnd x

theorem scaled_compatible {c : K} (hc : R.Invariant c) :
    Pw.Compatible (Scaled c : Pt (Fl R) d → Pt (Fl R) d → Prop) where
  zero r := by
    show R.rnd 0 = c * R.rnd 0
    rw [← hc, mul_zero]
  add v v' w w' h h' r := by
    show R.rnd ((w r).val + (w' r).val) = c * R.rnd ((v r).val + (v' r).val)
    rw [h r, h' r, ← hc, mul_add]
  sub v v' w w' h h' r := by
    show R.rnd ((w r).val - (w' r).val) = c * R.rnd ((v r).val - (v' r).val)
    rw [h r, h' r, ← hc, mul_sub]
  scale s v w h r := by
    show R.rnd (s.val * (w r).val) = c * R.rnd (s.val * (v r).val)
    rw [h r, ← hc, mul_left_comm]
  mulr s v w h r := by
    show R.rnd ((w r).val * s.val) = c * R.rnd ((v r).val * s.val)
    rw [h r, ← hc, mul_assoc]
  divr s v w h r := by
    show R.rnd ((w r).val / s.val) = c * R.rnd ((v r).val / s.val)
    rw [h r, ← hc, mul_div_assoc]

/-- **C134** the rounding of `f64` (without overflow and underflow) commutes with powers of two -/
theorem C134_binary [FloorRing K] (m : ℕ) (z : ℤ) : (Rounding.binary K m).Invariant (2 ^ z) := by
  intro x
  show roundBinary m ((2 : K) ^ z * x) = 2 ^ z * roundBinary m x
  have h2 : (2 : K) ^ z ≠ 0 := zpow_ne_zero _ two_ne_zero
  by_cases hx : x = 0
  · simp [roundBinary, hx]
  have hu : ulp m ((2 : K) ^ z * x) = 2 ^ z * ulp m x := by
    have h1 : Int.log 2 |(2 : K) ^ z * x| = z + Int.log 2 |x| := by
      rw [abs_mul, abs_of_pos (zpow_pos two_pos z)]
      have hpos := abs_pos.mpr hx
      have hz : (0 : K) < 2 ^ z := zpow_pos two_pos z
      have hp : (0 : K) < 2 ^ z * |x| := mul_pos hz hpos
      refine le_antisymm ?_ ?_
      · refine Int.lt_add_one_iff.mp ?_
        rw [← Int.lt_zpow_iff_log_lt (by norm_num) hp, add_assoc]
        push_cast
        rw [zpow_add₀ two_ne_zero]
        refine mul_lt_mul_of_pos_left ?_ hz
        have := Int.lt_zpow_succ_log_self (b := 2) (by norm_num) |x|
        exact_mod_cast this
      · rw [← Int.zpow_le_iff_le_log (by norm_num) hp]
        push_cast
        rw [zpow_add₀ two_ne_zero]
        refine mul_le_mul_of_nonneg_left ?_ hz.le
        have := Int.zpow_log_le_self (b := 2) (r := |x|) (by norm_num) hpos
        exact_mod_cast this
    rw [ulp, ulp, h1, add_sub_assoc, zpow_add₀ two_ne_zero]
  rw [roundBinary, roundBinary, if_neg hx, if_neg (mul_ne_zero h2 hx), hu, mul_div_mul_left _ _ h2]
  ring

variable [Build] {c : K} (hc : R.Invariant c) {a b : Curve (Fl R) d}
include hc

/-- **C134** a curve with control points multiplied by `c` -/
theorem C134_new (p : ℕ) (U : List (Fl R)) {P Q : List (Pt (Fl R) d)} (h : List.Forall₂ (Scaled c) P Q) :
    Pw.XRel (Pw.XRel (Pw.CurveRel (Scaled c))) (mkCurve p U P) (mkCurve p U Q) :=
  Pw.mkCurve_rel (scaled_compatible hc) p U h

/-- **C134** has values and derivatives multiplied by `c` -/
theorem C134_evaluate (h : Pw.CurveRel (Scaled c) a b) (u : Fl R) (k : ℕ) :
    Pw.XRel (Pw.XRel (Scaled c)) (a.evaluateDerivative u k) (b.evaluateDerivative u k) :=
  Pw.evaluateDerivative_rel (scaled_compatible hc) h u k

/-- **C134** and so have the results of all operations -/
theorem C134_operations (h : Pw.CurveRel (Scaled c) a b) :
    Pw.XRel (Pw.CurveRel (Scaled c)) a.reverse b.reverse ∧
    (∀ k, Pw.XRel (Pw.CurveRel (Scaled c)) (a.getDerivativeCurve k) (b.getDerivativeCurve k)) ∧
    (∀ u x, Pw.XRel (Pw.StateRel (Scaled c)) (a.insertTimes u x) (b.insertTimes u x)) ∧
    (∀ u flags, Pw.XRel (Pw.XRel fun x y => Pw.CurveRel (Scaled c) x.1 y.1 ∧ Pw.CurveRel (Scaled c) x.2 y.2)
      (splitAndNormalize a u flags) (splitAndNormalize b u flags)) :=
  ⟨Pw.reverse_rel (scaled_compatible hc) h, Pw.getDerivativeCurve_rel h,
    fun u x => Pw.insertTimes_rel (scaled_compatible hc) u x h, Pw.splitAndNormalize_rel (scaled_compatible hc) h⟩

/-- **C134** merging with any constraints -/
theorem C134_merge (decompose : List (List (Fl R)) → Svd (Fl R)) (eps : Fl R) {a' b' : Curve (Fl R) d}
    (h : Pw.CurveRel (Scaled c) a b) (h' : Pw.CurveRel (Scaled c) a' b') (ua ub : Constraints (Fl R)) :
    Pw.XRel (Pw.XRel (Pw.CurveRel (Scaled c))) (mergeWithConstraints (Solver.svd decompose eps) ⟨a, ua⟩ ⟨a', ub⟩)
      (mergeWithConstraints (Solver.svd decompose eps) ⟨b, ua⟩ ⟨b', ub⟩) :=
  Pw.mergeWithConstraints_rel (scaled_compatible hc) (Pw.Solver.svd_rel (scaled_compatible hc) _ _) h h' ua ub

/-- **C134** interpolation and both kinds of fits, with any penalisation -/
theorem C134_fits [Trunc (Fl R)] [Sqrt (Fl R)] (decompose : List (List (Fl R)) → Svd (Fl R)) (eps : Fl R)
    {P Q : DataPoints (Fl R) d} (h : List.Forall₂ (Scaled c) P Q) (kn : Knots (Fl R)) (params : Parameters (Fl R))
    (pen : Option (Penalization (Fl R))) :
    Pw.XRel (List.Forall₂ (Scaled c)) (interpolate (Solver.svd decompose eps) kn P params)
      (interpolate (Solver.svd decompose eps) kn Q params) ∧
    Pw.XRel (Pw.XRel (List.Forall₂ (Scaled c))) (Loose.fit (Solver.svd decompose eps) kn P params pen)
      (Loose.fit (Solver.svd decompose eps) kn Q params pen) ∧
    Pw.XRel (Pw.XRel (List.Forall₂ (Scaled c))) (Fixed.fit (Solver.svd decompose eps) kn P params pen)
      (Fixed.fit (Solver.svd decompose eps) kn Q params pen) :=
  have hs := Pw.Solver.svd_rel (scaled_compatible (d := d) hc) decompose eps
  ⟨Pw.interpolate_rel hs h kn params, Pw.fit_loose_rel (scaled_compatible hc) hs h kn params pen,
    Pw.fit_fixed_rel (scaled_compatible hc) hs h kn params pen⟩

end Scaling

section Unknown

open Ieee

variable {K : Type} [Field K] [LinearOrder K] [IsStrictOrderedRing K] {F : Format K} {d : ℕ}

/-- `v` is `w`, with some coordinates replaced by NaN -/
def Blotted (v w : Pt (Ieee F) d) : Prop := ∀ r, v r = w r ∨ v r = nan

theorem add_nan_ieee (x : Ieee F) : x + nan = nan := by rcases x with _ | s | ⟨s, x⟩ <;> rfl
theorem nan_add_ieee (x : Ieee F) : nan + x = nan := by rcases x with _ | s | ⟨s, x⟩ <;> rfl
theorem sub_nan_ieee (x : Ieee F) : x - nan = nan := by rcases x with _ | s | ⟨s, x⟩ <;> rfl
theorem nan_sub_ieee (x : Ieee F) : nan - x = nan := by rcases x with _ | s | ⟨s, x⟩ <;> rfl
theorem mul_nan_ieee (x : Ieee F) : x * nan = nan := by rcases x with _ | s | ⟨s, x⟩ <;> rfl
theorem nan_mul_ieee (x : Ieee F) : nan * x = nan := by rcases x with _ | s | ⟨s, x⟩ <;> rfl
theorem nan_div_ieee (x : Ieee F) : nan / x = nan := by rcases x with _ | s | ⟨s, x⟩ <;> rfl

theorem blotted_compatible : Pw.Compatible (Blotted : Pt (Ieee F) d → Pt (Ieee F) d → Prop) where
  zero r := Or.inl rfl
  add v v' w w' h h' r := by
    show v r + v' r = w r + w' r ∨ v r + v' r = nan
    rcases h r with h | h <;> rcases h' r with h' | h' <;> simp only [h, h', add_nan_ieee, nan_add_ieee, true_or, or_true]
  sub v v' w w' h h' r := by
    show v r - v' r = w r - w' r ∨ v r - v' r = nan
    rcases h r with h | h <;> rcases h' r with h' | h' <;> simp only [h, h', sub_nan_ieee, nan_sub_ieee, true_or, or_true]
  scale s v w h r := by
    show s * v r = s * w r ∨ s * v r = nan
    rcases h r with h | h <;> simp only [h, mul_nan_ieee, true_or, or_true]
  mulr s v w h r := by
    show v r * s = w r * s ∨ v r * s = nan
    rcases h r with h | h <;> simp only [h, nan_mul_ieee, true_or, or_true]
  divr s v w h r := by
    show v r / s = w r / s ∨ v r / s = nan
    rcases h r with h | h <;> simp only [h, nan_div_ieee, true_or, or_true]

variable [Build] {a b : Curve (Ieee F) d}

/-- **C135** a curve some of whose coordinates were replaced by NaN -/
theorem C135_new (p : ℕ) (U : List (Ieee F)) {P Q : List (Pt (Ieee F) d)} (h : List.Forall₂ Blotted P Q) :
    Pw.XRel (Pw.XRel (Pw.CurveRel Blotted)) (mkCurve p U P) (mkCurve p U Q) := Pw.mkCurve_rel blotted_compatible p U h

/-- **C135** has the same values and derivatives, except for NaN -/
theorem C135_evaluate (h : Pw.CurveRel Blotted a b) (u : Ieee F) (k : ℕ) :
    Pw.XRel (Pw.XRel Blotted) (a.evaluateDerivative u k) (b.evaluateDerivative u k) :=
  Pw.evaluateDerivative_rel blotted_compatible h u k

/-- **C135** and so have the results of all operations -/
theorem C135_operations (h : Pw.CurveRel Blotted a b) :
    Pw.XRel (Pw.CurveRel Blotted) a.reverse b.reverse ∧
    (∀ k, Pw.XRel (Pw.CurveRel Blotted) (a.getDerivativeCurve k) (b.getDerivativeCurve k)) ∧
    (∀ u x, Pw.XRel (Pw.StateRel Blotted) (a.insertTimes u x) (b.insertTimes u x)) ∧
    (∀ u flags, Pw.XRel (Pw.XRel fun x y => Pw.CurveRel Blotted x.1 y.1 ∧ Pw.CurveRel Blotted x.2 y.2)
      (splitAndNormalize a u flags) (splitAndNormalize b u flags)) :=
  ⟨Pw.reverse_rel blotted_compatible h, Pw.getDerivativeCurve_rel h,
    fun u x => Pw.insertTimes_rel blotted_compatible u x h, Pw.splitAndNormalize_rel blotted_compatible h⟩

/-- **C135** If a coordinate of a value is a number although some coordinates of the control points are NaN, then these
coordinates do not matter: the number is the same for all of them. -/
theorem C135_irrelevant {a b b' : Curve (Ieee F) d} (h : Pw.CurveRel Blotted a b) (h' : Pw.CurveRel Blotted a b')
    {u : Ieee F} {k : ℕ} {v : Pt (Ieee F) d} (hv : a.evaluateDerivative u k = .ok (.ok v)) :
    ∃ w w', b.evaluateDerivative u k = .ok (.ok w) ∧ b'.evaluateDerivative u k = .ok (.ok w') ∧
      ∀ r, v r ≠ nan → w r = w' r := by
  have h1 := C135_evaluate h u k
  have h2 := C135_evaluate h' u k
  rw [hv] at h1 h2
  rcases hb : b.evaluateDerivative u k with _ | (_ | w) <;> rw [hb] at h1 <;> try exact h1.elim
  rcases hb' : b'.evaluateDerivative u k with _ | (_ | w') <;> rw [hb'] at h2 <;> try exact h2.elim
  refine ⟨w, w', rfl, rfl, fun r hr => ?_⟩
  have h1 : v r = w r := (h1 r).resolve_right hr
  have h2 : v r = w' r := (h2 r).resolve_right hr
  rw [← h1, ← h2]

variable [IntCast (Ieee F)]

/-- **C135** merging with any constraints -/
theorem C135_merge (decompose : List (List (Ieee F)) → Svd (Ieee F)) (eps : Ieee F) {a' b' : Curve (Ieee F) d}
    (h : Pw.CurveRel Blotted a b) (h' : Pw.CurveRel Blotted a' b') (ua ub : Constraints (Ieee F)) :
    Pw.XRel (Pw.XRel (Pw.CurveRel Blotted)) (mergeWithConstraints (Solver.svd decompose eps) ⟨a, ua⟩ ⟨a', ub⟩)
      (mergeWithConstraints (Solver.svd decompose eps) ⟨b, ua⟩ ⟨b', ub⟩) :=
  Pw.mergeWithConstraints_rel blotted_compatible (Pw.Solver.svd_rel blotted_compatible _ _) h h' ua ub

/-- **C135** interpolation and both kinds of fits, with any penalisation -/
theorem C135_fits [Trunc (Ieee F)] [Sqrt (Ieee F)] (decompose : List (List (Ieee F)) → Svd (Ieee F)) (eps : Ieee F)
    {P Q : DataPoints (Ieee F) d} (h : List.Forall₂ Blotted P Q) (kn : Knots (Ieee F)) (params : Parameters (Ieee F))
    (pen : Option (Penalization (Ieee F))) :
    Pw.XRel (List.Forall₂ Blotted) (interpolate (Solver.svd decompose eps) kn P params)
      (interpolate (Solver.svd decompose eps) kn Q params) ∧
    Pw.XRel (Pw.XRel (List.Forall₂ Blotted)) (Loose.fit (Solver.svd decompose eps) kn P params pen)
      (Loose.fit (Solver.svd decompose eps) kn Q params pen) ∧
    Pw.XRel (Pw.XRel (List.Forall₂ Blotted)) (Fixed.fit (Solver.svd decompose eps) kn P params pen)
      (Fixed.fit (Solver.svd decompose eps) kn Q params pen) :=
  have hs := Pw.Solver.svd_rel (blotted_compatible (F := F) (d := d)) decompose eps
  ⟨Pw.interpolate_rel hs h kn params, Pw.fit_loose_rel blotted_compatible hs h kn params pen,
    Pw.fit_fixed_rel blotted_compatible hs h kn params pen⟩

end Unknown

/-! ### Concrete cases -/

section Examples

open Ieee

/-- three times the points of a curve in arithmetic with 4 fractional bits: rounding does not commute with 3, but with 8 -/
example : (Rounding.binary ℚ 4).Invariant 8 ∧ ¬ (Rounding.binary ℚ 4).Invariant 3 := by
  refine ⟨by have := C134_binary (K := ℚ) 4 3; norm_num at this; exact this, fun h => ?_⟩
  have := h (35 / 32)
  revert this
  decide +kernel

/-- the last control point is NaN: so are all values, but not the second derivative of this degree, and not the control points that
inserting a knot computes from the others -/
example : ∃ c : Curve (Ieee binary64) 1, Built c 1 [0, 0, eq64 (1 / 2), 1, 1] [![eq64 (1 / 10)], ![1], ![nan]] ∧
    c.evaluate 0 = .ok (.ok ![nan]) ∧ c.evaluate (eq64 (2 / 3)) = .ok (.ok ![nan]) ∧
    c.evaluateDerivative 0 2 = .ok (.ok ![0]) ∧
    ((c.insertTimes (eq64 (1 / 4)) 1).bind fun x => x.1.points.matrix) =
      .ok [![eq64 (1 / 10)], ![eq64 (11 / 20)], ![1], ![nan]] :=
  ⟨_, mkCurve_ok (n := 2) rfl (by decide) (by decide), by decide +kernel, by decide +kernel, by decide +kernel,
    by decide +kernel⟩

end Examples

end BSpline
