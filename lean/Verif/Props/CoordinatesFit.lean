import Verif.Props.Coordinates
import Verif.Model.Svd
import Verif.Props.IeeeTouch

/-!
# Coordinates do not influence each other in generated curves either (C132)

`generate` chooses the parameters of an interpolation or a fit without looking at the points. Only the chord-length and
the centripetal method, which can be requested for the knots of manual curves, mix the coordinates.
-/

set_option linter.unusedSectionVars false

namespace BSpline

section General

variable {K : Type} [Add K] [Sub K] [Mul K] [Div K] [Neg K] [Zero K] [One K] [NatCast K] [IntCast K] [Cmp K] [Trunc K]
  [Sqrt K] {d e : ℕ} [Build] (σ : Fin e → Fin d) {s : Solver K d} {s' : Solver K e}

theorem foldl_map_sel {ι : Type} {g : Pt K d → ι → Pt K d} {g' : Pt K e → ι → Pt K e}
    (h : ∀ a i, g' (sel σ a) i = sel σ (g a i)) : ∀ (l : List ι) (a : Pt K d),
    l.foldl g' (sel σ a) = sel σ (l.foldl g a)
  | [], _ => rfl
  | i :: l, a => by rw [List.foldl_cons, List.foldl_cons, h, foldl_map_sel h l]

theorem mulT_sel (A : List (List K)) (c : ℕ) (B : List (Pt K d)) :
    mulT A c (B.map (sel σ)) = (mulT A c B).map (sel σ) := by
  rw [mulT, mulT, List.map_map]
  refine List.map_congr_left fun i _ => ?_
  rw [List.zip_map_right, List.foldl_map]
  exact foldl_map_sel σ (fun a i => rfl) (List.zip A B) (fun _ => 0)

/-- `SVD::solve` treats the coordinates alike, whatever decomposition is used -/
theorem Solver.svd_coordinatewise (decompose : List (List K) → Svd K) (eps : K) :
    Coordinatewise σ (Solver.svd decompose eps : Solver K d) (Solver.svd decompose eps : Solver K e) := by
  intro A b
  show mulT _ _ _ = List.map _ (mulT _ _ _)
  rw [mulT_sel σ (decompose A).u, List.zipWith_map_right, ← mulT_sel, List.map_zipWith]
  rfl

theorem DataPoints.segments_sel (pts : DataPoints K d) : DataPoints.segments (K := K) (d := e) (pts.map (sel σ)) =
    pts.segments := by
  simp only [DataPoints.segments, List.length_map]

theorem generateParams_equal_sel (pts : DataPoints K d) :
    generateParams (d := e) (pts.map (sel σ)) .equallySpaced = generateParams pts .equallySpaced := by
  simp only [generateParams, DataPoints.segments_sel]

/-- **C132** the control points found by interpolation -/
theorem C132_interpolate (hs : Coordinatewise σ s s') (kn : Knots K) (pts : DataPoints K d) (params : Parameters K) :
    interpolate s' kn (pts.map (sel σ)) params = List.map (sel σ) <$> interpolate s kn pts params := by
  simp only [interpolate, DataPoints.segments_sel, svdSolve_sel σ hs, map_bind]

theorem inputChecks_sel (kn : Knots K) (pts : DataPoints K d) (params : Parameters K) (pen : Option (Penalization K)) :
    inputChecks (d := e) kn (pts.map (sel σ)) params pen = inputChecks kn pts params pen := by
  simp only [inputChecks, DataPoints.segments_sel]

/-- **C132** the control points of a fit with loose ends -/
theorem C132_fit_loose (hs : Coordinatewise σ s s') (kn : Knots K) (pts : DataPoints K d) (params : Parameters K)
    (pen : Option (Penalization K)) :
    Loose.fit s' kn (pts.map (sel σ)) params pen = Except.map (List.map (sel σ)) <$> Loose.fit s kn pts params pen := by
  simp only [Loose.fit, inputChecks_sel, map_bind]
  congr 1; funext r
  cases r with
  | error x => rfl
  | ok _ =>
    simp only [Loose.coefficientMatrix, DataPoints.segments_sel, map_bind]
    congr 1; funext N
    congr 1; funext n
    congr 1; funext r
    cases r with
    | error x => rfl
    | ok A =>
      simp only [mulT_sel, svdSolve_sel σ hs, bind_map_left, map_bind]
      rfl

theorem Fixed.qvectors_sel (kn : Knots K) (pts : DataPoints K d) (params : Parameters K) :
    Fixed.qvectors (d := e) kn (pts.map (sel σ)) params = List.map (sel σ) <$> Fixed.qvectors kn pts params := by
  simp only [Fixed.qvectors, DataPoints.segments_sel, map_bind]
  congr 1; funext n
  congr 1; funext m
  congr 1; funext m1
  rw [zeroCols_sel σ]
  refine forRangeIncl_map (List.map (sel σ)) fun Q g => ?_
  simp only [column_map, bind_map_left, map_bind, ← setIdx_map]
  rfl

theorem Fixed.constantTerms_sel (kn : Knots K) (pts Q : List (Pt K d)) (params : Parameters K) :
    Fixed.constantTerms (d := e) kn (pts.map (sel σ)) params (Q.map (sel σ)) =
      List.map (sel σ) <$> Fixed.constantTerms kn pts params Q := by
  simp only [Fixed.constantTerms, DataPoints.segments_sel, map_bind]
  congr 1; funext n
  congr 1; funext m
  congr 1; funext n1
  have := forRangeIncl_map (Prod.map (sel σ) (List.map (sel σ))) (lo := 1) (hi := n1)
    (s := (((fun _ => 0) : Pt K d), ([] : List (Pt K d)))) (g := fun st i => do
      let accum : Pt K d := fun r => st.1 r * 0
      let m1 ← usub m 1
      let accum ← forRangeIncl 1 m1 accum (fun accum g => do
        let u ← idx params.vector g
        let N ← kn.evaluate 0 i kn.degree u
        let q ← column Q g
        pure (accum + scale N q))
      pure (accum, st.2 ++ [accum])) (g' := fun st i => do
      let accum : Pt K e := fun r => st.1 r * 0
      let m1 ← usub m 1
      let accum ← forRangeIncl 1 m1 accum (fun accum g => do
        let u ← idx params.vector g
        let N ← kn.evaluate 0 i kn.degree u
        let q ← column (Q.map (sel σ)) g
        pure (accum + scale N q))
      pure (accum, st.2 ++ [accum])) (fun st i => by
      simp only [map_bind]
      congr 1; funext m1
      change (forRangeIncl 1 m1 (sel σ fun r => st.1 r * 0) _ >>= _) = _
      rw [forRangeIncl_map (sel σ) (g := fun accum g => do
        let u ← idx params.vector g
        let N ← kn.evaluate 0 i kn.degree u
        let q ← column Q g
        pure (accum + scale N q)), bind_map_left]
      · congr 1; funext a
        change _ = pure (Prod.map _ _ _)
        simp only [Prod.map, List.map_append]
        rfl
      · intro acc g
        simp only [column_map, bind_map_left, map_bind]
        rfl)
  exact (congrArg (fun x => x >>= fun y => pure y.2) this).trans (by rw [bind_map_left])

/-- **C132** the control points of a fit with fixed ends -/
theorem C132_fit_fixed (hs : Coordinatewise σ s s') (kn : Knots K) (pts : DataPoints K d) (params : Parameters K)
    (pen : Option (Penalization K)) :
    Fixed.fit s' kn (pts.map (sel σ)) params pen = Except.map (List.map (sel σ)) <$> Fixed.fit s kn pts params pen := by
  simp only [Fixed.fit, inputChecks_sel, map_bind]
  congr 1; funext r
  cases r with
  | error x => rfl
  | ok _ =>
    simp only [Fixed.coefficientMatrix, DataPoints.segments_sel, Fixed.qvectors_sel, Fixed.constantTerms_sel,
      bind_map_left, map_bind]
    congr 1; funext Q
    congr 1; funext Qm
    congr 1; funext N
    congr 1; funext n
    congr 1; funext n1
    congr 1; funext r
    cases r with
    | error x => rfl
    | ok A =>
      simp only [svdSolve_sel σ hs, bind_map_left, map_bind, column_map]
      congr 1; funext X
      congr 1; funext m
      congr 1; funext q0
      rw [zeroCols_sel σ, setIdx_map, bind_map_left]
      congr 1; funext P
      congr 1; funext qm
      rw [setIdx_map, bind_map_left]
      congr 1; funext P
      rw [forRangeIncl_map (List.map (sel σ)) (g := fun P i => do
        let x ← column X (i - 1)
        setIdx P i x), bind_map_left]
      · rfl
      · intro P i
        simp only [map_bind, setIdx_map]

/-- the same coordinates of the points a curve is generated from -/
def Generation.sel (σ : Fin e → Fin d) : Generation K d → Generation K e
  | .manual p pts g => .manual p (pts.sel σ) g
  | .interpolation p pts => .interpolation p (pts.map (BSpline.sel σ))
  | .leastSquaresFit p pts n m pen => .leastSquaresFit p (pts.map (BSpline.sel σ)) n m pen

/-- the knots are not computed from distances between the control points -/
def Generation.Separate : Generation K d → Prop
  | .manual _ _ (.method pm _) => pm = .equallySpaced
  | _ => True

/-- **C132** generated curves -/
theorem C132_generate (hs : Coordinatewise σ s s') (g : Generation K d) (hg : g.Separate) :
    generate s' (g.sel σ) = Except.map (Curve.sel σ) <$> generate s g := by
  cases g with
  | manual p pts g =>
    have hk : ∀ n data, generateManualKnots (d := e) p n (data.map (sel σ)) g = generateManualKnots p n data g := by
      intro n data
      cases g with
      | uniform => rfl
      | manual kn => rfl
      | method pm km =>
        obtain rfl : pm = .equallySpaced := hg
        simp only [generateManualKnots, generateParams_equal_sel]
    simp only [generate, Generation.sel, ControlPoints.sel_segments, map_bind]
    congr 1; funext n
    split
    · rfl
    simp only [ControlPoints.sel_matrix, bind_map_left, map_bind, hk]
    congr 1; funext data
    congr 1; funext kn
    cases kn with
    | error x => rfl
    | ok kn => exact Curve.sel_new σ kn pts
  | interpolation p pts =>
    simp only [generate, Generation.sel, generateParams_equal_sel, DataPoints.segments_sel, map_bind]
    congr 1; funext params
    congr 1; funext n
    congr 1; funext kn
    cases kn with
    | error x => rfl
    | ok kn =>
      simp only [C132_interpolate σ hs, bind_map_left, map_bind]
      congr 1; funext P
      exact Curve.sel_new σ kn (ControlPoints.new P)
  | leastSquaresFit p pts n m pen =>
    simp only [generate, Generation.sel, generateParams_equal_sel, map_bind]
    congr 1; funext params
    congr 1; funext kn
    cases kn with
    | error x => rfl
    | ok kn =>
      cases m <;> simp only [C132_fit_fixed σ hs, C132_fit_loose σ hs, bind_map_left, map_bind] <;>
      · congr 1; funext r
        cases r with
        | error x => rfl
        | ok P => exact Curve.sel_new σ kn (ControlPoints.new P)

/-- **C132** if coordinate `r` of all control points of two curves with the same knots agrees, coordinate `r` of all
their values and derivatives agrees, whatever the other coordinates contain -/
theorem C132_isolated (c c' : Curve K d) (r : Fin d) (h : c.sel (fun _ : Fin 1 => r) = c'.sel fun _ : Fin 1 => r) (u : K)
    (k : ℕ) : Except.map (fun v : Pt K d => v r) <$> c.evaluateDerivative u k =
      Except.map (fun v : Pt K d => v r) <$> c'.evaluateDerivative u k := by
  have h1 := C132_evaluate (fun _ : Fin 1 => r) c u k
  rw [h, C132_evaluate] at h1
  have h2 := congrArg (fun x => Except.map (fun v : Pt K 1 => v 0) <$> x) h1
  have h3 : ∀ x : Exec (Except (CurveError K) (Pt K d)),
      (Except.map (fun v : Pt K 1 => v 0) <$> Except.map (sel fun _ : Fin 1 => r) <$> x) =
        Except.map (fun v : Pt K d => v r) <$> x := by
    rintro (x | (x | x)) <;> rfl
  exact (h3 _).symm.trans (h2.symm.trans (h3 _))

end General

/-! ### Concrete cases -/

section Examples

open Ieee

/-- a NaN and an infinity in the second coordinate leave the first coordinate alone -/
example : (canon (K := Ieee binary64) 1 [0, 0, 1, 1] [![eq64 (1 / 10), nan], ![eq64 (3 / 10), inf false]]).evaluate
    (eq64 (1 / 2)) = .ok (.ok ![eq64 (1 / 5), nan]) := by decide +kernel

local instance coordSqrt : Sqrt ℚ := ⟨fun x => (Nat.sqrt x.num.toNat : ℚ) / (Nat.sqrt x.den : ℚ)⟩

/-- the exception: chord-length parameters of the points and of their first coordinates differ -/
example : generateParams (K := ℚ) (d := 2) [![0, 0], ![0, 1], ![1, 1]] .chordLength =
      .ok ⟨[0, 1 / 2, 1], 2⟩ ∧
    generateParams (K := ℚ) (d := 1) [![0], ![0], ![1]] .chordLength = .ok ⟨[0, 0, 1], 2⟩ := by
  decide +kernel

end Examples

end BSpline
