import Verif.Props.Coincide
import Verif.Props.Fit
import Verif.Props.Inexact
import Verif.Props.ConstructSharp

/-!
# How a call of `generate` ends: C117

For every request the theorems below say from the arguments alone whether `generate` panics, which
error it returns, or which degree and how many control points the curve has. Debug build.
-/

set_option linter.unusedSectionVars false

namespace BSpline

open Finset

/-- how a call which should produce a curve ends -/
inductive Ending (K : Type)
  | panic
  | error (e : CurveError K)
  | curve (degree points : ℕ)

/-- the call ends this way -/
def EndsIn {K : Type} {d : ℕ} (x : Exec (Except (CurveError K) (Curve K d))) : Ending K → Prop
  | .panic => ∃ e, x = .error e
  | .error e => x = .ok (.error e)
  | .curve p N => ∃ c, x = .ok (.ok c) ∧ c.degree = p ∧ c.points.count = .ok N

/-- **C117** A call ends in one way only, so the theorems below are exact. -/
theorem C117_unique {K : Type} {d : ℕ} {x : Exec (Except (CurveError K) (Curve K d))} {a b : Ending K}
    (ha : EndsIn x a) (hb : EndsIn x b) : a = b := by
  cases a <;> cases b <;> simp only [EndsIn] at ha hb
  · rfl
  · obtain ⟨e, rfl⟩ := ha; cases hb
  · obtain ⟨e, rfl⟩ := ha; obtain ⟨c, hb, -⟩ := hb; cases hb
  · obtain ⟨e, rfl⟩ := hb; cases ha
  · rw [ha] at hb; cases hb; rfl
  · obtain ⟨c, hb, -⟩ := hb; rw [ha] at hb; cases hb
  · obtain ⟨e, rfl⟩ := hb; obtain ⟨c, ha, -⟩ := ha; cases ha
  · obtain ⟨c, ha, -⟩ := ha; rw [ha] at hb; cases hb
  · obtain ⟨c, rfl, rfl, h1⟩ := ha
    obtain ⟨c', h, rfl, h2⟩ := hb
    cases h
    rw [h1] at h2; cases h2; rfl

section LawFree
variable {K : Type} [Add K] [Sub K] [Mul K] [Div K] [Neg K] [Zero K] [One K] [NatCast K] [IntCast K] [Cmp K]
variable {d : ℕ}

theorem canon_count (p : ℕ) (U : List K) (P : List (Pt K d)) :
    (canon p U P).points.count = .ok P.length := by
  simp [ControlPoints.count, ControlPoints.countDerivative, canon, canonPts, idx, ok_bind, pure_ok]

theorem mkCurve_zero {n : ℕ} {U : List K} {P : List (Pt K d)} (hP : P.length = n + 1) :
    ∃ c, mkCurve 0 U P = .ok (.ok c) ∧ c.degree = 0 ∧ c.points.count = .ok P.length := by
  rw [mkCurve, Knots.new_ok (by omega), ok_bind, Curve.new]
  have hseg : (ControlPoints.new P).segments = .ok n := by
    simp only [ControlPoints.segments, ControlPoints.count, ControlPoints.countDerivative,
      ControlPoints.new, idx, List.getElem?_cons_zero, ok_bind, pure_ok]
    rw [usub_ok (by omega)]; congr 1; omega
  rw [hseg, ok_bind]
  rw [if_neg (by simp [canonKnots, Knots.degree])]
  refine ⟨⟨canonKnots 0 U, ⟨[P], 0⟩⟩, ?_, rfl, rfl⟩
  have h1 : (canonKnots 0 U).derive = .ok (canonKnots 0 U) :=
    Knots.derive_ok (kn := canonKnots 0 U) (canonKnots_take 0 U) (by simp [canonKnots])
  have h2 : (ControlPoints.new P).derive (canonKnots 0 U) = .ok ⟨[P], 0⟩ := by
    rw [ControlPoints.derive, hseg, ok_bind]
    rfl
  rw [Curve.calculateDerivatives, h1, ok_bind, h2, ok_bind]
  rfl

variable [Trunc K] [Sqrt K]

/-- **C117** Manual generation with given knots. The degree argument only takes part in the first
check. In any arithmetic. -/
theorem C117_manual_knots (solver : Solver K d) {p q : ℕ} {P : List (Pt K d)} {U : List K}
    {kn : Knots K} (hk : Knots.new q U = .ok kn) :
    EndsIn (generate solver (.manual p (ControlPoints.new P) (.manual kn)))
      (if P.length = 0 then .panic
       else if P.length - 1 < p then .error (.degreeAndSegmentsMismatch p (P.length - 1))
       else if P.length - 1 < q then .error (.degreeAndSegmentsMismatch q (P.length - 1))
       else if 1 ≤ q ∧ U.length < P.length + q then .panic
       else .curve q P.length) := by
  by_cases h0 : P.length = 0
  · rw [if_pos h0]
    obtain rfl := List.eq_nil_of_length_eq_zero h0
    exact ⟨_, C60_no_points solver p _⟩
  rw [if_neg h0]
  obtain ⟨n, hn⟩ : ∃ n, P.length = n + 1 := ⟨P.length - 1, by omega⟩
  rw [hn, Nat.add_sub_cancel]
  by_cases h1 : n < p
  · rw [if_pos h1]
    exact C60_too_few_points solver hn h1 _
  rw [if_neg h1, C60_manual_knots solver hn (by omega) hk]
  have h2q := (knots_new_inv hk).1
  by_cases h2 : n < q
  · rw [if_pos h2]
    exact (C14_new_error_iff h2q hn).1 h2
  rw [if_neg h2]
  by_cases h3 : 1 ≤ q ∧ U.length < n + 1 + q
  · rw [if_pos h3]
    exact C14_too_few_knots h3.1 (by omega) hn (by omega)
  rw [if_neg h3]
  rcases Nat.eq_zero_or_pos q with rfl | hq
  · obtain ⟨c, h4, h5, h6⟩ := mkCurve_zero (U := U) hn
    exact ⟨c, h4, h5, by rw [h6, hn]⟩
  · exact ⟨_, mkCurve_ok hn (by omega) (by omega), rfl, by rw [canon_count, hn]⟩

end LawFree

variable {K : Type} [Field K] [LinearOrder K] [IsStrictOrderedRing K] [Trunc K] [LawfulTrunc K]
variable [Sqrt K] [LawfulSqrt K] {d : ℕ}

/-- **C117** Manual generation with uniform knots. -/
theorem C117_manual_uniform (solver : Solver K d) (p : ℕ) (P : List (Pt K d)) :
    EndsIn (generate solver (.manual p (ControlPoints.new P) .uniform))
      (if P.length = 0 then .panic
       else if P.length - 1 < p then .error (.degreeAndSegmentsMismatch p (P.length - 1))
       else if p = 0 then .error (.degreeTooLow 0 0)
       else .curve p P.length) := by
  by_cases h0 : P.length = 0
  · rw [if_pos h0]
    obtain rfl := List.eq_nil_of_length_eq_zero h0
    exact ⟨_, C60_no_points solver p _⟩
  rw [if_neg h0]
  obtain ⟨n, hn⟩ : ∃ n, P.length = n + 1 := ⟨P.length - 1, by omega⟩
  rw [hn, Nat.add_sub_cancel]
  by_cases h1 : n < p
  · rw [if_pos h1]
    exact C60_too_few_points solver hn h1 _
  rw [if_neg h1]
  by_cases h2 : p = 0
  · rw [if_pos h2]; subst h2
    exact C60_degree_zero_uniform solver hn
  rw [if_neg h2]
  obtain ⟨c, U, h3, h4, -⟩ := C60_uniform solver (by omega : 1 ≤ p) (by omega : p ≤ n) hn
  obtain ⟨h5, hU, -⟩ := h4
  rw [Built, mkCurve_ok hn (by omega) (by rw [hU.length]; omega)] at h5
  cases h5
  exact ⟨_, h3, rfl, by rw [canon_count, hn]⟩

/-- the parameters for `generate`, unless the debug assertion fails -/
theorem generateParams_some {P : List (Pt K d)} {n : ℕ} (hP : P.length = n + 1) (pm : ParamMethod)
    (h : ¬ (pm = .centripetal ∧
      ∑ h ∈ range n, Sqrt.sqrt (dist2 (P.getD h 0) (P.getD (h + 1) 0)) < 1 / 2 ^ 26)) :
    ∃ ps : Parameters K, generateParams P pm = .ok ps ∧ ps.vector.length = n + 1 := by
  have hseg : DataPoints.segments P = .ok n := by
    rw [DataPoints.segments, usub_ok (by omega)]; congr 1; omega
  cases pm with
  | equallySpaced =>
    obtain ⟨ps, h1, -, h2, -⟩ := equallySpaced_shape (K := K) n
    refine ⟨ps, ?_, h2⟩
    rw [generateParams, hseg, ok_bind, h1]
  | chordLength =>
    rw [generateParams, chordLength, hseg, ok_bind, chordSum_ok hP, ok_bind, cumulate_ok hP, ok_bind]
    exact ⟨_, rfl, by simp⟩
  | centripetal =>
    obtain ⟨ps, h1, -, h2⟩ := C39_centripetal_partial hP (not_lt.mp fun hl => h ⟨rfl, hl⟩)
    exact ⟨ps, h1, h2.length⟩

theorem generateKnots_zero (n : ℕ) (ps : Parameters K) (km : KnotMethod) :
    generateKnots 0 n ps km = .ok (.error (.degreeTooLow 0 0)) := by
  cases km with
  | uniform => exact (C38_uniform 0 n).1 rfl
  | averaging => exact (C38_averaging 0 n ps).1 rfl
  | deBoor => exact (C38_de_boor_errors 0 n ps).1 rfl

theorem generateKnots_some {p n : ℕ} (h1 : 1 ≤ p) (h2 : p ≤ n) {ps : Parameters K}
    (hl : ps.vector.length = n + 1) (km : KnotMethod) :
    ∃ kn U, generateKnots p n ps km = .ok (.ok kn) ∧ Knots.new p U = .ok kn ∧ U.length = n + p + 2 := by
  cases km with
  | uniform =>
    obtain ⟨kn, U, a, -, -, -, b, c⟩ := (C38_uniform (K := K) p n).2.2 h1 h2
    exact ⟨kn, U, a, c, b⟩
  | averaging =>
    obtain ⟨kn, U, a, -, -, -, b, c⟩ := (C38_averaging p n ps).2.2 h1 h2 (by omega)
    exact ⟨kn, U, a, c, b⟩
  | deBoor =>
    obtain ⟨kn, U, a, -, -, -, b, c⟩ := C38_de_boor (K := K) h1 h2 (params := ps) (by omega)
    exact ⟨kn, U, a, c, b⟩

/-- **C117** Manual generation with a parameter and a knot method. The one panic besides that for
an empty list is the debug assertion of the centripetal method, and it comes before the check for
the degree zero. -/
theorem C117_manual_method (solver : Solver K d) (p : ℕ) (P : List (Pt K d)) (pm : ParamMethod)
    (km : KnotMethod) :
    EndsIn (generate solver (.manual p (ControlPoints.new P) (.method pm km)))
      (if P.length = 0 then .panic
       else if P.length - 1 < p then .error (.degreeAndSegmentsMismatch p (P.length - 1))
       else if pm = .centripetal ∧ ∑ h ∈ range (P.length - 1),
          Sqrt.sqrt (dist2 (P.getD h 0) (P.getD (h + 1) 0)) < 1 / 2 ^ 26 then .panic
       else if p = 0 then .error (.degreeTooLow 0 0)
       else .curve p P.length) := by
  by_cases h0 : P.length = 0
  · rw [if_pos h0]
    obtain rfl := List.eq_nil_of_length_eq_zero h0
    exact ⟨_, C60_no_points solver p _⟩
  rw [if_neg h0]
  obtain ⟨n, hn⟩ : ∃ n, P.length = n + 1 := ⟨P.length - 1, by omega⟩
  rw [hn, Nat.add_sub_cancel]
  by_cases h1 : n < p
  · rw [if_pos h1]
    exact C60_too_few_points solver hn h1 _
  rw [if_neg h1]
  have hgen : generate solver (.manual p (ControlPoints.new P) (.method pm km)) =
      ((generateParams P pm).bind fun ps => (generateKnots p n ps km).bind fun r => match r with
        | .error e => .ok (.error e)
        | .ok kn => Curve.new kn (ControlPoints.new P)) := by
    rw [generate]
    simp only [segments_new hn, ok_bind, matrix_new, generateManualKnots]
    rw [if_neg h1]
    show Except.bind (Except.bind _ _) _ = _
    cases generateParams P pm <;> rfl
  rw [hgen]
  by_cases h2 : pm = .centripetal ∧
      ∑ h ∈ range n, Sqrt.sqrt (dist2 (P.getD h 0) (P.getD (h + 1) 0)) < 1 / 2 ^ 26
  · rw [if_pos h2]
    obtain ⟨rfl, h2⟩ := h2
    refine ⟨.debugAssert, ?_⟩
    rw [generateParams, C39_centripetal_tiny_panics hn h2]; rfl
  rw [if_neg h2]
  obtain ⟨ps, h3, h4⟩ := generateParams_some hn pm h2
  rw [h3]
  by_cases h5 : p = 0
  · rw [if_pos h5]; subst h5
    show Except.bind (generateKnots 0 n ps km) _ = _
    rw [generateKnots_zero]; rfl
  rw [if_neg h5]
  obtain ⟨kn, U, h6, h7, h8⟩ := generateKnots_some (by omega : 1 ≤ p) (by omega : p ≤ n) h4 km
  have h9 := mkCurve_ok (K := K) (p := p) (U := U) hn (by omega) (by omega)
  rw [mkCurve, h7, ok_bind] at h9
  refine ⟨canon p U P, ?_, rfl, by rw [canon_count, hn]⟩
  show Except.bind (generateKnots p n ps km) _ = _
  rw [h6]
  exact h9

/-- **C117** Interpolation. -/
theorem C117_interpolation (solver : Solver K d) (p : ℕ) (pts : DataPoints K d) :
    EndsIn (generate solver (.interpolation p pts))
      (if List.length pts = 0 then .panic
       else if p = 0 then .error (.degreeTooLow 0 0)
       else if List.length pts - 1 < p then .error (.degreeAndSegmentsMismatch p (List.length pts - 1))
       else .curve p (List.length pts)) := by
  by_cases h0 : List.length pts = 0
  · rw [if_pos h0]
    obtain rfl := List.eq_nil_of_length_eq_zero h0
    exact ⟨.underflow, rfl⟩
  rw [if_neg h0]
  obtain ⟨m, hm⟩ : ∃ m, List.length pts = m + 1 := ⟨List.length pts - 1, by omega⟩
  rw [hm, Nat.add_sub_cancel]
  have hseg : DataPoints.segments pts = .ok m := by
    rw [DataPoints.segments, usub_ok (by omega)]; congr 1; omega
  obtain ⟨ps, h3, -⟩ := equallySpaced_shape (K := K) m
  by_cases h1 : p = 0
  · rw [if_pos h1]; subst h1
    rw [EndsIn, generate]
    simp only [generateParams, hseg, ok_bind, h3, generateKnots]
    rw [(C38_uniform 0 m).1 rfl]
    rfl
  rw [if_neg h1]
  by_cases h2 : m < p
  · rw [if_pos h2, EndsIn, generate]
    simp only [generateParams, hseg, ok_bind, h3, generateKnots]
    rw [(C38_uniform p m).2.1 (by omega) h2]
    rfl
  rw [if_neg h2]
  obtain ⟨c, U, P, A, h4, h5, -⟩ := C98_interpolation solver (by omega) (by omega : p ≤ m) hm
  obtain ⟨h6, hU, hP⟩ := h5
  rw [Built, mkCurve_ok hP (by omega) (by rw [hU.length]; omega)] at h6
  cases h6
  exact ⟨_, h4, rfl, by rw [canon_count, hP]⟩

/-- **C117** Least-squares fits, where `fitErrorOf` lists the documented errors of a fit. With loose
ends only an empty list of data panics. With fixed ends there are two more cases: one segment, and
an order of the penalised differences of one less than the number of segments. -/
theorem C117_fit (solver : Solver K d) (p : ℕ) (pts : DataPoints K d) (n : ℕ) (method : FitMethod)
    (pen : Option (Penalization K)) :
    EndsIn (generate solver (.leastSquaresFit p pts n method pen))
      (if List.length pts = 0 then .panic
       else if p = 0 then .error (.degreeTooLow 0 0)
       else if n < p then .error (.degreeAndSegmentsMismatch p n)
       else match fitErrorOf n (List.length pts - 1) (List.length pts - 1) p pen true with
         | some e => .error (.fitError e)
         | none => if method = .fixedEnds ∧ (n = 1 ∨ (pen.map (·.kappa + 1)) = some n) then .panic
                   else .curve p (n + 1)) := by
  by_cases h0 : List.length pts = 0
  · rw [if_pos h0]
    obtain rfl := List.eq_nil_of_length_eq_zero h0
    exact ⟨.underflow, rfl⟩
  rw [if_neg h0]
  obtain ⟨m, hm⟩ : ∃ m, List.length pts = m + 1 := ⟨List.length pts - 1, by omega⟩
  rw [hm, Nat.add_sub_cancel]
  by_cases h1 : p = 0
  · rw [if_pos h1]
    exact (C44_generate_knots_error hm solver method pen).1 h1
  rw [if_neg h1]
  by_cases h2 : n < p
  · rw [if_pos h2]
    exact (C44_generate_knots_error hm solver method pen).2 (by omega) h2
  rw [if_neg h2]
  have fin : ∀ {c : Curve K d} {U : List K} {P : List (Pt K d)}, ClampedKnots 0 1 p n U →
      P.length = n + 1 → Built c p U P → c.degree = p ∧ c.points.count = .ok (n + 1) := by
    intro c U P hU hP hc
    rw [Built, mkCurve_ok hP (by omega) (by rw [hU.length]; omega)] at hc
    cases hc
    exact ⟨rfl, by rw [canon_count, hP]⟩
  cases method with
  | looseEnds =>
    obtain ⟨h3, h4⟩ := C44_generate_loose (by omega) (by omega : p ≤ n) hm solver pen
    cases he : fitErrorOf n m m p pen true with
    | some e => exact h3 e he
    | none =>
      obtain ⟨c, U, P, hU, hP, hc, h5⟩ := h4 he
      dsimp only
      rw [if_neg (by simp)]
      exact ⟨c, h5, fin hU hP hc⟩
  | fixedEnds =>
    obtain ⟨h3, h4⟩ := C44_generate_fixed_partial (by omega) (by omega : p ≤ n) hm solver pen
    cases he : fitErrorOf n m m p pen true with
    | some e => exact h3 e he
    | none =>
      dsimp only
      by_cases hbad : n = 1 ∨ (pen.map (·.kappa + 1)) = some n
      · rw [if_pos ⟨rfl, hbad⟩]
        obtain ⟨ps, h5, h6, h7, -⟩ := equallySpaced_shape (K := K) m
        obtain ⟨e, h8⟩ := C44_fixed_panics (genKnots_new (by omega : p ≤ n) _) (genU_length p n _)
          (by omega) hm (by rw [h7, h6]) (fun _ => uniform_isUniform (K := K) (by omega) (by omega)) solver
          pen (by rw [h6]; exact he) (hbad.imp_right fun h => by
            cases pen with
            | none => cases h
            | some q => exact ⟨q, rfl, Option.some.inj h⟩)
        refine ⟨e, ?_⟩
        rw [generate_fit (by omega) (by omega) hm _ _ _ h5]
        simp only [runFit]
        rw [h8]; rfl
      · rw [if_neg fun h => hbad h.2]
        have hk : ∀ q ∈ pen, q.kappa ≤ n - 1 := by
          intro q hq
          cases hq
          by_contra hc
          simp only [fitErrorOf] at he
          split at he
          · cases he
          split at he
          · cases he
          split at he
          · cases he
          rw [if_pos (by omega)] at he
          cases he
        obtain ⟨c, U, P, hU, hP, hc, h5⟩ := h4 he (by omega) (fun q hq => by
          have := hk q hq
          cases hq
          have : q.kappa + 1 ≠ n := fun h => hbad (Or.inr (by simp [h]))
          omega)
        exact ⟨c, h5, fin hU hP hc⟩

/-- non-vacuity: each of the endings of a fit with fixed ends occurs -/
example (solver : Solver ℝ 1) :
    EndsIn (generate solver (.leastSquaresFit 1 [![0], ![1], ![5]] 1 .fixedEnds none)) .panic ∧
    EndsIn (generate solver (.leastSquaresFit 1 [![0], ![1], ![5]] 2 .fixedEnds (some ⟨1, 1⟩))) .panic ∧
    EndsIn (generate solver (.leastSquaresFit 1 [![0], ![1], ![5]] 2 .fixedEnds (some ⟨1, 0⟩)))
      (.curve 1 3) ∧
    EndsIn (generate solver (.leastSquaresFit 3 [![0], ![1], ![5]] 2 .fixedEnds none))
      (.error (.degreeAndSegmentsMismatch 3 2)) := by
  refine ⟨?_, ?_, ?_, ?_⟩
  · simpa [fitErrorOf] using C117_fit solver 1 [![0], ![1], ![5]] 1 .fixedEnds none
  · simpa [fitErrorOf, Cmp.lt, not_lt_of_ge (zero_le_one (α := ℝ))] using C117_fit solver 1 [![0], ![1], ![5]] 2 .fixedEnds (some ⟨1, 1⟩)
  · simpa [fitErrorOf, Cmp.lt, not_lt_of_ge (zero_le_one (α := ℝ))] using C117_fit solver 1 [![0], ![1], ![5]] 2 .fixedEnds (some ⟨1, 0⟩)
  · simpa [fitErrorOf] using C117_fit solver 3 [![0], ![1], ![5]] 2 .fixedEnds none

/-- non-vacuity: equal points make the centripetal method panic, even for the degree zero -/
example (solver : Solver ℝ 1) (km : KnotMethod) :
    EndsIn (generate solver (.manual 0 (ControlPoints.new [![2], ![2]]) (.method .centripetal km))) .panic ∧
    EndsIn (generate solver (.manual 1 (ControlPoints.new [![2], ![2]]) (.method .chordLength km)))
      (.curve 1 2) := by
  constructor
  · have h := C117_manual_method solver 0 [![2], ![2]] .centripetal km
    rw [if_neg (by simp), if_neg (by simp), if_pos ⟨rfl, by
      simp [dist2, Sqrt.sqrt]⟩] at h
    exact h
  · simpa using C117_manual_method solver 1 [![2], ![2]] .chordLength km

/-- non-vacuity: knots of the degree 2 under the degree argument 1, three of them too few -/
example (solver : Solver ℝ 1) {kn : Knots ℝ} (hk : Knots.new 2 [0, 0, 1, 1] = .ok kn) :
    EndsIn (generate solver (.manual 1 (ControlPoints.new [![0], ![1], ![5]]) (.manual kn))) .panic := by
  simpa using C117_manual_knots solver (p := 1) (P := [![0], ![1], ![5]]) hk

example : ∃ kn : Knots ℝ, Knots.new 2 [0, 0, 1, 1] = .ok kn := ⟨_, Knots.new_ok (by simp)⟩

end BSpline
