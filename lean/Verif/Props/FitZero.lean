import Verif.Props.Fit

/-!
# Least-squares fits of degree zero: C44

`generate` refuses the degree zero, but `fit` can be called with knots of degree zero built by hand.
-/

set_option linter.unusedSectionVars false

namespace BSpline

section LawFree
variable {K : Type} [Add K] [Sub K] [Mul K] [Div K] [Neg K] [Zero K] [One K] [NatCast K]
  [IntCast K] [Cmp K] {d : ℕ}

/-- the checks for the degree zero -/
theorem inputChecks_zero {n m : ℕ} {U : List K} {pts : DataPoints K d} {params : Parameters K}
    (hU : U.length = n + 2) (hm : List.length pts = m + 1) (pen : Option (Penalization K)) :
    inputChecks (canonKnots 0 U) pts params pen = (if n > m then
        .ok (.error (.requestedPolynomialSegmentAndDataSegementMismatch n m))
      else if m ≠ params.segments then .ok (.error (.dataSegmentsAndParameterSegmentsMismatch m params.segments))
      else match pen with
        | none => .ok (.ok ())
        | some q => if n = 0 then .error .underflow else if q.kappa > n - 1 then
            .ok (.error (.requestedPolynomialSegmentAndPenalizationKappaMismatch n q.kappa))
          else .ok (.ok ())) := by
  rw [inputChecks, canonKnots_segments (n := n) hU, ok_bind, DataPoints.segments, usub_ok (by omega), ok_bind, hm,
    Nat.add_sub_cancel]
  simp only [canonKnots_degree (p := 0)]
  by_cases h1 : m < n
  · rw [if_pos h1, if_pos h1]; rfl
  rw [if_neg h1, if_neg h1]
  by_cases h2 : m ≠ params.segments
  · rw [if_pos h2, if_pos h2]; rfl
  rw [if_neg h2, if_neg h2, if_neg (Nat.not_lt_zero n)]
  cases pen with
  | none => rfl
  | some q =>
    dsimp only
    by_cases h3 : n = 0
    · subst h3; rfl
    · rw [if_neg h3, usub_ok (by omega), ok_bind]
      split <;> rfl

/-- **C44**, loose ends, degree zero: the call panics if and only if the counts are accepted and there is a
penalization which meets a single segment or an admissible `kappa` with positive `lambda`. In all other cases
it returns the documented error or a result with `n + 1` control points. For all scalars and solvers. -/
theorem C44_loose_degree_zero {n m : ℕ} {U : List K} {kn : Knots K} {pts : DataPoints K d}
    {params : Parameters K} (hk : Knots.new 0 U = .ok kn) (hU : U.length = n + 2)
    (hm : List.length pts = m + 1) (hv : params.vector.length = params.segments + 1)
    (solver : Solver K d) (pen : Option (Penalization K)) :
    let Bad := n ≤ m ∧ m = params.segments ∧ ∃ q ∈ pen, n = 0 ∨
      q.kappa ≤ n - 1 ∧ Cmp.lt q.lambda 0 = false ∧ Cmp.lt 0 q.lambda = true
    ((∃ e, Loose.fit solver kn pts params pen = .error e) ↔ Bad) ∧
    (¬ Bad → (∀ e, fitErrorOf n m params.segments 0 pen true = some e →
        Loose.fit solver kn pts params pen = .ok (.error e)) ∧
      (fitErrorOf n m params.segments 0 pen true = none →
        ∃ P, Loose.fit solver kn pts params pen = .ok (.ok P) ∧ P.length = n + 1)) := by
  intro Bad
  obtain ⟨-, rfl⟩ := knots_new_inv hk
  suffices H : (Bad → ∃ e, Loose.fit solver (canonKnots 0 U) pts params pen = .error e) ∧
      (¬ Bad → Loose.fit solver (canonKnots 0 U) pts params pen =
        .ok (match fitErrorOf n m params.segments 0 pen true with
          | some e => .error e
          | none => .ok (solver.run (mat (n + 1) (n + 1) (normE (m + 1)
              (fun g i => nb 0 n U i (fn params.vector g)) (fun κ => n + 1 - κ) pen))
            ((List.range (n + 1)).map (rhsE (m + 1) (fun g i => nb 0 n U i (fn params.vector g))
              (fn pts)))))) by
    obtain ⟨H1, H2⟩ := H
    refine ⟨⟨fun ⟨e, he⟩ => ?_, H1⟩, fun hb => ?_⟩
    · by_contra hb
      rw [H2 hb] at he
      simp at he
    · rw [H2 hb]
      constructor
      · intro e he; rw [he]
      · intro he; rw [he]
        exact ⟨_, rfl, by rw [solver.shape, ncols_mat _ (by omega)]⟩
  rw [Loose.fit, inputChecks_zero hU hm]
  unfold fitErrorOf
  by_cases h1 : n > m
  · rw [if_pos h1, if_pos h1]
    exact ⟨fun hb => absurd hb.1 (by omega), fun _ => rfl⟩
  rw [if_neg h1, if_neg h1]
  by_cases h2 : m ≠ params.segments
  · rw [if_pos h2, if_pos h2]
    exact ⟨fun hb => absurd hb.2.1 h2, fun _ => rfl⟩
  rw [if_neg h2, if_neg h2, if_neg (Nat.not_lt_zero n)]
  rw [not_not] at h2
  have hcoef := loose_coef_ok (p := 0) hU (Nat.zero_le n) hm (params := params) (by omega)
  cases pen with
  | none =>
    dsimp only
    refine ⟨fun hb => ?_, fun _ => ?_⟩
    · obtain ⟨q, hq, -⟩ := hb.2.2
      simp at hq
    · rw [ok_bind]
      dsimp only
      rw [hcoef, ok_bind, canonKnots_segments (n := n) hU, ok_bind]
      unfold computeSvdMatrix
      dsimp only
      rw [gram_mat, pure_ok, ok_bind]
      dsimp only
      rw [mulT_mat _ hm, svdSolve_ok _ (by omega) (by omega) (by simp), ok_bind]
      rfl
  | some q =>
    dsimp only
    by_cases h3 : n = 0
    · rw [if_pos h3]
      exact ⟨fun _ => ⟨_, rfl⟩, fun hb => absurd ⟨by omega, h2, q, rfl, Or.inl h3⟩ hb⟩
    rw [if_neg h3]
    by_cases h4 : q.kappa > n - 1
    · rw [if_pos h4, if_pos h4]
      refine ⟨fun hb => ?_, fun _ => rfl⟩
      obtain ⟨r, hr, h⟩ := hb.2.2
      obtain rfl : q = r := by simpa using hr
      omega
    rw [if_neg h4, if_neg h4, ok_bind]
    dsimp only
    rw [hcoef, ok_bind, canonKnots_segments (n := n) hU, ok_bind]
    unfold computeSvdMatrix
    dsimp only
    by_cases h5 : Cmp.lt q.lambda 0 = true
    · rw [if_pos h5, if_pos h5]
      refine ⟨fun hb => ?_, fun _ => rfl⟩
      obtain ⟨r, hr, h⟩ := hb.2.2
      obtain rfl : q = r := by simpa using hr
      rcases h with h | ⟨-, h, -⟩
      · omega
      · rw [h5] at h; cases h
    rw [if_neg h5, if_neg h5]
    by_cases h6 : Cmp.lt 0 q.lambda = true
    · refine ⟨fun _ => ?_, fun hb => absurd ⟨by omega, h2, q, rfl, Or.inr ⟨by omega, by simpa using h5, h6⟩⟩ hb⟩
      rw [if_pos h6, isUniform, canonKnots_vector, ok_bind, canonKnots_segments (n := n) hU, ok_bind, canonKnots_degree]
      exact ⟨_, rfl⟩
    · refine ⟨fun hb => ?_, fun _ => ?_⟩
      · obtain ⟨r, hr, h⟩ := hb.2.2
        obtain rfl : q = r := by simpa using hr
        rcases h with h | ⟨-, -, h⟩
        · omega
        · exact absurd h h6
      · rw [if_neg h6, if_neg (by simp)]
        simp only [pure_ok, ok_bind]
        rw [if_neg (by simp), loose_fd_ok (p := 0) hU (by omega), ok_bind, gram_mat, gram_mat]
        have : (mat (n + 1) (n + 1) (gramE (n + 1 - q.kappa)
            (fun i j => ((differenceOperator q.kappa i j : ℤ) : K)))).map (List.map (fun x => q.lambda * x)) =
            mat (n + 1) (n + 1) (fun i j => q.lambda * gramE (n + 1 - q.kappa)
              (fun i j => ((differenceOperator q.kappa i j : ℤ) : K)) i j) := by
          simp [mat]
        rw [this, addRows_mat, ok_bind]
        dsimp only
        rw [mulT_mat _ hm, svdSolve_ok _ (by omega) (by omega) (by simp), ok_bind]
        rfl

/-- **C44**, fixed ends, degree zero: the call panics if and only if the counts are accepted and either there is
no segment, or the penalization is accepted and there is a single segment, `kappa = n - 1` or a positive `lambda`.
In all other cases it returns the documented error or a result with `n + 1` control points. -/
theorem C44_fixed_degree_zero {n m : ℕ} {U : List K} {kn : Knots K} {pts : DataPoints K d}
    {params : Parameters K} (hk : Knots.new 0 U = .ok kn) (hU : U.length = n + 2)
    (hm : List.length pts = m + 1) (hv : params.vector.length = params.segments + 1)
    (solver : Solver K d) (pen : Option (Penalization K)) :
    let Bad := n ≤ m ∧ m = params.segments ∧ (n = 0 ∨
      (∀ q ∈ pen, q.kappa ≤ n - 1 ∧ Cmp.lt q.lambda 0 = false) ∧
      (n = 1 ∨ ∃ q ∈ pen, q.kappa + 1 = n ∨ Cmp.lt 0 q.lambda = true))
    ((∃ e, Fixed.fit solver kn pts params pen = .error e) ↔ Bad) ∧
    (¬ Bad → (∀ e, fitErrorOf n m params.segments 0 pen true = some e →
        Fixed.fit solver kn pts params pen = .ok (.error e)) ∧
      (fitErrorOf n m params.segments 0 pen true = none →
        ∃ P, Fixed.fit solver kn pts params pen = .ok (.ok P) ∧ P.length = n + 1)) := by
  intro Bad
  obtain ⟨-, rfl⟩ := knots_new_inv hk
  suffices H : (Bad → ∃ e, Fixed.fit solver (canonKnots 0 U) pts params pen = .error e) ∧
      (¬ Bad → Fixed.fit solver (canonKnots 0 U) pts params pen =
        .ok (match fitErrorOf n m params.segments 0 pen true with
          | some e => .error e
          | none => .ok ((List.range (n + 1)).map (fixP n m pts (solver.run
            (mat (n - 1) (n - 1) (normE (m - 1)
              (fun g i => nb 0 n U (i + 1) (fn params.vector (g + 1))) (fun κ => n - 1 - κ) pen))
            ((List.range (n - 1)).map (fun i => fixAcc 0 n m U pts params.vector (i + 1)))))))) by
    obtain ⟨H1, H2⟩ := H
    refine ⟨⟨fun ⟨e, he⟩ => ?_, H1⟩, fun hb => ?_⟩
    · by_contra hb
      rw [H2 hb] at he
      simp at he
    · rw [H2 hb]
      constructor
      · intro e he; rw [he]
      · intro he; rw [he]
        exact ⟨_, rfl, by simp⟩
  rw [Fixed.fit, inputChecks_zero hU hm]
  unfold fitErrorOf
  by_cases h1 : n > m
  · rw [if_pos h1, if_pos h1]
    exact ⟨fun hb => absurd hb.1 (by omega), fun _ => rfl⟩
  rw [if_neg h1, if_neg h1]
  by_cases h2 : m ≠ params.segments
  · rw [if_pos h2, if_pos h2]
    exact ⟨fun hb => absurd hb.2.1 h2, fun _ => rfl⟩
  rw [if_neg h2, if_neg h2, if_neg (Nat.not_lt_zero n)]
  rw [not_not] at h2
  by_cases h3 : n = 0
  · subst h3
    refine ⟨fun _ => ?_, fun hb => absurd ⟨by omega, h2, Or.inl rfl⟩ hb⟩
    cases pen with
    | some q => exact ⟨_, rfl⟩
    | none =>
      dsimp only
      rw [ok_bind]
      dsimp only
      rcases Nat.eq_zero_or_pos m with h4 | h4
      · refine ⟨.underflow, ?_⟩
        rw [Fixed.qvectors, canonKnots_segments (n := 0) hU, ok_bind, DataPoints.segments, usub_ok (by omega),
          ok_bind, hm, h4]
        rfl
      · refine ⟨.underflow, ?_⟩
        rw [qvectors_ok (p := 0) (n := 0) hU (Nat.le_refl 0) hm h4 (by omega), ok_bind, Fixed.constantTerms,
          canonKnots_segments (n := 0) hU, ok_bind, DataPoints.segments, usub_ok (by omega), ok_bind]
        rfl
  have hall : ∀ {f : List (Pt K d) → List (Pt K d) → List (List K) → ℕ → Exec (Except (FitError K) (List (Pt K d)))},
      (do
        let Q ← Fixed.qvectors (canonKnots 0 U) pts params
        let Qmat ← Fixed.constantTerms (canonKnots 0 U) pts params Q
        let N ← Fixed.coefficientMatrix (canonKnots 0 U) pts params
        let n ← (canonKnots 0 U).segments
        f Q Qmat N n) = f ((List.range (m + 1)).map
          (fun g => if 1 ≤ g ∧ g < m then fixQ 0 n m U pts params.vector g else fun _ => 0))
          ((List.range (n - 1)).map (fun i => fixAcc 0 n m U pts params.vector (i + 1)))
          (mat (m - 1) (n - 1) (fun g i => nb 0 n U (i + 1) (fn params.vector (g + 1)))) n := by
    intro f
    rw [qvectors_ok (p := 0) (n := n) hU (Nat.zero_le n) hm (by omega) (by omega), ok_bind,
      constantTerms_ok (p := 0) (n := n) hU (Nat.zero_le n) hm (by omega) (by omega) (by omega), ok_bind,
      fixed_coef_ok (p := 0) (n := n) hU (Nat.zero_le n) hm (by omega) (by omega) (by omega), ok_bind,
      canonKnots_segments (n := n) hU, ok_bind]
  cases pen with
  | none =>
    dsimp only
    rw [ok_bind]
    dsimp only
    rw [hall, usub_ok (by omega), ok_bind]
    unfold computeSvdMatrix
    dsimp only
    rw [gram_mat, pure_ok, ok_bind]
    dsimp only
    by_cases h4 : n = 1
    · subst h4
      exact ⟨fun _ => ⟨.emptySvd, rfl⟩,
        fun hb => absurd ⟨by omega, h2, Or.inr ⟨by simp, Or.inl rfl⟩⟩ hb⟩
    · refine ⟨fun hb => ?_, fun _ => ?_⟩
      · rcases hb.2.2 with h | ⟨-, h | ⟨q, hq, -⟩⟩
        · exact absurd h h3
        · exact absurd h h4
        · simp at hq
      · rw [svdSolve_ok _ (by omega) (by omega) (by simp), ok_bind, DataPoints.segments,
          usub_ok (by omega), ok_bind, hm, Nat.add_sub_cancel]
        exact fixed_assemble (by omega) hm (by rw [solver.shape, ncols_mat _ (by omega)])
  | some q =>
    dsimp only
    rw [if_neg h3]
    by_cases h4 : q.kappa > n - 1
    · rw [if_pos h4, if_pos h4]
      refine ⟨fun hb => ?_, fun _ => rfl⟩
      rcases hb.2.2 with h | ⟨h, -⟩
      · exact absurd h h3
      · have := (h q rfl).1; omega
    rw [if_neg h4, if_neg h4, ok_bind]
    dsimp only
    rw [hall, usub_ok (by omega), ok_bind]
    unfold computeSvdMatrix
    dsimp only
    by_cases h5 : Cmp.lt q.lambda 0 = true
    · rw [if_pos h5, if_pos h5]
      refine ⟨fun hb => ?_, fun _ => rfl⟩
      rcases hb.2.2 with h | ⟨h, -⟩
      · exact absurd h h3
      · have := (h q rfl).2
        rw [h5] at this; cases this
    rw [if_neg h5, if_neg h5]
    have hgood : ∀ r ∈ some q, r.kappa ≤ n - 1 ∧ Cmp.lt r.lambda 0 = false := by
      intro r hr
      obtain rfl : q = r := by simpa using hr
      exact ⟨by omega, by simpa using h5⟩
    by_cases h6 : Cmp.lt 0 q.lambda = true
    · refine ⟨fun _ => ?_, fun hb => absurd ⟨by omega, h2, Or.inr ⟨hgood, Or.inr ⟨q, rfl, Or.inr h6⟩⟩⟩ hb⟩
      rw [if_pos h6, isUniform, canonKnots_vector, ok_bind, canonKnots_segments (n := n) hU, ok_bind,
        canonKnots_degree]
      exact ⟨_, rfl⟩
    rw [if_neg h6, if_neg (by simp)]
    simp only [pure_ok, ok_bind]
    rw [if_neg (by simp)]
    by_cases h7 : n = 1 ∨ q.kappa + 1 = n
    · refine ⟨fun _ => ?_, fun hb => absurd ⟨by omega, h2, Or.inr ⟨hgood,
        h7.imp_right fun h => ⟨q, rfl, Or.inl h⟩⟩⟩ hb⟩
      have hfd : ∃ e, Fixed.finiteDifferenceMatrix q.kappa (canonKnots 0 U) = .error e := by
        rw [Fixed.finiteDifferenceMatrix, canonKnots_segments (n := n) hU, ok_bind]
        by_cases h8 : n = 1
        · subst h8; exact ⟨_, rfl⟩
        · have h9 : 2 ≤ n := by omega
          have h10 : ¬ q.kappa ≤ n - 2 := by omega
          rw [usub_ok h9, ok_bind, if_neg h10]
          exact ⟨_, rfl⟩
      obtain ⟨e, he⟩ := hfd
      rw [he]
      exact ⟨_, rfl⟩
    · refine ⟨fun hb => ?_, fun _ => ?_⟩
      · rcases hb.2.2 with h | ⟨-, h | ⟨r, hr, h⟩⟩
        · exact absurd h h3
        · exact absurd (Or.inl h) h7
        · obtain rfl : q = r := by simpa using hr
          rcases h with h | h
          · exact absurd (Or.inr h) h7
          · exact absurd h h6
      · rw [fixed_fd_ok (p := 0) (n := n) hU (by omega), ok_bind, gram_mat, gram_mat]
        have : (mat (n - 1) (n - 1) (gramE (n - 1 - q.kappa)
            (fun i j => ((differenceOperator q.kappa i j : ℤ) : K)))).map (List.map (fun x => q.lambda * x)) =
            mat (n - 1) (n - 1) (fun i j => q.lambda * gramE (n - 1 - q.kappa)
              (fun i j => ((differenceOperator q.kappa i j : ℤ) : K)) i j) := by
          simp [mat]
        rw [this, addRows_mat, ok_bind]
        dsimp only
        rw [svdSolve_ok _ (by omega) (by omega) (by simp), ok_bind, DataPoints.segments,
          usub_ok (by omega), ok_bind, hm, Nat.add_sub_cancel]
        exact fixed_assemble (by omega) hm (by rw [solver.shape, ncols_mat _ (by omega)])

end LawFree

/-- non-vacuity: a single segment with a penalization, and two segments without one -/
example : Loose.fit (zeroSolver 1) (canonKnots 0 [0, 1]) [![0], ![1]] ⟨[0, 1], 1⟩ (some ⟨0, 0⟩) =
      .error .underflow ∧
    (∃ P, Loose.fit (zeroSolver 1) (canonKnots 0 [0, 1 / 2, 1]) [![0], ![1], ![2]] ⟨[0, 1 / 2, 1], 2⟩ none =
      .ok (.ok P)) := by
  refine ⟨by decide +kernel, [0, 0], ?_⟩
  decide +kernel

/-- non-vacuity, fixed ends: a single segment panics, two segments do not, unless penalized with `kappa = 1` -/
example : Fixed.fit (zeroSolver 1) (canonKnots 0 [0, 1 / 2, 1]) [![0], ![1], ![2]] ⟨[0, 1 / 2, 1], 2⟩ none =
      .error .emptySvd ∧
    (∃ P, Fixed.fit (zeroSolver 1) (canonKnots 0 [0, 1 / 3, 2 / 3, 1]) [![0], ![1], ![2]] ⟨[0, 1 / 2, 1], 2⟩
      none = .ok (.ok P)) ∧
    (∃ e, Fixed.fit (zeroSolver 1) (canonKnots 0 [0, 1 / 3, 2 / 3, 1]) [![0], ![1], ![2]] ⟨[0, 1 / 2, 1], 2⟩
      (some ⟨0, 1⟩) = .error e) := by
  refine ⟨by decide +kernel, ⟨[![0], 0, ![2]], by decide +kernel⟩, ?_⟩
  exact (C44_fixed_degree_zero (n := 2) (m := 2)
    (U := [0, 1 / 3, 2 / 3, 1]) (by decide +kernel) rfl rfl rfl _ _).1.2
    ⟨by omega, rfl, Or.inr ⟨by simp; decide +kernel, Or.inr ⟨_, rfl, Or.inl rfl⟩⟩⟩

end BSpline
