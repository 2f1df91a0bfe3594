import Verif.Model.Products
import Verif.Refine.Fit

/-!
# Fits with another matrix product, on canonical knots
-/

set_option linter.unusedSectionVars false

namespace BSpline

variable {K : Type} [Add K] [Sub K] [Mul K] [Div K] [Neg K] [Zero K] [One K] [NatCast K] [IntCast K]
  [Cmp K]
variable {d : ℕ}

/-- with the products of the model these are the functions of the model -/
theorem fitWith_sequential (solver : Solver K d) (kn : Knots K) (pts : DataPoints K d) (params : Parameters K)
    (pen : Option (Penalization K)) :
    Loose.fitWith .sequential solver kn pts params pen = Loose.fit solver kn pts params pen ∧
      Fixed.fitWith .sequential solver kn pts params pen = Fixed.fit solver kn pts params pen := ⟨rfl, rfl⟩

theorem generateFit_sequential [Trunc K] [Sqrt K] (solver : Solver K d) (p : ℕ) (pts : DataPoints K d) (n : ℕ)
    (method : FitMethod) (pen : Option (Penalization K)) :
    generateFit .sequential solver p pts n method pen = generate solver (.leastSquaresFit p pts n method pen) := rfl

/-- a matrix given by its entries -/
theorem eq_mat {M : List (List K)} {r c : ℕ} (h1 : M.length = r) (h2 : ∀ row ∈ M, row.length = c) :
    M = mat r c (fun i j => (M.getD i []).getD j 0) := by
  apply List.ext_getElem (by simp [h1])
  intro i hi hi'
  have h3 := h2 _ (List.getElem_mem hi)
  simp only [mat, List.getElem_map, List.getElem_range]
  apply List.ext_getElem (by simp [h3])
  intro j hj hj'
  simp [hi, hj]

/-- entry `(i, j)` of the normal equations, from the entries of the two products -/
def normG (G E : ℕ → ℕ → K) (pen : Option (Penalization K)) (i j : ℕ) : K :=
  match pen with
  | none => G i j
  | some pen => G i j + pen.lambda * E i j

theorem computeSvdMatrixWith_ok (mm : Products K d) {p n r c : ℕ} {U : List K} (hU : U.length = n + p + 2) (h1 : 1 ≤ p)
    (h2 : p ≤ n) (A : ℕ → ℕ → K) (l : ℕ → ℕ) (pen : Option (Penalization K)) {G E : ℕ → ℕ → K}
    (hG : mm.gram (mat r c A) c = mat c c G)
    (hE : ∀ q, pen = some q →
      mm.gram (mat (l q.kappa) c (fun i j => ((differenceOperator q.kappa i j : ℤ) : K))) c = mat c c E)
    {fd : ℕ → Knots K → Exec (List (List K))}
    (hfd : penErrorOf pen (unif p n U) = none → ∀ q, pen = some q → fd q.kappa (canonKnots p U) =
      .ok (mat (l q.kappa) c (fun i j => ((differenceOperator q.kappa i j : ℤ) : K)))) :
    computeSvdMatrixWith mm (canonKnots p U) (mat r c A) c pen fd =
      .ok (match penErrorOf pen (unif p n U) with
        | some e => .error e
        | none => .ok (mat c c (normG G E pen))) := by
  unfold computeSvdMatrixWith penErrorOf
  rw [hG]
  cases pen with
  | none => rfl
  | some q =>
    dsimp only
    by_cases h3 : Cmp.lt q.lambda 0 = true
    · rw [if_pos h3, if_pos h3]; rfl
    · rw [if_neg h3, if_neg h3]
      have key : penErrorOf (some q) (unif p n U) = none → (do
          let D ← fd q.kappa (canonKnots p U)
          let G' := mm.gram D c
          pure (.ok (addRows (mat c c G) (G'.map (List.map (fun x => q.lambda * x)))))) =
          (.ok (.ok (mat c c (normG G E (some q)))) : Exec (Except (FitError K) (List (List K)))) := by
        intro hno
        rw [hfd hno q rfl, ok_bind]
        dsimp only
        rw [hE q rfl]
        have : (mat c c E).map (List.map (fun x => q.lambda * x)) = mat c c (fun i j => q.lambda * E i j) := by
          simp [mat]
        rw [this, addRows_mat]
        rfl
      by_cases h4 : Cmp.lt 0 q.lambda = true
      · rw [if_pos h4, isUniform_ok hU h1 h2, ok_bind]
        simp only [unwrap, ok_bind, pure_ok]
        cases h5 : unif p n U with
        | true =>
          rw [if_neg (by simp), if_neg (by simp)]
          exact key (by simp [penErrorOf, h3, h5])
        | false =>
          rw [if_pos (by simp), if_pos (by simp [h4])]
      · rw [if_neg h4, if_neg (by simp [h4])]
        simp only [pure_ok, ok_bind]
        rw [if_neg (by simp)]
        exact key (by simp [penErrorOf, h3, h4])

theorem loose_fitWith_ok (mm : Products K d) {p n m : ℕ} {U : List K} {pts : DataPoints K d} {params : Parameters K}
    (hU : U.length = n + p + 2) (h1 : 1 ≤ p) (hm : List.length pts = m + 1)
    (hv : params.vector.length = params.segments + 1) (solver : Solver K d)
    (pen : Option (Penalization K)) {G E : ℕ → ℕ → K}
    (hG : mm.gram (mat (m + 1) (n + 1) (fun g i => nb p n U i (fn params.vector g))) (n + 1) = mat (n + 1) (n + 1) G)
    (hE : ∀ q, pen = some q → mm.gram (mat (n + 1 - q.kappa) (n + 1)
      (fun i j => ((differenceOperator q.kappa i j : ℤ) : K))) (n + 1) = mat (n + 1) (n + 1) E)
    (hb : (mm.mulT (mat (m + 1) (n + 1) (fun g i => nb p n U i (fn params.vector g))) (n + 1) pts).length = n + 1) :
    Loose.fitWith mm solver (canonKnots p U) pts params pen =
      .ok (match fitErrorOf n m params.segments p pen (unif p n U) with
        | some e => .error e
        | none => .ok (solver.run (mat (n + 1) (n + 1) (normG G E pen))
          (mm.mulT (mat (m + 1) (n + 1) (fun g i => nb p n U i (fn params.vector g))) (n + 1) pts))) := by
  rw [Loose.fitWith, inputChecks_ok hU h1 hm, ok_bind, fitErrorOf_eq]
  cases h2 : checkErrorOf n m params.segments p pen with
  | some e => rfl
  | none =>
    obtain ⟨h3, h4, h5, h6⟩ := checkErrorOf_none h2
    dsimp only
    rw [loose_coef_ok hU h5 hm (by omega), ok_bind, canonKnots_segments hU, ok_bind,
      computeSvdMatrixWith_ok mm (n := n) hU h1 h5 _ (fun κ => n + 1 - κ) pen hG hE (fun _ q hq =>
        loose_fd_ok hU (by have := h6 q hq; omega)), ok_bind]
    cases h7 : penErrorOf pen (unif p n U) with
    | some e => rfl
    | none =>
      dsimp only
      rw [svdSolve_ok _ (by omega) (by omega) hb, ok_bind]
      rfl

theorem fixed_fitWith_ok (mm : Products K d) {p n m : ℕ} {U : List K} {pts : DataPoints K d} {params : Parameters K}
    (hU : U.length = n + p + 2) (h1 : 1 ≤ p) (hm : List.length pts = m + 1)
    (hv : params.vector.length = params.segments + 1) (solver : Solver K d)
    (pen : Option (Penalization K))
    (hn : fitErrorOf n m params.segments p pen (unif p n U) = none →
      2 ≤ n ∧ ∀ q, pen = some q → q.kappa + 2 ≤ n) {G E : ℕ → ℕ → K}
    (hG : mm.gram (mat (m - 1) (n - 1) (fun g i => nb p n U (i + 1) (fn params.vector (g + 1)))) (n - 1) =
      mat (n - 1) (n - 1) G)
    (hE : ∀ q, pen = some q → mm.gram (mat (n - 1 - q.kappa) (n - 1)
      (fun i j => ((differenceOperator q.kappa i j : ℤ) : K))) (n - 1) = mat (n - 1) (n - 1) E) :
    Fixed.fitWith mm solver (canonKnots p U) pts params pen =
      .ok (match fitErrorOf n m params.segments p pen (unif p n U) with
        | some e => .error e
        | none => .ok ((List.range (n + 1)).map (fixP n m pts (solver.run (mat (n - 1) (n - 1) (normG G E pen))
          ((List.range (n - 1)).map (fun i => fixAcc p n m U pts params.vector (i + 1))))))) := by
  rw [fitErrorOf_eq] at hn
  rw [Fixed.fitWith, inputChecks_ok hU h1 hm, ok_bind, fitErrorOf_eq]
  cases h2 : checkErrorOf n m params.segments p pen with
  | some e => rfl
  | none =>
    rw [h2] at hn
    dsimp only at hn
    obtain ⟨h3, h4, h5, h6⟩ := checkErrorOf_none h2
    dsimp only
    rw [qvectors_ok hU h5 hm (by omega) (by omega), ok_bind,
      constantTerms_ok hU h5 hm (by omega) (by omega) (by omega), ok_bind,
      fixed_coef_ok hU h5 hm (by omega) (by omega) (by omega), ok_bind, canonKnots_segments hU, ok_bind,
      usub_ok (by omega), ok_bind,
      computeSvdMatrixWith_ok mm (n := n) hU h1 h5 _ (fun κ => n - 1 - κ) pen hG hE (fun he q hq =>
        fixed_fd_ok hU ((hn he).2 q hq)), ok_bind]
    cases h7 : penErrorOf pen (unif p n U) with
    | some e => rfl
    | none =>
      have h8 := (hn h7).1
      dsimp only
      rw [svdSolve_ok _ (by omega) (by omega) (by simp), ok_bind, DataPoints.segments,
        usub_ok (by omega), ok_bind, hm, Nat.add_sub_cancel]
      exact fixed_assemble (by omega) hm (by rw [solver.shape, ncols_mat _ (by omega)])

end BSpline
