import Verif.Props.Params
import Verif.Spec.Fit

/-!
# Least-squares fitting and interpolation on canonical knots

What the fitting functions compute, as closed expressions; no law of arithmetic is used.
-/

set_option linter.unusedSectionVars false

namespace BSpline

section LawFree
variable {K : Type} [Add K] [Sub K] [Mul K] [Div K] [Neg K] [Zero K] [One K] [NatCast K] [IntCast K]
  [Cmp K]
variable {d : ℕ}

/-- the matrix with `r` rows, `c` columns and entries `f` -/
def mat (r c : ℕ) (f : ℕ → ℕ → K) : List (List K) :=
  (List.range r).map (fun g => (List.range c).map (f g))

omit [IntCast K] in
@[simp] theorem mat_length (r c : ℕ) (f : ℕ → ℕ → K) : (mat r c f).length = r := by simp [mat]

omit [IntCast K] in
theorem mat_congr {r c : ℕ} {f f' : ℕ → ℕ → K} (h : ∀ g i, g < r → i < c → f g i = f' g i) :
    mat r c f = mat r c f' := by
  rw [mat, mat]
  apply List.map_congr_left
  intro g hg
  apply List.map_congr_left
  intro i hi
  exact h g i (List.mem_range.mp hg) (List.mem_range.mp hi)

omit [IntCast K] in
theorem ncols_mat {r c : ℕ} (f : ℕ → ℕ → K) (hr : 0 < r) : ncols (mat r c f) = c := by
  obtain ⟨r, rfl⟩ : ∃ r', r = r' + 1 := ⟨r - 1, by omega⟩
  rw [mat, List.range_succ_eq_map]
  simp [ncols]

theorem entry_map_range {c i : ℕ} (f : ℕ → K) (h : i < c) :
    entry ((List.range c).map f) i = f i := by
  simp [entry, List.getD_eq_getElem?_getD, h]

theorem tab0_ok {α : Type} {f : ℕ → Exec α} {g : ℕ → α} {hi : ℕ} (h : ∀ i, i ≤ hi → f i = .ok (g i)) :
    tabulateIncl 0 hi f = .ok ((List.range (hi + 1)).map g) := by
  rw [tabulateIncl_ok (fun i _ hi => h i hi), List.range_eq_range' (n := hi + 1)]; rfl

/-- the value of the `i`-th basis function -/
def nb (p n : ℕ) (U : List K) (i : ℕ) (u : K) : K := Nf (fn U) 0 n u p i

omit [IntCast K] in
theorem nb_ok {p n i : ℕ} {U : List K} (hU : U.length = n + p + 2) (hp : p ≤ n) (hi : i ≤ n) (u : K) :
    (canonKnots p U).evaluate 0 i p u = .ok (nb p n U i u) :=
  knots_evaluate_ok hU hp (Nat.zero_le p) (by omega) u

theorem loose_coef_ok {p n m : ℕ} {U : List K} {pts : DataPoints K d} {params : Parameters K}
    (hU : U.length = n + p + 2) (hp : p ≤ n) (hm : List.length pts = m + 1)
    (hv : params.vector.length = m + 1) :
    Loose.coefficientMatrix (canonKnots p U) pts params =
      .ok (mat (m + 1) (n + 1) (fun g i => nb p n U i (fn params.vector g))) := by
  rw [Loose.coefficientMatrix, canonKnots_segments hU, ok_bind, DataPoints.segments, usub_ok (by omega),
    ok_bind, canonKnots_degree, hm, Nat.add_sub_cancel]
  rw [tab0_ok (g := fun g => (List.range (n + 1)).map (fun i => nb p n U i (fn params.vector g)))]
  · rfl
  · intro g hg
    rw [idx_ok (by omega), ok_bind, tab0_ok (fun i hi => nb_ok hU hp hi _)]

theorem loose_fd_ok {p n κ : ℕ} {U : List K} (hU : U.length = n + p + 2) (hκ : κ ≤ n) :
    Loose.finiteDifferenceMatrix κ (canonKnots p U) =
      .ok (mat (n + 1 - κ) (n + 1) (fun i j => ((differenceOperator κ i j : ℤ) : K))) := by
  rw [Loose.finiteDifferenceMatrix, canonKnots_segments hU, ok_bind, if_pos hκ, usub_ok hκ, ok_bind]
  rw [tab0_ok (g := fun i => (List.range (n + 1)).map
    (fun j => ((differenceOperator κ i j : ℤ) : K)))]
  · rw [mat, show n - κ + 1 = n + 1 - κ by omega]
  · intro i _
    exact tab0_ok (fun j _ => rfl)

/-- `is_uniform` as a truth value -/
def unif (p n : ℕ) (U : List K) : Bool := vecEq U (genU p n (uniK (K := K) p n))

theorem isUniform_ok {p n : ℕ} {U : List K} (hU : U.length = n + p + 2) (h1 : 1 ≤ p) (h2 : p ≤ n) :
    isUniform (canonKnots p U) = .ok (.ok (unif p n U)) := by
  rw [isUniform, canonKnots_vector, ok_bind, canonKnots_segments hU, ok_bind, canonKnots_degree,
    uniform_ok h1 h2, ok_bind]
  dsimp only
  rw [canonKnots_vector, ok_bind]
  rfl

/-- the part of the errors found before any computation -/
def checkErrorOf (n m mp p : ℕ) (pen : Option (Penalization K)) : Option (FitError K) :=
  if n > m then some (.requestedPolynomialSegmentAndDataSegementMismatch n m)
  else if m ≠ mp then some (.dataSegmentsAndParameterSegmentsMismatch m mp)
  else if n < p then some (.requestedPolynomialSegmentAndSplineDegreeMismatch n p)
  else match pen with
    | none => none
    | some pen =>
      if pen.kappa > n - 1 then
        some (.requestedPolynomialSegmentAndPenalizationKappaMismatch n pen.kappa)
      else none

/-- the part found when the matrix is assembled -/
def penErrorOf (pen : Option (Penalization K)) (uniform : Bool) : Option (FitError K) :=
  match pen with
  | none => none
  | some pen =>
    if Cmp.lt pen.lambda 0 = true then some (.negativeLambda pen.lambda)
    else if Cmp.lt 0 pen.lambda = true ∧ uniform = false then some .nonUniformKnots
    else none

theorem fitErrorOf_eq (n m mp p : ℕ) (pen : Option (Penalization K)) (uniform : Bool) :
    fitErrorOf n m mp p pen uniform =
      match checkErrorOf n m mp p pen with
      | some e => some e
      | none => penErrorOf pen uniform := by
  unfold fitErrorOf checkErrorOf penErrorOf
  split
  · rfl
  · split
    · rfl
    · split
      · rfl
      · cases pen with
        | none => rfl
        | some pen =>
          dsimp only
          split <;> rfl

theorem inputChecks_ok {p n m : ℕ} {U : List K} {pts : DataPoints K d} {params : Parameters K}
    (hU : U.length = n + p + 2) (h1 : 1 ≤ p) (hm : List.length pts = m + 1)
    (pen : Option (Penalization K)) :
    inputChecks (canonKnots p U) pts params pen =
      .ok (match checkErrorOf n m params.segments p pen with
        | some e => .error e
        | none => .ok ()) := by
  rw [inputChecks, canonKnots_segments hU, ok_bind, DataPoints.segments, usub_ok (by omega), ok_bind, hm,
    Nat.add_sub_cancel]
  unfold checkErrorOf
  simp only [canonKnots_degree (p := p)]
  split
  · rfl
  · split
    · rfl
    · split
      · rfl
      · cases pen with
        | none => rfl
        | some pen =>
          dsimp only
          rw [usub_ok (by omega), ok_bind]
          split <;> rfl

theorem checkErrorOf_none {n m mp p : ℕ} {pen : Option (Penalization K)}
    (h : checkErrorOf n m mp p pen = none) :
    n ≤ m ∧ m = mp ∧ p ≤ n ∧ ∀ q, pen = some q → q.kappa ≤ n - 1 := by
  unfold checkErrorOf at h
  split at h
  · exact absurd h (by simp)
  · split at h
    · exact absurd h (by simp)
    · split at h
      · exact absurd h (by simp)
      · refine ⟨by omega, by omega, by omega, ?_⟩
        rintro q rfl
        dsimp only at h
        split at h
        · exact absurd h (by simp)
        · omega

/-- entry `(i, j)` of `AᵀA`, as accumulated -/
def gramE (r : ℕ) (f : ℕ → ℕ → K) (i j : ℕ) : K :=
  (List.range r).foldl (fun s g => s + f g i * f g j) 0

theorem gram_mat (r c : ℕ) (f : ℕ → ℕ → K) : gram (mat r c f) c = mat c c (gramE r f) := by
  rw [gram]
  show mat c c _ = _
  apply mat_congr
  intro i j hi hj
  rw [gramE, mat, List.foldl_map]
  congr 1
  funext s g
  rw [entry_map_range _ hi, entry_map_range _ hj]

theorem addRows_mat (r c : ℕ) (f g : ℕ → ℕ → K) :
    addRows (mat r c f) (mat r c g) = mat r c (fun i j => f i j + g i j) := by
  rw [addRows, mat, mat, mat]
  apply List.ext_getElem (by simp)
  intro i h1 h2
  apply List.ext_getElem (by simp)
  intro j h3 h4
  simp

/-- entry `(i, j)` of the matrix of the normal equations -/
def normE (r : ℕ) (A : ℕ → ℕ → K) (l : ℕ → ℕ) (pen : Option (Penalization K)) (i j : ℕ) : K :=
  match pen with
  | none => gramE r A i j
  | some pen => gramE r A i j +
      pen.lambda * gramE (l pen.kappa) (fun i j => ((differenceOperator pen.kappa i j : ℤ) : K)) i j

theorem computeSvdMatrix_ok {p n r c : ℕ} {U : List K} (hU : U.length = n + p + 2) (h1 : 1 ≤ p)
    (h2 : p ≤ n) (A : ℕ → ℕ → K) (l : ℕ → ℕ) (pen : Option (Penalization K))
    {fd : ℕ → Knots K → Exec (List (List K))}
    (hfd : penErrorOf pen (unif p n U) = none → ∀ q, pen = some q → fd q.kappa (canonKnots p U) =
      .ok (mat (l q.kappa) c (fun i j => ((differenceOperator q.kappa i j : ℤ) : K)))) :
    computeSvdMatrix (canonKnots p U) (mat r c A) c pen fd =
      .ok (match penErrorOf pen (unif p n U) with
        | some e => .error e
        | none => .ok (mat c c (normE r A l pen))) := by
  unfold computeSvdMatrix penErrorOf
  rw [gram_mat]
  cases pen with
  | none => rfl
  | some q =>
    dsimp only
    by_cases h3 : Cmp.lt q.lambda 0 = true
    · rw [if_pos h3, if_pos h3]; rfl
    · rw [if_neg h3, if_neg h3]
      have key : penErrorOf (some q) (unif p n U) = none → (do
          let D ← fd q.kappa (canonKnots p U)
          let G := gram D c
          pure (.ok (addRows (mat c c (gramE r A)) (G.map (List.map (fun x => q.lambda * x)))))) =
          (.ok (.ok (mat c c (normE r A l (some q)))) : Exec (Except (FitError K) (List (List K)))) := by
        intro hno
        rw [hfd hno q rfl, ok_bind]
        dsimp only
        rw [gram_mat]
        have : (mat c c (gramE (l q.kappa) (fun i j => ((differenceOperator q.kappa i j : ℤ) : K)))).map
            (List.map (fun x => q.lambda * x)) = mat c c (fun i j => q.lambda *
              gramE (l q.kappa) (fun i j => ((differenceOperator q.kappa i j : ℤ) : K)) i j) := by
          simp [mat]
        rw [this, addRows_mat]
        rfl
      by_cases h4 : Cmp.lt 0 q.lambda = true
      · rw [if_pos h4, isUniform_ok hU h1 h2, ok_bind]
        simp only [unwrap, ok_bind, pure_ok]
        cases h5 : unif p n U with
        | true =>
          rw [if_neg (by simp), if_neg (by simp)]
          exact key (by simp [penErrorOf, h3, h5])
        | false =>
          rw [if_pos (by simp), if_pos (by simp [h4])]
      · rw [if_neg h4, if_neg (by simp [h4])]
        simp only [pure_ok, ok_bind]
        rw [if_neg (by simp)]
        exact key (by simp [penErrorOf, h3, h4])

/-- entry `i` of `AᵀB`, as accumulated -/
def rhsE (r : ℕ) (A : ℕ → ℕ → K) (B : ℕ → Pt K d) (i : ℕ) : Pt K d :=
  (List.range r).foldl (fun s g => s + scale (A g i) (B g)) (fun _ => 0)

theorem mulT_mat {r c : ℕ} (A : ℕ → ℕ → K) {B : List (Pt K d)} (hB : B.length = r) :
    mulT (mat r c A) c B = (List.range c).map (rhsE r A (fn B)) := by
  rw [mulT]
  apply List.map_congr_left
  intro i hi
  have hz : List.zip (mat r c A) B = (List.range r).map (fun g => ((List.range c).map (A g), fn B g)) := by
    apply List.ext_getElem (by simp [hB])
    intro g h1 h2
    simp only [List.length_map, List.length_range] at h2
    simp [mat, fn_lt (show g < B.length by omega)]
  rw [hz, List.foldl_map, rhsE]
  congr 1
  funext s g
  dsimp only
  rw [entry_map_range _ (List.mem_range.mp hi)]

omit [IntCast K] in
theorem svdSolve_ok {solver : Solver K d} {r c : ℕ} (A : ℕ → ℕ → K) {b : List (Pt K d)} (hr : 0 < r)
    (hc : 0 < c) (hb : b.length = r) :
    svdSolve solver (mat r c A) b = .ok (solver.run (mat r c A) b) := by
  rw [svdSolve, if_neg (by rw [mat_length, ncols_mat A hr]; omega), if_neg (by rw [mat_length]; omega)]

/-- everything the loose fit does -/
theorem loose_fit_ok {p n m : ℕ} {U : List K} {pts : DataPoints K d} {params : Parameters K}
    (hU : U.length = n + p + 2) (h1 : 1 ≤ p) (hm : List.length pts = m + 1)
    (hv : params.vector.length = params.segments + 1) (solver : Solver K d)
    (pen : Option (Penalization K)) :
    Loose.fit solver (canonKnots p U) pts params pen =
      .ok (match fitErrorOf n m params.segments p pen (unif p n U) with
        | some e => .error e
        | none => .ok (solver.run (mat (n + 1) (n + 1) (normE (m + 1)
            (fun g i => nb p n U i (fn params.vector g)) (fun κ => n + 1 - κ) pen))
          ((List.range (n + 1)).map (rhsE (m + 1) (fun g i => nb p n U i (fn params.vector g))
            (fn pts))))) := by
  rw [Loose.fit, inputChecks_ok hU h1 hm, ok_bind, fitErrorOf_eq]
  cases h2 : checkErrorOf n m params.segments p pen with
  | some e => rfl
  | none =>
    obtain ⟨h3, h4, h5, h6⟩ := checkErrorOf_none h2
    dsimp only
    rw [loose_coef_ok hU h5 hm (by omega), ok_bind, canonKnots_segments hU, ok_bind,
      computeSvdMatrix_ok (n := n) hU h1 h5 _ (fun κ => n + 1 - κ) pen (fun _ q hq =>
        loose_fd_ok hU (by have := h6 q hq; omega)), ok_bind]
    cases h7 : penErrorOf pen (unif p n U) with
    | some e => rfl
    | none =>
      dsimp only
      rw [mulT_mat _ hm, svdSolve_ok _ (by omega) (by omega) (by simp), ok_bind]
      rfl

/-! ### Fixed ends -/

/-- data point `g` minus the contributions of the two end points -/
def fixQ (p n m : ℕ) (U : List K) (pts : List (Pt K d)) (τ : List K) (g : ℕ) : Pt K d :=
  fn pts g - scale (nb p n U 0 (fn τ g)) (fn pts 0) - scale (nb p n U n (fn τ g)) (fn pts m)

theorem qvectors_ok {p n m : ℕ} {U : List K} {pts : DataPoints K d} {params : Parameters K}
    (hU : U.length = n + p + 2) (hp : p ≤ n) (hm : List.length pts = m + 1) (hm1 : 1 ≤ m)
    (hv : params.vector.length = m + 1) :
    Fixed.qvectors (canonKnots p U) pts params = .ok ((List.range (m + 1)).map
      (fun g => if 1 ≤ g ∧ g < m then fixQ p n m U pts params.vector g else fun _ => 0)) := by
  rw [Fixed.qvectors, canonKnots_segments hU, ok_bind, DataPoints.segments, usub_ok (by omega),
    ok_bind, canonKnots_degree, hm, Nat.add_sub_cancel, usub_ok hm1, ok_bind]
  have h0 : zeroCols (K := K) d (m + 1) = (List.range (m + 1)).map
      (fun g => if 1 ≤ g ∧ g < 1 then fixQ p n m U pts params.vector g else fun _ => 0) := by
    apply List.ext_getElem (by simp [zeroCols])
    intro i _ _
    simp only [zeroCols, List.getElem_replicate, List.getElem_map, List.getElem_range]
    rw [if_neg (by omega)]
  rw [h0, forRangeIncl_inv (S := fun j => (List.range (m + 1)).map
      (fun g => if 1 ≤ g ∧ g < j then fixQ p n m U pts params.vector g else fun _ => 0)) (by omega)]
  · rw [show m - 1 + 1 = m by omega]
  · intro g h1 h2
    rw [column_ok (by omega), ok_bind, idx_ok (by omega), ok_bind, nb_ok hU hp (by omega), ok_bind,
      column_ok (by omega), ok_bind]
    dsimp only
    rw [nb_ok hU hp le_rfl, ok_bind, column_ok (by omega), ok_bind, setIdx_ok (by simp; omega),
      set_map_range]
    congr 1
    apply List.map_congr_left
    intro i _
    by_cases e : g = i
    · subst e; rw [if_pos rfl, if_pos ⟨h1, by omega⟩]; rfl
    · rw [if_neg e]
      by_cases e2 : 1 ≤ i ∧ i < g
      · rw [if_pos e2, if_pos ⟨e2.1, by omega⟩]
      · rw [if_neg e2, if_neg (by omega)]

/-- the accumulator of `calculate_constant_terms_matrix` after column `i` -/
def fixAcc (p n m : ℕ) (U : List K) (pts : List (Pt K d)) (τ : List K) : ℕ → Pt K d
  | 0 => fun _ => 0
  | i + 1 => (List.range' 1 (m - 1)).foldl
      (fun acc g => acc + scale (nb p n U (i + 1) (fn τ g)) (fixQ p n m U pts τ g))
      (fun r => fixAcc p n m U pts τ i r * 0)

theorem constantTerms_ok {p n m : ℕ} {U : List K} {pts : DataPoints K d} {params : Parameters K}
    (hU : U.length = n + p + 2) (hp : p ≤ n) (hm : List.length pts = m + 1) (hm1 : 1 ≤ m)
    (hn1 : 1 ≤ n) (hv : params.vector.length = m + 1) :
    Fixed.constantTerms (canonKnots p U) pts params ((List.range (m + 1)).map
      (fun g => if 1 ≤ g ∧ g < m then fixQ p n m U pts params.vector g else fun _ => 0)) =
      .ok ((List.range (n - 1)).map (fun i => fixAcc p n m U pts params.vector (i + 1))) := by
  rw [Fixed.constantTerms, canonKnots_segments hU, ok_bind, DataPoints.segments, usub_ok (by omega),
    ok_bind, canonKnots_degree, hm, Nat.add_sub_cancel, usub_ok hn1, ok_bind]
  have key := forRangeIncl_inv (lo := 1) (hi := n - 1)
    (S := fun j => (fixAcc p n m U pts params.vector (j - 1),
      (List.range (j - 1)).map (fun i => fixAcc p n m U pts params.vector (i + 1))))
    (f := fun st i => do
      let accum : Pt K d := fun r => st.1 r * 0
      let m1 ← usub m 1
      let accum ← forRangeIncl 1 m1 accum (fun accum g => do
        let u ← idx params.vector g
        let N ← (canonKnots p U).evaluate 0 i p u
        let q ← column ((List.range (m + 1)).map
          (fun g => if 1 ≤ g ∧ g < m then fixQ p n m U pts params.vector g else fun _ => 0)) g
        pure (accum + scale N q))
      pure (accum, st.2 ++ [accum])) (by omega) (by
    intro i h1 h2
    obtain ⟨i, rfl⟩ : ∃ i', i = i' + 1 := ⟨i - 1, by omega⟩
    dsimp only
    rw [usub_ok hm1, ok_bind, forRangeIncl, foldlM_ok (g := fun acc g => acc + scale
      (nb p n U (i + 1) (fn params.vector g)) (fixQ p n m U pts params.vector g)), ok_bind]
    · simp only [Nat.add_sub_cancel, pure_ok, List.range_succ, List.map_append, List.map_cons,
        List.map_nil]
      rfl
    · intro s g hg
      rw [List.mem_range'_1] at hg
      rw [idx_ok (by omega), ok_bind, nb_ok hU hp (by omega), ok_bind, column_ok (by simp; omega),
        ok_bind, fn_map_range _ (by omega), if_pos ⟨by omega, by omega⟩]
      rfl)
  have e : ((fun _ => 0 : Pt K d), ([] : List (Pt K d))) =
      (fixAcc p n m U pts params.vector (1 - 1), (List.range (1 - 1)).map
        (fun i => fixAcc p n m U pts params.vector (i + 1))) := rfl
  rw [e]
  erw [key]
  rw [ok_bind]
  simp only [Nat.add_sub_cancel, pure_ok]

theorem fixed_coef_ok {p n m : ℕ} {U : List K} {pts : DataPoints K d} {params : Parameters K}
    (hU : U.length = n + p + 2) (hp : p ≤ n) (hm : List.length pts = m + 1) (hm1 : 1 ≤ m)
    (hn1 : 1 ≤ n) (hv : params.vector.length = m + 1) :
    Fixed.coefficientMatrix (canonKnots p U) pts params =
      .ok (mat (m - 1) (n - 1) (fun g i => nb p n U (i + 1) (fn params.vector (g + 1)))) := by
  rw [Fixed.coefficientMatrix, canonKnots_segments hU, ok_bind, DataPoints.segments,
    usub_ok (by omega), ok_bind, canonKnots_degree, hm, Nat.add_sub_cancel, usub_ok hm1, ok_bind,
    usub_ok hn1, ok_bind]
  rw [tabulateIncl_ok (g := fun g => (List.range (n - 1)).map
    (fun i => nb p n U (i + 1) (fn params.vector g)))]
  · rw [mat, show m - 1 + 1 - 1 = m - 1 by omega, List.range'_eq_map_range, List.map_map]
    congr 1
    apply List.map_congr_left
    intro g _
    simp only [Function.comp_apply, Nat.add_comm 1 g]
  · intro g h1 h2
    rw [idx_ok (by omega), ok_bind, tabulateIncl_ok (fun i _ hi => nb_ok hU hp (by omega) _)]
    rw [show n - 1 + 1 - 1 = n - 1 by omega, List.range'_eq_map_range, List.map_map]
    congr 1
    apply List.map_congr_left
    intro i _
    simp only [Function.comp_apply, Nat.add_comm 1 i]

theorem fixed_fd_ok {p n κ : ℕ} {U : List K} (hU : U.length = n + p + 2) (hκ : κ + 2 ≤ n) :
    Fixed.finiteDifferenceMatrix κ (canonKnots p U) =
      .ok (mat (n - 1 - κ) (n - 1) (fun i j => ((differenceOperator κ i j : ℤ) : K))) := by
  rw [Fixed.finiteDifferenceMatrix, canonKnots_segments hU, ok_bind, usub_ok (by omega), ok_bind,
    if_pos (by omega), usub_ok (by omega), ok_bind, usub_ok (by omega), ok_bind]
  rw [tab0_ok (g := fun i => (List.range (n - 1)).map
    (fun j => ((differenceOperator κ i j : ℤ) : K)))]
  · rw [mat, show n - κ - 2 + 1 = n - 1 - κ by omega]
  · intro i _
    rw [show n - 1 = n - 2 + 1 by omega]
    exact tab0_ok (fun j _ => rfl)

/-- the control points assembled from the end points and the solution -/
def fixP (n m : ℕ) (pts X : List (Pt K d)) (i : ℕ) : Pt K d :=
  if i = 0 then fn pts 0 else if i = n then fn pts m else fn X (i - 1)

theorem fixed_assemble {n m : ℕ} {pts : DataPoints K d} {X : List (Pt K d)} (hn : 1 ≤ n)
    (hm : List.length pts = m + 1) (hX : X.length = n - 1) :
    (do
      let P := zeroCols (K := K) d (n + 1)
      let q0 ← column pts 0
      let P ← setIdx P 0 q0
      let qm ← column pts m
      let P ← setIdx P n qm
      let P ← forRangeIncl 1 (n - 1) P (fun P i => do
        let x ← column X (i - 1)
        setIdx P i x)
      pure (.ok P) : Exec (Except (FitError K) (List (Pt K d)))) =
      .ok (.ok ((List.range (n + 1)).map (fixP n m pts X))) := by
  have h0 : zeroCols (K := K) d (n + 1) = (List.range (n + 1)).map (fun _ => fun _ => 0) := by
    apply List.ext_getElem (by simp [zeroCols])
    intro i _ _
    simp [zeroCols]
  rw [h0]
  dsimp only
  rw [column_ok (by omega), ok_bind, setIdx_ok (by simp), ok_bind, column_ok (by omega), ok_bind,
    setIdx_ok (by simp), ok_bind, set_map_range, set_map_range]
  have e : (List.range (n + 1)).map (fun i => if n = i then fn pts m else if 0 = i then fn pts 0 else
      fun _ => 0) = (List.range (n + 1)).map (fun i => if n = i then fn pts m else
        if 0 = i then fn pts 0 else if i < 1 then fn X (i - 1) else fun _ => 0) := by
    apply List.map_congr_left
    intro i _
    by_cases e1 : n = i
    · rw [if_pos e1, if_pos e1]
    · by_cases e2 : 0 = i
      · rw [if_neg e1, if_neg e1, if_pos e2, if_pos e2]
      · rw [if_neg e1, if_neg e1, if_neg e2, if_neg e2, if_neg (by omega)]
  rw [e, forRangeIncl_inv (lo := 1) (S := fun j => (List.range (n + 1)).map
      (fun i => if n = i then fn pts m else if 0 = i then fn pts 0 else
        if i < j then fn X (i - 1) else fun _ => 0)) (by omega)
    (by
      intro i h1 h2
      rw [column_ok (by omega), ok_bind, setIdx_ok (by simp; omega), set_map_range]
      congr 1
      apply List.map_congr_left
      intro r _
      by_cases e : i = r
      · subst e
        rw [if_pos rfl, if_neg (by omega), if_neg (by omega), if_pos (by omega)]
      · rw [if_neg e]
        congr 2
        by_cases e2 : r < i
        · rw [if_pos e2, if_pos (by omega)]
        · rw [if_neg e2, if_neg (by omega)]), ok_bind]
  simp only [pure_ok]
  congr 2
  apply List.map_congr_left
  intro i hi
  rw [List.mem_range] at hi
  rw [fixP]
  by_cases e1 : n = i
  · rw [if_pos e1, if_neg (by omega), if_pos e1.symm]
  · by_cases e2 : 0 = i
    · rw [if_neg e1, if_pos e2, if_pos e2.symm]
    · rw [if_neg e1, if_neg e2, if_neg (Ne.symm e2), if_neg (Ne.symm e1), if_pos (by omega)]

/-- everything the fit with fixed ends does -/
theorem fixed_fit_ok {p n m : ℕ} {U : List K} {pts : DataPoints K d} {params : Parameters K}
    (hU : U.length = n + p + 2) (h1 : 1 ≤ p) (hm : List.length pts = m + 1)
    (hv : params.vector.length = params.segments + 1) (solver : Solver K d)
    (pen : Option (Penalization K))
    (hn : fitErrorOf n m params.segments p pen (unif p n U) = none →
      2 ≤ n ∧ ∀ q, pen = some q → q.kappa + 2 ≤ n) :
    Fixed.fit solver (canonKnots p U) pts params pen =
      .ok (match fitErrorOf n m params.segments p pen (unif p n U) with
        | some e => .error e
        | none => .ok ((List.range (n + 1)).map (fixP n m pts (solver.run
          (mat (n - 1) (n - 1) (normE (m - 1)
            (fun g i => nb p n U (i + 1) (fn params.vector (g + 1))) (fun κ => n - 1 - κ) pen))
          ((List.range (n - 1)).map (fun i => fixAcc p n m U pts params.vector (i + 1))))))) := by
  rw [fitErrorOf_eq] at hn
  rw [Fixed.fit, inputChecks_ok hU h1 hm, ok_bind, fitErrorOf_eq]
  cases h2 : checkErrorOf n m params.segments p pen with
  | some e => rfl
  | none =>
    rw [h2] at hn
    dsimp only at hn
    obtain ⟨h3, h4, h5, h6⟩ := checkErrorOf_none h2
    dsimp only
    rw [qvectors_ok hU h5 hm (by omega) (by omega), ok_bind,
      constantTerms_ok hU h5 hm (by omega) (by omega) (by omega), ok_bind,
      fixed_coef_ok hU h5 hm (by omega) (by omega) (by omega), ok_bind, canonKnots_segments hU, ok_bind,
      usub_ok (by omega), ok_bind,
      computeSvdMatrix_ok (n := n) hU h1 h5 _ (fun κ => n - 1 - κ) pen (fun he q hq =>
        fixed_fd_ok hU ((hn he).2 q hq)), ok_bind]
    cases h7 : penErrorOf pen (unif p n U) with
    | some e => rfl
    | none =>
      have h8 := (hn h7).1
      dsimp only
      rw [svdSolve_ok _ (by omega) (by omega) (by simp), ok_bind, DataPoints.segments,
        usub_ok (by omega), ok_bind, hm, Nat.add_sub_cancel]
      exact fixed_assemble (by omega) hm (by rw [solver.shape, ncols_mat _ (by omega)])

/-! ### Interpolation -/

theorem interpolate_ok {p m : ℕ} {U : List K} {pts : DataPoints K d} {params : Parameters K}
    (hU : U.length = m + p + 2) (hp : p ≤ m) (hm : List.length pts = m + 1)
    (hv : params.vector.length = m + 1) (solver : Solver K d) :
    interpolate solver (canonKnots p U) pts params =
      .ok (solver.run (mat (m + 1) (m + 1) (fun g i => nb p m U i (fn params.vector g))) pts) := by
  rw [interpolate, DataPoints.segments, usub_ok (by omega), ok_bind, canonKnots_degree, hm,
    Nat.add_sub_cancel]
  dsimp only
  rw [tab0_ok (g := fun g => (List.range (m + 1)).map (fun i => nb p m U i (fn params.vector g)))
    (by
      intro g hg
      apply tab0_ok
      intro i hi
      rw [idx_ok (by omega), ok_bind, nb_ok hU hp hi]), ok_bind]
  exact svdSolve_ok (r := m + 1) (c := m + 1) _ (by omega) (by omega) hm

end LawFree

end BSpline
