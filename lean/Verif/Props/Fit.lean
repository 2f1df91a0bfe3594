import Verif.Refine.FitValue
import Verif.Refine.Shape
import Verif.Props.Predicates
import Verif.Props.Eval
import Verif.Props.KnotGen
import Verif.Props.Params
import Mathlib.Tactic.Positivity
import Mathlib.Algebra.Polynomial.Eval.Degree
import Mathlib.Data.Fin.VecNotation

/-!
# Least-squares fitting: C42, C43, C44, C45
-/

set_option linter.unusedSectionVars false

namespace BSpline

open Finset fwdDiff

/-! ### C45: the finite-difference matrices -/

section
variable {K : Type} [Field K] [LinearOrder K] [IsStrictOrderedRing K]

/-- row `i` of `M` applied to a sequence is the alternating binomial sum of its entries
`i, …, i + κ` -/
def IsDifference (M : List (List K)) (κ c : ℕ) : Prop :=
  M.length + κ = c ∧ (∀ row ∈ M, row.length = c) ∧
    ∀ (P : ℕ → K) i, i < M.length → ∑ j ∈ range c, (M.getD i []).getD j 0 * P j =
      ∑ k ∈ range (κ + 1), (-1) ^ (κ - k) * (κ.choose k : K) * P (i + k)

theorem isDifference_mat {r c κ : ℕ} (hκ : 1 ≤ κ) (h : r + κ = c) :
    IsDifference (mat r c (fun i j => ((differenceOperator κ i j : ℤ) : K))) κ c := by
  refine ⟨by rw [mat_length]; exact h, ?_, ?_⟩
  · intro row hrow
    simp only [mat, List.mem_map] at hrow
    obtain ⟨g, _, rfl⟩ := hrow
    simp
  · intro P i hi
    rw [mat_length] at hi
    have e2 : ∀ j ∈ range c, ((mat r c (fun i j => ((differenceOperator κ i j : ℤ) : K))).getD i []).getD j 0
        * P j = differenceOperator κ i j • P j := by
      intro j hj
      rw [mem_range] at hj
      simp [mat, List.getD_eq_getElem?_getD, hi, hj]
    rw [sum_congr rfl e2, sum_differenceOperator P hκ i (by omega), fwdDiff_iter_eq_sum_shift]
    apply sum_congr rfl
    intro k _
    simp

/-- **C45**, loose ends. -/
theorem C45_loose {p n κ : ℕ} {U : List K} {kn : Knots K} (hk : Knots.new p U = .ok kn)
    (hU : U.length = n + p + 2) (hp : p ≤ n) (h1 : 1 ≤ κ) (h2 : κ ≤ n) :
    ∃ M, Loose.finiteDifferenceMatrix κ kn = .ok M ∧ IsDifference M κ (n + 1) := by
  rw [Knots.new_ok (by omega)] at hk
  injection hk with hk
  subst hk
  exact ⟨_, loose_fd_ok hU h2, isDifference_mat h1 (by omega)⟩

/-- **C45**, fixed ends: the same for the inner control points. -/
theorem C45_fixed {p n κ : ℕ} {U : List K} {kn : Knots K} (hk : Knots.new p U = .ok kn)
    (hU : U.length = n + p + 2) (hp : p ≤ n) (h1 : 1 ≤ κ) (h2 : κ + 2 ≤ n) :
    ∃ M, Fixed.finiteDifferenceMatrix κ kn = .ok M ∧ IsDifference M κ (n - 1) := by
  rw [Knots.new_ok (by omega)] at hk
  injection hk with hk
  subst hk
  exact ⟨_, fixed_fd_ok hU h2, isDifference_mat h1 (by omega)⟩

/-- **C45**: differences vanish on polynomial sequences of degree below `κ`. -/
theorem C45_polynomial {M : List (List K)} {κ c : ℕ} (h : IsDifference M κ c) (q : Polynomial K)
    (hq0 : 1 ≤ κ) (hq : q.degree < κ) (i : ℕ) (hi : i < M.length) :
    ∑ j ∈ range c, (M.getD i []).getD j 0 * q.eval (j : K) = 0 := by
  rw [h.2.2 _ i hi]
  have hκ : q.natDegree < κ := by
    rcases eq_or_ne q 0 with rfl | h0
    · rcases Nat.eq_zero_or_pos κ with rfl | h1
      · simp at hq0
      · simpa using h1
    · exact (Polynomial.natDegree_lt_iff_degree_lt h0).mpr hq
  have key := congrFun (Polynomial.fwdDiff_iter_eq_zero_of_degree_lt hκ) (i : K)
  rw [fwdDiff_iter_eq_sum_shift] at key
  rw [Pi.zero_apply] at key
  rw [← key]
  apply sum_congr rfl
  intro k _
  simp

end

/-! ### C44: errors -/

section LawFree
variable {K : Type} [Add K] [Sub K] [Mul K] [Div K] [Neg K] [Zero K] [One K] [NatCast K] [IntCast K]
  [Cmp K] {d : ℕ}

/-- `Knots::new` returns exactly when the knot vector has at least `2 p` entries. -/
theorem knots_new_inv {p : ℕ} {U : List K} {kn : Knots K} (h : Knots.new p U = .ok kn) :
    2 * p ≤ U.length ∧ kn = canonKnots p U := by
  have h1 : 2 * p ≤ U.length := by
    have h' := h
    rw [Knots.new, Knots.derive] at h'
    obtain ⟨Uk, h2, -⟩ := bind_ok_inv h'
    have key : ∀ r lo (st Uk : List (List K)), 1 ≤ lo → st.length = lo →
        (st.getD (lo - 1) []).length + 2 * (lo - 1) = U.length →
        (List.range' lo r).foldlM (fun (Uk : List (List K)) k => do
          let prev ← idx Uk (k - 1)
          let len ← usub prev.length 2
          let seg ← segment prev 1 len
          pure (Uk ++ [seg])) st = .ok Uk → 2 * (lo - 1 + r) ≤ U.length := by
      intro r
      induction r with
      | zero => intro lo st Uk h1 h2 h3 _; omega
      | succ r ih =>
        intro lo st Uk h1 h2 h3 h4
        rw [List.range'_succ, List.foldlM_cons] at h4
        obtain ⟨st', h5, h6⟩ := bind_ok_inv h4
        obtain ⟨prev, h7, h5⟩ := bind_ok_inv h5
        obtain ⟨len, h8, h5⟩ := bind_ok_inv h5
        obtain ⟨seg, h9, h5⟩ := bind_ok_inv h5
        injection h5 with h5
        rw [idx_ok' (by omega)] at h7
        injection h7 with h7
        rw [List.getD_eq_getElem _ _ (by omega), h7] at h3
        have h10 := usub_inv h8
        have h11 := segment_inv h9
        have := ih (lo + 1) st' Uk (by omega) (by rw [← h5]; simp [h2]) (by
          rw [← h5, Nat.add_sub_cancel, List.getD_eq_getElem _ _ (by simp [h2]),
            List.getElem_append_right (by omega)]
          simp only [List.getElem_singleton]
          omega) h6
        omega
    have := key p 1 [U] Uk le_rfl rfl (by simp) (by
      rw [forRangeIncl, Nat.add_sub_cancel] at h2
      exact h2)
    omega
  rw [Knots.new_ok h1] at h
  injection h with h
  exact ⟨h1, h.symm⟩

theorem unif_eq {p n : ℕ} {U : List K} {b : Bool} (hU : U.length = n + p + 2) (h1 : 1 ≤ p)
    (hb : p ≤ n → isUniform (canonKnots p U) = .ok (.ok b)) (m mp : ℕ)
    (pen : Option (Penalization K)) :
    fitErrorOf n m mp p pen (unif p n U) = fitErrorOf n m mp p pen b := by
  by_cases h2 : p ≤ n
  · have := hb h2
    rw [isUniform_ok hU h1 h2] at this
    injection this with this; injection this with this
    rw [this]
  · unfold fitErrorOf
    rw [if_pos (show n < p by omega), if_pos (show n < p by omega)]

/-- **C44**, loose ends: the documented error in the documented order, otherwise a result with
`n + 1` control points; never a panic. For all scalars and solvers. -/
theorem C44_loose {p n m : ℕ} {U : List K} {kn : Knots K} {pts : DataPoints K d}
    {params : Parameters K} {b : Bool} (hk : Knots.new p U = .ok kn) (hU : U.length = n + p + 2)
    (h1 : 1 ≤ p) (hm : List.length pts = m + 1) (hv : params.vector.length = params.segments + 1)
    (hb : p ≤ n → isUniform kn = .ok (.ok b)) (solver : Solver K d) (pen : Option (Penalization K)) :
    (∀ e, fitErrorOf n m params.segments p pen b = some e →
      Loose.fit solver kn pts params pen = .ok (.error e)) ∧
    (fitErrorOf n m params.segments p pen b = none →
      ∃ P, Loose.fit solver kn pts params pen = .ok (.ok P) ∧ P.length = n + 1) := by
  obtain ⟨-, rfl⟩ := knots_new_inv hk
  rw [loose_fit_ok hU h1 hm hv, unif_eq hU h1 hb]
  constructor
  · intro e he; rw [he]
  · intro he; rw [he]
    exact ⟨_, rfl, by rw [solver.shape, ncols_mat _ (by omega)]⟩

/-- **C44**, fixed ends: the same if there are at least two segments and `kappa` is at most
`n - 2`. -/
theorem C44_fixed_partial {p n m : ℕ} {U : List K} {kn : Knots K} {pts : DataPoints K d}
    {params : Parameters K} {b : Bool} (hk : Knots.new p U = .ok kn) (hU : U.length = n + p + 2)
    (h1 : 1 ≤ p) (hm : List.length pts = m + 1) (hv : params.vector.length = params.segments + 1)
    (hb : p ≤ n → isUniform kn = .ok (.ok b)) (solver : Solver K d) (pen : Option (Penalization K)) :
    (∀ e, fitErrorOf n m params.segments p pen b = some e →
      Fixed.fit solver kn pts params pen = .ok (.error e)) ∧
    (fitErrorOf n m params.segments p pen b = none → 2 ≤ n → (∀ q ∈ pen, q.kappa + 2 ≤ n) →
      ∃ P, Fixed.fit solver kn pts params pen = .ok (.ok P) ∧ P.length = n + 1) := by
  obtain ⟨-, rfl⟩ := knots_new_inv hk
  rw [← unif_eq hU h1 hb]
  constructor
  · intro e he
    rw [fixed_fit_ok hU h1 hm hv solver pen (by rw [he]; simp), he]
  · intro he h2 h3
    rw [fixed_fit_ok hU h1 hm hv solver pen (fun _ => ⟨h2, fun q hq => h3 q (by simp [hq])⟩), he]
    exact ⟨_, rfl, by simp⟩

/-- **C44**: the fit with fixed ends panics in all other cases that pass the checks, i.e. for a
single segment and for `kappa = n - 1`. -/
theorem C44_fixed_panics {p n m : ℕ} {U : List K} {kn : Knots K} {pts : DataPoints K d}
    {params : Parameters K} {b : Bool} (hk : Knots.new p U = .ok kn) (hU : U.length = n + p + 2)
    (h1 : 1 ≤ p) (hm : List.length pts = m + 1) (hv : params.vector.length = params.segments + 1)
    (hb : p ≤ n → isUniform kn = .ok (.ok b)) (solver : Solver K d) (pen : Option (Penalization K))
    (he : fitErrorOf n m params.segments p pen b = none)
    (hbad : n = 1 ∨ ∃ q ∈ pen, q.kappa + 1 = n) :
    ∃ e, Fixed.fit solver kn pts params pen = .error e := by
  obtain ⟨-, rfl⟩ := knots_new_inv hk
  rw [← unif_eq hU h1 hb, fitErrorOf_eq] at he
  cases h2 : checkErrorOf n m params.segments p pen with
  | some e => rw [h2] at he; simp at he
  | none =>
    rw [h2] at he
    dsimp only at he
    obtain ⟨h3, h4, h5, h6⟩ := checkErrorOf_none h2
    rw [Fixed.fit, inputChecks_ok hU h1 hm, ok_bind, h2]
    dsimp only
    rw [qvectors_ok hU h5 hm (by omega) (by omega), ok_bind,
      constantTerms_ok hU h5 hm (by omega) (by omega) (by omega), ok_bind,
      fixed_coef_ok hU h5 hm (by omega) (by omega) (by omega), ok_bind, canonKnots_segments hU, ok_bind,
      usub_ok (by omega), ok_bind]
    cases pen with
    | none =>
      obtain rfl : n = 1 := by simpa using hbad
      rw [computeSvdMatrix_ok (n := 1) hU h1 h5 _ (fun κ => 1 - 1 - κ) none (by simp), ok_bind, he]
      exact ⟨.emptySvd, rfl⟩
    | some q =>
      have hq : n = 1 ∨ q.kappa + 1 = n := by simpa using hbad
      have hfd : ∃ e, Fixed.finiteDifferenceMatrix q.kappa (canonKnots p U) = .error e := by
        rw [Fixed.finiteDifferenceMatrix, canonKnots_segments hU, ok_bind]
        by_cases h7 : n = 1
        · subst h7; exact ⟨_, rfl⟩
        · rw [usub_ok (by omega), ok_bind, if_neg (by omega)]
          exact ⟨_, rfl⟩
      obtain ⟨e, hfd⟩ := hfd
      unfold penErrorOf at he
      unfold computeSvdMatrix
      dsimp only at he ⊢
      split at he
      · simp at he
      rename_i h8
      rw [if_neg h8]
      split at he
      · simp at he
      rename_i h9
      by_cases h10 : Cmp.lt 0 q.lambda = true
      · have h11 : unif p n U = true := by
          by_contra h; exact h9 ⟨h10, by simpa using h⟩
        rw [if_pos h10, isUniform_ok hU h1 h5, h11]
        simp only [ok_bind, unwrap, pure_ok, Bool.not_true]
        rw [if_neg (by simp), hfd]
        exact ⟨_, rfl⟩
      · rw [if_neg h10]
        simp only [pure_ok, ok_bind]
        rw [if_neg (by simp), hfd]
        exact ⟨_, rfl⟩

end LawFree

/-- a solver that returns zeros -/
def zeroSolver (d : ℕ) : Solver ℚ d where
  run A _ := List.replicate (ncols A) 0
  shape A b := by simp

/-- **C44** as stated is false: three data points on a line, degree 1, two segments and `kappa = 1`
pass all checks, but the fit with fixed ends panics. -/
theorem C44_full_false : ¬ ∀ (solver : Solver ℚ 1) (p n : ℕ) (U : List ℚ) (kn : Knots ℚ)
    (pts : DataPoints ℚ 1) (params : Parameters ℚ) (pen : Option (Penalization ℚ)),
    Knots.new p U = .ok kn → U.length = n + p + 2 → 1 ≤ p →
    params.vector.length = params.segments + 1 →
    fitErrorOf n (pts.length - 1) params.segments p pen true = none →
    ∃ r, Fixed.fit solver kn pts params pen = .ok r := by
  intro h
  obtain ⟨r, hr⟩ := h (zeroSolver 1) 1 2 [0, 0, 1/2, 1, 1] (canonKnots 1 [0, 0, 1/2, 1, 1])
    [![0], ![1], ![2]] ⟨[0, 1/2, 1], 2⟩ (some ⟨1, 1⟩) (by decide +kernel) (by decide +kernel)
    (by decide +kernel) (by decide +kernel) (by decide +kernel)
  revert hr
  rw [show Fixed.fit (zeroSolver 1) (canonKnots 1 [0, 0, 1/2, 1, 1])
    [![0], ![1], ![2]] ⟨[0, 1/2, 1], 2⟩ (some ⟨1, 1⟩) = .error .assertion by decide +kernel]
  exact fun h => by cases h

/-- **C44**: with degree zero, knots built by hand and `lambda > 0`, the fit panics as well. -/
theorem C44_degree_zero_panics :
    Loose.fit (zeroSolver 1) (canonKnots 0 [0, 1/2, 1]) [![0], ![1], ![2]] ⟨[0, 1/2, 1], 2⟩
      (some ⟨1, 0⟩) = .error .unwrap := by decide +kernel

section Optimal
variable {K : Type} [Field K] [LinearOrder K] [IsStrictOrderedRing K] {d : ℕ}

theorem getD_eq_fn {α : Type} [Zero α] {l : List α} {i : ℕ} (h : i < l.length) :
    l.getD i 0 = fn l i := by
  rw [fn_lt h, List.getD_eq_getElem _ _ h]

theorem fwdDiff_congr {f g : ℕ → K} (κ : ℕ) : ∀ i, (∀ j, i ≤ j → j ≤ i + κ → f j = g j) →
    (Δ_[1]^[κ] f) i = (Δ_[1]^[κ] g) i := by
  intro i h
  rw [fwdDiff_iter_eq_sum_shift, fwdDiff_iter_eq_sum_shift]
  apply sum_congr rfl
  intro k hk
  rw [mem_range] at hk
  rw [h (i + k • 1) (by simp) (by simp; omega)]

/-- the penalty, coordinate by coordinate -/
theorem penaltyCost_eq {c : ℕ} {P : List (Pt K d)} (hP : P.length = c)
    (pen : Option (Penalization K)) : penaltyCost pen P = ∑ ρ : Fin d, penLam pen *
      ∑ h ∈ range (penRows (fun κ => c - κ) pen), mv c (penD pen) (fun j => fn P j ρ) h ^ 2 := by
  cases pen with
  | none => simp [penaltyCost, penLam]
  | some q =>
    simp only [penaltyCost, penLam, penRows]
    by_cases h0 : q.kappa = 0
    · rw [if_pos h0]
      symm
      apply sum_eq_zero
      intro ρ _
      rw [sum_eq_zero, mul_zero]
      intro h _
      simp only [mv, penD, h0, differenceOperator_zero]
      simp
    · rw [if_neg h0, roughness, sum_comm, mul_sum, hP]
      apply sum_congr rfl
      intro ρ _
      congr 1
      apply sum_congr rfl
      intro h hh
      rw [mem_range] at hh
      rw [mv]
      simp only [penD]
      have e : ∀ j ∈ range c, ((differenceOperator q.kappa h j : ℤ) : K) * fn P j ρ =
          differenceOperator q.kappa h j • (fun j => fn P j ρ) j := by
        intro j _; simp
      rw [sum_congr rfl e, sum_differenceOperator (fun j => fn P j ρ) (by omega) h (by omega)]
      congr 1
      apply fwdDiff_congr
      intro j h1 h2
      rw [getD_eq_fn (by omega)]

theorem fitErrorOf_none {n m mp p : ℕ} {pen : Option (Penalization K)} {b : Bool}
    (h : fitErrorOf n m mp p pen b = none) : n ≤ m ∧ m = mp ∧ p ≤ n ∧ 0 ≤ penLam pen := by
  rw [fitErrorOf_eq] at h
  cases h2 : checkErrorOf n m mp p pen with
  | some e => rw [h2] at h; simp at h
  | none =>
    rw [h2] at h
    dsimp only at h
    obtain ⟨h3, h4, h5, h6⟩ := checkErrorOf_none h2
    refine ⟨h3, h4, h5, ?_⟩
    cases pen with
    | none => exact le_rfl
    | some q =>
      unfold penErrorOf at h
      dsimp only at h
      split at h
      · simp at h
      · rename_i h7
        show 0 ≤ q.lambda
        simpa [Cmp.lt] using h7

/-- the squared error of a curve as a quadratic form in its control points -/
theorem sqError_iff {p n : ℕ} {U : List K} {P : List (Pt K d)} {c : Curve K d} {τ : List K}
    {Q : List (Pt K d)} {I : Finset ℕ} {e : K} (h : ClampedKnots 0 1 p n U)
    (hP : P.length = n + 1) (hc : Built c p U P) (hI : ∀ g ∈ I, g < τ.length ∧ g < Q.length)
    (hτ : ∀ x ∈ τ, 0 ≤ x ∧ x ≤ 1) : SqError c τ Q I e ↔
      e = ∑ g ∈ I, ∑ ρ, (∑ i ∈ range (n + 1), nb p n U i (fn τ g) * fn P i ρ - fn Q g ρ) ^ 2 := by
  obtain rfl := hc.eq_canon h.length h.le hP
  have hev : ∀ g ∈ I, (canon p U P).evaluate (τ.getD g 0) =
      .ok (.ok (∑ i ∈ range (n + 1), nb p n U i (fn τ g) • fn P i)) := by
    intro g hg
    have h1 := (hI g hg).1
    rw [getD_eq_fn h1]
    have h2 := hτ (fn τ g) (by rw [fn_lt h1]; exact List.getElem_mem h1)
    exact evaluate_sum h hP h2.1 h2.2
  have hsq : ∀ g ∈ I, sqDist (∑ i ∈ range (n + 1), nb p n U i (fn τ g) • fn P i) (Q.getD g 0) =
      ∑ ρ, (∑ i ∈ range (n + 1), nb p n U i (fn τ g) * fn P i ρ - fn Q g ρ) ^ 2 := by
    intro g hg
    rw [sqDist, getD_eq_fn (hI g hg).2]
    apply sum_congr rfl
    intro ρ _
    rw [Finset.sum_apply]
    rfl
  constructor
  · rintro ⟨v, hv, rfl⟩
    apply sum_congr rfl
    intro g hg
    have := hv g hg
    rw [hev g hg] at this
    injection this with this; injection this with this
    rw [← this, hsq g hg]
  · rintro rfl
    exact ⟨_, hev, sum_congr rfl (fun g hg => (hsq g hg).symm)⟩

/-- what a successful fit with loose ends has computed -/
theorem loose_normal {p n m : ℕ} {U : List K} {kn : Knots K} {pts P : DataPoints K d}
    {params : Parameters K} {solver : Solver K d} {pen : Option (Penalization K)}
    (hs : solver.Exact) (hk : Knots.new p U = .ok kn) (hU : ClampedKnots 0 1 p n U) (h1 : 1 ≤ p)
    (hm : List.length pts = m + 1) (hv : params.vector.length = params.segments + 1)
    (hfit : Loose.fit solver kn pts params pen = .ok (.ok P)) :
    n ≤ m ∧ m = params.segments ∧ 0 ≤ penLam pen ∧ List.length P = n + 1 ∧
    ∀ ρ i, i < n + 1 → ∑ j ∈ range (n + 1), nm (m + 1) (penRows (fun κ => n + 1 - κ) pen)
      (fun g i => nb p n U i (fn params.vector g)) (penD pen) (penLam pen) i j * fn P j ρ =
        ∑ g ∈ range (m + 1), nb p n U i (fn params.vector g) * fn pts g ρ := by
  obtain ⟨-, rfl⟩ := knots_new_inv hk
  rw [loose_fit_ok hU.length h1 hm hv] at hfit
  injection hfit with hfit
  cases he : fitErrorOf n m params.segments p pen (unif p n U) with
  | some e => rw [he] at hfit; cases hfit
  | none =>
    rw [he] at hfit
    injection hfit with hfit
    obtain ⟨h2, h3, h4, h5⟩ := fitErrorOf_none he
    refine ⟨h2, h3, h5, by rw [← hfit, solver.shape, ncols_mat _ (by omega)], ?_⟩
    intro ρ
    have key := exact_normal hs (r := m + 1) (c := n + 1) (by omega)
      (fun g i => nb p n U i (fn params.vector g)) (fun κ => n + 1 - κ) pen h5 (fn pts) rfl ρ
    rw [hfit] at key
    exact key

theorem loose_range {m : ℕ} {pts : DataPoints K d} {params : Parameters K}
    (hm : List.length pts = m + 1) (hv : params.vector.length = params.segments + 1)
    (h : m = params.segments) : ∀ g ∈ range (m + 1), g < params.vector.length ∧ g < List.length pts := by
  intro g hg
  rw [mem_range] at hg
  omega

/-- **C42**: the control points returned by the fit with loose ends minimise the sum of the squared
distances plus the penalty, over all control polygons with the same knots. -/
theorem C42_loose_optimal {p n m : ℕ} {U : List K} {kn : Knots K} {pts P : DataPoints K d}
    {params : Parameters K} {solver : Solver K d} {pen : Option (Penalization K)}
    (hs : solver.Exact) (hk : Knots.new p U = .ok kn) (hU : ClampedKnots 0 1 p n U) (h1 : 1 ≤ p)
    (hm : List.length pts = m + 1) (hv : params.vector.length = params.segments + 1)
    (hτ : ∀ x ∈ params.vector, 0 ≤ x ∧ x ≤ 1)
    (hfit : Loose.fit solver kn pts params pen = .ok (.ok P)) :
    ∃ (c : Curve K d) (e : K), Built c p U P ∧ List.length P = n + 1 ∧
      SqError c params.vector pts (range (m + 1)) e ∧
      ∀ (P' : List (Pt K d)) (c' : Curve K d) (e' : K), P'.length = n + 1 → Built c' p U P' →
        SqError c' params.vector pts (range (m + 1)) e' →
        e + penaltyCost pen P ≤ e' + penaltyCost pen P' := by
  obtain ⟨h2, h3, h5, hlen, key⟩ := loose_normal hs hk hU h1 hm hv hfit
  have hI := loose_range hm hv h3
  have hb := mkCurve_ok hlen hU.le (show n + p + 1 ≤ U.length by have := hU.length; omega)
  refine ⟨canon p U P, _, hb, hlen, (sqError_iff hU hlen hb hI hτ).mpr rfl, ?_⟩
  intro P' c' e' hP' hc' he'
  rw [(sqError_iff hU hP' hc' hI hτ).mp he', penaltyCost_eq hlen, penaltyCost_eq hP', sum_comm,
    sum_comm (s := range (m + 1)), ← sum_add_distrib, ← sum_add_distrib]
  apply sum_le_sum
  intro ρ _
  exact lsq_le h5 (key ρ) (fun j => fn P' j ρ)

/-- Another minimiser has the same values at the parameters. -/
theorem loose_unique {p n m : ℕ} {U : List K} {kn : Knots K} {pts P : DataPoints K d}
    {params : Parameters K} {solver : Solver K d} {pen : Option (Penalization K)}
    (hs : solver.Exact) (hk : Knots.new p U = .ok kn) (hU : ClampedKnots 0 1 p n U) (h1 : 1 ≤ p)
    (hm : List.length pts = m + 1) (hv : params.vector.length = params.segments + 1)
    (hτ : ∀ x ∈ params.vector, 0 ≤ x ∧ x ≤ 1)
    (hfit : Loose.fit solver kn pts params pen = .ok (.ok P)) {c c' : Curve K d} {e e' : K}
    {P' : List (Pt K d)} (hc : Built c p U P) (hP' : P'.length = n + 1) (hc' : Built c' p U P')
    (he : SqError c params.vector pts (range (m + 1)) e)
    (he' : SqError c' params.vector pts (range (m + 1)) e')
    (hle : e' + penaltyCost pen P' ≤ e + penaltyCost pen P) :
    ∀ g, g ≤ m → ∀ ρ, ∑ i ∈ range (n + 1), nb p n U i (fn params.vector g) * fn P' i ρ =
      ∑ i ∈ range (n + 1), nb p n U i (fn params.vector g) * fn P i ρ := by
  obtain ⟨h2, h3, h5, hlen, key⟩ := loose_normal hs hk hU h1 hm hv hfit
  have hI := loose_range hm hv h3
  rw [(sqError_iff hU hP' hc' hI hτ).mp he', (sqError_iff hU hlen hc hI hτ).mp he,
    penaltyCost_eq hlen, penaltyCost_eq hP', sum_comm,
    sum_comm (s := range (m + 1)), ← sum_add_distrib, ← sum_add_distrib] at hle
  have h6 : ∀ ρ ∈ (univ : Finset (Fin d)), _ := fun ρ _ => lsq_le h5 (key ρ) (fun j => fn P' j ρ)
  have h7 := (sum_eq_sum_iff_of_le h6).mp (le_antisymm (sum_le_sum h6) hle)
  intro g hg ρ
  exact lsq_unique h5 (key ρ) (h7 ρ (mem_univ ρ)).ge g (by omega)

theorem fixAcc_eq {p n m : ℕ} {U : List K} {pts : List (Pt K d)} {τ : List K} (i : ℕ) :
    fixAcc p n m U pts τ (i + 1) = rhsE (m - 1) (fun g i => nb p n U (i + 1) (fn τ (g + 1)))
      (fun g => fixQ p n m U pts τ (g + 1)) i := by
  rw [fixAcc, foldl_add_eq_sum (fun g => scale (nb p n U (i + 1) (fn τ g)) (fixQ p n m U pts τ g))]
  funext ρ
  rw [rhsE_eq, Pi.add_apply, Finset.sum_apply, mul_zero, zero_add, sum_Ico_eq_sum_range,
    Nat.add_sub_cancel_left]
  apply sum_congr rfl
  intro g _
  rw [Nat.add_comm 1 g]
  rfl

theorem fn_inner {P : List (Pt K d)} {j : ℕ} (hj : j + 2 < P.length) :
    fn P.tail.dropLast j = fn P (j + 1) := by
  rw [fn_lt (by simp; omega), fn_lt (by omega)]
  simp

/-- sums over the inner indices -/
theorem sum_inner {n : ℕ} (hn : 1 ≤ n) (f : ℕ → K) :
    ∑ i ∈ range (n + 1), f i = f 0 + f n + ∑ i ∈ range (n - 1), f (i + 1) := by
  obtain ⟨k, rfl⟩ : ∃ k, n = k + 1 := ⟨n - 1, by omega⟩
  rw [sum_range_succ, sum_range_succ']
  simp only [Nat.add_sub_cancel]
  ring

/-- what a successful fit with fixed ends has computed -/
theorem fixed_normal {p n m : ℕ} {U : List K} {kn : Knots K} {pts P : DataPoints K d}
    {params : Parameters K} {solver : Solver K d} {pen : Option (Penalization K)}
    (hs : solver.Exact) (hk : Knots.new p U = .ok kn) (hU : ClampedKnots 0 1 p n U) (h1 : 1 ≤ p)
    (hm : List.length pts = m + 1) (hv : params.vector.length = params.segments + 1)
    (hfit : Fixed.fit solver kn pts params pen = .ok (.ok P)) :
    2 ≤ n ∧ n ≤ m ∧ m = params.segments ∧ 0 ≤ penLam pen ∧ List.length P = n + 1 ∧
    fn P 0 = fn pts 0 ∧ fn P n = fn pts m ∧
    ∀ ρ i, i < n - 1 → ∑ j ∈ range (n - 1), nm (m - 1) (penRows (fun κ => n - 1 - κ) pen)
      (fun g i => nb p n U (i + 1) (fn params.vector (g + 1))) (penD pen) (penLam pen) i j *
        fn P.tail.dropLast j ρ =
        ∑ g ∈ range (m - 1), nb p n U (i + 1) (fn params.vector (g + 1)) *
          fixQ p n m U pts params.vector (g + 1) ρ := by
  have hl := hU.length
  obtain ⟨-, rfl⟩ := knots_new_inv hk
  have hcond : fitErrorOf n m params.segments p pen (unif p n U) = none →
      2 ≤ n ∧ ∀ q, pen = some q → q.kappa + 2 ≤ n := by
    intro he
    by_contra hcon
    obtain ⟨e, h⟩ := C44_fixed_panics hk hl h1 hm hv (fun h2 => isUniform_ok hl h1 h2) solver pen he (by
      obtain ⟨h2, h3, h4, h5⟩ := fitErrorOf_none he
      by_contra h6
      push Not at h6
      refine hcon ⟨by omega, fun q hq => ?_⟩
      rw [fitErrorOf_eq] at he
      cases h7 : checkErrorOf n m params.segments p pen with
      | some e => rw [h7] at he; simp at he
      | none =>
        have h8 := (checkErrorOf_none h7).2.2.2 q hq
        have h9 := h6.2 q (by simp [hq])
        omega)
    rw [hfit] at h
    cases h
  rw [fixed_fit_ok hl h1 hm hv solver pen hcond] at hfit
  injection hfit with hfit
  cases he : fitErrorOf n m params.segments p pen (unif p n U) with
  | some e => rw [he] at hfit; cases hfit
  | none =>
    rw [he] at hfit
    injection hfit with hfit
    obtain ⟨h2, h3, h4, h5⟩ := fitErrorOf_none he
    have hn := (hcond he).1
    have hlen : List.length P = n + 1 := by rw [← hfit]; simp
    have hfn : ∀ i, i ≤ n → fn P i = fixP n m pts (solver.run
          (mat (n - 1) (n - 1) (normE (m - 1)
            (fun g i => nb p n U (i + 1) (fn params.vector (g + 1))) (fun κ => n - 1 - κ) pen))
          ((List.range (n - 1)).map (fun i => fixAcc p n m U pts params.vector (i + 1)))) i := by
      intro i hi
      rw [← hfit, fn_map_range _ (by omega)]
    refine ⟨hn, h2, h3, h5, hlen, by rw [hfn 0 (by omega), fixP, if_pos rfl],
      by rw [hfn n le_rfl, fixP, if_neg (by omega), if_pos rfl], ?_⟩
    intro ρ i hi
    have key := exact_normal hs (r := m - 1) (c := n - 1) (by omega)
      (fun g i => nb p n U (i + 1) (fn params.vector (g + 1))) (fun κ => n - 1 - κ) pen h5
      (fun g => fixQ p n m U pts params.vector (g + 1))
      (b := (List.range (n - 1)).map (fun i => fixAcc p n m U pts params.vector (i + 1)))
      (List.map_congr_left (fun i _ => fixAcc_eq i)) ρ
    rw [← key i hi]
    apply sum_congr rfl
    intro j hj
    rw [mem_range] at hj
    rw [fn_inner (by omega), hfn (j + 1) (by omega), fixP, if_neg (by omega), if_neg (by omega),
      Nat.add_sub_cancel]

/-- residuals of a polygon with the given ends, in terms of its inner points -/
theorem fixed_residual {p n m : ℕ} {U : List K} {pts X : List (Pt K d)} {τ : List K} (hn : 2 ≤ n)
    (hX : X.length = n + 1) (hX0 : fn X 0 = fn pts 0) (hXn : fn X n = fn pts m) (ρ : Fin d) (g : ℕ) :
    ∑ i ∈ range (n + 1), nb p n U i (fn τ (g + 1)) * fn X i ρ - fn pts (g + 1) ρ =
      mv (n - 1) (fun g i => nb p n U (i + 1) (fn τ (g + 1))) (fun j => fn X.tail.dropLast j ρ) g -
        fixQ p n m U pts τ (g + 1) ρ := by
  rw [sum_inner (by omega), hX0, hXn, mv]
  have e : ∀ j ∈ range (n - 1), nb p n U (j + 1) (fn τ (g + 1)) * fn X.tail.dropLast j ρ =
      nb p n U (j + 1) (fn τ (g + 1)) * fn X (j + 1) ρ := by
    intro j hj
    rw [mem_range] at hj
    rw [fn_inner (by omega)]
  rw [sum_congr rfl e, fixQ]
  simp only [Pi.sub_apply, scale]
  ring

theorem fixed_error {p n m : ℕ} {U : List K} {pts X : List (Pt K d)} {τ : List K} (hn : 2 ≤ n)
    (hX : X.length = n + 1) (hX0 : fn X 0 = fn pts 0) (hXn : fn X n = fn pts m) (ρ : Fin d) :
    ∑ g ∈ Ico 1 m, (∑ i ∈ range (n + 1), nb p n U i (fn τ g) * fn X i ρ - fn pts g ρ) ^ 2 =
      ∑ g ∈ range (m - 1), (mv (n - 1) (fun g i => nb p n U (i + 1) (fn τ (g + 1)))
        (fun j => fn X.tail.dropLast j ρ) g - fixQ p n m U pts τ (g + 1) ρ) ^ 2 := by
  rw [sum_Ico_eq_sum_range]
  apply sum_congr rfl
  intro g _
  rw [Nat.add_comm 1 g, fixed_residual hn hX hX0 hXn ρ g]

theorem fixed_range {m : ℕ} {pts : DataPoints K d} {params : Parameters K}
    (hm : List.length pts = m + 1) (hv : params.vector.length = params.segments + 1)
    (h : m = params.segments) : ∀ g ∈ Ico 1 m, g < params.vector.length ∧ g < List.length pts := by
  intro g hg
  rw [mem_Ico] at hg
  omega

theorem getElem?_eq_iff_fn {l l' : List (Pt K d)} {i j : ℕ} (hi : i < l.length)
    (hj : j < l'.length) : l[i]? = l'[j]? ↔ fn l i = fn l' j := by
  rw [List.getElem?_eq_getElem hi, List.getElem?_eq_getElem hj, fn_lt hi, fn_lt hj]
  exact ⟨fun h => by injection h, fun h => by rw [h]⟩

theorem length_inner {n : ℕ} {X : List (Pt K d)} (hX : X.length = n + 1) :
    X.tail.dropLast.length = n - 1 := by simp [hX]

/-- **C43**: the fit with fixed ends starts in the first and ends in the last data point, and among
all control polygons with these ends minimises the sum of the squared distances to the inner data
points plus the penalty on the inner control points. -/
theorem C43_fixed_optimal {p n m : ℕ} {U : List K} {kn : Knots K} {pts P : DataPoints K d}
    {params : Parameters K} {solver : Solver K d} {pen : Option (Penalization K)}
    (hs : solver.Exact) (hk : Knots.new p U = .ok kn) (hU : ClampedKnots 0 1 p n U) (h1 : 1 ≤ p)
    (hm : List.length pts = m + 1) (hv : params.vector.length = params.segments + 1)
    (hτ : ∀ x ∈ params.vector, 0 ≤ x ∧ x ≤ 1)
    (hfit : Fixed.fit solver kn pts params pen = .ok (.ok P)) :
    ∃ (c : Curve K d) (e : K), Built c p U P ∧ List.length P = n + 1 ∧
      P[0]? = pts[0]? ∧ P[n]? = pts[m]? ∧
      c.evaluate 0 = .ok (.ok (pts.getD 0 0)) ∧ c.evaluate 1 = .ok (.ok (pts.getD m 0)) ∧
      SqError c params.vector pts (Ico 1 m) e ∧
      ∀ (P' : List (Pt K d)) (c' : Curve K d) (e' : K), P'.length = n + 1 → Built c' p U P' →
        P'[0]? = pts[0]? → P'[n]? = pts[m]? → SqError c' params.vector pts (Ico 1 m) e' →
        e + penaltyCost pen P.tail.dropLast ≤ e' + penaltyCost pen P'.tail.dropLast := by
  obtain ⟨hn, h2, h3, h5, hlen, hP0, hPn, key⟩ := fixed_normal hs hk hU h1 hm hv hfit
  have hI := fixed_range hm hv h3
  have hb := mkCurve_ok hlen hU.le (show n + p + 1 ≤ U.length by have := hU.length; omega)
  have hP0' : P[0]? = pts[0]? := (getElem?_eq_iff_fn (by omega) (by omega)).mpr hP0
  have hPn' : P[n]? = pts[m]? := (getElem?_eq_iff_fn (by omega) (by omega)).mpr hPn
  obtain ⟨e0, e1⟩ := C07_endpoints (show ValidOn 0 1 (canon p U P) p n U P from ⟨hb, hU, hlen⟩)
    (first := pts.getD 0 0) (last := pts.getD m 0)
    (by rw [List.head?_eq_getElem?, hP0', List.getElem?_eq_getElem (by omega),
          List.getD_eq_getElem _ _ (by omega)])
    (by rw [List.getLast?_eq_getElem?, hlen, Nat.add_sub_cancel, hPn',
          List.getElem?_eq_getElem (by omega), List.getD_eq_getElem _ _ (by omega)])
  refine ⟨canon p U P, _, hb, hlen, hP0', hPn', e0, e1, (sqError_iff hU hlen hb hI hτ).mpr rfl, ?_⟩
  intro P' c' e' hP' hc' hP'0 hP'n he'
  rw [getElem?_eq_iff_fn (by omega) (by omega)] at hP'0 hP'n
  rw [(sqError_iff hU hP' hc' hI hτ).mp he', penaltyCost_eq (length_inner hlen),
    penaltyCost_eq (length_inner hP'), sum_comm,
    sum_comm (s := Ico 1 m), ← sum_add_distrib, ← sum_add_distrib]
  apply sum_le_sum
  intro ρ _
  rw [fixed_error hn hlen hP0 hPn, fixed_error hn hP' hP'0 hP'n]
  exact lsq_le h5 (key ρ) (fun j => fn P'.tail.dropLast j ρ)

/-- Another minimiser has the same values at the inner parameters. -/
theorem fixed_unique {p n m : ℕ} {U : List K} {kn : Knots K} {pts P : DataPoints K d}
    {params : Parameters K} {solver : Solver K d} {pen : Option (Penalization K)}
    (hs : solver.Exact) (hk : Knots.new p U = .ok kn) (hU : ClampedKnots 0 1 p n U) (h1 : 1 ≤ p)
    (hm : List.length pts = m + 1) (hv : params.vector.length = params.segments + 1)
    (hτ : ∀ x ∈ params.vector, 0 ≤ x ∧ x ≤ 1)
    (hfit : Fixed.fit solver kn pts params pen = .ok (.ok P)) {c c' : Curve K d} {e e' : K}
    {P' : List (Pt K d)} (hc : Built c p U P) (hP' : P'.length = n + 1) (hc' : Built c' p U P')
    (hP'0 : P'[0]? = pts[0]?) (hP'n : P'[n]? = pts[m]?)
    (he : SqError c params.vector pts (Ico 1 m) e)
    (he' : SqError c' params.vector pts (Ico 1 m) e')
    (hle : e' + penaltyCost pen P'.tail.dropLast ≤ e + penaltyCost pen P.tail.dropLast) :
    ∀ g, 1 ≤ g → g < m → ∀ ρ, ∑ i ∈ range (n + 1), nb p n U i (fn params.vector g) * fn P' i ρ =
      ∑ i ∈ range (n + 1), nb p n U i (fn params.vector g) * fn P i ρ := by
  obtain ⟨hn, h2, h3, h5, hlen, hP0, hPn, key⟩ := fixed_normal hs hk hU h1 hm hv hfit
  have hI := fixed_range hm hv h3
  rw [getElem?_eq_iff_fn (by omega) (by omega)] at hP'0 hP'n
  rw [(sqError_iff hU hP' hc' hI hτ).mp he', (sqError_iff hU hlen hc hI hτ).mp he,
    penaltyCost_eq (length_inner hlen), penaltyCost_eq (length_inner hP'), sum_comm,
    sum_comm (s := Ico 1 m), ← sum_add_distrib, ← sum_add_distrib] at hle
  simp only [fixed_error hn hlen hP0 hPn, fixed_error hn hP' hP'0 hP'n] at hle
  have h6 : ∀ ρ ∈ (univ : Finset (Fin d)), _ :=
    fun ρ _ => lsq_le h5 (key ρ) (fun j => fn P'.tail.dropLast j ρ)
  have h7 := (sum_eq_sum_iff_of_le h6).mp (le_antisymm (sum_le_sum h6) hle)
  intro g hg1 hgm ρ
  obtain ⟨g, rfl⟩ : ∃ k, g = k + 1 := ⟨g - 1, by omega⟩
  have h8 := lsq_unique h5 (key ρ) (h7 ρ (mem_univ ρ)).ge g (by omega)
  have h9 := fixed_residual (p := p) (U := U) (τ := params.vector) hn hlen hP0 hPn ρ g
  have h10 := fixed_residual (p := p) (U := U) (τ := params.vector) hn hP' hP'0 hP'n ρ g
  rw [h8, ← h9] at h10
  exact sub_left_inj.mp h10

/-- Exact solvers exist, so that the hypothesis of the optimality theorems can be met. -/
theorem exists_exact_solver (K : Type) [Field K] [LinearOrder K] (d : ℕ) :
    ∃ s : Solver K d, s.Exact := by
  classical
  have h : ∀ (A : List (List K)) (b : List (Pt K d)), ∃ x : List (Pt K d), x.length = ncols A ∧
      ((∃ x, Solves A x b) → Solves A x b) := by
    intro A b
    by_cases h : ∃ x, Solves A x b
    · obtain ⟨x, hx⟩ := h
      cases A with
      | nil => exact ⟨[], rfl, fun _ => ⟨hx.1, by simp, by simp⟩⟩
      | cons row A => exact ⟨x, (hx.2.1 row (by simp)).symm, fun _ => hx⟩
    · exact ⟨List.replicate (ncols A) 0, by simp, fun h' => absurd h' h⟩
  choose run h1 h2 using h
  exact ⟨⟨run, h1⟩, h2⟩

end Optimal

section Generated
variable {K : Type} [Field K] [LinearOrder K] [IsStrictOrderedRing K] {d : ℕ}

/-- the uniform knots -/
theorem uniform_clamped {p n : ℕ} (h1 : 1 ≤ p) (h2 : p ≤ n) :
    ClampedKnots 0 1 p n (genU p n (uniK (K := K) p n)) := by
  obtain ⟨kn, U, h3, h4, h5, -⟩ := C35_uniform (K := K) h1 h2
  rw [uniform_ok h1 h2] at h3
  injection h3 with h3; injection h3 with h3
  rw [← h3, canonKnots_vector] at h4
  injection h4 with h4
  rw [h4]; exact h5

theorem uniform_isUniform {p n : ℕ} (h1 : 1 ≤ p) (h2 : p ≤ n) :
    isUniform (canonKnots p (genU p n (uniK (K := K) p n))) = .ok (.ok true) := by
  obtain ⟨kn, U, h3, -, -, -, h4, -⟩ := C35_uniform (K := K) h1 h2
  rw [uniform_ok h1 h2] at h3
  injection h3 with h3; injection h3 with h3
  rw [h3]; exact h4

/-- the equally spaced parameters -/
theorem equallySpaced_shape (m : ℕ) : ∃ ps : Parameters K, equallySpaced m = .ok ps ∧
    ps.segments = m ∧ ps.vector.length = m + 1 ∧ (∀ x ∈ ps.vector, 0 ≤ x ∧ x ≤ 1) := by
  rw [equallySpaced_ok]
  refine ⟨_, rfl, rfl, by simp, ?_⟩
  intro x hx
  simp only [List.mem_map, List.mem_range] at hx
  obtain ⟨g, hg, rfl⟩ := hx
  split
  · exact ⟨zero_le_one, le_rfl⟩
  · split
    · exact ⟨le_rfl, zero_le_one⟩
    · refine ⟨by positivity, ?_⟩
      apply div_le_one_of_le₀ _ (by positivity)
      exact_mod_cast (by omega : g ≤ m)

/-- the fit that `LeastSquaresFit` runs -/
def runFit (method : FitMethod) (solver : Solver K d) (kn : Knots K) (pts : DataPoints K d)
    (params : Parameters K) (pen : Option (Penalization K)) :
    Exec (Except (FitError K) (List (Pt K d))) :=
  match method with
  | .fixedEnds => Fixed.fit solver kn pts params pen
  | .looseEnds => Loose.fit solver kn pts params pen

variable [Trunc K] [Sqrt K]

theorem generate_fit {p n m : ℕ} {pts : DataPoints K d} (h1 : 1 ≤ p) (h2 : p ≤ n)
    (hm : List.length pts = m + 1) (solver : Solver K d) (method : FitMethod)
    (pen : Option (Penalization K)) {ps : Parameters K} (hps : equallySpaced m = .ok ps) :
    generate solver (.leastSquaresFit p pts n method pen) = (do
      let r ← runFit method solver (canonKnots p (genU p n (uniK p n))) pts ps pen
      match r with
      | .error err => pure (.error (.fitError err))
      | .ok P => mkCurve p (genU p n (uniK p n)) P) := by
  rw [generate]
  simp only [generateParams, DataPoints.segments, generateKnots]
  rw [usub_ok (by omega), ok_bind, hm, Nat.add_sub_cancel, hps, ok_bind, uniform_ok h1 h2, ok_bind]
  have mk : ∀ P : List (Pt K d), mkCurve p (genU p n (uniK p n)) P =
      Curve.new (canonKnots p (genU p n (uniK p n))) (ControlPoints.new P) := by
    intro P
    rw [mkCurve, genKnots_new h2, ok_bind]
  simp only [mk]
  cases method <;> rfl

/-- **C44** for generated curves, loose ends: `LeastSquaresFit` reports exactly the documented
errors and otherwise a curve; the errors about parameters and uniform knots cannot occur. -/
theorem C44_generate_loose {p n m : ℕ} {pts : DataPoints K d} (h1 : 1 ≤ p) (h2 : p ≤ n)
    (hm : List.length pts = m + 1) (solver : Solver K d) (pen : Option (Penalization K)) :
    (∀ e, fitErrorOf n m m p pen true = some e →
      generate solver (.leastSquaresFit p pts n .looseEnds pen) = .ok (.error (.fitError e))) ∧
    (fitErrorOf n m m p pen true = none → ∃ c U P, ClampedKnots 0 1 p n U ∧ P.length = n + 1 ∧
      Built c p U P ∧ generate solver (.leastSquaresFit p pts n .looseEnds pen) = .ok (.ok c)) := by
  obtain ⟨ps, h3, h4, h5, -⟩ := equallySpaced_shape (K := K) m
  obtain ⟨h6, h7⟩ := C44_loose (genKnots_new h2 _) (genU_length p n _) h1 hm (by rw [h5, h4])
    (fun _ => uniform_isUniform (K := K) h1 h2) solver pen
  rw [h4] at h6 h7
  rw [generate_fit h1 h2 hm _ _ _ h3]
  simp only [runFit]
  constructor
  · intro e he
    rw [h6 e he]; rfl
  · intro he
    obtain ⟨P, h8, h9⟩ := h7 he
    rw [h8]
    exact ⟨_, _, P, uniform_clamped h1 h2, h9, mkCurve_ok h9 h2 (by rw [genU_length]; omega),
      mkCurve_ok h9 h2 (by rw [genU_length]; omega)⟩

/-- **C44** for generated curves, fixed ends. -/
theorem C44_generate_fixed_partial {p n m : ℕ} {pts : DataPoints K d} (h1 : 1 ≤ p) (h2 : p ≤ n)
    (hm : List.length pts = m + 1) (solver : Solver K d) (pen : Option (Penalization K)) :
    (∀ e, fitErrorOf n m m p pen true = some e →
      generate solver (.leastSquaresFit p pts n .fixedEnds pen) = .ok (.error (.fitError e))) ∧
    (fitErrorOf n m m p pen true = none → 2 ≤ n → (∀ q ∈ pen, q.kappa + 2 ≤ n) →
      ∃ c U P, ClampedKnots 0 1 p n U ∧ P.length = n + 1 ∧
      Built c p U P ∧ generate solver (.leastSquaresFit p pts n .fixedEnds pen) = .ok (.ok c)) := by
  obtain ⟨ps, h3, h4, h5, -⟩ := equallySpaced_shape (K := K) m
  obtain ⟨h6, h7⟩ := C44_fixed_partial (genKnots_new h2 _) (genU_length p n _) h1 hm (by rw [h5, h4])
    (fun _ => uniform_isUniform (K := K) h1 h2) solver pen
  rw [h4] at h6 h7
  rw [generate_fit h1 h2 hm _ _ _ h3]
  simp only [runFit]
  constructor
  · intro e he
    rw [h6 e he]; rfl
  · intro he hn hq
    obtain ⟨P, h8, h9⟩ := h7 he hn hq
    rw [h8]
    exact ⟨_, _, P, uniform_clamped h1 h2, h9, mkCurve_ok h9 h2 (by rw [genU_length]; omega),
      mkCurve_ok h9 h2 (by rw [genU_length]; omega)⟩

/-- **C44** for generated curves: when knots cannot be generated. -/
theorem C44_generate_knots_error {p n m : ℕ} {pts : DataPoints K d} (hm : List.length pts = m + 1)
    (solver : Solver K d) (method : FitMethod) (pen : Option (Penalization K)) :
    (p = 0 → generate solver (.leastSquaresFit p pts n method pen) =
      .ok (.error (.degreeTooLow 0 0))) ∧
    (1 ≤ p → n < p → generate solver (.leastSquaresFit p pts n method pen) =
      .ok (.error (.degreeAndSegmentsMismatch p n))) := by
  obtain ⟨ps, h3, -⟩ := equallySpaced_shape (K := K) m
  rw [generate]
  simp only [generateParams, DataPoints.segments, generateKnots]
  rw [usub_ok (by omega), ok_bind, hm, Nat.add_sub_cancel, h3, ok_bind]
  constructor
  · rintro rfl
    rw [uniform]; rfl
  · intro h1 h2
    rw [uniform]
    simp only [inputCheck]
    rw [if_neg (by omega), if_pos h2]; rfl

/-- **C42** for generated curves. -/
theorem C42_generate {p n m : ℕ} {pts : DataPoints K d} {solver : Solver K d}
    {pen : Option (Penalization K)} {c : Curve K d} (hs : solver.Exact) (h1 : 1 ≤ p)
    (h2 : p ≤ n) (hm : List.length pts = m + 1)
    (hgen : generate solver (.leastSquaresFit p pts n .looseEnds pen) = .ok (.ok c)) :
    ∃ (ps : Parameters K) (U : List K) (P : List (Pt K d)) (e : K), equallySpaced m = .ok ps ∧
      ValidOn 0 1 c p n U P ∧ SqError c ps.vector pts (range (m + 1)) e ∧
      ∀ (P' : List (Pt K d)) (c' : Curve K d) (e' : K), P'.length = n + 1 → Built c' p U P' →
        SqError c' ps.vector pts (range (m + 1)) e' →
        e + penaltyCost pen P ≤ e' + penaltyCost pen P' := by
  obtain ⟨ps, h3, h4, h5, h6⟩ := equallySpaced_shape (K := K) m
  rw [generate_fit h1 h2 hm _ _ _ h3] at hgen
  obtain ⟨r, h7, h8⟩ := bind_ok_inv hgen
  cases r with
  | error e => cases h8
  | ok P =>
    obtain ⟨c', e, h9, h10, h11, h12⟩ := C42_loose_optimal hs (genKnots_new h2 _)
      (uniform_clamped h1 h2) h1 hm (by rw [h5, h4]) h6 h7
    dsimp only at h8
    rw [Built, h8] at h9
    injection h9 with h9; injection h9 with h9
    subst h9
    exact ⟨ps, _, P, e, h3, ⟨h8, uniform_clamped h1 h2, h10⟩, h11, h12⟩

/-- **C43** for generated curves: the ends are met exactly. -/
theorem C43_generate {p n m : ℕ} {pts : DataPoints K d} {solver : Solver K d}
    {pen : Option (Penalization K)} {c : Curve K d} (hs : solver.Exact) (h1 : 1 ≤ p)
    (h2 : p ≤ n) (hm : List.length pts = m + 1)
    (hgen : generate solver (.leastSquaresFit p pts n .fixedEnds pen) = .ok (.ok c)) :
    ∃ (ps : Parameters K) (U : List K) (P : List (Pt K d)) (e : K), equallySpaced m = .ok ps ∧
      ValidOn 0 1 c p n U P ∧
      c.evaluate 0 = .ok (.ok (pts.getD 0 0)) ∧ c.evaluate 1 = .ok (.ok (pts.getD m 0)) ∧
      SqError c ps.vector pts (Ico 1 m) e ∧
      ∀ (P' : List (Pt K d)) (c' : Curve K d) (e' : K), P'.length = n + 1 → Built c' p U P' →
        P'[0]? = pts[0]? → P'[n]? = pts[m]? → SqError c' ps.vector pts (Ico 1 m) e' →
        e + penaltyCost pen P.tail.dropLast ≤ e' + penaltyCost pen P'.tail.dropLast := by
  obtain ⟨ps, h3, h4, h5, h6⟩ := equallySpaced_shape (K := K) m
  rw [generate_fit h1 h2 hm _ _ _ h3] at hgen
  obtain ⟨r, h7, h8⟩ := bind_ok_inv hgen
  cases r with
  | error e => cases h8
  | ok P =>
    obtain ⟨c', e, h9, h10, -, -, h13, h14, h11, h12⟩ := C43_fixed_optimal hs (genKnots_new h2 _)
      (uniform_clamped h1 h2) h1 hm (by rw [h5, h4]) h6 h7
    dsimp only at h8
    rw [Built, h8] at h9
    injection h9 with h9; injection h9 with h9
    subst h9
    exact ⟨ps, _, P, e, h3, ⟨h8, uniform_clamped h1 h2, h10⟩, h13, h14, h11, h12⟩

end Generated

/-! ### Instances -/

/-- five points in the plane -/
def exPts : DataPoints ℚ 2 := [![0, 0], ![1, 2], ![3, 1], ![4, 4], ![6, 0]]

/-- the hypotheses of C42 are met by a quadratic fit with three segments and a penalty -/
example [Sqrt ℚ] : ∃ (solver : Solver ℚ 2) (c : Curve ℚ 2), solver.Exact ∧
    generate solver (.leastSquaresFit 2 exPts 3 .looseEnds (some ⟨1/10, 2⟩)) = .ok (.ok c) := by
  obtain ⟨s, hs⟩ := exists_exact_solver ℚ 2
  obtain ⟨c, U, P, -, -, -, h⟩ := (C44_generate_loose (p := 2) (n := 3) (m := 4) (pts := exPts)
    (by omega) (by omega) rfl s (some ⟨1/10, 2⟩)).2 (by decide +kernel)
  exact ⟨s, c, hs, h⟩

/-- the hypotheses of C43 are met -/
example [Sqrt ℚ] : ∃ (solver : Solver ℚ 2) (c : Curve ℚ 2), solver.Exact ∧
    generate solver (.leastSquaresFit 2 exPts 3 .fixedEnds (some ⟨1/10, 1⟩)) = .ok (.ok c) := by
  obtain ⟨s, hs⟩ := exists_exact_solver ℚ 2
  obtain ⟨c, U, P, -, -, -, h⟩ := (C44_generate_fixed_partial (p := 2) (n := 3) (m := 4) (pts := exPts)
    (by omega) (by omega) rfl s (some ⟨1/10, 1⟩)).2 (by decide +kernel) (by omega)
    (by intro q hq; simp at hq; subst hq; simp)
  exact ⟨s, c, hs, h⟩

/-- all documented errors occur -/
example : fitErrorOf (K := ℚ) 5 4 4 2 none true =
      some (.requestedPolynomialSegmentAndDataSegementMismatch 5 4) ∧
    fitErrorOf (K := ℚ) 3 4 5 2 none true = some (.dataSegmentsAndParameterSegmentsMismatch 4 5) ∧
    fitErrorOf (K := ℚ) 3 4 4 5 none true =
      some (.requestedPolynomialSegmentAndSplineDegreeMismatch 3 5) ∧
    fitErrorOf (K := ℚ) 3 4 4 2 (some ⟨1, 3⟩) true =
      some (.requestedPolynomialSegmentAndPenalizationKappaMismatch 3 3) ∧
    fitErrorOf (K := ℚ) 3 4 4 2 (some ⟨-1, 2⟩) true = some (.negativeLambda (-1)) ∧
    fitErrorOf (K := ℚ) 3 4 4 2 (some ⟨1, 2⟩) false = some .nonUniformKnots := by decide +kernel

/-- the second differences of five control points -/
example : Loose.finiteDifferenceMatrix 2 (canonKnots 2 ([0, 0, 0, 1/3, 2/3, 1, 1, 1] : List ℚ)) =
    .ok [[1, -2, 1, 0, 0], [0, 1, -2, 1, 0], [0, 0, 1, -2, 1]] := by decide +kernel

end BSpline
