import Verif.Props.FitNoise
import Verif.Props.PenaltyUnique
import Verif.Refine.IeeeFit
import Mathlib.Algebra.Order.Chebyshev

/-!
# A large penalty on the first differences contracts the fit to the mean of the data: C74
-/

set_option linter.unusedSectionVars false

namespace BSpline

open Finset fwdDiff

variable {K : Type} [Field K] [LinearOrder K] [IsStrictOrderedRing K] [Trunc K] {d : ℕ}

/-- two terms of a sequence differ by at most the steps between all of them -/
theorem abs_sub_le_steps {n : ℕ} (x : ℕ → K) {i j : ℕ} (hi : i ≤ n) (hj : j ≤ n) :
    |x j - x i| ≤ ∑ k ∈ range n, |x (k + 1) - x k| := by
  have h1 : ∀ i j, i ≤ j → j ≤ n → |x j - x i| ≤ ∑ k ∈ range n, |x (k + 1) - x k| := by
    intro i j hij hj
    have h2 : |x j - x i| ≤ ∑ k ∈ Ico i j, |x (k + 1) - x k| := by
      rw [← sum_Ico_sub x hij]
      exact abs_sum_le_sum_abs _ _
    refine h2.trans (sum_le_sum_of_subset_of_nonneg (fun k hk => ?_) fun _ _ _ => abs_nonneg _)
    rw [mem_Ico] at hk
    exact mem_range.mpr (by omega)
  rcases le_total i j with h | h
  · exact h1 i j h hj
  · rw [abs_sub_comm]
    exact h1 j i h hi

/-- **C74** With loose ends and a penalty `lambda` on the first differences, `lambda` times the squared distance of every
control point from the mean of the data is at most `n` times the sum of the squared distances of the data from their
mean, in every coordinate: as `lambda` grows the curve contracts to the mean. -/
theorem C74_loose_mean {p n m : ℕ} {U : List K} {kn : Knots K} {pts P : DataPoints K d} {params : Parameters K}
    {solver : Solver K d} {lam : K} (hs : solver.Exact)
    (hk : Knots.new p U = .ok kn) (hU : ClampedKnots 0 1 p n U) (h1 : 1 ≤ p) (hm : List.length pts = m + 1)
    (hv : params.vector.length = params.segments + 1) (hτ : ∀ x ∈ params.vector, 0 ≤ x ∧ x ≤ 1)
    (hfit : Loose.fit solver kn pts params (some ⟨lam, 1⟩) = .ok (.ok P)) {i : ℕ} {q : Pt K d} (hq : P[i]? = some q)
    (r : Fin d) {μ : K} (hμ : (m + 1) * μ = ∑ g ∈ range (m + 1), pts.getD g 0 r) :
    lam * (q r - μ) ^ 2 ≤ n * ∑ g ∈ range (m + 1), (pts.getD g 0 r - μ) ^ 2 := by
  obtain ⟨h2, h3, h5, hlen, key⟩ := loose_normal hs hk hU h1 hm hv hfit
  have hI := loose_range hm hv h3
  obtain ⟨hi, rfl⟩ := List.getElem?_eq_some_iff.mp hq
  rw [← fn_lt]
  have hin : i ≤ n := by omega
  have hbd : ∀ g, g < m + 1 → 0 ≤ fn params.vector g ∧ fn params.vector g ≤ 1 := fun g hg => by
    rw [fn_lt (by omega)]
    exact hτ _ (List.getElem_mem _)
  have hone : ∀ g, g < m + 1 → ∑ j ∈ range (n + 1), nb p n U j (fn params.vector g) = 1 := fun g hg =>
    sum_nb_unit hU (hbd g hg).1 (hbd g hg).2
  set x : ℕ → K := fun j => fn P j r with hx
  have hD : ∀ (z : ℕ → K) (h : ℕ), h < n → mv (n + 1) (penD (some (⟨lam, 1⟩ : Penalization K))) z h = z (h + 1) - z h :=
    fun z h hh => penalty_diff le_rfl z (by omega)
  -- the mean of the data is the mean of the values
  have hsum : ∑ g ∈ range (m + 1), mv (n + 1) (fun g i => nb p n U i (fn params.vector g)) x g = (m + 1) * μ := by
    have h6 := lsq_cross (key r) (fun _ => 1)
    rw [show penRows (fun κ => n + 1 - κ) (some (⟨lam, 1⟩ : Penalization K)) = n from rfl] at h6
    have h7 : ∑ h ∈ range n, mv (n + 1) (penD (some (⟨lam, 1⟩ : Penalization K))) (fun j => fn P j r) h *
        mv (n + 1) (penD (some (⟨lam, 1⟩ : Penalization K))) (fun _ => 1) h = 0 :=
      sum_eq_zero fun h hh => by rw [hD (fun _ => 1) h (mem_range.mp hh), sub_self, mul_zero]
    rw [h7, mul_zero, add_zero] at h6
    rw [hμ, ← sub_eq_zero, ← sum_sub_distrib]
    refine Eq.trans (sum_congr rfl fun g hg => ?_) h6
    rw [mem_range] at hg
    rw [getD_eq_fn (by omega)]
    simp only [mv, mul_one, hone g hg]
    rfl
  -- the steps of the control points
  have hcost := lsq_le h5 (key r) (fun _ => μ)
  rw [show penRows (fun κ => n + 1 - κ) (some (⟨lam, 1⟩ : Penalization K)) = n from rfl,
    show penLam (some (⟨lam, 1⟩ : Penalization K)) = lam from rfl] at hcost
  rw [show penLam (some (⟨lam, 1⟩ : Penalization K)) = lam from rfl] at h5
  simp only [lsq] at hcost
  have c1 : ∑ h ∈ range n, mv (n + 1) (penD (some (⟨lam, 1⟩ : Penalization K))) (fun j => fn P j r) h ^ 2 =
      ∑ k ∈ range n, (x (k + 1) - x k) ^ 2 := sum_congr rfl fun h hh => by rw [hD _ h (mem_range.mp hh)]
  have c2 : ∑ h ∈ range n, mv (n + 1) (penD (some (⟨lam, 1⟩ : Penalization K))) (fun _ => μ) h ^ 2 = 0 :=
    sum_eq_zero fun h hh => by rw [hD _ h (mem_range.mp hh), sub_self, zero_pow two_ne_zero]
  have c3 : ∑ g ∈ range (m + 1), (mv (n + 1) (fun g i => nb p n U i (fn params.vector g)) (fun _ => μ) g - fn pts g r) ^ 2 =
      ∑ g ∈ range (m + 1), (pts.getD g 0 r - μ) ^ 2 := sum_congr rfl fun g hg => by
    rw [mem_range] at hg
    rw [getD_eq_fn (by omega)]
    simp only [mv]
    rw [← sum_mul, hone g hg]
    ring
  rw [c1, c2, c3, mul_zero, add_zero] at hcost
  have hE : 0 ≤ ∑ g ∈ range (m + 1), (mv (n + 1) (fun g i => nb p n U i (fn params.vector g)) x g - fn pts g r) ^ 2 :=
    sum_nonneg fun _ _ => sq_nonneg _
  set T := ∑ k ∈ range n, |x (k + 1) - x k| with hT
  have hT2 : T ^ 2 ≤ n * ∑ k ∈ range n, (x (k + 1) - x k) ^ 2 := by
    have := sq_sum_le_card_mul_sum_sq (s := range n) (f := fun k => |x (k + 1) - x k|)
    simpa only [card_range, sq_abs] using this
  -- the control point is not far from the mean
  have hm0 : (0 : K) < m + 1 := by positivity
  have hdist : |x i - μ| ≤ T := by
    have e1 : (m + 1) * (x i - μ) =
        ∑ g ∈ range (m + 1), ∑ j ∈ range (n + 1), nb p n U j (fn params.vector g) * (x i - x j) := by
      rw [mul_sub, ← hsum]
      simp only [mul_sub, sum_sub_distrib, mv]
      congr 1
      rw [sum_congr rfl fun g hg => by rw [← sum_mul, hone g (mem_range.mp hg), one_mul], sum_const, card_range,
        nsmul_eq_mul]
      push_cast
      ring
    have e2 : |(m + 1) * (x i - μ)| ≤ (m + 1) * T := by
      rw [e1]
      refine (abs_sum_le_sum_abs _ _).trans ?_
      have : ∀ g ∈ range (m + 1), |∑ j ∈ range (n + 1), nb p n U j (fn params.vector g) * (x i - x j)| ≤ T := by
        intro g hg
        rw [mem_range] at hg
        refine (abs_sum_le_sum_abs _ _).trans ?_
        rw [← one_mul T, ← hone g hg, sum_mul]
        refine sum_le_sum fun j hj => ?_
        have hnn := ((nb_unit hU (hbd g hg).1 (hbd g hg).2).1 j).1
        rw [abs_mul, abs_of_nonneg hnn]
        exact mul_le_mul_of_nonneg_left (abs_sub_le_steps x (by rw [mem_range] at hj; omega) hin) hnn
      refine (sum_le_sum this).trans (le_of_eq ?_)
      rw [sum_const, card_range, nsmul_eq_mul]
      push_cast
      ring
    rw [abs_mul, abs_of_pos hm0] at e2
    exact le_of_mul_le_mul_left e2 hm0
  have hsq : (x i - μ) ^ 2 ≤ T ^ 2 := by
    rw [← sq_abs]
    exact pow_le_pow_left₀ (abs_nonneg _) hdist 2
  calc lam * (x i - μ) ^ 2 ≤ lam * (n * ∑ k ∈ range n, (x (k + 1) - x k) ^ 2) :=
        mul_le_mul_of_nonneg_left (hsq.trans hT2) h5
    _ = n * (lam * ∑ k ∈ range n, (x (k + 1) - x k) ^ 2) := by ring
    _ ≤ _ := mul_le_mul_of_nonneg_left (by linarith) (Nat.cast_nonneg n)

/-- a concrete case: the data 0, 1, 3, 2, 5 have the mean 11/5 and the sum of squares 74/5 about it, and the fits of degree
1 over the uniform knots exist for every positive `lambda` -/
example (lam : ℚ) (hl : 0 < lam) : ∃ (solver : Solver ℚ 1) (kn : Knots ℚ) (P : DataPoints ℚ 1),
    solver.Exact ∧ Knots.new 1 [0, 0, 1 / 4, 1 / 2, 3 / 4, 1, 1] = .ok kn ∧
    Loose.fit solver kn [![0], ![1], ![3], ![2], ![5]] ⟨[0, 1 / 4, 1 / 2, 3 / 4, 1], 4⟩ (some ⟨lam, 1⟩) = .ok (.ok P) ∧
    P.length = 5 ∧ ∀ (i : ℕ) (q : Pt ℚ 1), P[i]? = some q → lam * (q 0 - 11 / 5) ^ 2 ≤ 4 * (74 / 5) := by
  obtain ⟨s, hs⟩ := exists_exact_solver ℚ 1
  have hU : ClampedKnots (0 : ℚ) 1 1 4 [0, 0, 1 / 4, 1 / 2, 3 / 4, 1, 1] := by decide +kernel
  have hk : Knots.new 1 [(0 : ℚ), 0, 1 / 4, 1 / 2, 3 / 4, 1, 1] = .ok _ := Knots.new_ok (by decide)
  have hb : 1 ≤ 4 → isUniform (canonKnots 1 [(0 : ℚ), 0, 1 / 4, 1 / 2, 3 / 4, 1, 1]) = .ok (.ok true) :=
    fun _ => by decide +kernel
  have hnone : fitErrorOf 4 4 4 1 (some ⟨lam, 1⟩) true = none := by
    simp only [fitErrorOf]
    have : Cmp.lt lam 0 = false := decide_eq_false (not_lt.mpr hl.le)
    simp [this]
  obtain ⟨P, h1, h2⟩ := (C44_loose (d := 1) (m := 4) (pts := [![0], ![1], ![3], ![2], ![5]])
    (params := ⟨[0, 1 / 4, 1 / 2, 3 / 4, 1], 4⟩) hk hU.length le_rfl rfl rfl hb s (some ⟨lam, 1⟩)).2 hnone
  refine ⟨s, _, P, hs, hk, h1, h2, fun i q hq => ?_⟩
  have h := C74_loose_mean (m := 4) hs hk hU le_rfl rfl rfl (by decide +kernel) h1 hq 0 (μ := 11 / 5)
    (by norm_num [sum_range_succ])
  norm_num [sum_range_succ] at h
  linarith

end BSpline
