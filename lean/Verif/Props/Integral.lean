import Verif.Props.ConvergeFast
import Verif.Props.JumpSharp
import Mathlib.MeasureTheory.Integral.IntervalIntegral.FundThmCalculus

/-!
# Antiderivatives and integrals: C109
-/

set_option linter.unusedSectionVars false

namespace BSpline

open Finset

section Field

variable {K : Type} [Field K] [LinearOrder K] [IsStrictOrderedRing K] {d : ℕ}

/-- the control points of an antiderivative that starts at `A` -/
def antiPoints (p : ℕ) (U : List K) (P : List (Pt K d)) (A : Pt K d) : List (Pt K d) :=
  (List.range (P.length + 1)).map fun i =>
    A + ∑ j ∈ range i, ((U.getD (j + p + 1) 0 - U.getD j 0) / (p + 1)) • P.getD j 0

theorem anti_clamped {p n : ℕ} {U : List K} (hU : ClampedKnots 0 1 p n U) :
    ClampedKnots 0 1 (p + 1) (n + 1) (0 :: (U ++ [1])) := by
  have hlen := hU.length
  have hcl := hU.clamp
  have hmem : ∀ x ∈ U, 0 ≤ x ∧ x ≤ 1 := by
    intro x hx
    obtain ⟨i, hi, rfl⟩ := List.getElem_of_mem hx
    rw [← fn_lt]
    exact ⟨hcl.a_le i, hcl.le_b i⟩
  have hle := hU.le
  refine ⟨by simp; omega, ?_, ?_, ?_, ?_, hU.lt, by omega⟩
  · rw [List.pairwise_cons, List.pairwise_append]
    refine ⟨?_, hU.sorted, List.pairwise_singleton _ _, ?_⟩
    · intro x hx
      rcases List.mem_append.mp hx with h | h
      · exact (hmem x h).1
      · rw [List.mem_singleton.mp h]; exact zero_le_one
    · intro x hx y hy
      rw [List.mem_singleton.mp hy]
      exact (hmem x hx).2
  · intro x hx
    rw [List.take_succ_cons, List.take_append_of_le_length (by omega)] at hx
    rcases List.mem_cons.mp hx with h | h
    · exact h
    · exact hU.left x h
  · intro x hx
    rw [List.drop_succ_cons, List.drop_append_of_le_length (by omega)] at hx
    rcases List.mem_append.mp hx with h | h
    · exact hU.right x h
    · exact List.mem_singleton.mp h
  · intro x hx
    rw [List.drop_succ_cons, List.drop_append_of_le_length (by omega), show n + 1 - (p + 1) = n - p by omega,
      List.take_append_of_le_length (by simp; omega)] at hx
    exact hU.inner x hx

theorem fn_anti {U : List K} (i : ℕ) (hi : i < U.length) :
    fn (0 :: (U ++ [1])) (i + 1) = fn U i := by
  rw [fn_lt (by simp; omega), fn_lt hi, List.getElem_cons_succ, List.getElem_append_left hi]

theorem dvec_anti (U : List K) : dvec (0 :: (U ++ [1])) 1 = U := by
  simp [dvec]

/-- the derivatives of the antiderivative are the derivatives of the curve -/
theorem dpt_anti {p n : ℕ} {U : List K} {P : List (Pt K d)} (hU : ClampedKnots 0 1 p n U) (hP : P.length = n + 1)
    (hm : ∀ x, 0 < x → x < 1 → U.count x ≤ p + 1) (A : Pt K d) (k : ℕ) : k ≤ p → ∀ i, i + k ≤ n →
    dpt (fn (0 :: (U ++ [1]))) (p + 1) (fn (antiPoints p U P A)) (k + 1) i = dpt (fn U) p (fn P) k i := by
  have hlen := hU.length
  induction k with
  | zero =>
    intro _ i hi
    have hlt := support_pos hU hm (i := i) (by omega)
    have hcmp : ¬ Cmp.eq (fn U (i + p + 1)) (fn U i) = true := fun h => hlt.ne' (of_decide_eq_true h)
    simp only [dpt]
    rw [show i + (p + 1) + 1 = i + p + 1 + 1 by omega, fn_anti _ (by omega), show i + (0 + 1) = i + 1 by omega,
      fn_anti _ (by omega), if_neg hcmp, antiPoints, fn_map_range _ (by omega), fn_map_range _ (by omega),
      sum_range_succ, getD_eq_fn (by omega), getD_eq_fn (by omega), getD_eq_fn (by omega)]
    funext ρ
    have h1 := (sub_pos.mpr hlt).ne'
    have h2 : ((p : K) + 1) ≠ 0 := by positivity
    simp only [scale, Pi.sub_apply, Pi.add_apply, Pi.smul_apply, smul_eq_mul,
      show p + 1 - (0 + 1) + 1 = p + 1 by omega, Nat.cast_add, Nat.cast_one]
    rw [add_sub_add_left_eq_sub, add_sub_cancel_left]
    field_simp
  | succ k ih =>
    intro hk i hi
    have e : ∀ m, dpt (fn (0 :: (U ++ [1]))) (p + 1) (fn (antiPoints p U P A)) (k + 1 + 1) m =
      if Cmp.eq (fn (0 :: (U ++ [1])) (m + (p + 1) + 1)) (fn (0 :: (U ++ [1])) (m + (k + 1 + 1))) then fun _ => 0
      else scale (((p + 1 - (k + 1 + 1) + 1 : ℕ) : K) /
          (fn (0 :: (U ++ [1])) (m + (p + 1) + 1) - fn (0 :: (U ++ [1])) (m + (k + 1 + 1))))
        (dpt (fn (0 :: (U ++ [1]))) (p + 1) (fn (antiPoints p U P A)) (k + 1) (m + 1) -
          dpt (fn (0 :: (U ++ [1]))) (p + 1) (fn (antiPoints p U P A)) (k + 1) m) := fun m => rfl
    rw [e, ih (by omega) i (by omega), ih (by omega) (i + 1) (by omega), show i + (p + 1) + 1 = i + p + 1 + 1 by omega,
      fn_anti _ (by omega), show i + (k + 1 + 1) = i + (k + 1) + 1 by omega, fn_anti _ (by omega),
      show p + 1 - (k + 1 + 1) + 1 = p - (k + 1) + 1 by omega]
    rfl

/-- **C109** Every curve without interior knots of multiplicity above `p + 1` is the derivative of a curve of the next
degree: with one more knot at each end, and control points whose differences are the control points times the mean
knot distances of their supports. The derivative of order `k + 1` of this curve is the derivative of order `k` of
the given one. -/
theorem C109_antiderivative {c : Curve K d} {p n : ℕ} {U : List K} {P : List (Pt K d)} (hc : ValidOn 0 1 c p n U P)
    (hm : ∀ x, 0 < x → x < 1 → U.count x ≤ p + 1) (A : Pt K d) :
    ∃ e, ValidOn 0 1 e (p + 1) (n + 1) (0 :: (U ++ [1])) (antiPoints p U P A) ∧
      e.knots.vectorDerivative 1 = .ok U ∧ e.points.matrixDerivative 1 = .ok P ∧
      e.evaluate 0 = .ok (.ok A) ∧ ∀ u k, e.evaluateDerivative u (k + 1) = c.evaluateDerivative u k := by
  obtain rfl := hc.eq_canon
  obtain ⟨-, hU, hP⟩ := hc
  have hlen := hU.length
  have hle := hU.le
  have hV := anti_clamped hU
  have hQ : (antiPoints p U P A).length = n + 1 + 1 := by simp [antiPoints, hP]
  have hlast := fun i => dpt_anti hU hP hm A 0 (Nat.zero_le p) i
  refine ⟨canon (p + 1) (0 :: (U ++ [1])) (antiPoints p U P A), validOn_canon hV hQ, ?_, ?_, ?_, ?_⟩
  · rw [canon_knots, canon_vectorDerivative (by omega), dvec_anti]
  · rw [canon_points, canonPts_matrixDerivative (by omega), hQ]
    congr 1
    apply ext_fn (by simp [hP])
    intro i hi
    have hi : i < n + 1 := by simpa using hi
    rw [fn_map_range _ (by omega), dpt_anti hU hP hm A 0 (Nat.zero_le p) i (by omega)]
    rfl
  · refine (C07_endpoints (validOn_canon hV hQ) (first := A) (last := fn (antiPoints p U P A) (n + 1)) ?_ ?_).1
    · simp [antiPoints, List.range_succ_eq_map]
    · rw [List.getLast?_eq_getElem?, hQ, fn_lt (by omega), List.getElem?_eq_getElem]; rfl
  · intro u k
    by_cases hk : k ≤ p
    · rw [← evaluate_derivative_canon hU hP hk, ← evaluate_derivative_canon hV hQ (show k + 1 ≤ p + 1 by omega),
        show p + 1 - (k + 1) = p - k by omega, show n + 1 + 1 - (k + 1) = n + 1 - k by omega]
      have e1 : dvec (0 :: (U ++ [1])) (k + 1) = dvec U k := by
        rw [dvec, dvec, List.drop_succ_cons, List.drop_append_of_le_length (by omega),
          List.take_append_of_le_length (by simp; omega)]
        congr 1
        simp; omega
      have e2 : ((List.range (n + 1 - k)).map fun i =>
          dpt (fn (0 :: (U ++ [1]))) (p + 1) (fn (antiPoints p U P A)) (k + 1) i) =
          (List.range (n + 1 - k)).map fun i => dpt (fn U) p (fn P) k i := by
        apply List.map_congr_left
        intro i hi
        rw [List.mem_range] at hi
        exact dpt_anti hU hP hm A k hk i (by omega)
      rw [e1, e2]
    · by_cases h : (Cmp.le 0 u && Cmp.le u 1) = true
      · have hu : 0 ≤ u ∧ u ≤ 1 := by
          rw [Bool.and_eq_true] at h
          exact ⟨of_decide_eq_true h.1, of_decide_eq_true h.2⟩
        rw [evaluateDerivative_high (p := p + 1) rfl (by omega) hu.1 hu.2,
          evaluateDerivative_high (p := p) rfl (by omega) hu.1 hu.2]
      · simp [Curve.evaluateDerivative, h]

end Field

/-! ### Integrals -/

variable {d : ℕ}

/-- **C109** The integral of a curve between two parameters is the difference of the values of its antiderivative. -/
theorem C109_integral {c e : Curve ℝ d} {p n : ℕ} {U : List ℝ} {P : List (Pt ℝ d)} {A : Pt ℝ d} {f g : ℝ → Pt ℝ d}
    (hc : ValidOn 0 1 c p n U P) (hm : ∀ x, 0 < x → x < 1 → U.count x ≤ p + 1) (hf : Computes c 0 f)
    (he : Built e (p + 1) (0 :: (U ++ [1])) (antiPoints p U P A)) (hg : Computes e 0 g) {a b : ℝ} (h0 : 0 ≤ a)
    (hab : a ≤ b) (h1 : b ≤ 1) (ρ : Fin d) :
    IntervalIntegrable (fun u => f u ρ) MeasureTheory.volume a b ∧ ∫ u in a..b, f u ρ = g b ρ - g a ρ := by
  obtain ⟨e', hv, -, -, -, hd⟩ := C109_antiderivative hc hm A
  obtain rfl : e = e' := by
    have := hv.1
    rw [Built] at this he
    rw [he] at this
    injection this with this; injection this
  have hf1 : Computes e 1 f := fun u u0 u1 => by rw [hd u 0]; exact hf u u0 u1
  have hcont : ContinuousOn g (Set.Icc 0 1) := by
    refine C12_continuous hv (Nat.zero_le _) hg ?_
    intro x x0 x1
    rw [List.count_cons_of_ne x0.ne, List.count_append, List.count_eq_zero_of_not_mem (l := [1]) (by simpa using x1.ne)]
    have := hm x x0 x1
    omega
  have hcontρ : ContinuousOn (fun u => g u ρ) (Set.Icc a b) :=
    ((continuous_apply ρ).comp_continuousOn hcont).mono (Set.Icc_subset_Icc h0 h1)
  have hder : ∀ u ∈ Set.Ioo a b, HasDerivWithinAt (fun u => g u ρ) (f u ρ) (Set.Ioi u) u := by
    intro u hu
    have := C11_right_derivative hv (by omega) hg hf1 (h0.trans hu.1.le) (hu.2.trans_le h1)
    exact (hasDerivWithinAt_pi.mp this ρ).mono Set.Ioi_subset_Ici_self
  obtain ⟨M, hM⟩ : ∃ M : ℝ, ∀ u, 0 ≤ u → u ≤ 1 → -M ≤ f u ρ := by
    obtain ⟨M, hM⟩ : ∃ M : ℝ, ∀ q ∈ P, -M ≤ q ρ := by
      clear hc hm he hv hd hf1 hcont hcontρ hder
      induction P with
      | nil => exact ⟨0, by simp⟩
      | cons q P ih =>
        obtain ⟨M, hM⟩ := ih
        refine ⟨max M (-(q ρ)), ?_⟩
        intro r hr
        rcases List.mem_cons.mp hr with h | h
        · rw [h]; linarith [le_max_right M (-(q ρ))]
        · linarith [hM r h, le_max_left M (-(q ρ))]
    refine ⟨M, fun u u0 u1 => ?_⟩
    have := hf u u0 u1
    obtain rfl := hc.eq_canon
    obtain ⟨-, hU, hP⟩ := hc
    rw [← Curve.evaluate, evaluate_sum hU hP u0 u1] at this
    injection this with this; injection this with this
    rw [← this, Finset.sum_apply]
    obtain ⟨j, hs⟩ := hU.clamp.exists_span u0 u1
    have hone := sum_nb_unit hU u0 u1
    calc -M = ∑ i ∈ range (n + 1), nb p n U i u * -M := by rw [← sum_mul, hone, one_mul]
      _ ≤ _ := by
        refine sum_le_sum fun i hi => ?_
        rw [mem_range] at hi
        rw [Pi.smul_apply, smul_eq_mul]
        refine mul_le_mul_of_nonneg_left ?_ ?_
        · rw [fn_lt (by omega)]; exact hM _ (List.getElem_mem _)
        · rw [nb_eq_Bs hU hs]; exact Bs_nonneg hU.clamp.mono hs.lo hs.le_hi p i
  have hint : IntervalIntegrable (fun u => f u ρ) MeasureTheory.volume a b := by
    have h2 : MeasureTheory.IntegrableOn (fun u => f u ρ + M) (Set.Ioc a b) := by
      refine intervalIntegral.integrableOn_deriv_right_of_nonneg (g := fun u => g u ρ + M * u) ?_ ?_ ?_
      · exact hcontρ.add (by fun_prop)
      · intro u hu
        have := (hder u hu).add (((hasDerivAt_id u).const_mul M).hasDerivWithinAt (s := Set.Ioi u))
        simp only [id, mul_one] at this
        exact this
      · intro u hu
        linarith [hM u (h0.trans hu.1.le) (hu.2.le.trans h1)]
    have h3 : IntervalIntegrable (fun u => f u ρ + M) MeasureTheory.volume a b := by
      rw [intervalIntegrable_iff_integrableOn_Ioc_of_le hab]; exact h2
    have h4 := h3.sub (intervalIntegrable_const (c := M))
    simpa using h4
  exact ⟨hint, intervalIntegral.integral_eq_sub_of_hasDeriv_right_of_le hab hcontρ hder hint⟩

/-- **C109** The integral over the whole domain is the sum of the control points, each multiplied with the mean knot
distance of its support. -/
theorem C109_mean {c : Curve ℝ d} {p n : ℕ} {U : List ℝ} {P : List (Pt ℝ d)} {f : ℝ → Pt ℝ d}
    (hc : ValidOn 0 1 c p n U P) (hm : ∀ x, 0 < x → x < 1 → U.count x ≤ p + 1) (hf : Computes c 0 f) (ρ : Fin d) :
    ∫ u in (0 : ℝ)..1, f u ρ =
      ∑ i ∈ range (n + 1), (U.getD (i + p + 1) 0 - U.getD i 0) / (p + 1) * P.getD i 0 ρ := by
  obtain ⟨e, hv, -, -, -, -⟩ := C109_antiderivative hc hm 0
  have hP := hc.2.2
  have hQ : (antiPoints p U P 0).length = n + 1 + 1 := by simp [antiPoints, hP]
  obtain ⟨g, hg⟩ := exists_computes hv.2.1 hQ (Nat.zero_le _)
  rw [← hv.eq_canon] at hg
  rw [(C109_integral hc hm hf hv.1 hg le_rfl zero_le_one le_rfl ρ).2]
  obtain ⟨e0, e1⟩ := C07_endpoints hv (first := 0) (last := fn (antiPoints p U P 0) (n + 1))
    (by simp [antiPoints, List.range_succ_eq_map])
    (by rw [List.getLast?_eq_getElem?, hQ, fn_lt (by omega), List.getElem?_eq_getElem]; rfl)
  have g0 := hg 0 le_rfl zero_le_one
  have g1 := hg 1 zero_le_one le_rfl
  rw [← Curve.evaluate] at g0 g1
  rw [e0] at g0
  rw [e1] at g1
  injection g0 with g0; injection g0 with g0
  injection g1 with g1; injection g1 with g1
  rw [← g0, ← g1, antiPoints, fn_map_range _ (by omega)]
  simp

/-- **C109** The integral of a basis function is the length of its support divided by `p + 1`. -/
theorem C109_basis {p n i : ℕ} {U : List ℝ} (hU : ClampedKnots 0 1 p n U)
    (hm : ∀ x, 0 < x → x < 1 → U.count x ≤ p + 1) {kn : Knots ℝ} (hkn : Knots.new p U = .ok kn) (hi : i ≤ n)
    {N : ℝ → ℝ} (hN : ∀ u, 0 ≤ u → u ≤ 1 → kn.evaluate 0 i p u = .ok (N u)) {x y : ℝ} (hx : U[i]? = some x)
    (hy : U[i + p + 1]? = some y) : ∫ u in (0 : ℝ)..1, N u = (y - x) / (p + 1) := by
  obtain ⟨-, rfl⟩ := knots_new_inv hkn
  have hlen := hU.length
  set P : List (Pt ℝ 1) := (List.range (n + 1)).map fun m _ => if m = i then 1 else 0 with hPdef
  have hP : P.length = n + 1 := by simp [hPdef]
  have hfP : ∀ m, m < n + 1 → fn P m = fun _ => if m = i then 1 else 0 := by
    intro m hm'
    rw [hPdef, fn_map_range _ hm']
  have hf : Computes (canon p U P) 0 (fun u _ => N u) := by
    intro u u0 u1
    rw [← Curve.evaluate, evaluate_sum hU hP u0 u1]
    congr 2
    funext ρ
    have := hN u u0 u1
    rw [nb_ok hU.length hU.le hi] at this
    injection this with this
    rw [Finset.sum_apply, sum_eq_single i, hfP i (by omega)]
    · simpa using this
    · intro m hm' hne
      rw [hfP m (mem_range.mp hm')]
      simp [hne]
    · intro h; exact absurd (mem_range.mpr (by omega)) h
  have := C109_mean (validOn_canon hU hP) hm hf 0
  rw [sum_eq_single i, getD_eq_fn (by omega), getD_eq_fn (by omega), getD_eq_fn (by omega), hfP i (by omega)] at this
  · obtain ⟨_, rfl⟩ := List.getElem?_eq_some_iff.mp hx
    obtain ⟨_, rfl⟩ := List.getElem?_eq_some_iff.mp hy
    rw [← fn_lt, ← fn_lt]
    simpa using this
  · intro m hm' hne
    have hm' := mem_range.mp hm'
    rw [getD_eq_fn (l := P) (by omega), hfP m hm']
    simp [hne]
  · intro h; exact absurd (mem_range.mpr (by omega)) h

/-- the polyline through `0, 1, 0` over `0, 1/2, 1` has the integral `1/2`, and its antiderivative the control points
`0, 0, 1/2, 1/2` -/
example : ValidOn (0 : ℚ) 1 (canon 1 [(0 : ℚ), 0, 1 / 2, 1, 1] [![0], ![1], ![0]]) 1 2 [0, 0, 1 / 2, 1, 1]
      [![0], ![1], ![0]] ∧ antiPoints 1 [(0 : ℚ), 0, 1 / 2, 1, 1] [![0], ![1], ![0]] 0 =
      [![0], ![0], ![1 / 2], ![1 / 2]] ∧
    ∑ i ∈ range 3, ([(0 : ℚ), 0, 1 / 2, 1, 1].getD (i + 1 + 1) 0 - [(0 : ℚ), 0, 1 / 2, 1, 1].getD i 0) / ((1 : ℕ) + 1) *
      ([![0], ![1], ![0]] : List (Pt ℚ 1)).getD i 0 0 = 1 / 2 :=
  ⟨validOn_canon (by decide +kernel) rfl, by decide +kernel, by decide +kernel⟩

/-- the bound on the multiplicities is met by every curve with simple interior knots, here over the real numbers -/
example : ∃ (c : Curve ℝ 1) (f : ℝ → Pt ℝ 1), ValidOn 0 1 c 1 2 [0, 0, 1 / 2, 1, 1] [![0], ![1], ![0]] ∧ Computes c 0 f ∧
    ∫ u in (0 : ℝ)..1, f u 0 = 1 / 2 := by
  have hU : ClampedKnots (0 : ℝ) 1 1 2 [0, 0, 1 / 2, 1, 1] := by
    refine ⟨rfl, ?_, ?_, ?_, ?_, zero_lt_one, by omega⟩
    · norm_num
    · simp
    · simp
    · norm_num
  have hv := validOn_canon hU (P := [![0], ![1], ![0]]) rfl
  obtain ⟨f, hf⟩ := exists_computes hU (P := [![0], ![1], ![0]]) rfl (Nat.zero_le _)
  refine ⟨_, f, hv, hf, ?_⟩
  rw [C109_mean hv ?_ hf 0]
  · norm_num [Finset.sum_range_succ]
  · intro x h0 h1
    rw [List.count_cons_of_ne h0.ne, List.count_cons_of_ne h0.ne, List.count_cons]
    rw [List.count_eq_zero_of_not_mem (by simp [h1.ne])]
    split <;> omega

end BSpline
