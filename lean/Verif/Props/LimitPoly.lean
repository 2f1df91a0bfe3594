import Verif.Props.Limits
import Mathlib.RingTheory.Polynomial.Pochhammer
import Mathlib.RingTheory.Polynomial.Basic

/-!
# As the penalty grows the control points approach a polynomial in their index: C74
-/

set_option linter.unusedSectionVars false

namespace BSpline

open Finset fwdDiff

variable {K : Type} [Field K] [LinearOrder K] [IsStrictOrderedRing K] {d : ℕ}

/-- a sequence whose differences of order `κ` are small is close to a combination of the first `κ` binomials -/
theorem near_binomials (κ : ℕ) : ∀ (N : ℕ) (x : ℕ → K) (M : K), 0 ≤ M →
    (∀ j, j + κ ≤ N → |(Δ_[1]^[κ] x) j| ≤ M) →
    ∃ a : ℕ → K, ∀ i, i ≤ N → |x i - ∑ k ∈ range κ, a k * (i.choose k : K)| ≤ N ^ κ * M := by
  induction κ with
  | zero =>
    intro N x M _ h
    exact ⟨0, fun i hi => by simpa using h i hi⟩
  | succ κ ih =>
    intro N x M hM h
    cases N with
    | zero =>
      refine ⟨fun _ => x 0, fun i hi => ?_⟩
      obtain rfl : i = 0 := by omega
      rw [sum_range_succ']
      simp
    | succ N =>
    obtain ⟨a, ha⟩ := ih N (Δ_[1] x) M hM (fun j hj => by
      have := h j (by omega)
      rwa [Function.iterate_succ_apply] at this)
    set b : ℕ → K := fun k => if k = 0 then x 0 else a (k - 1) with hb
    have hsum : ∀ i : ℕ, ∑ k ∈ range (κ + 1), b k * (i.choose k : K) =
        x 0 + ∑ k ∈ range κ, a k * (i.choose (k + 1) : K) := fun i => by
      rw [sum_range_succ', add_comm]
      simp [hb]
    have hbound : ∀ i, i ≤ N + 1 → |x i - ∑ k ∈ range (κ + 1), b k * (i.choose k : K)| ≤ i * ((N : K) ^ κ * M) := by
      intro i
      induction i with
      | zero => intro _; rw [hsum]; simp
      | succ i ihi =>
        intro hi
        have h1 := ihi (by omega)
        have h2 := ha i (by omega)
        have h3 : x (i + 1) - ∑ k ∈ range (κ + 1), b k * ((i + 1).choose k : K) =
            (x i - ∑ k ∈ range (κ + 1), b k * (i.choose k : K)) +
              ((Δ_[1] x) i - ∑ k ∈ range κ, a k * (i.choose k : K)) := by
          have e : ∑ k ∈ range κ, a k * ((i + 1).choose (k + 1) : K) =
              ∑ k ∈ range κ, a k * (i.choose k : K) + ∑ k ∈ range κ, a k * (i.choose (k + 1) : K) := by
            rw [← sum_add_distrib]
            refine sum_congr rfl fun k _ => ?_
            rw [Nat.choose_succ_succ]
            push_cast
            ring
          rw [hsum, hsum, e, fwdDiff]
          ring
        rw [h3]
        refine (abs_add_le _ _).trans ?_
        push_cast
        linarith
    refine ⟨b, fun i hi => (hbound i hi).trans ?_⟩
    have hi' : (i : K) ≤ ((N + 1 : ℕ) : K) := by exact_mod_cast hi
    have hN : (N : K) ^ κ ≤ ((N + 1 : ℕ) : K) ^ κ :=
      pow_le_pow_left₀ (Nat.cast_nonneg N) (by exact_mod_cast Nat.le_succ N) κ
    calc (i : K) * ((N : K) ^ κ * M) ≤ ((N + 1 : ℕ) : K) * (((N + 1 : ℕ) : K) ^ κ * M) :=
          mul_le_mul hi' (mul_le_mul_of_nonneg_right hN hM) (by positivity) (by positivity)
      _ = _ := by rw [pow_succ]; ring

/-- such a combination is a polynomial of degree below `κ` -/
theorem binomials_polynomial (κ : ℕ) (a : ℕ → K) : ∃ q : Polynomial K, q.degree < κ ∧
    ∀ i : ℕ, q.eval (i : K) = ∑ k ∈ range κ, a k * (i.choose k : K) := by
  refine ⟨∑ k ∈ range κ, Polynomial.C (a k / (k.factorial : K)) * descPochhammer K k, ?_, fun i => ?_⟩
  · rw [← Polynomial.mem_degreeLT]
    refine Submodule.sum_mem _ fun k hk => ?_
    rw [Polynomial.mem_degreeLT]
    rw [mem_range] at hk
    refine Polynomial.degree_le_natDegree.trans_lt ?_
    have := (Polynomial.natDegree_C_mul_le (a k / (k.factorial : K)) (descPochhammer K k)).trans
      (descPochhammer_natDegree K k).le
    exact_mod_cast this.trans_lt hk
  · rw [Polynomial.eval_finsetSum]
    refine sum_congr rfl fun k _ => ?_
    have hk : (k.factorial : K) ≠ 0 := Nat.cast_ne_zero.mpr k.factorial_ne_zero
    rw [Polynomial.eval_mul, Polynomial.eval_C, descPochhammer_eval_eq_descFactorial,
      Nat.descFactorial_eq_factorial_mul_choose]
    push_cast
    field_simp

/-- points with little roughness are close to a polynomial in their index, in every coordinate -/
theorem near_polynomial (κ : ℕ) (P : List (Pt K d)) (r : Fin d) : ∃ q : Polynomial K, q.degree < κ ∧
    ∀ (i : ℕ) (z : Pt K d), P[i]? = some z → (z r - q.eval (i : K)) ^ 2 ≤ ((P.length - 1 : ℕ) : K) ^ (2 * κ) * roughness κ P := by
  set x : ℕ → K := fun i => (P.getD i 0) r with hx
  have hrow : ∀ j, j < P.length - κ → ((Δ_[1]^[κ] x) j) ^ 2 ≤ roughness κ P := fun j hj => by
    refine le_trans ?_ (single_le_sum (f := fun i => ∑ r, ((Δ_[1]^[κ] (fun i => (P.getD i 0) r)) i) ^ 2)
      (fun _ _ => sum_nonneg fun _ _ => sq_nonneg _) (mem_range.mpr hj))
    exact single_le_sum (f := fun r => ((Δ_[1]^[κ] (fun i => (P.getD i 0) r)) j) ^ 2) (fun _ _ => sq_nonneg _)
      (mem_univ r)
  have hR : 0 ≤ roughness κ P := sum_nonneg fun _ _ => sum_nonneg fun _ _ => sq_nonneg _
  obtain ⟨M, hM, hM2, hMj⟩ : ∃ M : K, 0 ≤ M ∧ M ^ 2 ≤ roughness κ P ∧ ∀ j, j < P.length - κ → |(Δ_[1]^[κ] x) j| ≤ M := by
    rcases (range (P.length - κ)).eq_empty_or_nonempty with h | h
    · refine ⟨0, le_rfl, by rwa [zero_pow two_ne_zero], fun j hj => ?_⟩
      have := mem_range.mpr hj
      rw [h] at this
      simp at this
    · obtain ⟨j, hj, hmax⟩ := exists_max_image _ (fun j => |(Δ_[1]^[κ] x) j|) h
      exact ⟨_, abs_nonneg _, by rw [sq_abs]; exact hrow j (mem_range.mp hj), fun k hk => hmax k (mem_range.mpr hk)⟩
  rcases Nat.eq_zero_or_pos P.length with h0 | h0
  · refine ⟨0, by simp, fun i z hz => ?_⟩
    obtain ⟨hi, -⟩ := List.getElem?_eq_some_iff.mp hz
    omega
  obtain ⟨a, ha⟩ := near_binomials κ (P.length - 1) x M hM (fun j hj => hMj j (by omega))
  obtain ⟨q, hq, hqi⟩ := binomials_polynomial κ a
  refine ⟨q, hq, fun i z hz => ?_⟩
  obtain ⟨hi, rfl⟩ := List.getElem?_eq_some_iff.mp hz
  have h1 := ha i (by omega)
  rw [← hqi, hx] at h1
  beta_reduce at h1
  rw [List.getD_eq_getElem _ _ hi] at h1
  calc (P[i] r - q.eval (i : K)) ^ 2 = |P[i] r - q.eval (i : K)| ^ 2 := (sq_abs _).symm
    _ ≤ (((P.length - 1 : ℕ) : K) ^ κ * M) ^ 2 := pow_le_pow_left₀ (abs_nonneg _) h1 2
    _ = ((P.length - 1 : ℕ) : K) ^ (2 * κ) * M ^ 2 := by ring
    _ ≤ _ := mul_le_mul_of_nonneg_left hM2 (by positivity)

variable [Trunc K] [Sqrt K]

/-- **C74** With loose ends the control points approach, as `lambda` grows, a polynomial of degree below `κ` in their
index: `lambda` times their squared distance from it is at most `n^(2κ)` times the sum of the squared distances of the
data from any one point `z`. -/
theorem C74_loose_limit {p n m κ : ℕ} {pts : DataPoints K d} {solver : Solver K d} {l : K}
    {c : Curve K d} (hs : solver.Exact) (h1 : 1 ≤ p) (h2 : p ≤ n)
    (hm : List.length pts = m + 1) (hκ : 1 ≤ κ) (z : Pt K d)
    (hg : generate solver (.leastSquaresFit p pts n .looseEnds (some ⟨l, κ⟩)) = .ok (.ok c)) :
    ∃ (U : List K) (P : List (Pt K d)), ValidOn 0 1 c p n U P ∧ ∀ r, ∃ q : Polynomial K, q.degree < κ ∧
      ∀ (i : ℕ) (w : Pt K d), P[i]? = some w →
        l * (w r - q.eval (i : K)) ^ 2 ≤ (n : K) ^ (2 * κ) * ∑ g ∈ range (m + 1), sqDist z (pts.getD g 0) := by
  obtain ⟨U, P, hV, hR⟩ := C74_loose_smooth hs h1 h2 hm hκ z hg
  refine ⟨U, P, hV, fun r => ?_⟩
  obtain ⟨q, hq, hqi⟩ := near_polynomial κ P r
  refine ⟨q, hq, fun i w hw => ?_⟩
  have h3 := hqi i w hw
  rw [hV.2.2, Nat.add_sub_cancel] at h3
  have hE : 0 ≤ ∑ g ∈ range (m + 1), sqDist z (pts.getD g 0) :=
    sum_nonneg fun _ _ => sum_nonneg fun _ _ => sq_nonneg _
  rcases le_total 0 l with hl | hl
  · calc l * (w r - q.eval (i : K)) ^ 2 ≤ l * ((n : K) ^ (2 * κ) * roughness κ P) := mul_le_mul_of_nonneg_left h3 hl
      _ = (n : K) ^ (2 * κ) * (l * roughness κ P) := by ring
      _ ≤ _ := mul_le_mul_of_nonneg_left hR (by positivity)
  · exact (mul_nonpos_of_nonpos_of_nonneg hl (sq_nonneg _)).trans (mul_nonneg (by positivity) hE)

/-- **C74** With fixed ends the same holds for the inner control points, with a constant of the data, independent of
`lambda`. -/
theorem C74_fixed_limit {p n m κ : ℕ} {pts : DataPoints K d} {solver : Solver K d}
    (hs : solver.Exact) (h1 : 1 ≤ p) (h2 : p ≤ n) (hm : List.length pts = m + 1) (hκ : 1 ≤ κ) :
    ∃ C : K, ∀ (l : K) (c : Curve K d),
      generate solver (.leastSquaresFit p pts n .fixedEnds (some ⟨l, κ⟩)) = .ok (.ok c) →
      ∃ (U : List K) (P : List (Pt K d)), ValidOn 0 1 c p n U P ∧ ∀ r, ∃ q : Polynomial K, q.degree < κ ∧
        ∀ (i : ℕ) (w : Pt K d), P.tail.dropLast[i]? = some w → l * (w r - q.eval (i : K)) ^ 2 ≤ C := by
  obtain ⟨C, hC⟩ := C74_fixed_smooth hs h1 h2 hm hκ
  refine ⟨(n : K) ^ (2 * κ) * max C 0, fun l c hg => ?_⟩
  obtain ⟨U, P, hV, hR⟩ := hC l c hg
  refine ⟨U, P, hV, fun r => ?_⟩
  obtain ⟨q, hq, hqi⟩ := near_polynomial κ P.tail.dropLast r
  refine ⟨q, hq, fun i w hw => ?_⟩
  have h3 := hqi i w hw
  have hlen : P.tail.dropLast.length ≤ n := by
    have := hV.2.2
    simp only [List.length_dropLast, List.length_tail]
    omega
  have hR0 : 0 ≤ roughness κ P.tail.dropLast := sum_nonneg fun _ _ => sum_nonneg fun _ _ => sq_nonneg _
  have hpow : ((P.tail.dropLast.length - 1 : ℕ) : K) ^ (2 * κ) ≤ (n : K) ^ (2 * κ) :=
    pow_le_pow_left₀ (Nat.cast_nonneg _) (by exact_mod_cast (show P.tail.dropLast.length - 1 ≤ n by omega)) _
  have h4 := h3.trans (mul_le_mul_of_nonneg_right hpow hR0)
  rcases le_total 0 l with hl | hl
  · calc l * (w r - q.eval (i : K)) ^ 2 ≤ l * ((n : K) ^ (2 * κ) * roughness κ P.tail.dropLast) :=
          mul_le_mul_of_nonneg_left h4 hl
      _ = (n : K) ^ (2 * κ) * (l * roughness κ P.tail.dropLast) := by ring
      _ ≤ _ := mul_le_mul_of_nonneg_left (hR.trans (le_max_left _ _)) (by positivity)
  · exact (mul_nonpos_of_nonpos_of_nonneg hl (sq_nonneg _)).trans (mul_nonneg (by positivity) (le_max_right _ _))

/-- the hypotheses are met by the fits of degree 2 with loose ends and a penalty on the second differences for every
`lambda ≥ 0`, so that their control points approach a straight line with equal steps -/
example [Sqrt ℚ] (l : ℚ) (hl : 0 ≤ l) : ∃ (solver : Solver ℚ 2) (c : Curve ℚ 2) (U : List ℚ) (P : List (Pt ℚ 2)),
    solver.Exact ∧ generate solver (.leastSquaresFit 2 exPts 3 .looseEnds (some ⟨l, 2⟩)) = .ok (.ok c) ∧
    ValidOn 0 1 c 2 3 U P ∧ ∀ r, ∃ q : Polynomial ℚ, q.degree < (2 : ℕ) ∧ ∀ (i : ℕ) (w : Pt ℚ 2), P[i]? = some w →
      l * (w r - q.eval (i : ℚ)) ^ 2 ≤ 81 * ∑ g ∈ range 5, sqDist 0 (exPts.getD g 0) := by
  obtain ⟨s, hs⟩ := exists_exact_solver ℚ 2
  obtain ⟨c, -, -, -, -, -, g⟩ := (C44_generate_loose (p := 2) (n := 3) (m := 4) (pts := exPts)
    (by omega) (by omega) rfl s (some ⟨l, 2⟩)).2
    (fitErrorOf_uniform (q := ⟨l, 2⟩) (by omega) (by omega) hl (Nat.lt_of_sub_eq_succ rfl))
  obtain ⟨U, P, h1, h2⟩ := C74_loose_limit (m := 4) hs (by omega) (by omega) rfl (by omega) 0 g
  refine ⟨s, c, U, P, hs, g, h1, fun r => ?_⟩
  obtain ⟨q, h3, h4⟩ := h2 r
  exact ⟨q, h3, fun i w hw => by have := h4 i w hw; norm_num at this ⊢; exact this⟩

/-- fixed ends, likewise for every `lambda ≥ 0` -/
example [Sqrt ℚ] : ∃ (solver : Solver ℚ 2) (C : ℚ), solver.Exact ∧ ∀ l, 0 ≤ l →
    ∃ (c : Curve ℚ 2) (U : List ℚ) (P : List (Pt ℚ 2)),
      generate solver (.leastSquaresFit 2 exPts 3 .fixedEnds (some ⟨l, 1⟩)) = .ok (.ok c) ∧ ValidOn 0 1 c 2 3 U P ∧
      ∀ r, ∃ q : Polynomial ℚ, q.degree < (1 : ℕ) ∧ ∀ (i : ℕ) (w : Pt ℚ 2), P.tail.dropLast[i]? = some w →
        l * (w r - q.eval (i : ℚ)) ^ 2 ≤ C := by
  obtain ⟨s, hs⟩ := exists_exact_solver ℚ 2
  obtain ⟨C, hC⟩ := C74_fixed_limit (p := 2) (n := 3) (m := 4) (κ := 1) (pts := exPts) hs (by omega) (by omega) rfl le_rfl
  refine ⟨s, C, hs, fun l hl => ?_⟩
  obtain ⟨c, -, -, -, -, -, g⟩ := (C44_generate_fixed_partial (p := 2) (n := 3) (m := 4) (pts := exPts)
    (by omega) (by omega) rfl s (some ⟨l, 1⟩)).2
    (fitErrorOf_uniform (q := ⟨l, 1⟩) (by omega) (by omega) hl (Nat.lt_of_sub_eq_succ rfl)) (by omega)
    (by intro q' hq'; injection hq' with hq'; subst hq'; exact le_rfl)
  obtain ⟨U, P, h1, h2⟩ := hC l c g
  exact ⟨c, U, P, g, h1, h2⟩

end BSpline
