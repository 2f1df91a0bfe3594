import Verif.Theory.LeastSquares
import Mathlib.Algebra.Order.BigOperators.Ring.Finset

/-!
# Solving with a truncated singular value decomposition

`A = U Σ Vᵀ` with orthonormal columns of `U` and orthonormal rows of `Vᵀ`; the solution computed for
`b` is `V y` with `yᵢ = (Uᵀ b)ᵢ / σᵢ` where `σᵢ > ε` and `yᵢ = 0` otherwise.
-/

set_option linter.unusedSectionVars false

namespace BSpline

open Finset

variable {K : Type} [Field K] [LinearOrder K] [IsStrictOrderedRing K]

/-- the first `k` rows of `v`, of length `c`, are orthonormal -/
def Orth (k c : ℕ) (v : ℕ → ℕ → K) : Prop :=
  ∀ i i', i < k → i' < k → ∑ j ∈ range c, v i j * v i' j = if i = i' then 1 else 0

/-- the combination of the rows with the coefficients `y` -/
def comb (k : ℕ) (v : ℕ → ℕ → K) (y : ℕ → K) (j : ℕ) : K := ∑ i ∈ range k, v i j * y i

theorem Orth.coeff {k c : ℕ} {v : ℕ → ℕ → K} (h : Orth k c v) (y : ℕ → K) {i : ℕ} (hi : i < k) :
    ∑ j ∈ range c, v i j * comb k v y j = y i := by
  simp only [comb, mul_sum]
  rw [sum_comm]
  have : ∀ i' ∈ range k, ∑ j ∈ range c, v i j * (v i' j * y i') = if i = i' then y i' else 0 := by
    intro i' hi'
    have h1 := h i i' hi (mem_range.mp hi')
    calc _ = (∑ j ∈ range c, v i j * v i' j) * y i' := by
          rw [sum_mul]; exact sum_congr rfl (fun j _ => by ring)
      _ = _ := by rw [h1]; split <;> simp
  rw [sum_congr rfl this, sum_ite_eq, if_pos (mem_range.mpr hi)]

/-- scalar product of any vector with a combination -/
theorem sum_mul_comb (k c : ℕ) (v : ℕ → ℕ → K) (x y : ℕ → K) :
    ∑ j ∈ range c, x j * comb k v y j = ∑ i ∈ range k, y i * mv c v x i := by
  simp only [comb, mv, mul_sum]
  rw [sum_comm]
  exact sum_congr rfl (fun i _ => sum_congr rfl (fun j _ => by ring))

theorem Orth.norm {k c : ℕ} {v : ℕ → ℕ → K} (h : Orth k c v) (y : ℕ → K) :
    ∑ j ∈ range c, comb k v y j ^ 2 = ∑ i ∈ range k, y i ^ 2 := by
  simp only [sq]
  rw [sum_mul_comb]
  exact sum_congr rfl (fun i hi => by rw [mv, h.coeff y (mem_range.mp hi)])

/-- the distance of a vector from a combination -/
theorem Orth.dist {k c : ℕ} {v : ℕ → ℕ → K} (h : Orth k c v) (x y : ℕ → K) :
    ∑ j ∈ range c, (x j - comb k v y j) ^ 2 =
      ∑ j ∈ range c, x j ^ 2 - ∑ i ∈ range k, mv c v x i ^ 2 +
        ∑ i ∈ range k, (mv c v x i - y i) ^ 2 := by
  have e : ∑ j ∈ range c, (x j - comb k v y j) ^ 2 = ∑ j ∈ range c, x j ^ 2 -
      2 * ∑ j ∈ range c, x j * comb k v y j + ∑ j ∈ range c, comb k v y j ^ 2 := by
    rw [mul_sum, ← sum_sub_distrib, ← sum_add_distrib]
    exact sum_congr rfl (fun j _ => by ring)
  rw [e, h.norm, sum_mul_comb]
  have e2 : ∑ i ∈ range k, (mv c v x i - y i) ^ 2 = ∑ i ∈ range k, mv c v x i ^ 2 -
      2 * ∑ i ∈ range k, y i * mv c v x i + ∑ i ∈ range k, y i ^ 2 := by
    rw [mul_sum, ← sum_sub_distrib, ← sum_add_distrib]
    exact sum_congr rfl (fun j _ => by ring)
  rw [e2]
  ring

/-- Bessel's inequality -/
theorem Orth.bessel {k c : ℕ} {v : ℕ → ℕ → K} (h : Orth k c v) (x : ℕ → K) :
    ∑ i ∈ range k, mv c v x i ^ 2 ≤ ∑ j ∈ range c, x j ^ 2 := by
  have h1 := h.dist x (mv c v x)
  have h2 : ∑ i ∈ range k, (mv c v x i - mv c v x i) ^ 2 = 0 :=
    sum_eq_zero (fun i _ => by rw [sub_self, zero_pow two_ne_zero])
  have h3 : 0 ≤ ∑ j ∈ range c, (x j - comb k v (mv c v x) j) ^ 2 := sum_nonneg (fun _ _ => sq_nonneg _)
  rw [h1, h2] at h3
  linarith

/-- a decomposition of `A` (`r` rows, `c` columns) into `k` singular triples -/
structure Decomp (r c k : ℕ) (A u : ℕ → ℕ → K) (s : ℕ → K) (v : ℕ → ℕ → K) : Prop where
  left : Orth k r (fun i g => u g i)
  right : Orth k c v
  nonneg : ∀ i, i < k → 0 ≤ s i
  eq : ∀ g j, g < r → j < c → A g j = ∑ i ∈ range k, u g i * s i * v i j

/-- the coefficients of the computed solution -/
def truncCoeff (r : ℕ) (u : ℕ → ℕ → K) (s : ℕ → K) (eps : K) (b : ℕ → K) (i : ℕ) : K :=
  if eps < s i then (∑ g ∈ range r, u g i * b g) / s i else 0

/-- the computed solution -/
def truncSol (r k : ℕ) (u : ℕ → ℕ → K) (s : ℕ → K) (v : ℕ → ℕ → K) (eps : K) (b : ℕ → K) : ℕ → K :=
  comb k v (truncCoeff r u s eps b)

section
variable {r c k : ℕ} {A u : ℕ → ℕ → K} {s : ℕ → K} {v : ℕ → ℕ → K}

theorem Decomp.mv_eq (h : Decomp r c k A u s v) (x : ℕ → K) {g : ℕ} (hg : g < r) :
    mv c A x g = comb k (fun i g => u g i) (fun i => s i * mv c v x i) g := by
  simp only [mv, comb, mul_sum]
  rw [sum_comm]
  apply sum_congr rfl
  intro j hj
  rw [h.eq g j hg (mem_range.mp hj), sum_mul]
  exact sum_congr rfl (fun i _ => by ring)

/-- the coefficients for a right-hand side that has a solution `x` -/
theorem Decomp.coeff_eq (h : Decomp r c k A u s v) {eps : K} (he : 0 ≤ eps) {b x : ℕ → K}
    (hb : ∀ g, g < r → mv c A x g = b g) {i : ℕ} (hi : i < k) :
    truncCoeff r u s eps b i = if eps < s i then mv c v x i else 0 := by
  rw [truncCoeff]
  split
  · rename_i hs
    have h1 : ∑ g ∈ range r, u g i * b g = s i * mv c v x i := by
      rw [← h.left.coeff (fun i => s i * mv c v x i) hi]
      exact sum_congr rfl (fun g hg => by
        rw [← hb g (mem_range.mp hg), h.mv_eq x (mem_range.mp hg)])
    rw [h1, mul_div_cancel_left₀]
    exact (lt_of_le_of_lt he hs).ne'
  · rfl

theorem Decomp.mv_sol (h : Decomp r c k A u s v) (eps : K) (b : ℕ → K) {g : ℕ} (hg : g < r) :
    mv c A (truncSol r k u s v eps b) g =
      comb k (fun i g => u g i) (fun i => s i * truncCoeff r u s eps b i) g := by
  rw [h.mv_eq _ hg]
  exact sum_congr rfl (fun i hi => by
    dsimp only; rw [mv, truncSol, h.right.coeff _ (mem_range.mp hi)])

/-- the residual of the computed solution -/
theorem Decomp.residual_eq (h : Decomp r c k A u s v) {eps : K} (he : 0 ≤ eps) {b x : ℕ → K}
    (hb : ∀ g, g < r → mv c A x g = b g) :
    ∑ g ∈ range r, (mv c A (truncSol r k u s v eps b) g - b g) ^ 2 =
      ∑ i ∈ range k, if eps < s i then 0 else (s i * mv c v x i) ^ 2 := by
  have e : ∀ g ∈ range r, (mv c A (truncSol r k u s v eps b) g - b g) ^ 2 =
      comb k (fun i g => u g i) (fun i => s i * truncCoeff r u s eps b i - s i * mv c v x i) g ^ 2 := by
    intro g hg
    rw [h.mv_sol eps b (mem_range.mp hg), ← hb g (mem_range.mp hg), h.mv_eq x (mem_range.mp hg)]
    congr 1
    simp only [comb, mul_sub, sum_sub_distrib]
  rw [sum_congr rfl e, h.left.norm]
  apply sum_congr rfl
  intro i hi
  rw [h.coeff_eq he hb (mem_range.mp hi)]
  split
  · rw [sub_self, zero_pow two_ne_zero]
  · rw [mul_zero, zero_sub, neg_sq]

/-- the residual is at most `ε` times the size of any exact solution -/
theorem Decomp.residual_le (h : Decomp r c k A u s v) {eps : K} (he : 0 ≤ eps) {b x : ℕ → K}
    (hb : ∀ g, g < r → mv c A x g = b g) :
    ∑ g ∈ range r, (mv c A (truncSol r k u s v eps b) g - b g) ^ 2 ≤
      eps ^ 2 * ∑ j ∈ range c, x j ^ 2 := by
  rw [h.residual_eq he hb]
  calc _ ≤ ∑ i ∈ range k, eps ^ 2 * mv c v x i ^ 2 := by
        apply sum_le_sum
        intro i hi
        split
        · exact mul_nonneg (sq_nonneg _) (sq_nonneg _)
        · rename_i hs
          rw [mul_pow]
          exact mul_le_mul_of_nonneg_right
            (pow_le_pow_left₀ (h.nonneg i (mem_range.mp hi)) (not_lt.mp hs) 2) (sq_nonneg _)
    _ = eps ^ 2 * ∑ i ∈ range k, mv c v x i ^ 2 := by rw [mul_sum]
    _ ≤ _ := mul_le_mul_of_nonneg_left (h.right.bessel x) (sq_nonneg _)

/-- no positive singular value is cut off: the solution is exact -/
theorem Decomp.exact (h : Decomp r c k A u s v) {eps : K} (he : 0 ≤ eps)
    (hgap : ∀ i, i < k → s i ≤ eps → s i = 0) {b x : ℕ → K} (hb : ∀ g, g < r → mv c A x g = b g) :
    ∀ g, g < r → mv c A (truncSol r k u s v eps b) g = b g := by
  have h1 := h.residual_eq he hb
  rw [sum_eq_zero (s := range k)] at h1
  · intro g hg
    rw [sum_eq_zero_iff_of_nonneg (fun _ _ => sq_nonneg _)] at h1
    have := h1 g (mem_range.mpr hg)
    rw [sq_eq_zero_iff, sub_eq_zero] at this
    exact this
  · intro i hi
    split
    · rfl
    · rename_i hs
      rw [hgap i (mem_range.mp hi) (not_lt.mp hs), zero_mul, zero_pow two_ne_zero]

/-- the singular values that are cut off are exactly what can go wrong -/
theorem Decomp.exact_iff (h : Decomp r c k A u s v) {eps : K} (he : 0 ≤ eps) :
    (∀ b x : ℕ → K, (∀ g, g < r → mv c A x g = b g) →
      ∀ g, g < r → mv c A (truncSol r k u s v eps b) g = b g) ↔
    ∀ i, i < k → s i ≤ eps → s i = 0 := by
  refine ⟨fun hall i hi hs => ?_, fun hgap b x hb => h.exact he hgap hb⟩
  have h1 := hall (mv c A (v i)) (v i) (fun _ _ => rfl)
  have h2 := h.residual_eq he (b := mv c A (v i)) (x := v i) (fun _ _ => rfl)
  rw [sum_eq_zero (s := range r) (fun g hg => by
    rw [h1 g (mem_range.mp hg), sub_self, zero_pow two_ne_zero])] at h2
  have h3 := (sum_eq_zero_iff_of_nonneg (fun i _ => by
    split
    · exact le_rfl
    · exact sq_nonneg _)).mp h2.symm i (mem_range.mpr hi)
  rw [if_neg (not_lt.mpr hs), mv, h.right i i hi hi, if_pos rfl, mul_one] at h3
  exact pow_eq_zero_iff two_ne_zero |>.mp h3

/-- the computed solution is no longer than any exact one -/
theorem Decomp.norm_le (h : Decomp r c k A u s v) {eps : K} (he : 0 ≤ eps) {b x : ℕ → K}
    (hb : ∀ g, g < r → mv c A x g = b g) :
    ∑ j ∈ range c, truncSol r k u s v eps b j ^ 2 ≤ ∑ j ∈ range c, x j ^ 2 := by
  rw [truncSol, h.right.norm]
  refine le_trans (sum_le_sum ?_) (h.right.bessel x)
  intro i hi
  rw [h.coeff_eq he hb (mem_range.mp hi)]
  split
  · exact le_rfl
  · rw [zero_pow two_ne_zero]; exact sq_nonneg _

/-- the distance of the computed solution from an exact one -/
theorem Decomp.dist_le (h : Decomp r c k A u s v) {eps : K} (he : 0 ≤ eps) {b x : ℕ → K}
    (hb : ∀ g, g < r → mv c A x g = b g) :
    ∑ j ∈ range c, (x j - truncSol r k u s v eps b j) ^ 2 ≤ ∑ j ∈ range c, x j ^ 2 := by
  rw [truncSol, h.right.dist]
  have : ∑ i ∈ range k, (mv c v x i - truncCoeff r u s eps b i) ^ 2 ≤
      ∑ i ∈ range k, mv c v x i ^ 2 := by
    apply sum_le_sum
    intro i hi
    rw [h.coeff_eq he hb (mem_range.mp hi)]
    split
    · rw [sub_self, zero_pow two_ne_zero]; exact sq_nonneg _
    · rw [sub_zero]
  linarith

/-- without any solution at all: the computed point is a least-squares solution if no positive
singular value is cut off -/
theorem Decomp.least_squares (h : Decomp r c k A u s v) {eps : K} (he : 0 ≤ eps)
    (hgap : ∀ i, i < k → s i ≤ eps → s i = 0) (b x : ℕ → K) :
    ∑ g ∈ range r, (mv c A (truncSol r k u s v eps b) g - b g) ^ 2 ≤
      ∑ g ∈ range r, (mv c A x g - b g) ^ 2 := by
  have key : ∀ z : ℕ → K, ∑ g ∈ range r, (comb k (fun i g => u g i) z g - b g) ^ 2 =
      ∑ g ∈ range r, b g ^ 2 - ∑ i ∈ range k, mv r (fun i g => u g i) b i ^ 2 +
        ∑ i ∈ range k, (mv r (fun i g => u g i) b i - z i) ^ 2 := by
    intro z
    rw [← h.left.dist b z]
    exact sum_congr rfl (fun g _ => by ring)
  have e1 : ∑ g ∈ range r, (mv c A (truncSol r k u s v eps b) g - b g) ^ 2 = ∑ g ∈ range r,
      (comb k (fun i g => u g i) (fun i => s i * truncCoeff r u s eps b i) g - b g) ^ 2 :=
    sum_congr rfl (fun g hg => by rw [h.mv_sol eps b (mem_range.mp hg)])
  have e2 : ∑ g ∈ range r, (mv c A x g - b g) ^ 2 = ∑ g ∈ range r,
      (comb k (fun i g => u g i) (fun i => s i * mv c v x i) g - b g) ^ 2 :=
    sum_congr rfl (fun g hg => by rw [h.mv_eq x (mem_range.mp hg)])
  rw [e1, e2, key, key]
  apply add_le_add_right
  apply sum_le_sum
  intro i hi
  rw [truncCoeff]
  split
  · rename_i hs
    rw [mul_div_cancel₀ _ (lt_of_le_of_lt he hs).ne', mv, sub_self, zero_pow two_ne_zero]
    exact sq_nonneg _
  · rename_i hs
    rw [hgap i (mem_range.mp hi) (not_lt.mp hs), zero_mul, zero_mul]

end

/-! ### Normal equations solved by a truncated decomposition -/

/-- the quadratic form of the normal equations -/
theorem quad_nm (r l c : ℕ) (A D : ℕ → ℕ → K) (lam : K) (z : ℕ → K) :
    ∑ i ∈ range c, z i * mv c (nm r l A D lam) z i =
      ∑ g ∈ range r, mv c A z g ^ 2 + lam * ∑ h ∈ range l, mv c D z h ^ 2 := by
  have e : ∀ i ∈ range c, z i * mv c (nm r l A D lam) z i =
      z i * ∑ g ∈ range r, A g i * mv c A z g + lam * (z i * ∑ h ∈ range l, D h i * mv c D z h) := by
    intro i _
    rw [mv, sum_nm]
    ring
  rw [sum_congr rfl e, sum_add_distrib, ← mul_sum, ← sum_mul_mv, ← sum_mul_mv]
  simp only [sq]

/-- a truncated solution of the normal equations is nearly optimal -/
theorem Decomp.lsq_le {r l c k : ℕ} {A D u : ℕ → ℕ → K} {lam : K} {s : ℕ → K} {v : ℕ → ℕ → K}
    (h : Decomp c c k (nm r l A D lam) u s v) (hl : 0 ≤ lam) {eps : K} (he : 0 ≤ eps)
    {y x : ℕ → K}
    (hx : ∀ i, i < c → ∑ j ∈ range c, nm r l A D lam i j * x j = ∑ g ∈ range r, A g i * y g)
    {b : ℕ → K} (hb : ∀ i, i < c → b i = ∑ g ∈ range r, A g i * y g) (z : ℕ → K) :
    lsq r l c A D lam y (truncSol c k u s v eps b) ≤
      lsq r l c A D lam y z + eps * ∑ j ∈ range c, x j ^ 2 := by
  have hb' : ∀ g, g < c → mv c (nm r l A D lam) x g = b g := by
    intro g hg
    rw [hb g hg, ← hx g hg, mv]
  have h1 := BSpline.lsq_le hl hx z
  have h2 := lsq_eq hx (truncSol c k u s v eps b)
  have h3 := quad_nm r l c A D lam (fun j => truncSol c k u s v eps b j - x j)
  have h4 : (∑ i ∈ range c, (truncSol c k u s v eps b i - x i) *
      mv c (nm r l A D lam) (fun j => truncSol c k u s v eps b j - x j) i) ^ 2 ≤
      (eps * ∑ j ∈ range c, x j ^ 2) ^ 2 := by
    refine le_trans (sum_mul_sq_le_sq_mul_sq _ _ _) ?_
    have h5 := h.residual_le he hb'
    have h6 := h.dist_le he hb'
    have e5 : ∑ i ∈ range c, mv c (nm r l A D lam) (fun j => truncSol c k u s v eps b j - x j) i ^ 2 =
        ∑ g ∈ range c, (mv c (nm r l A D lam) (truncSol c k u s v eps b) g - b g) ^ 2 :=
      sum_congr rfl (fun i hi => by rw [mv_sub, hb' i (mem_range.mp hi)])
    have e6 : ∑ i ∈ range c, (truncSol c k u s v eps b i - x i) ^ 2 =
        ∑ j ∈ range c, (x j - truncSol c k u s v eps b j) ^ 2 :=
      sum_congr rfl (fun i _ => by ring)
    rw [e5, e6]
    calc _ ≤ (∑ j ∈ range c, x j ^ 2) * (eps ^ 2 * ∑ j ∈ range c, x j ^ 2) :=
          mul_le_mul h6 h5 (sum_nonneg (fun _ _ => sq_nonneg _)) (sum_nonneg (fun _ _ => sq_nonneg _))
      _ = _ := by ring
  have h7 := abs_le_of_sq_le_sq h4 (mul_nonneg he (sum_nonneg (fun _ _ => sq_nonneg _)))
  rw [h2, ← h3]
  linarith [le_trans (le_abs_self _) h7]

end BSpline
