import Verif.Theory.LeastSquares

/-!
# Smallest solution of an underdetermined linear system

Solutions of the form `δ = Aᵀ w` of `A δ = c` exist whenever the system is solvable, and they are
the unique solutions of smallest norm.
-/

namespace BSpline

open Finset

variable {K : Type} [Field K] [LinearOrder K] [IsStrictOrderedRing K]

omit [LinearOrder K] [IsStrictOrderedRing K] in
theorem minNorm_eq {r N : ℕ} {A : ℕ → ℕ → K} {c δ w z : ℕ → K}
    (hw : ∀ i, i < N → δ i = ∑ g ∈ range r, A g i * w g)
    (hδ : ∀ g, g < r → ∑ i ∈ range N, A g i * δ i = c g)
    (hz : ∀ g, g < r → ∑ i ∈ range N, A g i * z i = c g) :
    ∑ i ∈ range N, z i ^ 2 = ∑ i ∈ range N, δ i ^ 2 + ∑ i ∈ range N, (z i - δ i) ^ 2 := by
  have cross : ∑ i ∈ range N, δ i * (z i - δ i) = 0 := by
    have : ∑ i ∈ range N, δ i * (z i - δ i) =
        ∑ g ∈ range r, w g * (∑ i ∈ range N, A g i * (z i - δ i)) := by
      simp only [mul_sum]
      rw [sum_comm]
      apply sum_congr rfl
      intro i hi
      rw [hw i (mem_range.mp hi), sum_mul]
      apply sum_congr rfl; intro g _; ring
    rw [this]
    apply sum_eq_zero
    intro g hg
    have h1 := hδ g (mem_range.mp hg)
    have h2 := hz g (mem_range.mp hg)
    simp only [mul_sub, sum_sub_distrib, h1, h2, sub_self, mul_zero]
  have : ∑ i ∈ range N, z i ^ 2 = ∑ i ∈ range N, δ i ^ 2 + ∑ i ∈ range N, (z i - δ i) ^ 2 +
      2 * ∑ i ∈ range N, δ i * (z i - δ i) := by
    rw [mul_sum, ← sum_add_distrib, ← sum_add_distrib]
    apply sum_congr rfl; intro i _; ring
  rw [this, cross]; ring

theorem minNorm_exists {r N : ℕ} {A : ℕ → ℕ → K} {c z : ℕ → K}
    (hz : ∀ g, g < r → ∑ i ∈ range N, A g i * z i = c g) :
    ∃ w : ℕ → K, ∀ g, g < r → ∑ i ∈ range N, A g i * ∑ g' ∈ range r, A g' i * w g' = c g := by
  obtain ⟨w, hw⟩ := normal_solvable N 0 r (fun i g => A g i) (fun _ _ => 0) le_rfl z
  refine ⟨w, fun g hg => ?_⟩
  rw [← hz g hg, ← hw g hg]
  simp only [nm, range_zero, sum_empty, mul_zero, add_zero, mul_sum, sum_mul]
  rw [sum_comm]
  apply sum_congr rfl; intro g' _
  apply sum_congr rfl; intro i _
  ring

end BSpline
