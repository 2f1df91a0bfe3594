import Verif.Theory.Svd
import Mathlib.Analysis.Matrix.Spectrum
import Mathlib.Analysis.InnerProductSpace.PiL2

/-!
# Every real matrix has a singular value decomposition

With as many singular triples as the smaller of the two dimensions, as computed by nalgebra.
-/

set_option linter.unusedSectionVars false

namespace BSpline

open Finset Matrix

theorem inner_eq_sum {n : ℕ} (x y : EuclideanSpace ℝ (Fin n)) : inner ℝ x y = ∑ i, x i * y i := by
  rw [PiLp.inner_apply]
  exact sum_congr rfl (fun i _ => by simp [mul_comm])

theorem basis_orth {n : ℕ} (b : OrthonormalBasis (Fin n) ℝ (EuclideanSpace ℝ (Fin n))) (i i' : Fin n) :
    ∑ j, b i j * b i' j = if i = i' then 1 else 0 := by
  rw [← inner_eq_sum]
  exact orthonormal_iff_ite.mp b.orthonormal i i'

theorem basis_complete {n : ℕ} (b : OrthonormalBasis (Fin n) ℝ (EuclideanSpace ℝ (Fin n)))
    (j j' : Fin n) : ∑ i, b i j * b i j' = if j = j' then 1 else 0 := by
  have h : (Matrix.of fun i j => b i j) * (Matrix.of fun i j => b i j)ᵀ = 1 := by
    ext i i'
    rw [Matrix.mul_apply, Matrix.one_apply]
    exact basis_orth b i i'
  rw [mul_eq_one_comm] at h
  have := congrFun (congrFun h j) j'
  rw [Matrix.mul_apply, Matrix.one_apply] at this
  exact this

theorem svd_tall {r c : ℕ} (h : c ≤ r) (A : Fin r → Fin c → ℝ) :
    ∃ (U : Fin r → Fin c → ℝ) (s : Fin c → ℝ) (V : Fin c → Fin c → ℝ),
      (∀ i i', ∑ g, U g i * U g i' = if i = i' then 1 else 0) ∧
      (∀ i i', ∑ j, V i j * V i' j = if i = i' then 1 else 0) ∧ (∀ i, 0 ≤ s i) ∧
      ∀ g j, A g j = ∑ i, U g i * s i * V i j := by
  let H : Matrix (Fin c) (Fin c) ℝ := fun j j' => ∑ g, A g j * A g j'
  have hH : H.IsHermitian := by
    ext j j'
    change ∑ g, A g j' * A g j = ∑ g, A g j * A g j'
    exact sum_congr rfl (fun g _ => mul_comm _ _)
  let b := hH.eigenvectorBasis
  let lam := hH.eigenvalues
  let w : Fin c → Fin r → ℝ := fun i g => ∑ j, A g j * b i j
  have hww : ∀ i i', ∑ g, w i g * w i' g = if i = i' then lam i' else 0 := by
    intro i i'
    have e : ∀ j, ∑ j', H j j' * b i' j' = lam i' * b i' j := by
      intro j
      have := congrFun (hH.mulVec_eigenvectorBasis i') j
      simp only [Matrix.mulVec, dotProduct, Pi.smul_apply, smul_eq_mul] at this
      exact this
    calc ∑ g, w i g * w i' g = ∑ j, b i j * ∑ j', H j j' * b i' j' := by
          have e1 : ∀ j, ∑ j', H j j' * b i' j' = ∑ g, A g j * w i' g := by
            intro j
            simp only [w, H, sum_mul, mul_sum]
            rw [sum_comm]
            exact sum_congr rfl (fun g _ => sum_congr rfl (fun j' _ => by ring))
          simp only [e1]
          rw [sum_congr rfl (fun g _ => sum_mul _ _ _), sum_comm]
          simp only [mul_sum]
          exact sum_congr rfl (fun j _ => sum_congr rfl (fun g _ => by ring))
      _ = lam i' * ∑ j, b i j * b i' j := by
          rw [mul_sum]
          exact sum_congr rfl (fun j _ => by rw [e]; ring)
      _ = _ := by rw [basis_orth]; split <;> simp
  have hlam : ∀ i, 0 ≤ lam i := by
    intro i
    have := hww i i
    rw [if_pos rfl] at this
    rw [← this]
    exact sum_nonneg (fun g _ => mul_self_nonneg _)
  let s : Fin c → ℝ := fun i => Real.sqrt (lam i)
  have hss : ∀ i, s i * s i = lam i := fun i => Real.mul_self_sqrt (hlam i)
  let v : Fin r → EuclideanSpace ℝ (Fin r) := fun g =>
    if hg : (g : ℕ) < c then WithLp.toLp 2 (fun g' => (s ⟨g, hg⟩)⁻¹ * w ⟨g, hg⟩ g') else 0
  let S : Set (Fin r) := {g | ∃ hg : (g : ℕ) < c, s ⟨g, hg⟩ ≠ 0}
  have hv : Orthonormal ℝ (S.domRestrict v) := by
    rw [orthonormal_iff_ite]
    rintro ⟨g, hg, hs⟩ ⟨g', hg', hs'⟩
    rw [inner_eq_sum]
    have e : ∑ i, S.domRestrict v ⟨g, hg, hs⟩ i * S.domRestrict v ⟨g', hg', hs'⟩ i =
        (s ⟨g, hg⟩)⁻¹ * (s ⟨g', hg'⟩)⁻¹ * ∑ i, w ⟨g, hg⟩ i * w ⟨g', hg'⟩ i := by
      rw [mul_sum]
      apply sum_congr rfl
      intro i _
      simp only [Set.domRestrict_apply, v, dif_pos hg, dif_pos hg']
      ring
    rw [e, hww]
    by_cases hgg : g = g'
    · subst hgg
      rw [if_pos rfl, if_pos rfl, ← hss]
      field_simp
    · rw [if_neg (fun h => hgg (by simpa [Fin.ext_iff] using h)),
        if_neg (fun h => hgg (by simpa using h)), mul_zero]
  obtain ⟨B, hB⟩ := hv.exists_orthonormalBasis_extension_of_card_eq (ι := Fin r) (by simp)
  refine ⟨fun g i => B ⟨i, lt_of_lt_of_le i.2 h⟩ g, s, fun i j => b i j, ?_, basis_orth b,
    fun i => Real.sqrt_nonneg _, ?_⟩
  · intro i i'
    rw [basis_orth B]
    simp only [Fin.ext_iff]
  · intro g j
    have hw : ∀ i : Fin c, w i g = B ⟨i, lt_of_lt_of_le i.2 h⟩ g * s i := by
      intro i
      by_cases hs : s i = 0
      · rw [hs, mul_zero]
        have h1 := hww i i
        rw [if_pos rfl, ← hss, hs, mul_zero,
          sum_eq_zero_iff_of_nonneg (fun g _ => mul_self_nonneg _)] at h1
        exact mul_self_eq_zero.mp (h1 g (mem_univ _))
      · rw [hB ⟨i, lt_of_lt_of_le i.2 h⟩ ⟨i.2, hs⟩]
        simp only [v, dif_pos i.2]
        field_simp
    calc A g j = ∑ j', A g j' * ∑ i, b i j' * b i j := by
          simp only [basis_complete]
          simp
      _ = ∑ i, w i g * b i j := by
          simp only [w, mul_sum, sum_mul]
          rw [sum_comm]
          exact sum_congr rfl (fun i _ => sum_congr rfl (fun j' _ => by ring))
      _ = _ := sum_congr rfl (fun i _ => by rw [hw i])

/-- extend a function on `Fin n` by zero -/
def ext0 {n : ℕ} (f : Fin n → ℝ) (i : ℕ) : ℝ := if h : i < n then f ⟨i, h⟩ else 0

theorem ext0_val {n : ℕ} (f : Fin n → ℝ) (i : Fin n) : ext0 f i = f i := by simp [ext0]

theorem exists_decomp (r c : ℕ) (A : ℕ → ℕ → ℝ) :
    ∃ (u : ℕ → ℕ → ℝ) (s : ℕ → ℝ) (v : ℕ → ℕ → ℝ), Decomp r c (min r c) A u s v := by
  rcases le_total c r with h | h
  · obtain ⟨U, s, V, h1, h2, h3, h4⟩ := svd_tall h (fun g j => A g j)
    rw [min_eq_right h]
    refine ⟨fun g i => ext0 (fun g' => ext0 (U g') i) g, ext0 s, fun i j => ext0 (fun i' => ext0 (V i') j) i, ?_, ?_, ?_, ?_⟩
    · intro i i' hi hi'
      rw [← Fin.sum_univ_eq_sum_range (fun g => ext0 (fun g' => ext0 (U g') i) g *
        ext0 (fun g' => ext0 (U g') i') g)]
      have := h1 ⟨i, hi⟩ ⟨i', hi'⟩
      simpa [ext0, hi, hi'] using this
    · intro i i' hi hi'
      rw [← Fin.sum_univ_eq_sum_range (fun j => ext0 (fun i' => ext0 (V i') j) i *
        ext0 (fun i' => ext0 (V i') j) i')]
      have := h2 ⟨i, hi⟩ ⟨i', hi'⟩
      simpa [ext0, hi, hi'] using this
    · intro i hi
      simpa [ext0, hi] using h3 ⟨i, hi⟩
    · intro g j hg hj
      rw [← Fin.sum_univ_eq_sum_range (fun i => ext0 (fun g' => ext0 (U g') i) g * ext0 s i *
        ext0 (fun i' => ext0 (V i') j) i)]
      have := h4 ⟨g, hg⟩ ⟨j, hj⟩
      simpa [ext0, hg, hj] using this
  · obtain ⟨U, s, V, h1, h2, h3, h4⟩ := svd_tall h (fun j g => A g j)
    rw [min_eq_left h]
    refine ⟨fun g i => ext0 (fun i' => ext0 (V i') g) i, ext0 s, fun i j => ext0 (fun j' => ext0 (U j') i) j, ?_, ?_, ?_, ?_⟩
    · intro i i' hi hi'
      dsimp only
      rw [← Fin.sum_univ_eq_sum_range (fun j => ext0 (fun i' => ext0 (V i') j) i *
        ext0 (fun i' => ext0 (V i') j) i')]
      have := h2 ⟨i, hi⟩ ⟨i', hi'⟩
      simpa [ext0, hi, hi'] using this
    · intro i i' hi hi'
      rw [← Fin.sum_univ_eq_sum_range (fun g => ext0 (fun g' => ext0 (U g') i) g *
        ext0 (fun g' => ext0 (U g') i') g)]
      have := h1 ⟨i, hi⟩ ⟨i', hi'⟩
      simpa [ext0, hi, hi'] using this
    · intro i hi
      simpa [ext0, hi] using h3 ⟨i, hi⟩
    · intro g j hg hj
      rw [← Fin.sum_univ_eq_sum_range (fun i => ext0 (fun i' => ext0 (V i') g) i * ext0 s i *
        ext0 (fun j' => ext0 (U j') i) j)]
      have := h4 ⟨j, hj⟩ ⟨g, hg⟩
      rw [this]
      apply sum_congr rfl
      intro i _
      simp [ext0, hg, hj]
      ring

end BSpline
