import Mathlib.Algebra.BigOperators.Group.Finset.Basic
import Mathlib.Algebra.BigOperators.Ring.Finset
import Mathlib.Algebra.BigOperators.Fin
import Mathlib.Algebra.Order.BigOperators.Group.Finset
import Mathlib.Algebra.Order.Field.Basic
import Mathlib.LinearAlgebra.Basis.VectorSpace
import Mathlib.LinearAlgebra.Pi
import Mathlib.Tactic.Linarith
import Mathlib.Tactic.Ring
import Mathlib.Tactic.LinearCombination

/-!
# Linear least squares with a quadratic penalty

The normal equations `(AᵀA + λ DᵀD) x = Aᵀ y` are always solvable, and their solutions are exactly
the minimisers of `‖A x − y‖² + λ ‖D x‖²`.
-/

set_option linter.unusedSectionVars false

namespace BSpline

open Finset

variable {K : Type} [Field K] [LinearOrder K] [IsStrictOrderedRing K]

/-- a row of `A x` -/
def mv (c : ℕ) (A : ℕ → ℕ → K) (x : ℕ → K) (g : ℕ) : K := ∑ j ∈ range c, A g j * x j

/-- entry of the matrix of the normal equations -/
def nm (r l : ℕ) (A D : ℕ → ℕ → K) (lam : K) (i j : ℕ) : K :=
  ∑ g ∈ range r, A g i * A g j + lam * ∑ h ∈ range l, D h i * D h j

/-- the functional that is minimised -/
def lsq (r l c : ℕ) (A D : ℕ → ℕ → K) (lam : K) (y x : ℕ → K) : K :=
  ∑ g ∈ range r, (mv c A x g - y g) ^ 2 + lam * ∑ h ∈ range l, mv c D x h ^ 2

theorem mv_sub (c : ℕ) (A : ℕ → ℕ → K) (x z : ℕ → K) (g : ℕ) :
    mv c A (fun j => z j - x j) g = mv c A z g - mv c A x g := by
  simp only [mv, mul_sub, sum_sub_distrib]

/-- `⟨A x, v⟩ = ⟨x, Aᵀ v⟩` -/
theorem sum_mul_mv (r c : ℕ) (A : ℕ → ℕ → K) (v w : ℕ → K) :
    ∑ g ∈ range r, v g * mv c A w g = ∑ i ∈ range c, w i * ∑ g ∈ range r, A g i * v g := by
  simp only [mv, mul_sum]
  rw [sum_comm]
  apply sum_congr rfl; intro i _
  apply sum_congr rfl; intro g _
  ring

theorem sum_nm (r l c : ℕ) (A D : ℕ → ℕ → K) (lam : K) (x : ℕ → K) (i : ℕ) :
    ∑ j ∈ range c, nm r l A D lam i j * x j =
      ∑ g ∈ range r, A g i * mv c A x g + lam * ∑ h ∈ range l, D h i * mv c D x h := by
  simp only [nm, add_mul, sum_add_distrib, mv, mul_sum, sum_mul]
  congr 1
  · rw [sum_comm]
    apply sum_congr rfl; intro g _
    apply sum_congr rfl; intro j _
    ring
  · rw [sum_comm]
    apply sum_congr rfl; intro g _
    apply sum_congr rfl; intro j _
    ring

/-- the excess of any `z` over a solution of the normal equations -/
theorem lsq_eq {r l c : ℕ} {A D : ℕ → ℕ → K} {lam : K} {y x : ℕ → K}
    (hx : ∀ i, i < c → ∑ j ∈ range c, nm r l A D lam i j * x j = ∑ g ∈ range r, A g i * y g)
    (z : ℕ → K) : lsq r l c A D lam y z = lsq r l c A D lam y x +
      (∑ g ∈ range r, mv c A (fun j => z j - x j) g ^ 2 +
        lam * ∑ h ∈ range l, mv c D (fun j => z j - x j) h ^ 2) := by
  have cross : ∑ g ∈ range r, (mv c A x g - y g) * mv c A (fun j => z j - x j) g +
      lam * ∑ h ∈ range l, mv c D x h * mv c D (fun j => z j - x j) h = 0 := by
    rw [sum_mul_mv, sum_mul_mv, mul_sum, ← sum_add_distrib]
    apply sum_eq_zero
    intro i hi
    have h1 := hx i (mem_range.mp hi)
    rw [sum_nm] at h1
    have h2 : ∑ g ∈ range r, A g i * (mv c A x g - y g) =
        ∑ g ∈ range r, A g i * mv c A x g - ∑ g ∈ range r, A g i * y g := by
      rw [← sum_sub_distrib]; apply sum_congr rfl; intro g _; ring
    rw [h2, ← h1]
    ring
  have e1 : ∑ g ∈ range r, (mv c A z g - y g) ^ 2 = ∑ g ∈ range r, (mv c A x g - y g) ^ 2 +
      2 * ∑ g ∈ range r, (mv c A x g - y g) * mv c A (fun j => z j - x j) g +
      ∑ g ∈ range r, mv c A (fun j => z j - x j) g ^ 2 := by
    rw [mul_sum, ← sum_add_distrib, ← sum_add_distrib]
    apply sum_congr rfl; intro g _; rw [mv_sub]; ring
  have e2 : ∑ h ∈ range l, mv c D z h ^ 2 = ∑ h ∈ range l, mv c D x h ^ 2 +
      2 * ∑ h ∈ range l, mv c D x h * mv c D (fun j => z j - x j) h +
      ∑ h ∈ range l, mv c D (fun j => z j - x j) h ^ 2 := by
    rw [mul_sum, ← sum_add_distrib, ← sum_add_distrib]
    apply sum_congr rfl; intro g _; rw [mv_sub]; ring
  rw [lsq, lsq, e1, e2]
  linear_combination 2 * cross

theorem lsq_le {r l c : ℕ} {A D : ℕ → ℕ → K} {lam : K} (hl : 0 ≤ lam) {y x : ℕ → K}
    (hx : ∀ i, i < c → ∑ j ∈ range c, nm r l A D lam i j * x j = ∑ g ∈ range r, A g i * y g)
    (z : ℕ → K) : lsq r l c A D lam y x ≤ lsq r l c A D lam y z := by
  rw [lsq_eq hx z]
  have h1 : 0 ≤ ∑ g ∈ range r, mv c A (fun j => z j - x j) g ^ 2 :=
    sum_nonneg (fun _ _ => sq_nonneg _)
  have h2 : 0 ≤ lam * ∑ h ∈ range l, mv c D (fun j => z j - x j) h ^ 2 :=
    mul_nonneg hl (sum_nonneg (fun _ _ => sq_nonneg _))
  linarith

/-- two minimisers have the same fitted values -/
theorem lsq_unique {r l c : ℕ} {A D : ℕ → ℕ → K} {lam : K} (hl : 0 ≤ lam) {y x z : ℕ → K}
    (hx : ∀ i, i < c → ∑ j ∈ range c, nm r l A D lam i j * x j = ∑ g ∈ range r, A g i * y g)
    (h : lsq r l c A D lam y z ≤ lsq r l c A D lam y x) (g : ℕ) (hg : g < r) :
    mv c A z g = mv c A x g := by
  rw [lsq_eq hx z] at h
  have h2 : 0 ≤ lam * ∑ h ∈ range l, mv c D (fun j => z j - x j) h ^ 2 :=
    mul_nonneg hl (sum_nonneg (fun _ _ => sq_nonneg _))
  have h1 : ∑ g ∈ range r, mv c A (fun j => z j - x j) g ^ 2 = 0 :=
    le_antisymm (by linarith) (sum_nonneg (fun _ _ => sq_nonneg _))
  rw [sum_eq_zero_iff_of_nonneg (fun _ _ => sq_nonneg _)] at h1
  have := h1 g (mem_range.mpr hg)
  rw [sq_eq_zero_iff, mv_sub, sub_eq_zero] at this
  exact this

/-- two solutions of the normal equations have the same fitted values -/
theorem normal_unique {r l c : ℕ} {A D : ℕ → ℕ → K} {lam : K} (hl : 0 ≤ lam) {y x z : ℕ → K}
    (hx : ∀ i, i < c → ∑ j ∈ range c, nm r l A D lam i j * x j = ∑ g ∈ range r, A g i * y g)
    (hz : ∀ i, i < c → ∑ j ∈ range c, nm r l A D lam i j * z j = ∑ g ∈ range r, A g i * y g)
    (g : ℕ) (hg : g < r) : mv c A z g = mv c A x g :=
  lsq_unique hl hx (lsq_le hl hz x) g hg

/-- solutions of the normal equations depend affinely on the data -/
theorem normal_affine {ι : Type} [Fintype ι] {r l c : ℕ} {A D : ℕ → ℕ → K} {lam : K}
    {X Y : ι → ℕ → K} {w : ℕ → K} (a : ι → K) (t : K)
    (hX : ∀ s i, i < c → ∑ j ∈ range c, nm r l A D lam i j * X s j = ∑ g ∈ range r, A g i * Y s g)
    (hA : ∀ g, g < r → mv c A (fun _ => 1) g = w g) (hD : ∀ h, h < l → mv c D (fun _ => 1) h = 0) :
    ∀ i, i < c → ∑ j ∈ range c, nm r l A D lam i j * (∑ s, a s * X s j + t) =
      ∑ g ∈ range r, A g i * (∑ s, a s * Y s g + t * w g) := by
  intro i hi
  have e1 : ∑ j ∈ range c, nm r l A D lam i j = ∑ g ∈ range r, A g i * w g := by
    have := sum_nm r l c A D lam (fun _ => 1) i
    simp only [mul_one] at this
    rw [this, sum_eq_zero (s := range l), mul_zero, add_zero]
    · exact sum_congr rfl (fun g hg => by rw [hA g (mem_range.mp hg)])
    · intro h hh; rw [hD h (mem_range.mp hh), mul_zero]
  have e2 : ∑ j ∈ range c, nm r l A D lam i j * ∑ s, a s * X s j =
      ∑ g ∈ range r, A g i * ∑ s, a s * Y s g := by
    calc _ = ∑ s, a s * ∑ j ∈ range c, nm r l A D lam i j * X s j := by
          simp only [mul_sum]
          rw [sum_comm]
          exact sum_congr rfl (fun s _ => sum_congr rfl (fun j _ => by ring))
      _ = ∑ s, a s * ∑ g ∈ range r, A g i * Y s g := sum_congr rfl (fun s _ => by rw [hX s i hi])
      _ = _ := by
          simp only [mul_sum]
          rw [sum_comm]
          exact sum_congr rfl (fun s _ => sum_congr rfl (fun j _ => by ring))
  simp only [mul_add, sum_add_distrib]
  rw [e2, ← sum_mul, e1, sum_mul]
  congr 1
  exact sum_congr rfl (fun g _ => by ring)

/-- the normal equations are always solvable -/
theorem normal_solvable (r l c : ℕ) (A D : ℕ → ℕ → K) {lam : K} (hl : 0 ≤ lam) (y : ℕ → K) :
    ∃ x : ℕ → K, ∀ i, i < c →
      ∑ j ∈ range c, nm r l A D lam i j * x j = ∑ g ∈ range r, A g i * y g := by
  let L : (Fin c → K) →ₗ[K] (Fin c → K) :=
    { toFun := fun x i => ∑ j : Fin c, nm r l A D lam i j * x j
      map_add' := by
        intro x z; funext i; simp only [Pi.add_apply, mul_add, sum_add_distrib]
      map_smul' := by
        intro s x; funext i
        simp only [Pi.smul_apply, smul_eq_mul, RingHom.id_apply, mul_sum]
        apply sum_congr rfl; intro j _; ring }
  let b : Fin c → K := fun i => ∑ g ∈ range r, A g i * y g
  by_cases hb : b ∈ LinearMap.range L
  · obtain ⟨x, hx⟩ := hb
    refine ⟨fun j => if h : j < c then x ⟨j, h⟩ else 0, fun i hi => ?_⟩
    have := congrFun hx ⟨i, hi⟩
    simp only [L, b, LinearMap.coe_mk, AddHom.coe_mk] at this
    rw [← this, ← Fin.sum_univ_eq_sum_range (fun j => nm r l A D lam i j *
      (if h : j < c then x ⟨j, h⟩ else 0))]
    apply sum_congr rfl
    intro j _
    rw [dif_pos j.2]
  · exfalso
    obtain ⟨f, hfb, hf⟩ := Submodule.exists_le_ker_of_notMem hb
    let v : ℕ → K := fun i => if h : i < c then f (Pi.single ⟨i, h⟩ 1) else 0
    have hv : ∀ e : Fin c → K, f e = ∑ i : Fin c, v i * e i := by
      intro e
      rw [LinearMap.pi_apply_eq_sum_univ f e]
      apply sum_congr rfl
      intro i _
      rw [smul_eq_mul, mul_comm]
      congr 1
      simp only [v, dif_pos i.2]
      congr 1
      funext j
      simp [Pi.single_apply, eq_comm]
    have h0 : f (L (fun j => v j)) = 0 := hf ⟨_, rfl⟩
    rw [hv] at h0
    have e : ∀ i : Fin c, L (fun j => v j) i = ∑ j ∈ range c, nm r l A D lam i j * v j := by
      intro i
      rw [← Fin.sum_univ_eq_sum_range (fun j => nm r l A D lam i j * v j)]
      rfl
    have h1 : ∑ i ∈ range c, v i * ∑ j ∈ range c, nm r l A D lam i j * v j = 0 := by
      rw [← h0, ← Fin.sum_univ_eq_sum_range (fun i => v i * ∑ j ∈ range c, nm r l A D lam i j * v j)]
      apply sum_congr rfl
      intro i _
      rw [e]
    have h2 : ∑ g ∈ range r, mv c A v g * mv c A v g +
        lam * ∑ h ∈ range l, mv c D v h * mv c D v h = 0 := by
      rw [sum_mul_mv, sum_mul_mv, ← h1, mul_sum, ← sum_add_distrib]
      apply sum_congr rfl
      intro i _
      rw [sum_nm]
      ring
    have h3 : 0 ≤ lam * ∑ h ∈ range l, mv c D v h * mv c D v h :=
      mul_nonneg hl (sum_nonneg (fun _ _ => mul_self_nonneg _))
    have h4 : ∑ g ∈ range r, mv c A v g * mv c A v g = 0 :=
      le_antisymm (by linarith) (sum_nonneg (fun _ _ => mul_self_nonneg _))
    rw [sum_eq_zero_iff_of_nonneg (fun _ _ => mul_self_nonneg _)] at h4
    apply hfb
    rw [hv]
    have h5 : ∑ i : Fin c, v i * b i = ∑ i ∈ range c, v i * ∑ g ∈ range r, A g i * y g := by
      rw [← Fin.sum_univ_eq_sum_range (fun i => v i * ∑ g ∈ range r, A g i * y g)]
    rw [h5, ← sum_mul_mv]
    apply sum_eq_zero
    intro g hg
    have := h4 g hg
    rw [mul_self_eq_zero] at this
    rw [this, mul_zero]

end BSpline
