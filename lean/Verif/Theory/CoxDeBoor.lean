import Verif.Theory.Blossom
import Mathlib.Algebra.BigOperators.Group.Finset.Basic
import Mathlib.Algebra.BigOperators.Intervals
import Mathlib.Algebra.BigOperators.GroupWithZero.Action
import Mathlib.Algebra.Module.BigOperators
import Mathlib.Algebra.Order.Field.Basic
import Mathlib.Tactic.Linarith
import Mathlib.Tactic.Positivity

/-!
# The Cox–de Boor recursion and the polar form

On a knot span the sum `Σ N_i P_i` is the diagonal of the polar form of that span.
-/

set_option linter.unusedSectionVars false

namespace BSpline

open Finset

variable {K : Type*} [Field K] {V : Type*} [AddCommGroup V] [Module K V]

/-- Cox–de Boor recursion from prescribed functions `b` of degree zero (`x / 0 = 0`). -/
def Bs (U : ℕ → K) (u : K) (b : ℕ → K) : ℕ → ℕ → K
  | 0, i => b i
  | q + 1, i => (u - U i) / (U (i + q + 1) - U i) * Bs U u b q i +
      (U (i + q + 2) - u) / (U (i + q + 2) - U (i + 1)) * Bs U u b q (i + 1)

/-- the indicator of `j` -/
def delta (j : ℕ) : ℕ → K := fun i => if i = j then 1 else 0

theorem shift_delta (j : ℕ) : shift (delta (K := K) (j + 1)) = delta j := by
  funext i; simp [shift, delta]

theorem Bs_shift (U : ℕ → K) (u : K) (b : ℕ → K) (q : ℕ) : ∀ i,
    Bs (shift U) u (shift b) q i = Bs U u b q (i + 1) := by
  induction q with
  | zero => intro i; rfl
  | succ q ih =>
    intro i
    simp only [Bs, ih, shift_apply]
    rw [show i + 1 + q + 1 = i + q + 1 + 1 by omega, show i + 1 + q + 2 = i + q + 2 + 1 by omega]

theorem Bs_support (U : ℕ → K) (u : K) (j q : ℕ) : ∀ i, i + q < j ∨ j < i →
    Bs U u (delta j) q i = 0 := by
  induction q with
  | zero => intro i hi; simp only [Bs, delta]; rw [if_neg (by omega)]
  | succ q ih =>
    intro i hi
    simp only [Bs]
    rw [ih i (by omega), ih (i + 1) (by omega)]; simp

/-- only the knots `U i .. U (i+q+1)` and degree-zero values `b i .. b (i+q)` matter -/
theorem Bs_congr (u : K) (q : ℕ) : ∀ {U U' b b' : ℕ → K} {i i' : ℕ},
    (∀ m, m ≤ q + 1 → U (i + m) = U' (i' + m)) → (∀ m, m ≤ q → b (i + m) = b' (i' + m)) →
    Bs U u b q i = Bs U' u b' q i' := by
  induction q with
  | zero => intro U U' b b' i i' _ hb; simpa [Bs] using hb 0 le_rfl
  | succ q ih =>
    intro U U' b b' i i' hU hb
    simp only [Bs]
    have h1 := ih (U := U) (U' := U') (b := b) (b' := b') (i := i) (i' := i')
      (fun m hm => hU m (by omega)) (fun m hm => hb m (by omega))
    have h2 := ih (U := U) (U' := U') (b := b) (b' := b') (i := i + 1) (i' := i' + 1)
      (fun m hm => by have := hU (m + 1) (by omega)
                      rwa [show i + 1 + m = i + (m + 1) by omega,
                        show i' + 1 + m = i' + (m + 1) by omega])
      (fun m hm => by have := hb (m + 1) (by omega)
                      rwa [show i + 1 + m = i + (m + 1) by omega,
                        show i' + 1 + m = i' + (m + 1) by omega])
    have e0 := hU 0 (by omega)
    have e1 := hU 1 (by omega)
    have e2 := hU (q + 1) (by omega)
    have e3 := hU (q + 2) (by omega)
    simp only [add_zero] at e0
    rw [h1, h2, e0, e1, show i + q + 1 = i + (q + 1) by omega, e2,
      show i + q + 2 = i + (q + 2) by omega, e3]
    simp only [add_assoc]

/-- the sum over a span is the diagonal of the polar form -/
theorem sum_Bs_eq_bl (u : K) (p : ℕ) : ∀ (U : ℕ → K) (P : ℕ → V) (a : ℕ),
    ∑ m ∈ range (p + 1), Bs U u (delta (a + p)) p (a + m) • P (a + m) =
      bl U (List.replicate p u) P a := by
  induction p with
  | zero => intro U P a; simp [Bs, delta]
  | succ p ih =>
    intro U P a
    rw [List.replicate_succ, bl_cons, ← ih (shift U), List.length_replicate]
    have hsh : ∀ i, Bs (shift U) u (delta (a + p)) p i = Bs U u (delta (a + (p + 1))) p (i + 1) := by
      intro i; rw [← Bs_shift, ← shift_delta]; rfl
    simp only [hsh]
    simp only [Bs, add_smul, sum_add_distrib, D, smul_add]
    rw [add_comm (∑ x ∈ range (p + 1), _)]
    congr 1
    · rw [sum_range_succ']
      rw [add_zero, Bs_support U u _ p a (by omega)]
      rw [mul_zero, zero_smul, add_zero]
      apply sum_congr rfl
      intro m _
      rw [smul_smul, mul_comm, show a + m + 1 + (p + 1) = a + (m + 1) + p + 1 by omega]
      rfl
    · rw [sum_range_succ, Bs_support U u _ p (a + (p + 1) + 1) (by omega)]
      rw [mul_zero, zero_smul, add_zero]
      apply sum_congr rfl
      intro m _
      rw [smul_smul, mul_comm, show a + m + 1 + (p + 1) = a + m + p + 2 by omega]

end BSpline
