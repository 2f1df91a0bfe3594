import Mathlib.LinearAlgebra.Matrix.Determinant.Basic
import Mathlib.LinearAlgebra.Vandermonde
import Mathlib.Algebra.Order.BigOperators.Ring.Finset
import Mathlib.Algebra.Order.Field.Basic
import Mathlib.Data.Fin.Tuple.Sort
import Mathlib.Tactic.Linarith
import Mathlib.Tactic.Positivity

/-!
# Minors of a product of two rectangular matrices

The formula of Cauchy and Binet, summed over all maps instead of over the increasing ones, and what it says about
products of matrices whose minors are not negative. The minors of the matrix of binomial coefficients are positive.
-/

set_option linter.unusedSectionVars false

namespace BSpline

open Finset Matrix

variable {K : Type} [Field K] [LinearOrder K] [IsStrictOrderedRing K]

/-- the formula of Cauchy and Binet, summed over all choices of `k` columns -/
theorem cauchy_binet {k N : ℕ} (A : Fin k → Fin N → K) (V : Fin N → Fin k → K) :
    (k.factorial : K) * (Matrix.of fun g r => ∑ i, A g i * V i r).det =
      ∑ f : Fin k → Fin N, (Matrix.of fun g r => A g (f r)).det * (Matrix.of fun s r => V (f s) r).det := by
  have h1 : (Matrix.of fun g r => ∑ i, A g i * V i r).det =
      ∑ f : Fin k → Fin N, (Matrix.of fun g r => A g (f r)).det * ∏ r, V (f r) r := by
    simp only [det_apply', Matrix.of_apply, prod_univ_sum, mul_sum, Fintype.piFinset_univ, sum_mul]
    rw [sum_comm]
    refine sum_congr rfl fun f _ => sum_congr rfl fun σ _ => ?_
    rw [prod_mul_distrib, mul_assoc]
  have h2 : ∀ σ : Equiv.Perm (Fin k), (Matrix.of fun g r => ∑ i, A g i * V i r).det =
      ∑ f : Fin k → Fin N, (Matrix.of fun g r => A g (f r)).det *
        (((Equiv.Perm.sign σ : ℤ) : K) * ∏ r, V (f (σ r)) r) := by
    intro σ
    rw [h1, ← Equiv.sum_comp (Equiv.arrowCongr σ.symm (Equiv.refl (Fin N)))]
    refine sum_congr rfl fun f _ => ?_
    have e : (Matrix.of fun g r => A g ((Equiv.arrowCongr σ.symm (Equiv.refl (Fin N))) f r)) =
        (Matrix.of fun g r => A g (f r)).submatrix id σ := by
      ext g r
      simp [Equiv.arrowCongr]
    rw [e, det_permute']
    simp only [Equiv.arrowCongr, Equiv.coe_refl, Equiv.symm_symm, Function.comp, id, Equiv.coe_fn_mk]
    ring
  have h3 := sum_congr (s₁ := (univ : Finset (Equiv.Perm (Fin k)))) rfl (fun σ _ => h2 σ)
  rw [sum_const, card_univ, Fintype.card_perm, Fintype.card_fin, nsmul_eq_mul] at h3
  rw [h3, sum_comm]
  refine sum_congr rfl fun f _ => ?_
  rw [← mul_sum]
  congr 1
  rw [det_apply']
  rfl

/-- both minors change their sign alike when the columns are permuted; so only increasing choices matter -/
theorem minor_pair_sorted {k N : ℕ} (A : Fin k → Fin N → K) (V : Fin N → Fin k → K) (f : Fin k → Fin N)
    (h : (Matrix.of fun g r => A g (f r)).det * (Matrix.of fun s r => V (f s) r).det ≠ 0) :
    ∃ e : Fin k → Fin N, StrictMono e ∧
      (Matrix.of fun g r => A g (f r)).det * (Matrix.of fun s r => V (f s) r).det =
        (Matrix.of fun g r => A g (e r)).det * (Matrix.of fun s r => V (e s) r).det := by
  have hinj : Function.Injective f := by
    intro a b hab
    by_contra hne
    apply h
    rw [det_zero_of_column_eq hne (fun g => by simp [hab]), zero_mul]
  refine ⟨f ∘ Tuple.sort f, (Tuple.monotone_sort f).strictMono_of_injective
    (hinj.comp (Equiv.injective _)), ?_⟩
  have e1 : (Matrix.of fun g r => A g ((f ∘ Tuple.sort f) r)) =
      (Matrix.of fun g r => A g (f r)).submatrix id (Tuple.sort f) := rfl
  have e2 : (Matrix.of fun s r => V ((f ∘ Tuple.sort f) s) r) =
      (Matrix.of fun s r => V (f s) r).submatrix (Tuple.sort f) id := rfl
  rw [e1, e2, det_permute', det_permute]
  have e3 : ((Equiv.Perm.sign (Tuple.sort f) : ℤ) : K) * ((Equiv.Perm.sign (Tuple.sort f) : ℤ) : K) = 1 := by
    rcases Int.units_eq_one_or (Equiv.Perm.sign (Tuple.sort f)) with h | h <;> rw [h] <;> simp
  rw [mul_mul_mul_comm, e3, one_mul]

/-- the determinant of a product vanishes exactly if all products of minors do, when no minor of the one factor is
negative and all minors of the other are positive -/
theorem product_det_ne_zero_iff {k N : ℕ} {A : Fin k → Fin N → K} {V : Fin N → Fin k → K}
    (hA : ∀ e : Fin k → Fin N, StrictMono e → 0 ≤ (Matrix.of fun g r => A g (e r)).det)
    (hV : ∀ e : Fin k → Fin N, StrictMono e → 0 < (Matrix.of fun s r => V (e s) r).det) :
    (Matrix.of fun g r => ∑ i, A g i * V i r).det ≠ 0 ↔
      ∃ e : Fin k → Fin N, StrictMono e ∧ (Matrix.of fun g r => A g (e r)).det ≠ 0 := by
  have hcb := cauchy_binet A V
  have hk : (k.factorial : K) ≠ 0 := by exact_mod_cast k.factorial_ne_zero
  constructor
  · intro h
    by_contra hno
    push Not at hno
    apply h
    have h0 : ∑ f : Fin k → Fin N, (Matrix.of fun g r => A g (f r)).det *
        (Matrix.of fun s r => V (f s) r).det = 0 := by
      refine sum_eq_zero fun f _ => ?_
      by_contra hf
      obtain ⟨e, he, heq⟩ := minor_pair_sorted A V f hf
      rw [heq, hno e he, zero_mul] at hf
      exact hf rfl
    rw [h0] at hcb
    exact (mul_eq_zero.mp hcb).resolve_left hk
  · rintro ⟨e, he, hne⟩ h0
    rw [h0, mul_zero] at hcb
    have hnn : ∀ f ∈ (univ : Finset (Fin k → Fin N)), 0 ≤ (Matrix.of fun g r => A g (f r)).det *
        (Matrix.of fun s r => V (f s) r).det := by
      intro f _
      by_cases hf : (Matrix.of fun g r => A g (f r)).det * (Matrix.of fun s r => V (f s) r).det = 0
      · rw [hf]
      · obtain ⟨e, he, heq⟩ := minor_pair_sorted A V f hf
        rw [heq]
        exact mul_nonneg (hA e he) (hV e he).le
    have := (sum_eq_zero_iff_of_nonneg hnn).mp hcb.symm e (mem_univ e)
    exact (mul_ne_zero hne (hV e he).ne') this

/-- the minors of the matrix of binomial coefficients are positive -/
theorem choose_minor_pos {k : ℕ} {e : Fin k → ℕ} (he : StrictMono e) :
    0 < (Matrix.of fun s r : Fin k => ((e s).choose r : K)).det := by
  have h1 := det_eval_matrixOfPolynomials_eq_det_vandermonde (fun i => ((e i : ℕ) : ℤ))
    (fun i : Fin k => descPochhammer ℤ i) (fun i => descPochhammer_natDegree ℤ i)
    (fun i => monic_descPochhammer ℤ i)
  have h2 : (Matrix.of fun i j : Fin k => (descPochhammer ℤ j).eval ((e i : ℕ) : ℤ)).det =
      (∏ i : Fin k, ((i : ℕ).factorial : ℤ)) * (Matrix.of fun s r : Fin k => ((e s).choose r : ℤ)).det := by
    rw [← det_mul_row (fun i : Fin k => ((i : ℕ).factorial : ℤ))]
    congr 1
    ext i j
    rw [of_apply, of_apply, descPochhammer_eval_eq_descFactorial ℤ, Nat.descFactorial_eq_factorial_mul_choose]
    simp
  rw [h2, det_vandermonde] at h1
  have h3 : (0 : ℤ) < ∏ i : Fin k, ∏ j ∈ Ioi i, (((e j : ℕ) : ℤ) - ((e i : ℕ) : ℤ)) := by
    refine prod_pos fun i _ => prod_pos fun j hj => ?_
    have := he (mem_Ioi.mp hj)
    omega
  rw [h1] at h3
  have h4 : (0 : ℤ) < ∏ i : Fin k, ((i : ℕ).factorial : ℤ) :=
    prod_pos fun i _ => by exact_mod_cast Nat.factorial_pos _
  have h5 := (pos_iff_pos_of_mul_pos h3).mp h4
  have h6 : (Matrix.of fun s r : Fin k => ((e s).choose r : K)).det =
      (((Matrix.of fun s r : Fin k => ((e s).choose r : ℤ)).det : ℤ) : K) := by
    have := (Int.castRingHom K).map_det (Matrix.of fun s r : Fin k => ((e s).choose r : ℤ))
    rw [eq_intCast] at this
    rw [this]
    congr 1
    ext i j
    simp
  rw [h6]
  exact_mod_cast h5

end BSpline
