import Verif.Theory.Span
import Mathlib.Analysis.Calculus.Deriv.Add
import Mathlib.Analysis.Calculus.Deriv.Mul
import Mathlib.Analysis.Calculus.ContDiff.Defs

/-!
# The diagonal of the polar form is differentiable
-/

namespace BSpline

variable {E : Type*} [NormedAddCommGroup E] [NormedSpace ℝ E]

/-- derivative of the diagonal: the polar form of the derivative control points -/
theorem bl_hasDerivAt (p : ℕ) : ∀ {U : ℕ → ℝ} {P : ℕ → E} {a : ℕ} (u : ℝ), Win U p a →
    HasDerivAt (fun u => bl U (List.replicate p u) P a)
      (bl (shift U) (List.replicate (p - 1) u) (Dv U p P) a) u := by
  induction p with
  | zero =>
    intro U P a u _
    have : bl (shift U) (List.replicate (0 - 1) u) (Dv U 0 P) a = 0 := by simp [Dv]
    rw [this]
    simpa using hasDerivAt_const u (P a)
  | succ p ih =>
    intro U P a u hW
    let den : ℕ → ℝ := fun i => U (i + 1 + (p + 1)) - U (i + 1)
    let Q0 : ℕ → E := fun i => (U (i + 1 + (p + 1)) / den i) • P i - (U (i + 1) / den i) • P (i + 1)
    let Q1 : ℕ → E := fun i => (1 / den i) • (P (i + 1) - P i)
    have hD : ∀ v : ℝ, D U (p + 1) v P = fun i => Q0 i + v • Q1 i := by
      intro v; funext i
      simp only [D, Q0, Q1, den]
      module
    have hf : (fun v => bl U (List.replicate (p + 1) v) P a) = fun v =>
        bl (shift U) (List.replicate p v) Q0 a + v • bl (shift U) (List.replicate p v) Q1 a := by
      funext v
      rw [List.replicate_succ, bl_cons, List.length_replicate, hD, bl_add, bl_smul]
    have h0 := ih (P := Q0) u hW.shift
    have h1 := ih (P := Q1) u hW.shift
    have h2 := h0.add ((hasDerivAt_id u).smul h1)
    rw [hf]
    refine HasDerivAt.congr_deriv (f := fun v => bl (shift U) (List.replicate p v) Q0 a +
      v • bl (shift U) (List.replicate p v) Q1 a) h2 ?_
    symm
    simp only [id_eq, one_smul, Nat.add_sub_cancel]
    -- the combined derivative of the inner part
    have hin : bl (shift (shift U)) (List.replicate (p - 1) u) (Dv (shift U) p Q0) a +
        u • bl (shift (shift U)) (List.replicate (p - 1) u) (Dv (shift U) p Q1) a =
        bl (shift (shift U)) (List.replicate (p - 1) u) (Dv (shift U) p (D U (p + 1) u P)) a := by
      rw [hD]
      have : Dv (shift U) p (fun i => Q0 i + u • Q1 i) =
          fun i => Dv (shift U) p Q0 i + u • Dv (shift U) p Q1 i := by
        funext i; simp only [Dv]; module
      rw [this, bl_add, bl_smul]
    have hQ1 : Q1 = fun i => (1 / ((p + 1 : ℕ) : ℝ)) • Dv U (p + 1) P i := by
      funext i
      simp only [Q1, Dv, den, smul_smul]
      congr 1
      have : ((p + 1 : ℕ) : ℝ) ≠ 0 := by positivity
      field_simp
    rw [← add_assoc, hin, hQ1, bl_smul]
    have hpos : ((p + 1 : ℕ) : ℝ) ≠ 0 := by positivity
    rcases p with _ | q
    · simp [Dv]
    · have hcomm : bl (shift (shift U)) (List.replicate (q + 1 - 1) u)
          (Dv (shift U) (q + 1) (D U (q + 1 + 1) u P)) a =
          bl (shift (shift U)) (List.replicate (q + 1 - 1) u)
          (fun i => ((q + 1 : ℕ) / ((q + 1 + 1 : ℕ) : ℝ)) •
            D (shift U) (q + 1) u (Dv U (q + 1 + 1) P) i) a := by
        apply bl_congr_pts
        intro m hm
        simp only [List.length_replicate, Nat.add_sub_cancel] at hm
        have hc := Dv_D_comm U (q + 1) u P (a + m)
          (by have := hW m (by omega) m (by omega)
              rw [show a + m + 1 + (q + 1) + 1 = a + 1 + (q + 1 + 1) + m by omega,
                show a + m + 1 = a + 1 + m by omega]
              exact sub_ne_zero.mpr this.symm)
          (by have := hW (m + 1) (by omega) m (by omega)
              rw [show a + m + 1 + (q + 1) + 1 = a + 1 + (q + 1 + 1) + m by omega,
                show a + m + 1 + 1 = a + 1 + (m + 1) by omega]
              exact sub_ne_zero.mpr this.symm)
          (by have := hW (m + 1) (by omega) (m + 1) (by omega)
              rw [show a + m + 1 + 1 + (q + 1) + 1 = a + 1 + (q + 1 + 1) + (m + 1) by omega,
                show a + m + 1 + 1 = a + 1 + (m + 1) by omega]
              exact sub_ne_zero.mpr this.symm)
        rw [div_eq_inv_mul, mul_smul, ← hc, smul_smul, inv_mul_cancel₀ hpos, one_smul]
      rw [hcomm, bl_smul, Nat.add_sub_cancel, List.replicate_succ, bl_cons, List.length_replicate]
      rw [← add_smul]
      have : ((q + 1 : ℕ) / ((q + 1 + 1 : ℕ) : ℝ)) + 1 / ((q + 1 + 1 : ℕ) : ℝ) = 1 := by
        rw [← add_div, div_eq_one_iff_eq hpos]; push_cast; ring
      rw [this, one_smul]

end BSpline
