import Verif.Theory.Same
import Mathlib.Algebra.Polynomial.Derivative
import Mathlib.Algebra.Polynomial.Roots
import Mathlib.LinearAlgebra.Pi
import Mathlib.Order.Interval.Set.Infinite

/-!
# A polynomial determines its polar form
-/

set_option linter.unusedSectionVars false

namespace BSpline

open Polynomial

variable {K : Type*} [Field K]

theorem bl_insert_arg {V : Type*} [AddCommGroup V] [Module K V] {U : ℕ → K} {R : ℕ → V} {a m : ℕ}
    {us : List K} (t v : K) (hw : Win U (m + 1 + us.length) a) :
    bl U (List.replicate m v ++ t :: us) R a = bl U (t :: (List.replicate m v ++ us)) R a :=
  bl_perm List.perm_middle (by simpa [add_assoc, add_comm, add_left_comm] using hw)

/-- the diagonal of the polar form is a polynomial, and its derivative -/
theorem exists_poly {U : ℕ → K} {R : ℕ → K} {a : ℕ} (m : ℕ) : ∀ (us : List K),
    Win U (m + us.length) a → ∃ q : K[X], (∀ v, bl U (List.replicate m v ++ us) R a = q.eval v) ∧
      ∀ v, q.derivative.eval v = m * (bl U (1 :: (List.replicate (m - 1) v ++ us)) R a -
        bl U (0 :: (List.replicate (m - 1) v ++ us)) R a) := by
  induction m with
  | zero => intro us _; exact ⟨C (bl U us R a), by simp, by simp⟩
  | succ m ih =>
    intro us hw
    obtain ⟨q0, h0, d0⟩ := ih (0 :: us) (by simpa [add_assoc, add_comm, add_left_comm] using hw)
    obtain ⟨q1, h1, d1⟩ := ih (1 :: us) (by simpa [add_assoc, add_comm, add_left_comm] using hw)
    have haff : ∀ v (ts : List K), ts.length + 1 = m + 1 + us.length →
        bl U (v :: ts) R a = (1 - v) * bl U (0 :: ts) R a + v * bl U (1 :: ts) R a := by
      intro v ts hts
      have := bl_affine ts (U := U) (P := R) (a := a) (1 - v) v 0 1 (by ring)
        (by rw [hts]; exact hw)
      simpa using this
    refine ⟨(1 - X) * q0 + X * q1, ?_, ?_⟩
    · intro v
      rw [List.replicate_succ, List.cons_append, haff v _ (by simp; omega),
        ← bl_insert_arg 0 v hw, ← bl_insert_arg 1 v hw, h0, h1]
      simp
    · intro v
      simp only [derivative_add, derivative_mul, derivative_sub, derivative_one, derivative_X,
        eval_add, eval_mul, eval_sub, eval_one, eval_X, eval_zero, d0, d1, ← h0, ← h1]
      rw [bl_insert_arg 0 v hw, bl_insert_arg 1 v hw]
      rcases m with _ | m
      · simp; ring
      · simp only [Nat.add_sub_cancel]
        have hp : ∀ s t, bl U (s :: (List.replicate m v ++ t :: us)) R a =
            bl U (t :: s :: (List.replicate m v ++ us)) R a := by
          intro s t
          apply bl_perm
          · exact (List.perm_middle.cons s).trans (List.Perm.swap _ _ _)
          · simp only [List.length_cons, List.length_append, List.length_replicate]
            rw [show m + (us.length + 1) + 1 = m + 1 + 1 + us.length by omega]; exact hw
        have hq : ∀ s, bl U (s :: (List.replicate (m + 1) v ++ us)) R a =
            (1 - v) * bl U (0 :: s :: (List.replicate m v ++ us)) R a +
            v * bl U (1 :: s :: (List.replicate m v ++ us)) R a := by
          intro s
          rw [← haff v _ (by simp; omega)]
          apply bl_perm
          · rw [List.replicate_succ, List.cons_append]; exact List.Perm.swap _ _ _
          · simp only [List.length_cons, List.length_append, List.length_replicate]
            rw [show m + 1 + us.length + 1 = m + 1 + 1 + us.length by omega]; exact hw
        simp only [hp, hq]
        push_cast
        ring

/-- a polar form whose diagonal vanishes at infinitely many places is zero -/
theorem bl_eq_zero [CharZero K] {U : ℕ → K} {R : ℕ → K} {a : ℕ} (m : ℕ) : ∀ (us : List K),
    Win U (m + us.length) a → (S : Set K) → S.Infinite →
    (∀ v ∈ S, bl U (List.replicate m v ++ us) R a = 0) → ∀ ts : List K, ts.length = m →
      bl U (ts ++ us) R a = 0 := by
  induction m with
  | zero =>
    intro us _ S hS h ts hts
    obtain ⟨v, hv⟩ := hS.nonempty
    rw [List.length_eq_zero_iff.mp hts]
    exact h v hv
  | succ m ih =>
    intro us hw S hS h ts hts
    obtain ⟨q, h1, h2⟩ := exists_poly (U := U) (R := R) (a := a) (m + 1) us hw
    have hq : q = 0 := by
      apply eq_zero_of_infinite_isRoot
      apply hS.mono
      intro v hv
      show q.eval v = 0
      rw [← h1, h v hv]
    subst hq
    match ts, hts with
    | t :: ts, hts =>
      simp only [List.length_cons, Nat.add_right_cancel_iff] at hts
      have key := ih (t :: us) (by simpa [add_assoc, add_comm, add_left_comm] using hw) S hS (by
        intro v hv
        rw [bl_insert_arg t v hw]
        have e1 := h2 v
        simp only [derivative_zero, eval_zero, Nat.add_sub_cancel] at e1
        have e2 : bl U (1 :: (List.replicate m v ++ us)) R a -
            bl U (0 :: (List.replicate m v ++ us)) R a = 0 := by
          rcases mul_eq_zero.mp e1.symm with h | h
          · exact absurd h (Nat.cast_ne_zero.mpr (by omega))
          · exact h
        have e3 := h v hv
        have haff : ∀ t, bl U (t :: (List.replicate m v ++ us)) R a =
            (1 - t) * bl U (0 :: (List.replicate m v ++ us)) R a +
              t * bl U (1 :: (List.replicate m v ++ us)) R a := by
          intro t
          have := bl_affine (List.replicate m v ++ us) (U := U) (P := R) (a := a) (1 - t) t 0 1
            (by ring) (by
              simp only [List.length_append, List.length_replicate]
              rw [show m + us.length + 1 = m + 1 + us.length by omega]; exact hw)
          simpa using this
        rw [List.replicate_succ, List.cons_append, haff v] at e3
        rw [haff t]
        linear_combination e3 + (t - v) * e2) ts hts
      rw [← key]
      refine (bl_perm List.perm_middle ?_).symm
      simp only [List.length_append, List.length_cons, hts]
      rw [show m + (us.length + 1) = m + 1 + us.length by omega]; exact hw

/-- polar forms that agree on the diagonal at infinitely many places are equal -/
theorem bl_eq_of_diag [CharZero K] {d : ℕ} {U : ℕ → K} {P Q : ℕ → (Fin d → K)} {a p : ℕ}
    (hw : Win U p a) {S : Set K} (hS : S.Infinite)
    (h : ∀ v ∈ S, bl U (List.replicate p v) P a = bl U (List.replicate p v) Q a) (ts : List K)
    (hts : ts.length = p) : bl U ts P a = bl U ts Q a := by
  rw [← sub_eq_zero]
  have h1 : ∀ ts, bl U ts P a - bl U ts Q a = bl U ts (fun i => P i - Q i) a := by
    intro ts; rw [bl_sub]
  have h2 : ∀ ts r, bl U ts (fun i => P i - Q i) a r = bl U ts (fun i => (P i - Q i) r) a := by
    intro ts r
    exact (congrFun (bl_map (LinearMap.proj (R := K) r : (Fin d → K) →ₗ[K] K) ts U
      (fun i => P i - Q i)) a).symm
  rw [h1]
  funext r
  rw [h2]
  have := bl_eq_zero (U := U) (R := fun i => (P i - Q i) r) (a := a) p [] (by simpa using hw) S hS
    (by
      intro v hv
      rw [List.append_nil, ← h2, ← h1, h v hv, sub_self]; rfl) ts hts
  simpa using this

end BSpline
