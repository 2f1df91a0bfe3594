import Verif.Theory.Same
import Verif.Refine.Value
import Mathlib.Algebra.Group.ForwardDiff
import Mathlib.RingTheory.Polynomial.Bernstein
import Mathlib.Algebra.BigOperators.Intervals
import Mathlib.Data.Nat.Choose.Sum
import Mathlib.Tactic.ComputeDegree

/-!
# The polar form over knots without interior ones

Over the knots `0, ..., 0, 1, ..., 1` the polar form is evaluated by de Casteljau's algorithm.
-/

set_option linter.unusedSectionVars false

namespace BSpline

open Finset

section
variable {K : Type*} [Field K] {V : Type*} [AddCommGroup V] [Module K V]

/-- one step of de Casteljau's algorithm -/
def casteljau (t : K) (P : ℕ → V) : ℕ → V := fun i => (1 - t) • P i + t • P (i + 1)

/-- several steps, one for each argument -/
def casteljaus (ts : List K) (P : ℕ → V) : ℕ → V := ts.foldl (fun P t => casteljau t P) P

theorem casteljau_zero (P : ℕ → V) : casteljau (0 : K) P = P := by funext i; simp [casteljau]

theorem casteljau_one (P : ℕ → V) : casteljau (1 : K) P = fun i => P (i + 1) := by
  funext i; simp [casteljau]

theorem casteljaus_append (ts ts' : List K) (P : ℕ → V) :
    casteljaus (ts ++ ts') P = casteljaus ts' (casteljaus ts P) := List.foldl_append

theorem casteljaus_zeros (k : ℕ) (P : ℕ → V) : casteljaus (List.replicate k (0 : K)) P = P := by
  induction k with
  | zero => rfl
  | succ k ih => rw [List.replicate_succ', casteljaus_append, ih]; exact casteljau_zero P

theorem casteljaus_ones (k : ℕ) (P : ℕ → V) :
    casteljaus (List.replicate k (1 : K)) P = fun i => P (i + k) := by
  induction k with
  | zero => rfl
  | succ k ih =>
    rw [List.replicate_succ', casteljaus_append, ih]
    funext i
    rw [show casteljaus [(1 : K)] (fun i => P (i + k)) = casteljau (1 : K) (fun i => P (i + k)) from rfl, casteljau_one]
    exact congrArg P (by omega)

theorem bl_bezier (ts : List K) : ∀ {U : ℕ → K} {P : ℕ → V}, (∀ i, 1 ≤ i → i ≤ ts.length → U i = 0) →
    (∀ i, ts.length < i → i ≤ 2 * ts.length → U i = 1) → bl U ts P 0 = casteljaus ts P 0 := by
  induction ts with
  | nil => intros; rfl
  | cons t ts ih =>
    intro U P h0 h1
    simp only [List.length_cons] at h0 h1
    rw [bl_cons]
    have e : bl (shift U) ts (D U (ts.length + 1) t P) 0 = bl (shift U) ts (casteljau t P) 0 := by
      apply bl_congr_pts
      intro m hm
      rw [Nat.zero_add, D, casteljau, h0 (m + 1) (by omega) (by omega), h1 (m + 1 + (ts.length + 1)) (by omega) (by omega)]
      simp
    rw [e, ih (U := shift U) (fun i hi hi' => h0 (i + 1) (by omega) (by omega)) (fun i hi hi' => h1 (i + 1) (by omega) (by omega))]
    rfl

/-- the closed form of de Casteljau's algorithm -/
theorem casteljaus_replicate (k : ℕ) (u : K) (P : ℕ → V) (i : ℕ) : casteljaus (List.replicate k u) P i =
    ∑ j ∈ range (k + 1), ((k.choose j : K) * u ^ j * (1 - u) ^ (k - j)) • P (i + j) := by
  induction k generalizing P i with
  | zero => simp [casteljaus]
  | succ k ih =>
    rw [List.replicate_succ, show casteljaus (u :: List.replicate k u) P = casteljaus (List.replicate k u) (casteljau u P)
      from rfl, ih]
    simp only [casteljau, smul_add, sum_add_distrib]
    have e1 : ∑ j ∈ range (k + 1), ((k.choose j : K) * u ^ j * (1 - u) ^ (k - j)) • (1 - u) • P (i + j) =
        ∑ j ∈ range (k + 2), ((k.choose j : K) * u ^ j * (1 - u) ^ (k + 1 - j)) • P (i + j) := by
      rw [sum_range_succ _ (k + 1)]
      simp only [Nat.choose_succ_self, Nat.cast_zero, zero_mul, zero_smul, add_zero]
      refine sum_congr rfl fun j hj => ?_
      have hj := mem_range.mp hj
      rw [smul_smul, show k + 1 - j = (k - j) + 1 by omega, pow_succ]
      congr 1; ring
    have e2 : ∑ j ∈ range (k + 1), ((k.choose j : K) * u ^ j * (1 - u) ^ (k - j)) • u • P (i + j + 1) =
        ∑ j ∈ range (k + 1), ((k.choose j : K) * u ^ (j + 1) * (1 - u) ^ (k + 1 - (j + 1))) • P (i + (j + 1)) := by
      refine sum_congr rfl fun j hj => ?_
      rw [smul_smul, show k + 1 - (j + 1) = k - j by omega, pow_succ, show i + (j + 1) = i + j + 1 by omega]
      congr 1; ring
    rw [e1, e2, sum_range_succ' _ (k + 1), sum_range_succ' _ (k + 1), add_right_comm, ← sum_add_distrib]
    congr 1
    · refine sum_congr rfl fun j _ => ?_
      rw [← add_smul, Nat.choose_succ_succ, Nat.cast_add]
      congr 1; ring
    · simp

end

section
open Polynomial

variable {K : Type*} [Field K]

/-- the polynomial with coefficients `a` in the Bernstein basis of degree `p` -/
noncomputable def bernsteinSum (p : ℕ) (a : ℕ → K) : K[X] := ∑ i ∈ range (p + 1), C (a i) * bernsteinPolynomial K p i

theorem bernsteinSum_eval (p : ℕ) (a : ℕ → K) (u : K) :
    (bernsteinSum p a).eval u = ∑ i ∈ range (p + 1), ((p.choose i : K) * u ^ i * (1 - u) ^ (p - i)) * a i := by
  simp only [bernsteinSum, eval_finsetSum, bernsteinPolynomial, eval_mul, eval_C, eval_pow, eval_sub, eval_one, eval_X,
    eval_natCast]
  exact sum_congr rfl fun i _ => mul_comm _ _

theorem bernsteinSum_degree (p : ℕ) (a : ℕ → K) : (bernsteinSum p a).degree < (p + 1 : ℕ) := by
  refine (degree_sum_le _ _).trans_lt ((Finset.sup_lt_iff (WithBot.bot_lt_coe _)).mpr fun i hi => ?_)
  have hi := mem_range.mp hi
  refine lt_of_le_of_lt degree_le_natDegree ?_
  rw [Nat.cast_lt (α := WithBot ℕ)]
  have h1 : ((1 - X : K[X]) ^ (p - i)).natDegree ≤ (p - i) * 1 := natDegree_pow_le_of_le _ (by compute_degree)
  have h2 : ((p.choose i : K[X]) * X ^ i).natDegree ≤ i := by compute_degree
  have h3 : (bernsteinPolynomial K p i).natDegree ≤ i + (p - i) * 1 := natDegree_mul_le_of_le h2 h1
  have h4 := natDegree_C_mul_le (a i) (bernsteinPolynomial K p i)
  omega

theorem bernsteinSum_derivative (p : ℕ) (a : ℕ → K) : derivative (bernsteinSum (p + 1) a) =
    C ((p + 1 : ℕ) : K) * bernsteinSum p (fun i => a (i + 1) - a i) := by
  rw [bernsteinSum, derivative_sum, sum_range_succ']
  simp only [derivative_mul, derivative_C, zero_mul, zero_add, bernsteinPolynomial.derivative_succ,
    bernsteinPolynomial.derivative_zero, Nat.add_sub_cancel]
  have e0 : ∀ b : ℕ → K, ∑ i ∈ range (p + 1), C (b i) * bernsteinPolynomial K p (i + 1) +
      C (b 0) * bernsteinPolynomial K p 0 - C (b 0) * bernsteinPolynomial K p 0 =
      ∑ i ∈ range (p + 1), C (b i) * bernsteinPolynomial K p (i + 1) := fun b => by ring
  have e1 : ∑ i ∈ range (p + 1), C (a (i + 1)) * bernsteinPolynomial K p (i + 1) +
      C (a 0) * bernsteinPolynomial K p 0 = ∑ i ∈ range (p + 1), C (a i) * bernsteinPolynomial K p i := by
    rw [← sum_range_succ' (fun i => C (a i) * bernsteinPolynomial K p i) (p + 1), sum_range_succ]
    rw [show bernsteinPolynomial K p (p + 1) = 0 by simp [bernsteinPolynomial], mul_zero, add_zero]
  have e2 : ∑ i ∈ range (p + 1), C (a (i + 1)) * (((p + 1 : ℕ) : K[X]) * (bernsteinPolynomial K p i -
      bernsteinPolynomial K p (i + 1))) = ((p + 1 : ℕ) : K[X]) * (∑ i ∈ range (p + 1), C (a (i + 1)) * bernsteinPolynomial K p i -
      ∑ i ∈ range (p + 1), C (a (i + 1)) * bernsteinPolynomial K p (i + 1)) := by
    rw [← sum_sub_distrib, mul_sum]
    exact sum_congr rfl fun i _ => by ring
  rw [e2, bernsteinSum]
  simp only [C_sub, sub_mul, sum_sub_distrib, map_natCast]
  rw [← e1]
  ring

theorem bernsteinSum_iterate (p : ℕ) (a : ℕ → K) (k : ℕ) (hk : k ≤ p) : derivative^[k] (bernsteinSum p a) =
    C ((p.descFactorial k : ℕ) : K) * bernsteinSum (p - k) ((fwdDiff 1)^[k] a) := by
  induction k with
  | zero => simp
  | succ k ih =>
    rw [Function.iterate_succ_apply', ih (by omega), derivative_C_mul, show p - k = (p - (k + 1)) + 1 by omega,
      bernsteinSum_derivative, ← mul_assoc, ← C_mul, Nat.descFactorial_succ, show p - (k + 1) + 1 = p - k by omega,
      Function.iterate_succ_apply', Nat.cast_mul, mul_comm ((p - k : ℕ) : K)]
    rfl

end

variable {K : Type} [Field K] [LinearOrder K] [IsStrictOrderedRing K] {d : ℕ}

theorem dpt_bezier {U : ℕ → K} {p : ℕ} (h : Clamp U p p 0 1) (P : ℕ → Pt K d) (k : ℕ) : ∀ i, i + k ≤ p →
    dpt U p P k i = (p.descFactorial k : K) • (fwdDiff 1)^[k] P i := by
  induction k with
  | zero => intro i _; simp [dpt]
  | succ k ih =>
    intro i hi
    rw [dpt, h.right (i + p + 1) (by omega), h.left (i + (k + 1)) (by omega), if_neg (by simp [Cmp.eq]), sub_zero, div_one,
      scale_eq_smul, ih (i + 1) (by omega), ih i (by omega), ← smul_sub, smul_smul, Nat.descFactorial_succ, Nat.cast_mul,
      show p - (k + 1) + 1 = p - k by omega, Function.iterate_succ_apply']
    rfl

theorem span_bezier {U : ℕ → K} {p : ℕ} (h : Clamp U p p 0 1) {u : K} (h0 : 0 ≤ u) (h1 : u ≤ 1) : IsSpan U p u p := by
  obtain ⟨j, hs⟩ := h.exists_span h0 h1
  have := hs.p_le h
  have := hs.le_n
  obtain rfl : j = p := by omega
  exact hs

theorem cv_bezier {U : ℕ → K} {p k : ℕ} (h : Clamp U p p 0 1) (hk : k ≤ p) (P : ℕ → Pt K d) (u : K) :
    cv U p P k p u = ∑ i ∈ range (p - k + 1), ((p.descFactorial k : K) * (((p - k).choose i : K) * u ^ i * (1 - u) ^ (p - k - i))) •
      (fwdDiff 1)^[k] P i := by
  rw [cv, Nat.sub_self, bl_bezier _ (U := shiftN k U) (fun i hi hi' => h.left _ ?_) (fun i hi hi' => h.right _ ?_), casteljaus_replicate]
  · refine sum_congr rfl fun i hi => ?_
    have := mem_range.mp hi
    rw [Nat.zero_add, dpt_bezier h P k i (by omega), smul_smul]
    congr 1; ring
  · simp at hi'; omega
  · simp at hi hi'; omega

end BSpline
