import Verif.Theory.SchoenbergWhitney
import Mathlib.LinearAlgebra.Matrix.NonsingularInverse
import Mathlib.LinearAlgebra.Matrix.ToLinearEquiv

/-!
# The size of a polynomial bounds its polar form

Over the knots `a, …, a, b, …, b` the control points of a polynomial are bounded by its values at
`p + 1` fixed places between `a` and `b`, up to a factor that only depends on the degree.
-/

set_option linter.unusedSectionVars false

namespace BSpline

open Finset

variable {K : Type} [Field K] [LinearOrder K] [IsStrictOrderedRing K]

/-- the knots of a single polynomial on `[a, b]` -/
def bz (p : ℕ) (a b : K) (i : ℕ) : K := if i ≤ p then a else b

theorem shift_bz (p : ℕ) (a b : K) : shift (bz (p + 1) a b) = bz p a b := by
  funext i
  simp [shift, bz]

theorem clamp_bz (p : ℕ) {a b : K} (h : a < b) : Clamp (bz p a b) p p a b where
  mono := by
    intro i j hij
    simp only [bz]
    split_ifs
    · exact le_rfl
    · exact h.le
    · omega
    · exact le_rfl
  left := fun i hi => by rw [bz, if_pos hi]
  right := fun i hi => by rw [bz, if_neg (by omega)]
  inner := fun i h1 h2 => by omega
  lt := h
  le := le_rfl

theorem win_bz (p : ℕ) {a b : K} (h : a < b) : Win (bz p a b) p 0 := by
  intro i hi k hk
  rw [bz, bz, if_pos (by omega), if_neg (by omega)]
  exact h.ne

/-- the polar form grows with the distance of its arguments -/
theorem bl_bz_le {a b L : K} (h : a < b) (ts : List K) :
    (∀ t ∈ ts, |b - t| + |t - a| ≤ L * (b - a)) → ∀ {Q : ℕ → K} {M : K}, (∀ i, i ≤ ts.length → |Q i| ≤ M) →
    |bl (bz ts.length a b) ts Q 0| ≤ L ^ ts.length * M := by
  induction ts with
  | nil => intro _ Q M hQ; simpa using hQ 0 (by simp)
  | cons t ts ih =>
    intro ht Q M hQ
    have h1 := ht t (by simp)
    have hM : 0 ≤ M := (abs_nonneg _).trans (hQ 0 (by simp))
    have hba : 0 < b - a := sub_pos.mpr h
    rw [bl_cons, List.length_cons, shift_bz]
    refine (ih (fun s hs => ht s (by simp [hs])) (M := L * M) ?_).trans (by rw [pow_succ, mul_assoc])
    intro i hi
    simp only [D, bz]
    rw [if_neg (by omega), if_pos (by omega)]
    simp only [smul_eq_mul]
    have q1 := hQ i (by simp; omega)
    have q2 := hQ (i + 1) (by simp; omega)
    calc |(b - t) / (b - a) * Q i + (t - a) / (b - a) * Q (i + 1)|
        ≤ |b - t| / (b - a) * |Q i| + |t - a| / (b - a) * |Q (i + 1)| := by
          refine (abs_add_le _ _).trans (le_of_eq ?_)
          rw [abs_mul, abs_mul, abs_div, abs_div, abs_of_pos hba]
      _ ≤ |b - t| / (b - a) * M + |t - a| / (b - a) * M := by gcongr
      _ = (|b - t| + |t - a|) / (b - a) * M := by ring
      _ ≤ L * M := by
          gcongr
          rw [div_le_iff₀ hba]; exact h1

/-- the places between 0 and 1 -/
def node (p g : ℕ) : K := ((g : K) + 1) / ((p : K) + 2)

theorem node_pos (p g : ℕ) : (0 : K) < node p g := by rw [node]; positivity

theorem node_lt {p g : ℕ} (h : g ≤ p) : (node p g : K) < 1 := by
  rw [node, div_lt_one (by positivity)]
  have : (g : K) ≤ p := by exact_mod_cast h
  linarith

theorem bz_unit_le (p : ℕ) : ∃ κ : K, 0 ≤ κ ∧ ∀ (Q : ℕ → K) (M : K),
    (∀ g, g ≤ p → |bl (bz p (0 : K) 1) (List.replicate p (node p g)) Q 0| ≤ M) → ∀ i, i ≤ p → |Q i| ≤ κ * M := by
  classical
  have hcl := clamp_bz p (zero_lt_one' K)
  let A : Matrix (Fin (p + 1)) (Fin (p + 1)) K := fun g i => Bs (bz p (0 : K) 1) (node p g) (delta p) p i
  have hA : ∀ (Q : ℕ → K) (g : Fin (p + 1)),
      ∑ i : Fin (p + 1), A g i * Q i = bl (bz p (0 : K) 1) (List.replicate p (node p g)) Q 0 := by
    intro Q g
    rw [← sum_Bs_eq_bl, ← Fin.sum_univ_eq_sum_range (fun m => Bs (bz p (0 : K) 1) (node p g) (delta (0 + p)) p (0 + m) • Q (0 + m))]
    simp [A]
  have hdet : A.det ≠ 0 := by
    intro h0
    obtain ⟨v, hv, h1⟩ := Matrix.exists_mulVec_eq_zero_iff.mpr h0
    apply hv
    have key := schoenberg_whitney (c := fun i => if hi : i < p + 1 then v ⟨i, hi⟩ else (0 : K)) hcl (node p) ?_ ?_ ?_ ?_
    · funext i
      have := key i (by omega)
      rwa [dif_pos i.2] at this
    · intro i j hij hj
      rw [node, node]
      have : (i : K) < j := by exact_mod_cast hij
      gcongr
    · intro i hi
      left
      refine ⟨?_, ?_⟩
      · rw [bz, if_pos hi]; exact node_pos p i
      · rw [bz, if_neg (by omega)]; exact node_lt hi
    · intro i hi h1 h2 q hq
      have := hq.1
      rw [bz] at this
      split at this
      · exact absurd this h1.ne
      · exact absurd this h2.ne'
    · intro i hi j hj
      have hjp := hj.p_le hcl
      have := hj.le_n
      obtain rfl : j = p := by omega
      rw [Nat.sub_self]
      have h2 := congrFun h1 ⟨i, by omega⟩
      have h3 := hA (fun i => if hi : i < j + 1 then v ⟨i, hi⟩ else 0) ⟨i, by omega⟩
      rw [← h3]
      refine Eq.trans (sum_congr rfl fun x _ => ?_) h2
      rw [dif_pos x.2]
  refine ⟨∑ i, ∑ g, |A⁻¹ i g|, by positivity, ?_⟩
  intro Q M hM i hi
  have hM0 : 0 ≤ M := (abs_nonneg _).trans (hM 0 (by omega))
  have hinv : A⁻¹ * A = 1 := Matrix.nonsing_inv_mul A (isUnit_iff_ne_zero.mpr hdet)
  have e : Q i = ∑ g, A⁻¹ ⟨i, by omega⟩ g * bl (bz p (0 : K) 1) (List.replicate p (node p g)) Q 0 := by
    have h1 : A⁻¹.mulVec (A.mulVec fun j : Fin (p + 1) => Q j) = fun j : Fin (p + 1) => Q j := by
      rw [Matrix.mulVec_mulVec, hinv, Matrix.one_mulVec]
    have h2 := congrFun h1 ⟨i, by omega⟩
    rw [← h2, Matrix.mulVec, dotProduct]
    refine sum_congr rfl fun g _ => ?_
    rw [← hA Q g]
    rfl
  rw [e]
  calc |∑ g, A⁻¹ ⟨i, by omega⟩ g * bl (bz p (0 : K) 1) (List.replicate p (node p g)) Q 0|
      ≤ ∑ g, |A⁻¹ ⟨i, by omega⟩ g| * M := by
        refine (abs_sum_le_sum_abs _ _).trans (sum_le_sum fun g _ => ?_)
        rw [abs_mul]
        exact mul_le_mul_of_nonneg_left (hM g (by omega)) (abs_nonneg _)
    _ = (∑ g, |A⁻¹ ⟨i, by omega⟩ g|) * M := by rw [sum_mul]
    _ ≤ _ := by
        refine mul_le_mul_of_nonneg_right ?_ hM0
        exact single_le_sum (f := fun i => ∑ g, |A⁻¹ i g|) (fun i _ => sum_nonneg fun g _ => abs_nonneg _) (mem_univ _)

/-- the same on `[a, b]` -/
theorem bz_le (p : ℕ) : ∃ κ : K, 0 ≤ κ ∧ ∀ (a b : K), a < b → ∀ (Q : ℕ → K) (M : K),
    (∀ g, g ≤ p → |bl (bz p a b) (List.replicate p ((b - a) * node p g + a)) Q 0| ≤ M) → ∀ i, i ≤ p → |Q i| ≤ κ * M := by
  obtain ⟨κ, h0, h⟩ := bz_unit_le (K := K) p
  refine ⟨κ, h0, fun a b hab Q M hM => h Q M fun g hg => ?_⟩
  have := hM g hg
  rw [← List.map_replicate (f := fun t => (b - a) * t + a),
    show bz p a b = fun i => (b - a) * bz p (0 : K) 1 i + a by funext i; simp only [bz]; split_ifs <;> ring,
    bl_reparam _ _ (sub_ne_zero.mpr hab.ne')] at this
  exact this

end BSpline
