import Verif.Spec.Rounding
import Verif.Theory.Span
import Mathlib.Algebra.Order.Ring.Pow

/-!
# Propagation of rounding errors

`Near R k y x`: the computed number `y` is the exact non-negative number `x` up to a factor between
`(1 - eps) ^ k` and `(1 - eps) ^ -k`. `Err R k y x w`: the computed number `y` differs from the exact
number `x` by at most `((1 - eps) ^ -k - 1) * w`, where `w` bounds `x`.
-/

set_option linter.unusedSectionVars false

namespace BSpline

variable {K : Type} [Field K] [LinearOrder K] [IsStrictOrderedRing K] (R : Rounding K)

namespace Rounding

/-- `1 - eps` -/
def del : K := 1 - R.eps

/-- the growth factor of the relative error per operation -/
def phi : K := (1 - R.eps)⁻¹

theorem del_pos : 0 < R.del := by have := R.eps_lt_one; rw [del]; linarith
theorem del_le_one : R.del ≤ 1 := by have := R.eps_nonneg; rw [del]; linarith
theorem del_pow_pos (k : ℕ) : 0 < R.del ^ k := pow_pos R.del_pos k
theorem del_pow_le_one (k : ℕ) : R.del ^ k ≤ 1 := pow_le_one₀ R.del_pos.le R.del_le_one
theorem phi_eq : R.phi = R.del⁻¹ := rfl
theorem phi_pos : 0 < R.phi := inv_pos.mpr R.del_pos
theorem one_le_phi : 1 ≤ R.phi := (one_le_inv₀ R.del_pos).mpr R.del_le_one
theorem one_le_phi_pow (k : ℕ) : 1 ≤ R.phi ^ k := one_le_pow₀ R.one_le_phi
theorem phi_del : R.phi * R.del = 1 := inv_mul_cancel₀ R.del_pos.ne'
theorem phi_pow_del (k : ℕ) : R.phi ^ k * R.del ^ k = 1 := by rw [← mul_pow, phi_del, one_pow]
theorem one_add_eps_le : 1 + R.eps ≤ R.phi := by
  have h : (1 + R.eps) * R.del ≤ 1 := by
    rw [del]; nlinarith [R.eps_nonneg, mul_nonneg R.eps_nonneg R.eps_nonneg]
  calc 1 + R.eps = (1 + R.eps) * R.del * R.phi := by
        rw [mul_assoc, mul_comm R.del, R.phi_del, mul_one]
    _ ≤ 1 * R.phi := mul_le_mul_of_nonneg_right h R.phi_pos.le
    _ = R.phi := one_mul _
theorem phi_mono {a b : ℕ} (h : a ≤ b) : R.phi ^ a ≤ R.phi ^ b := pow_le_pow_right₀ R.one_le_phi h

/-- the first-order bound on the growth of the relative error -/
theorem phi_pow_sub_one_le {m : ℕ} (h : 2 * (m * R.eps) ≤ 1) : R.phi ^ m - 1 ≤ 2 * (m * R.eps) := by
  have h1 : 1 - m * R.eps ≤ R.del ^ m := by
    have := one_add_mul_le_pow (a := -R.eps) (by linarith [R.eps_lt_one]) m
    rw [del, sub_eq_add_neg 1 R.eps]
    linarith
  have h2 := R.phi_pow_del m
  have h3 : 0 ≤ (m : K) * R.eps := mul_nonneg (Nat.cast_nonneg _) R.eps_nonneg
  have h4 := R.one_le_phi_pow m
  nlinarith

theorem rnd_zero : R.rnd 0 = 0 := by
  have := R.rel 0
  rw [abs_zero, mul_zero, sub_zero] at this
  exact abs_nonpos_iff.mp this

theorem rnd_nonneg {x : K} (h : 0 ≤ x) : 0 ≤ R.rnd x := by
  have := R.mono 0 x h
  rwa [R.rnd_zero] at this

theorem rnd_le {x : K} (h : 0 ≤ x) : R.rnd x * R.del ≤ x := by
  have h1 := (abs_le.mp (R.rel x)).2
  rw [abs_of_nonneg h] at h1
  have h2 := R.eps_nonneg
  have h3 : R.rnd x ≤ (1 + R.eps) * x := by linarith
  have h4 := mul_le_mul_of_nonneg_right h3 R.del_pos.le
  have h5 : (1 + R.eps) * x * R.del = x - R.eps * R.eps * x := by rw [del]; ring
  have h6 : 0 ≤ R.eps * R.eps * x := by positivity
  linarith

theorem le_rnd {x : K} (h : 0 ≤ x) : x * R.del ≤ R.rnd x := by
  have h1 := (abs_le.mp (R.rel x)).1
  rw [abs_of_nonneg h] at h1
  rw [del]; linarith

end Rounding

/-- the computed number `y` approximates `x ≥ 0` up to `k` rounding errors -/
def Near (k : ℕ) (y x : K) : Prop := x * R.del ^ k ≤ y ∧ y * R.del ^ k ≤ x

namespace Near

variable {R} {k l : ℕ} {x y z w : K}

theorem refl (x : K) : Near R 0 x x := by simp [Near]

theorem nonneg (h : Near R k y x) (hx : 0 ≤ x) : 0 ≤ y :=
  (mul_nonneg hx (R.del_pow_pos k).le).trans h.1

theorem pos (h : Near R k y x) (hx : 0 < x) : 0 < y :=
  (mul_pos hx (R.del_pow_pos k)).trans_le h.1

theorem eq_zero (h : Near R k y 0) : y = 0 := by
  have h1 := h.1
  have h2 := h.2
  rw [zero_mul] at h1
  exact le_antisymm (nonpos_of_mul_nonpos_left h2 (R.del_pow_pos k)) h1

theorem mono (h : Near R k y x) (hx : 0 ≤ x) (hkl : k ≤ l) : Near R l y x := by
  have hy := h.nonneg hx
  have hp : R.del ^ l ≤ R.del ^ k := pow_le_pow_of_le_one R.del_pos.le R.del_le_one hkl
  exact ⟨(mul_le_mul_of_nonneg_left hp hx).trans h.1, (mul_le_mul_of_nonneg_left hp hy).trans h.2⟩

theorem rnd (h : Near R k y x) (hx : 0 ≤ x) : Near R (k + 1) (R.rnd y) x := by
  have hy := h.nonneg hx
  have h1 := R.rnd_le hy
  have h2 := R.le_rnd hy
  have hp := (R.del_pow_pos k).le
  constructor
  · calc x * R.del ^ (k + 1) = x * R.del ^ k * R.del := by ring
      _ ≤ y * R.del := mul_le_mul_of_nonneg_right h.1 R.del_pos.le
      _ ≤ _ := h2
  · calc R.rnd y * R.del ^ (k + 1) = R.rnd y * R.del * R.del ^ k := by ring
      _ ≤ y * R.del ^ k := mul_le_mul_of_nonneg_right h1 hp
      _ ≤ _ := h.2

theorem mul (h : Near R k y x) (h' : Near R l z w) (hx : 0 ≤ x) (hw : 0 ≤ w) :
    Near R (k + l) (y * z) (x * w) := by
  have hy := h.nonneg hx
  have hz := h'.nonneg hw
  have p1 := (R.del_pow_pos k).le
  have p2 := (R.del_pow_pos l).le
  constructor
  · calc x * w * R.del ^ (k + l) = (x * R.del ^ k) * (w * R.del ^ l) := by ring
      _ ≤ y * z := mul_le_mul h.1 h'.1 (mul_nonneg hw p2) hy
  · calc y * z * R.del ^ (k + l) = (y * R.del ^ k) * (z * R.del ^ l) := by ring
      _ ≤ x * w := mul_le_mul h.2 h'.2 (mul_nonneg hz p2) hx

theorem inv (h : Near R k y x) (hx : 0 < x) : Near R k y⁻¹ x⁻¹ := by
  have hy := h.pos hx
  constructor
  · rw [inv_mul_eq_div, div_le_iff₀ hx, inv_mul_eq_div, le_div_iff₀ hy, mul_comm]; exact h.2
  · rw [inv_mul_eq_div, div_le_iff₀ hy, inv_mul_eq_div, le_div_iff₀ hx, mul_comm]; exact h.1

theorem div (h : Near R k y x) (h' : Near R l z w) (hx : 0 ≤ x) (hw : 0 < w) :
    Near R (k + l) (y / z) (x / w) := by
  rw [div_eq_mul_inv, div_eq_mul_inv]
  exact h.mul (h'.inv hw) hx (inv_nonneg.mpr hw.le)

theorem add (h : Near R k y x) (h' : Near R k z w) : Near R k (y + z) (x + w) := by
  constructor
  · rw [add_mul]; exact add_le_add h.1 h'.1
  · rw [add_mul]; exact add_le_add h.2 h'.2

end Near

/-- the computed number `y` approximates `x` up to `k` rounding errors relative to `w` -/
def Err (k : ℕ) (y x w : K) : Prop := |x| ≤ w ∧ |y - x| ≤ (R.phi ^ k - 1) * w

namespace Err

variable {R} {k l : ℕ} {x y z w v t : K}

theorem weight_nonneg (h : Err R k y x w) : 0 ≤ w := (abs_nonneg _).trans h.1

theorem refl (x : K) : Err R 0 x x |x| := by simp [Err]

theorem mono (h : Err R k y x w) (hkl : k ≤ l) : Err R l y x w :=
  ⟨h.1, h.2.trans (mul_le_mul_of_nonneg_right (by linarith [R.phi_mono hkl]) h.weight_nonneg)⟩

theorem weight_mono (h : Err R k y x w) (hwv : w ≤ v) : Err R k y x v :=
  ⟨h.1.trans hwv, h.2.trans (mul_le_mul_of_nonneg_left hwv (by linarith [R.one_le_phi_pow k]))⟩

theorem abs_le (h : Err R k y x w) : |y| ≤ R.phi ^ k * w := by
  have := abs_sub_abs_le_abs_sub y x
  have h1 := h.1
  have h2 := h.2
  rw [sub_mul, one_mul] at h2
  linarith

theorem rnd (h : Err R k y x w) : Err R (k + 1) (R.rnd y) x w := by
  refine ⟨h.1, ?_⟩
  have hw := h.weight_nonneg
  have h1 := R.rel y
  have h2 := h.abs_le
  have h3 := h.2
  have h4 : |R.rnd y - x| ≤ |R.rnd y - y| + |y - x| := abs_sub_le _ _ _
  have h5 : R.eps * |y| ≤ R.eps * (R.phi ^ k * w) := mul_le_mul_of_nonneg_left h2 R.eps_nonneg
  have h6 : (1 + R.eps) * (R.phi ^ k * w) ≤ R.phi * (R.phi ^ k * w) :=
    mul_le_mul_of_nonneg_right R.one_add_eps_le (mul_nonneg (pow_nonneg R.phi_pos.le _) hw)
  have e : (R.phi ^ (k + 1) - 1) * w = R.phi * (R.phi ^ k * w) - w := by ring
  rw [e]
  nlinarith

theorem add (h : Err R k y x w) (h' : Err R k z t v) : Err R k (y + z) (x + t) (w + v) := by
  refine ⟨(abs_add_le _ _).trans (add_le_add h.1 h'.1), ?_⟩
  rw [show y + z - (x + t) = (y - x) + (z - t) by ring, mul_add]
  exact (abs_add_le _ _).trans (add_le_add h.2 h'.2)

theorem neg (h : Err R k y x w) : Err R k (-y) (-x) w := by
  refine ⟨by rw [abs_neg]; exact h.1, ?_⟩
  rw [show -y - -x = -(y - x) by ring, abs_neg]
  exact h.2

theorem sub (h : Err R k y x w) (h' : Err R k z t v) : Err R k (y - z) (x - t) (w + v) := by
  rw [sub_eq_add_neg, sub_eq_add_neg]
  exact h.add h'.neg

theorem mul (h : Err R k y x w) (h' : Err R l z t v) : Err R (k + l) (y * z) (x * t) (w * v) := by
  have hw := h.weight_nonneg
  have hv := h'.weight_nonneg
  refine ⟨by rw [abs_mul]; exact mul_le_mul h.1 h'.1 (abs_nonneg _) hw, ?_⟩
  have e : y * z - x * t = (y - x) * z + x * (z - t) := by ring
  rw [e]
  have h1 : |(y - x) * z| ≤ ((R.phi ^ k - 1) * w) * (R.phi ^ l * v) := by
    rw [abs_mul]
    exact mul_le_mul h.2 h'.abs_le (abs_nonneg _) (mul_nonneg (by linarith [R.one_le_phi_pow k]) hw)
  have h2 : |x * (z - t)| ≤ w * ((R.phi ^ l - 1) * v) := by
    rw [abs_mul]
    exact mul_le_mul h.1 h'.2 (abs_nonneg _) hw
  have e' : (R.phi ^ (k + l) - 1) * (w * v) =
      ((R.phi ^ k - 1) * w) * (R.phi ^ l * v) + w * ((R.phi ^ l - 1) * v) := by
    rw [pow_add]; ring
  rw [e']
  exact (abs_add_le _ _).trans (add_le_add h1 h2)

/-- a small relative error of a non-negative number -/
theorem of_near (h : Near R k y x) (hx : 0 ≤ x) : Err R k y x x := by
  refine ⟨(abs_of_nonneg hx).le, ?_⟩
  have hd := R.phi_pow_del k
  have hp := R.one_le_phi_pow k
  have hdp := R.del_pow_pos k
  rw [_root_.abs_le]
  constructor
  · -- `x - y ≤ (φ^k - 1) x`
    have h1 := h.1
    have h2 : 2 ≤ R.phi ^ k + R.del ^ k := by
      nlinarith [sq_nonneg (R.phi ^ k - 1), sq_nonneg (R.del ^ k - 1)]
    nlinarith
  · have h1 : y ≤ R.phi ^ k * x := by
      calc y = R.phi ^ k * (y * R.del ^ k) := by
            rw [mul_left_comm, hd, mul_one]
        _ ≤ _ := mul_le_mul_of_nonneg_left h.2 (by linarith)
    linarith

end Err

end BSpline
