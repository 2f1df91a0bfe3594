import Verif.Theory.Ieee
import Verif.Refine.Float

/-!
# Evaluation in IEEE 754 arithmetic

The law-free descriptions of what the code computes (`Nf`, `dpt`, `evalFold`), read over `Ieee F`.
-/

set_option linter.unusedSectionVars false

namespace BSpline

open Finset

variable {K : Type} [Field K] [LinearOrder K] [IsStrictOrderedRing K] {F : Format K} {d : ℕ}

namespace Format

theorem rnd_zero (F : Format K) : F.rnd 0 = 0 := by
  have := F.neg 0
  rw [neg_zero] at this
  linarith

theorem rnd_nonneg (F : Format K) {x : K} (h : 0 ≤ x) : 0 ≤ F.rnd x := by
  have := F.mono 0 x h
  rwa [F.rnd_zero] at this

theorem abs_rnd_le (F : Format K) {x y : K} (h : |x| ≤ y) (hy : F.rnd y = y) : |F.rnd x| ≤ y := by
  rw [abs_le] at h ⊢
  have h1 := F.mono _ _ h.1
  have h2 := F.mono _ _ h.2
  rw [F.neg, hy] at h1
  rw [hy] at h2
  exact ⟨h1, h2⟩

theorem max_nonneg (F : Format K) : 0 ≤ F.max := zero_le_one.trans F.one_le_max

/-- the growth factor of the relative error per operation -/
def phi (F : Format K) : K := (1 - F.eps)⁻¹

theorem del_pos (F : Format K) : 0 < 1 - F.eps := by have := F.eps_lt_one; linarith
theorem phi_pos (F : Format K) : 0 < F.phi := inv_pos.mpr F.del_pos
theorem one_le_phi (F : Format K) : 1 ≤ F.phi :=
  (one_le_inv₀ F.del_pos).mpr (by have := F.eps_nonneg; linarith)
theorem one_le_phi_pow (F : Format K) (k : ℕ) : 1 ≤ F.phi ^ k := one_le_pow₀ F.one_le_phi
theorem phi_mono (F : Format K) {a b : ℕ} (h : a ≤ b) : F.phi ^ a ≤ F.phi ^ b :=
  pow_le_pow_right₀ F.one_le_phi h
theorem phi_del (F : Format K) : F.phi * (1 - F.eps) = 1 := inv_mul_cancel₀ F.del_pos.ne'
theorem one_add_eps_le (F : Format K) : 1 + F.eps ≤ F.phi := by
  have h : (1 + F.eps) * (1 - F.eps) ≤ 1 := by nlinarith [F.eps_nonneg]
  calc 1 + F.eps = (1 + F.eps) * (1 - F.eps) * F.phi := by
        rw [mul_assoc, mul_comm (1 - F.eps), F.phi_del, mul_one]
    _ ≤ 1 * F.phi := mul_le_mul_of_nonneg_right h F.phi_pos.le
    _ = F.phi := one_mul _

theorem add_err (F : Format K) {x y : K} (hx : F.rnd x = x) (hy : F.rnd y = y) :
    |F.rnd (x + y) - (x + y)| ≤ F.eps * |x + y| := by
  have := F.sub x (-y) hx (by rw [F.neg, hy])
  rwa [sub_neg_eq_add] at this

end Format

/-! ### Operations on finite numbers -/

namespace Ieee

variable {a b : Ieee F} {x y : K}

theorem Is.rep (h : Is a x) : F.rnd x = x := by obtain ⟨_, h, -⟩ := h; exact h.1
theorem Is.le_max (h : Is a x) : |x| ≤ F.max := by obtain ⟨_, h, -⟩ := h; exact h.2

theorem is_mk (s : Bool) (h : |x| ≤ F.max) : Is (mk F s x) (F.rnd x) := by
  have h' := F.abs_rnd_le h F.rnd_max
  exact ⟨_, ⟨F.idem x, h'⟩, by rw [mk, dif_pos h']⟩

theorem is_zero : Is (0 : Ieee F) 0 := by
  have := is_mk (F := F) (x := 0) false (by rw [abs_zero]; exact F.max_nonneg)
  rwa [F.rnd_zero] at this

theorem is_one : Is (1 : Ieee F) 1 := by
  have := is_mk (F := F) (x := 1) false (by rw [abs_one]; exact F.one_le_max)
  rwa [F.one] at this

theorem is_natCast {n : ℕ} (h : (n : K) ≤ F.max) : Is (n : Ieee F) (F.rnd n) :=
  is_mk false (by rwa [abs_of_nonneg (Nat.cast_nonneg n)])

theorem Is.add (ha : Is a x) (hb : Is b y) (h : |x + y| ≤ F.max) : Is (a + b) (F.rnd (x + y)) := by
  obtain ⟨s, h1, rfl⟩ := ha
  obtain ⟨t, h2, rfl⟩ := hb
  exact is_mk _ h

theorem Is.neg (ha : Is a x) : Is (-a) (-x) := by
  have h := ha.rep
  have h' := ha.le_max
  obtain ⟨s, h1, rfl⟩ := ha
  have := is_mk (F := F) (x := -x) (!s) (by rwa [abs_neg])
  rw [F.neg, h] at this
  exact this

theorem Is.sub (ha : Is a x) (hb : Is b y) (h : |x - y| ≤ F.max) : Is (a - b) (F.rnd (x - y)) := by
  rw [sub_eq_add_neg] at h ⊢
  exact ha.add hb.neg h

theorem Is.mul (ha : Is a x) (hb : Is b y) (h : |x * y| ≤ F.max) : Is (a * b) (F.rnd (x * y)) := by
  obtain ⟨s, h1, rfl⟩ := ha
  obtain ⟨t, h2, rfl⟩ := hb
  exact is_mk _ h

theorem Is.div (ha : Is a x) (hb : Is b y) (hy : y ≠ 0) (h : |x / y| ≤ F.max) :
    Is (a / b) (F.rnd (x / y)) := by
  obtain ⟨s, h1, rfl⟩ := ha
  obtain ⟨t, h2, rfl⟩ := hb
  change Is (Ieee.div _ _) _
  rw [Ieee.div]
  dsimp only
  rw [if_neg hy]
  exact is_mk _ h

theorem Is.cmp_le (ha : Is a x) (hb : Is b y) : Cmp.le a b = decide (x ≤ y) := by
  obtain ⟨s, h1, rfl⟩ := ha
  obtain ⟨t, h2, rfl⟩ := hb
  rfl

theorem Is.cmp_eq (ha : Is a x) (hb : Is b y) : Cmp.eq a b = decide (x = y) := by
  obtain ⟨s, h1, rfl⟩ := ha
  obtain ⟨t, h2, rfl⟩ := hb
  rfl

theorem Is.cmp_lt (ha : Is a x) (hb : Is b y) : Cmp.lt a b = decide (x < y) := by
  obtain ⟨s, h1, rfl⟩ := ha
  obtain ⟨t, h2, rfl⟩ := hb
  change (decide (x ≤ y) && !decide (x = y)) = _
  rcases lt_trichotomy x y with h | h | h
  · simp [h, h.le, h.ne]
  · simp [h]
  · simp [h.le, h.not_ge]

theorem Is.unique (h : Is a x) (h' : Is a y) : x = y := by
  obtain ⟨s, h1, rfl⟩ := h
  obtain ⟨t, h2, h3⟩ := h'
  injection h3 with _ h3
  injection h3

end Ieee

open Ieee

/-! ### Propagation of errors -/

/-- the computed number `y` approximates `x` up to `k` relative rounding errors of a number of size `w`
and the absolute error `A` -/
def UErr (F : Format K) (k : ℕ) (A y x w : K) : Prop :=
  |x| ≤ w ∧ 0 ≤ A ∧ |y - x| ≤ (F.phi ^ k - 1) * w + A

namespace UErr

variable {k l : ℕ} {x y z w v t A B : K}

theorem weight_nonneg (h : UErr F k A y x w) : 0 ≤ w := (abs_nonneg _).trans h.1

theorem refl (x : K) : UErr F 0 0 x x |x| := by simp [UErr]

theorem mono (h : UErr F k A y x w) (hkl : k ≤ l) (hAB : A ≤ B) (hwv : w ≤ v) : UErr F l B y x v := by
  refine ⟨h.1.trans hwv, h.2.1.trans hAB, h.2.2.trans (add_le_add ?_ hAB)⟩
  exact mul_le_mul (by linarith [F.phi_mono hkl]) hwv h.weight_nonneg (by linarith [F.one_le_phi_pow l])

theorem abs_le (h : UErr F k A y x w) : |y| ≤ F.phi ^ k * w + A := by
  have := abs_sub_abs_le_abs_sub y x
  have h1 := h.1
  have h2 := h.2.2
  rw [sub_mul, one_mul] at h2
  linarith

/-- a rounding error without underflow -/
theorem rnd_of {y' : K} (h : UErr F k A y x w) (hr : |y' - y| ≤ F.eps * |y|) :
    UErr F (k + 1) (F.phi * A) y' x w := by
  have hw := h.weight_nonneg
  refine ⟨h.1, mul_nonneg F.phi_pos.le h.2.1, ?_⟩
  have h2 := h.abs_le
  have h3 := h.2.2
  have h4 : |y' - x| ≤ |y' - y| + |y - x| := abs_sub_le _ _ _
  have h5 : F.eps * |y| ≤ F.eps * (F.phi ^ k * w + A) := mul_le_mul_of_nonneg_left h2 F.eps_nonneg
  have h6 : (1 + F.eps) * (F.phi ^ k * w + A) ≤ F.phi * (F.phi ^ k * w + A) :=
    mul_le_mul_of_nonneg_right F.one_add_eps_le
      (add_nonneg (mul_nonneg (pow_nonneg F.phi_pos.le _) hw) h.2.1)
  have e : (F.phi ^ (k + 1) - 1) * w = F.phi * (F.phi ^ k * w) - w := by ring
  rw [e]
  nlinarith

theorem rnd (h : UErr F k A y x w) : UErr F (k + 1) (F.phi * A + F.eta) (F.rnd y) x w := by
  have hw := h.weight_nonneg
  refine ⟨h.1, add_nonneg (mul_nonneg F.phi_pos.le h.2.1) F.eta_nonneg, ?_⟩
  have h1 := F.err y
  have h2 := h.abs_le
  have h3 := h.2.2
  have h4 : |F.rnd y - x| ≤ |F.rnd y - y| + |y - x| := abs_sub_le _ _ _
  have h5 : F.eps * |y| ≤ F.eps * (F.phi ^ k * w + A) := mul_le_mul_of_nonneg_left h2 F.eps_nonneg
  have h6 : (1 + F.eps) * (F.phi ^ k * w + A) ≤ F.phi * (F.phi ^ k * w + A) :=
    mul_le_mul_of_nonneg_right F.one_add_eps_le
      (add_nonneg (mul_nonneg (pow_nonneg F.phi_pos.le _) hw) h.2.1)
  have e : (F.phi ^ (k + 1) - 1) * w = F.phi * (F.phi ^ k * w) - w := by ring
  rw [e]
  nlinarith

theorem add (h : UErr F k A y x w) (h' : UErr F k B z t v) :
    UErr F k (A + B) (y + z) (x + t) (w + v) := by
  refine ⟨(abs_add_le _ _).trans (add_le_add h.1 h'.1), add_nonneg h.2.1 h'.2.1, ?_⟩
  rw [show y + z - (x + t) = (y - x) + (z - t) by ring, mul_add]
  have := (abs_add_le (y - x) (z - t)).trans (add_le_add h.2.2 h'.2.2)
  linarith

theorem neg (h : UErr F k A y x w) : UErr F k A (-y) (-x) w := by
  refine ⟨by rw [abs_neg]; exact h.1, h.2.1, ?_⟩
  rw [show -y - -x = -(y - x) by ring, abs_neg]
  exact h.2.2

theorem sub (h : UErr F k A y x w) (h' : UErr F k B z t v) :
    UErr F k (A + B) (y - z) (x - t) (w + v) := by
  rw [sub_eq_add_neg, sub_eq_add_neg]
  exact h.add h'.neg

theorem mul (h : UErr F k A y x w) (h' : UErr F l B z t v) :
    UErr F (k + l) (A * (F.phi ^ l * v) + F.phi ^ k * w * B + A * B) (y * z) (x * t) (w * v) := by
  have hw := h.weight_nonneg
  have hv := h'.weight_nonneg
  have hA := h.2.1
  have hB := h'.2.1
  have pk := F.one_le_phi_pow k
  have pl := F.one_le_phi_pow l
  refine ⟨by rw [abs_mul]; exact mul_le_mul h.1 h'.1 (abs_nonneg _) hw, by positivity, ?_⟩
  have e : y * z - x * t = (y - x) * z + x * (z - t) := by ring
  rw [e]
  have h0 : 0 ≤ (F.phi ^ k - 1) * w + A := add_nonneg (mul_nonneg (by linarith) hw) hA
  have h1 : |(y - x) * z| ≤ ((F.phi ^ k - 1) * w + A) * (F.phi ^ l * v + B) := by
    rw [abs_mul]
    exact mul_le_mul h.2.2 h'.abs_le (abs_nonneg _) h0
  have h2 : |x * (z - t)| ≤ w * ((F.phi ^ l - 1) * v + B) := by
    rw [abs_mul]
    exact mul_le_mul h.1 h'.2.2 (abs_nonneg _) hw
  have e' : (F.phi ^ (k + l) - 1) * (w * v) + (A * (F.phi ^ l * v) + F.phi ^ k * w * B + A * B) =
      ((F.phi ^ k - 1) * w + A) * (F.phi ^ l * v + B) + w * ((F.phi ^ l - 1) * v + B) := by
    rw [pow_add]; ring
  rw [e']
  exact (abs_add_le _ _).trans (add_le_add h1 h2)

end UErr

/-- the quotient of two computed differences -/
theorem UErr.quotient {a b c e : K} (ha : F.rnd a = a) (hb : F.rnd b = b) (hc : F.rnd c = c) (he : F.rnd e = e)
    (hpos : 0 < c - e) (hn : 0 ≤ a - b) :
    UErr F 3 F.eta (F.rnd (F.rnd (a - b) / F.rnd (c - e))) ((a - b) / (c - e)) ((a - b) / (c - e)) := by
  have h1 := F.sub a b ha hb
  have h2 := F.sub c e hc he
  rw [abs_of_nonneg hn] at h1
  rw [abs_of_pos hpos] at h2
  have hd := F.del_pos
  have hp := F.phi_del
  have hphi := F.phi_pos
  have heps := F.eps_nonneg
  have hone := F.one_add_eps_le
  generalize F.rnd (a - b) = s at *
  generalize F.rnd (c - e) = t at *
  generalize a - b = S at *
  generalize c - e = T at *
  have ht1 : T * (1 - F.eps) ≤ t := by have := (_root_.abs_le.mp h2).1; linarith
  have ht2 : t ≤ T * (1 + F.eps) := by have := (_root_.abs_le.mp h2).2; linarith
  have hs1 : S * (1 - F.eps) ≤ s := by have := (_root_.abs_le.mp h1).1; linarith
  have hs2 : s ≤ S * (1 + F.eps) := by have := (_root_.abs_le.mp h1).2; linarith
  have htp : 0 < t := lt_of_lt_of_le (mul_pos hpos hd) ht1
  have hs0 : 0 ≤ s := (mul_nonneg hn hd.le).trans hs1
  have hq0 : 0 ≤ S / T := div_nonneg hn hpos.le
  -- upper bound
  have hup : s / t ≤ F.phi ^ 2 * (S / T) := by
    rw [div_le_iff₀ htp]
    have e1 : F.phi ^ 2 * (S / T) * (T * (1 - F.eps)) = F.phi * S := by
      have : F.phi ^ 2 * (S / T) * (T * (1 - F.eps)) = F.phi * (F.phi * (1 - F.eps)) * (S / T * T) := by ring
      rw [this, hp, div_mul_cancel₀ _ hpos.ne', mul_one]
    calc s ≤ S * (1 + F.eps) := hs2
      _ ≤ S * F.phi := mul_le_mul_of_nonneg_left hone hn
      _ = F.phi ^ 2 * (S / T) * (T * (1 - F.eps)) := by rw [e1]; ring
      _ ≤ _ := mul_le_mul_of_nonneg_left ht1 (by positivity)
  have hlow : S / T ≤ F.phi ^ 2 * (s / t) := by
    rw [← mul_div_assoc, div_le_div_iff₀ hpos htp]
    calc S * t ≤ S * (T * (1 + F.eps)) := mul_le_mul_of_nonneg_left ht2 hn
      _ ≤ S * (T * F.phi) := mul_le_mul_of_nonneg_left (mul_le_mul_of_nonneg_left hone hpos.le) hn
      _ = F.phi ^ 2 * (S * (1 - F.eps)) * T := by
          have : F.phi ^ 2 * (S * (1 - F.eps)) * T = F.phi * (F.phi * (1 - F.eps)) * S * T := by ring
          rw [this, hp]; ring
      _ ≤ F.phi ^ 2 * s * T := by
          exact mul_le_mul_of_nonneg_right (mul_le_mul_of_nonneg_left hs1 (by positivity)) hpos.le
  have h : UErr F 2 0 (s / t) (S / T) (S / T) := by
    refine ⟨(abs_of_nonneg hq0).le, le_rfl, ?_⟩
    rw [add_zero, _root_.abs_le]
    have hp2 := F.one_le_phi_pow 2
    have hst : 0 ≤ s / t := div_nonneg hs0 htp.le
    constructor
    · -- `x - y ≤ x - x / φ² ≤ (φ² - 1) x`
      nlinarith [sq_nonneg (F.phi ^ 2 - 1), mul_nonneg hq0 (sq_nonneg (F.phi ^ 2 - 1))]
    · linarith
  have := h.rnd
  rw [mul_zero, zero_add] at this
  exact this

/-- The format has room for curves of degree `p`. -/
structure Room (F : Format K) (p : ℕ) : Prop where
  phi : F.phi ^ (6 * p + 8) ≤ 5 / 4
  eta : (p + 1) * 3 ^ (p + 2) * F.eta ≤ 1 / 4
  max : 8 ≤ F.max
  nat : ∀ m : ℕ, m ≤ p → F.rnd m = m

/-- the absolute error of basis functions of degree `q` -/
def under (F : Format K) (q : ℕ) : K := (3 ^ q - 1) * (5 / 2 * F.eta)

theorem under_nonneg (q : ℕ) : 0 ≤ under F q := by
  have : (1 : K) ≤ 3 ^ q := one_le_pow₀ (by norm_num)
  have h := F.eta_nonneg
  rw [under]
  exact mul_nonneg (by linarith) (by linarith)

theorem under_succ (q : ℕ) : under F (q + 1) = 3 * under F q + 5 * F.eta := by
  rw [under, under, pow_succ]; ring

theorem under_mono {q p : ℕ} (h : q ≤ p) : under F q ≤ under F p := by
  have h1 : (3 : K) ^ q ≤ 3 ^ p := pow_le_pow_right₀ (by norm_num) h
  have h2 := F.eta_nonneg
  rw [under, under]
  exact mul_le_mul_of_nonneg_right (by linarith) (by linarith)

theorem under_le (q : ℕ) : under F q ≤ 3 ^ (q + 1) * F.eta := by
  have h2 := F.eta_nonneg
  have h1 : (0 : K) < 3 ^ q := by positivity
  rw [under, pow_succ]
  nlinarith [mul_nonneg h1.le h2]

namespace Room

variable {p q : ℕ}

theorem pow_le (h : Room F p) {k : ℕ} (hk : k ≤ 6 * p + 8) : F.phi ^ k ≤ 5 / 4 := (F.phi_mono hk).trans h.phi

theorem mono (h : Room F p) (hq : q ≤ p) : Room F q := by
  refine ⟨h.pow_le (by omega), le_trans ?_ h.eta, h.max, fun m hm => h.nat m (hm.trans hq)⟩
  have h1 : (q : K) + 1 ≤ p + 1 := by
    have : (q : K) ≤ p := by exact_mod_cast hq
    linarith
  have h2 : (3 : K) ^ (q + 2) ≤ 3 ^ (p + 2) := pow_le_pow_right₀ (by norm_num) (by omega)
  exact mul_le_mul_of_nonneg_right (mul_le_mul h1 h2 (by positivity) (by positivity)) F.eta_nonneg

theorem mul_under_le (h : Room F p) : (p + 1) * (3 * under F p) ≤ 1 / 4 := by
  have h1 := under_le (F := F) p
  have h2 := h.eta
  have h3 : (0 : K) ≤ p + 1 := by positivity
  calc ((p : K) + 1) * (3 * under F p) ≤ (p + 1) * (3 * (3 ^ (p + 1) * F.eta)) :=
        mul_le_mul_of_nonneg_left (by linarith) h3
    _ = (p + 1) * 3 ^ (p + 2) * F.eta := by ring
    _ ≤ _ := h2

theorem under_small (h : Room F p) (hq : q ≤ p) : under F q ≤ 1 / 12 := by
  have h1 := h.mul_under_le
  have h2 := under_nonneg (F := F) p
  have h3 : (0 : K) ≤ p := Nat.cast_nonneg _
  have := under_mono (F := F) hq
  nlinarith [mul_nonneg h3 h2]

theorem mul_eta_le (h : Room F p) : ((p : K) + 1) * (9 * F.eta) ≤ 1 / 4 := by
  have h1 := h.eta
  have h2 : (9 : K) ≤ 3 ^ (p + 2) := by
    calc (9 : K) = 3 ^ 2 := by norm_num
      _ ≤ 3 ^ (p + 2) := pow_le_pow_right₀ (by norm_num) (by omega)
  have h3 := mul_le_mul_of_nonneg_right h2 F.eta_nonneg
  have h4 := mul_le_mul_of_nonneg_left h3 (show (0 : K) ≤ p + 1 by positivity)
  rw [← mul_assoc ((p : K) + 1) (3 ^ (p + 2))] at h4
  linarith

theorem eta_small (h : Room F p) : F.eta ≤ 1 / 36 := by
  have h1 := h.mul_eta_le
  have h2 := F.eta_nonneg
  have h3 : (0 : K) ≤ p := Nat.cast_nonneg _
  nlinarith [mul_nonneg h3 h2]

end Room

/-- one summand of the recursion -/
theorem Nf_summand {p q : ℕ} (hroom : Room F p) (hq : q < p) {a b s t Y : Ieee F} {a' b' s' t' y N h : K}
    (ha : Is a a') (hb : Is b b') (hs : Is s s') (ht : Is t t') (hY : Is Y y) (hab : |a' - b'| ≤ 1)
    (hst1 : |s' - t'| ≤ 1) (hh : 0 < h) (hst : s' ≠ t' → h ≤ s' - t') (hmax : F.phi / h ≤ F.max)
    (hN0 : 0 ≤ N) (hN1 : N ≤ 1) (hy0 : 0 ≤ y) (hNy : N = 0 → y = 0)
    (hNs : N ≠ 0 → b' ≤ a' ∧ a' - b' ≤ s' - t')
    (herr : UErr F (5 * q) (under F q) y N N) :
    ∃ z, Is (if Cmp.eq s t = true then (0 : Ieee F) else (a - b) / (s - t) * Y) z ∧ 0 ≤ z ∧
      0 ≤ (if Cmp.eq s' t' = true then 0 else (a' - b') / (s' - t') * N) ∧
      (if Cmp.eq s' t' = true then 0 else (a' - b') / (s' - t') * N) ≤ N ∧
      ((if Cmp.eq s' t' = true then 0 else (a' - b') / (s' - t') * N) = 0 → z = 0) ∧
      UErr F (5 * q + 4) (F.phi * (F.eta * F.phi ^ (5 * q) + F.phi ^ 3 * under F q + F.eta * under F q) + F.eta) z
        (if Cmp.eq s' t' = true then 0 else (a' - b') / (s' - t') * N)
        (if Cmp.eq s' t' = true then 0 else (a' - b') / (s' - t') * N) := by
  have hA := under_nonneg (F := F) q
  have hA' := hroom.under_small hq.le
  have heta := F.eta_nonneg
  have heta' := hroom.eta_small
  have hphi := F.phi_pos
  have hB : 0 ≤ F.phi * (F.eta * F.phi ^ (5 * q) + F.phi ^ 3 * under F q + F.eta * under F q) + F.eta := by
    positivity
  have zero_case : UErr F (5 * q + 4)
      (F.phi * (F.eta * F.phi ^ (5 * q) + F.phi ^ 3 * under F q + F.eta * under F q) + F.eta) 0 0 0 :=
    ⟨by simp, hB, by simpa using hB⟩
  rw [hs.cmp_eq ht]
  simp only [Cmp.eq, decide_eq_true_eq]
  by_cases hc : s' = t'
  · rw [if_pos hc, if_pos hc]
    exact ⟨0, is_zero, le_rfl, le_rfl, hN0, fun _ => rfl, zero_case⟩
  rw [if_neg hc, if_neg hc]
  have hgap := hst hc
  have hpos : 0 < s' - t' := hh.trans_le hgap
  -- the quotient
  have e1 := ha.sub hb (hab.trans F.one_le_max)
  have e2 := hs.sub ht (hst1.trans F.one_le_max)
  have hsd := F.sub s' t' hs.rep ht.rep
  rw [abs_of_pos hpos] at hsd
  have hden : (s' - t') * (1 - F.eps) ≤ F.rnd (s' - t') := by have := (abs_le.mp hsd).1; linarith
  have hden0 : 0 < F.rnd (s' - t') := (mul_pos hpos F.del_pos).trans_le hden
  have hnum := F.abs_rnd_le hab F.one
  have hquot : |F.rnd (a' - b') / F.rnd (s' - t')| ≤ F.max := by
    refine le_trans ?_ hmax
    rw [abs_div, abs_of_pos hden0, div_le_div_iff₀ hden0 hh]
    have h1 : h * (1 - F.eps) ≤ F.rnd (s' - t') :=
      (mul_le_mul_of_nonneg_right hgap F.del_pos.le).trans hden
    calc |F.rnd (a' - b')| * h ≤ 1 * h := mul_le_mul_of_nonneg_right hnum hh.le
      _ = F.phi * (h * (1 - F.eps)) := by
          rw [mul_left_comm, F.phi_del]; ring
      _ ≤ F.phi * F.rnd (s' - t') := mul_le_mul_of_nonneg_left h1 hphi.le
  have e3 := e1.div e2 hden0.ne' hquot
  by_cases hN : N = 0
  · -- the lower function vanishes
    have hy := hNy hN
    rw [hy] at hY
    have e4 := e3.mul hY (by rw [mul_zero, abs_zero]; exact F.max_nonneg)
    rw [mul_zero, F.rnd_zero] at e4
    rw [hN, mul_zero]
    exact ⟨0, e4, le_rfl, le_rfl, le_rfl, fun _ => rfl, zero_case⟩
  obtain ⟨hba, hle⟩ := hNs hN
  have hn : 0 ≤ a' - b' := sub_nonneg.mpr hba
  have hq0 : 0 ≤ (a' - b') / (s' - t') := div_nonneg hn hpos.le
  have hq1 : (a' - b') / (s' - t') ≤ 1 := (div_le_one hpos).mpr hle
  have hquo := UErr.quotient ha.rep hb.rep hs.rep ht.rep hpos hn
  have hmul := hquo.mul herr
  have hqN : (a' - b') / (s' - t') * N ≤ 1 := by nlinarith
  have hAA : F.eta * (F.phi ^ (5 * q) * N) + F.phi ^ 3 * ((a' - b') / (s' - t')) * under F q +
      F.eta * under F q ≤ F.eta * F.phi ^ (5 * q) + F.phi ^ 3 * under F q + F.eta * under F q := by
    have p1 : F.phi ^ (5 * q) * N ≤ F.phi ^ (5 * q) * 1 := mul_le_mul_of_nonneg_left hN1 (by positivity)
    have p2 := mul_le_mul_of_nonneg_left p1 heta
    have p3 : F.phi ^ 3 * ((a' - b') / (s' - t')) ≤ F.phi ^ 3 * 1 := mul_le_mul_of_nonneg_left hq1 (by positivity)
    have p4 := mul_le_mul_of_nonneg_right p3 hA
    linarith
  have hmul' := hmul.mono (le_of_eq (show 3 + 5 * q = 5 * q + 3 by omega)) hAA le_rfl
  have hbound : |F.rnd (F.rnd (a' - b') / F.rnd (s' - t')) * y| ≤ F.max := by
    refine hmul'.abs_le.trans (le_trans ?_ hroom.max)
    have p1 := hroom.pow_le (k := 5 * q + 3) (by omega)
    have p2 := hroom.pow_le (k := 5 * q) (by omega)
    have p3 := hroom.pow_le (k := 3) (by omega)
    have p4 : F.phi ^ (5 * q + 3) * ((a' - b') / (s' - t') * N) ≤ 5 / 4 * 1 :=
      mul_le_mul p1 hqN (mul_nonneg hq0 hN0) (by norm_num)
    have p5 : F.eta * F.phi ^ (5 * q) ≤ 1 / 36 * (5 / 4) := mul_le_mul heta' p2 (by positivity) (by norm_num)
    have p6 : F.phi ^ 3 * under F q ≤ 5 / 4 * (1 / 12) := mul_le_mul p3 hA' hA (by norm_num)
    have p7 : F.eta * under F q ≤ 1 / 36 * (1 / 12) := mul_le_mul heta' hA' hA (by norm_num)
    linarith
  have e4 := e3.mul hY hbound
  have hz0 : 0 ≤ F.rnd (F.rnd (F.rnd (a' - b') / F.rnd (s' - t')) * y) :=
    F.rnd_nonneg (mul_nonneg (F.rnd_nonneg (div_nonneg (F.rnd_nonneg hn) hden0.le)) hy0)
  refine ⟨_, e4, hz0, mul_nonneg hq0 hN0, by nlinarith, ?_, ?_⟩
  · intro h0
    rcases mul_eq_zero.mp h0 with h1 | h1
    · rw [div_eq_zero_iff] at h1
      rcases h1 with h1 | h1
      · rw [h1, F.rnd_zero, zero_div, F.rnd_zero, zero_mul, F.rnd_zero]
      · exact absurd h1 hpos.ne'
    · exact absurd h1 hN
  · have := hmul'.rnd
    exact this

/-- the sum of the two summands -/
theorem Nf_sum {p q : ℕ} (hroom : Room F p) (hq : q + 1 ≤ p) {Z1 Z2 : Ieee F} {z1 z2 E1 E2 : K} (j1 : Is Z1 z1)
    (j2 : Is Z2 z2) (z10 : 0 ≤ z1) (z20 : 0 ≤ z2) (m10 : 0 ≤ E1) (m20 : 0 ≤ E2) (hw : E1 + E2 ≤ 1)
    (m1z : E1 = 0 → z1 = 0) (m2z : E2 = 0 → z2 = 0)
    (fr1 : UErr F (5 * q + 4)
      (F.phi * (F.eta * F.phi ^ (5 * q) + F.phi ^ 3 * under F q + F.eta * under F q) + F.eta) z1 E1 E1)
    (fr2 : UErr F (5 * q + 4)
      (F.phi * (F.eta * F.phi ^ (5 * q) + F.phi ^ 3 * under F q + F.eta * under F q) + F.eta) z2 E2 E2) :
    ∃ y, Is (Z1 + Z2) y ∧ 0 ≤ y ∧ 0 ≤ E1 + E2 ∧ (E1 + E2 = 0 → y = 0) ∧
      UErr F (5 * (q + 1)) (under F (q + 1)) y (E1 + E2) (E1 + E2) := by
  have hA := under_nonneg (F := F) q
  have hA' := hroom.under_small (show q ≤ p by omega)
  have heta := F.eta_nonneg
  have heta' := hroom.eta_small
  have hphi := F.phi_pos
  have hsum := fr1.add fr2
  have habserr : F.phi * ((F.phi * (F.eta * F.phi ^ (5 * q) + F.phi ^ 3 * under F q + F.eta * under F q) + F.eta) +
      (F.phi * (F.eta * F.phi ^ (5 * q) + F.phi ^ 3 * under F q + F.eta * under F q) + F.eta)) ≤
      under F (q + 1) := by
    rw [under_succ]
    have p1 := hroom.pow_le (k := 5 * q + 2) (by omega)
    have p2 := hroom.pow_le (k := 5) (by omega)
    have p3 := hroom.pow_le (k := 2) (by omega)
    have p4 := hroom.pow_le (k := 1) (by omega)
    rw [pow_one] at p4
    have q1 := mul_le_mul_of_nonneg_right p1 heta
    have q2 := mul_le_mul_of_nonneg_right p2 hA
    have q3 : F.phi ^ 2 * (F.eta * under F q) ≤ 5 / 4 * (1 / 36 * under F q) :=
      mul_le_mul p3 (mul_le_mul_of_nonneg_right heta' hA) (mul_nonneg heta hA) (by norm_num)
    have q4 := mul_le_mul_of_nonneg_right p4 heta
    have e : F.phi * ((F.phi * (F.eta * F.phi ^ (5 * q) + F.phi ^ 3 * under F q + F.eta * under F q) + F.eta) +
        (F.phi * (F.eta * F.phi ^ (5 * q) + F.phi ^ 3 * under F q + F.eta * under F q) + F.eta)) =
        2 * (F.phi ^ (5 * q + 2) * F.eta) + 2 * (F.phi ^ 5 * under F q) + 2 * (F.phi ^ 2 * (F.eta * under F q)) +
          2 * (F.phi * F.eta) := by
      rw [pow_add]; ring
    rw [e]
    linarith
  have hw0 := add_nonneg m10 m20
  have hbound : |z1 + z2| ≤ F.max := by
    refine hsum.abs_le.trans (le_trans ?_ hroom.max)
    have p1 := hroom.pow_le (k := 5 * q + 4) (by omega)
    have p2 : F.phi ^ (5 * q + 4) * (E1 + E2) ≤ 5 / 4 * 1 := mul_le_mul p1 hw hw0 (by norm_num)
    have p3 := hroom.under_small hq
    have p6 := mul_le_mul_of_nonneg_right F.one_le_phi hsum.2.1
    rw [one_mul] at p6
    linarith
  refine ⟨_, j1.add j2 hbound, F.rnd_nonneg (add_nonneg z10 z20), hw0, ?_, ?_⟩
  · intro h0
    have h1 : E1 = 0 := by linarith
    have h2 : E2 = 0 := by linarith
    rw [m1z h1, m2z h2, add_zero, F.rnd_zero]
  · have := hsum.rnd_of (F.add_err j1.rep j2.rep)
    exact this.mono (by omega) habserr le_rfl

/-- the computed basis functions -/
theorem Nf_ieee {U : ℕ → Ieee F} {V : ℕ → K} (hU : ∀ i, Is (U i) (V i)) (hm : Monotone V)
    (h01 : ∀ i, 0 ≤ V i ∧ V i ≤ 1) {u : Ieee F} {x : K} (hu : Is u x) (hx0 : 0 ≤ x) (hx1 : x ≤ 1) {h : K}
    (hh : 0 < h) (hgap : ∀ i j, V i < V j → h ≤ V j - V i) (hmax : F.phi / h ≤ F.max) {p : ℕ} (hroom : Room F p)
    {k n : ℕ} (hk : k ≤ n) (hN : ∀ q, q ≤ p → ∀ i, Nf V k n x q i ≤ 1) (q : ℕ) (hq : q ≤ p) : ∀ i,
    ∃ y, Is (Nf U k n u q i) y ∧ 0 ≤ y ∧ 0 ≤ Nf V k n x q i ∧ (Nf V k n x q i = 0 → y = 0) ∧
      UErr F (5 * q) (under F q) y (Nf V k n x q i) (Nf V k n x q i) := by
  induction q with
  | zero =>
    intro i
    have hund : under F 0 = 0 := by rw [under, pow_zero, sub_self, zero_mul]
    rw [hund]
    simp only [Nf, (hU _).cmp_le hu, hu.cmp_lt (hU _), hu.cmp_eq (hU _)]
    simp only [Cmp.le, Cmp.lt, Cmp.eq]
    split
    · exact ⟨1, is_one, zero_le_one, zero_le_one, fun h => absurd h one_ne_zero,
        by simpa using UErr.refl (F := F) (1 : K)⟩
    · exact ⟨0, is_zero, le_rfl, le_rfl, fun _ => rfl, by simpa using UErr.refl (F := F) (0 : K)⟩
  | succ q ih =>
    intro i
    have ih := ih (by omega)
    have hs := Nf_support hm hk x q
    have habs : ∀ i j, |V i - V j| ≤ 1 := fun i j => abs_le.mpr
      ⟨by linarith [(h01 i).1, (h01 j).2], by linarith [(h01 i).2, (h01 j).1]⟩
    have hgap' : ∀ i j, i ≤ j → V j ≠ V i → h ≤ V j - V i :=
      fun i j hij hne => hgap i j (lt_of_le_of_ne (hm hij) (Ne.symm hne))
    obtain ⟨y1, i1, y10, n10, n1y, er1⟩ := ih i
    obtain ⟨y2, i2, y20, n20, n2y, er2⟩ := ih (i + 1)
    obtain ⟨z1, j1, z10, m10, m11, m1z, fr1⟩ := Nf_summand hroom (by omega) hu (hU i) (hU (i + (q + 1))) (hU i) i1
      (abs_le.mpr ⟨by linarith [(h01 i).2], by linarith [(h01 i).1]⟩) (habs _ _) hh
      (hgap' i (i + (q + 1)) (by omega)) hmax n10
      (hN q (by omega) i) y10 n1y (fun hne => ⟨(hs i hne).1, by
        have := (hs i hne).2
        rw [show i + q + 1 = i + (q + 1) by omega] at this; linarith⟩) er1
    obtain ⟨z2, j2, z20, m20, m21, m2z, fr2⟩ := Nf_summand hroom (by omega) (hU (i + 1 + (q + 1))) hu
      (hU (i + 1 + (q + 1))) (hU (i + 1)) i2
      (abs_le.mpr ⟨by linarith [(h01 (i + 1 + (q + 1))).1], by linarith [(h01 (i + 1 + (q + 1))).2]⟩) (habs _ _) hh
      (hgap' (i + 1) (i + 1 + (q + 1)) (by omega)) hmax n20
      (hN q (by omega) (i + 1)) y20 n2y (fun hne => ⟨by
        have := (hs (i + 1) hne).2
        rwa [show i + 1 + q + 1 = i + 1 + (q + 1) by omega] at this, by linarith [(hs (i + 1) hne).1]⟩) er2
    have hw := hN (q + 1) hq i
    exact Nf_sum hroom hq j1 j2 z10 z20 m10 m20 hw m1z m2z fr1 fr2

/-! ### Lists -/

theorem fn_forall₂ {α β : Type} [Zero α] [Zero β] {S : α → β → Prop} (h0 : S 0 0) {l : List α} {m : List β}
    (h : List.Forall₂ S l m) (i : ℕ) : S (fn l i) (fn m i) := by
  have hl := h.length_eq
  by_cases hz : l.length = 0
  · have h1 := List.length_eq_zero_iff.mp hz
    have h2 := List.length_eq_zero_iff.mp (hl.symm.trans hz)
    subst h1 h2
    simpa [fn] using h0
  by_cases hi : i < l.length
  · rw [fn_lt hi, fn_lt (by omega)]
    exact List.Forall₂.get h hi (by omega)
  · rw [fn_ge (by omega), fn_ge (by omega), fn_last (by omega), fn_last (by omega), fn_lt (by omega),
      fn_lt (by omega)]
    simp only [← hl]
    exact List.Forall₂.get h _ _

theorem fn_is {U : List (Ieee F)} {V : List K} (h : List.Forall₂ Is U V) (i : ℕ) : Is (fn U i) (fn V i) :=
  fn_forall₂ is_zero h i

theorem fn_ptIs {P : List (Pt (Ieee F) d)} {Q : List (Pt K d)} (h : List.Forall₂ PtIs P Q) (i : ℕ) :
    PtIs (fn P i) (fn Q i) := fn_forall₂ (fun _ => is_zero) h i

theorem lleq_is {U : ℕ → Ieee F} {V : ℕ → K} (hU : ∀ i, Is (U i) (V i)) {u : Ieee F} {x : K} (hu : Is u x)
    (r : ℕ) : ∀ i, lleq U u r i = lleq V x r i := by
  induction r with
  | zero => intro i; rfl
  | succ r ih =>
    intro i
    simp only [lleq, ih, (hU _).cmp_le hu, (hU _).cmp_eq (hU _)]
    rfl

/-! ### Sums -/

theorem foldl_zero_ieee {α : Type} (g : α → Ieee F) : ∀ (l : List α) (v : Ieee F) (x : K), Is v x →
    (∀ i ∈ l, Is (g i) 0) → Is (l.foldl (fun x i => x + g i) v) x := by
  intro l
  induction l with
  | nil => intro v x h _; exact h
  | cons a l ih =>
    intro v x hv h
    rw [List.foldl_cons]
    refine ih _ _ ?_ (fun i hi => h i (by simp [hi]))
    have := hv.add (h a (by simp)) (by rw [add_zero]; exact hv.le_max)
    rwa [add_zero, hv.rep] at this

theorem foldl_ieee {g : ℕ → Ieee F} {x w : ℕ → K} {M : ℕ} {B : K} : ∀ (l : List ℕ) (c : ℕ) (v : Ieee F)
    (v' s t A : K), (∀ i ∈ l, ∃ y, Is (g i) y ∧ UErr F M B y (x i) (w i)) → Is v v' → UErr F (M + c) A v' s t →
    0 ≤ B → F.phi ^ (M + c + l.length) * (t + (l.map w).sum) + F.phi ^ l.length * (A + l.length * B) ≤ F.max →
    ∃ z, Is (l.foldl (fun y i => y + g i) v) z ∧ UErr F (M + c + l.length) (F.phi ^ l.length * (A + l.length * B)) z
      (s + (l.map x).sum) (t + (l.map w).sum) := by
  intro l
  induction l with
  | nil => intro c v v' s t A _ hv h _ _; exact ⟨v', hv, by simpa using h⟩
  | cons a l ih =>
    intro c v v' s t A h hv he hB hmax
    obtain ⟨y, hy, hye⟩ := h a (by simp)
    have hsum := he.add (hye.mono (show M ≤ M + c by omega) le_rfl le_rfl)
    have hA := he.2.1
    have ht := he.weight_nonneg
    have hwa := hye.weight_nonneg
    have hws : 0 ≤ (l.map w).sum := by
      apply List.sum_nonneg
      intro q hq
      obtain ⟨i, hi, rfl⟩ := List.mem_map.mp hq
      obtain ⟨_, _, h2⟩ := h i (by simp [hi])
      exact h2.weight_nonneg
    have hphi := F.phi_pos
    simp only [List.map_cons, List.sum_cons, List.length_cons] at hmax ⊢
    push_cast at hmax ⊢
    have hll : (0 : K) ≤ l.length := Nat.cast_nonneg _
    have e1 : F.phi ^ (l.length + 1) * (A + (l.length + 1) * B) =
        F.phi ^ l.length * (F.phi * (A + B)) + F.phi ^ (l.length + 1) * (l.length * B) := by ring
    have p1 : F.phi ^ l.length * (l.length * B) ≤ F.phi ^ (l.length + 1) * (l.length * B) :=
      mul_le_mul_of_nonneg_right (F.phi_mono (by omega)) (mul_nonneg hll hB)
    have hle : F.phi ^ l.length * (F.phi * (A + B) + l.length * B) ≤
        F.phi ^ (l.length + 1) * (A + (l.length + 1) * B) := by
      rw [e1, mul_add]; linarith
    have hbound : |v' + y| ≤ F.max := by
      refine hsum.abs_le.trans (le_trans ?_ hmax)
      have q1 : F.phi ^ (M + c) * (t + w a) ≤ F.phi ^ (M + c + (l.length + 1)) * (t + (w a + (l.map w).sum)) :=
        mul_le_mul (F.phi_mono (by omega)) (by linarith) (by linarith) (by positivity)
      have q2 : 1 * (A + B) ≤ F.phi ^ (l.length + 1) * (A + (l.length + 1) * B) :=
        mul_le_mul (F.one_le_phi_pow _) (by nlinarith [mul_nonneg hll hB]) (by linarith) (by positivity)
      linarith
    have hadd := hv.add hy hbound
    have hr := hsum.rnd_of (F.add_err hv.rep hy.rep)
    obtain ⟨z, hz, hze⟩ := ih (c + 1) (v + g a) _ (s + x a) (t + w a) (F.phi * (A + B))
      (fun i hi => h i (by simp [hi])) hadd hr hB (by
        rw [show M + (c + 1) + l.length = M + c + (l.length + 1) by omega, add_assoc t]
        linarith)
    refine ⟨z, hz, ?_⟩
    rw [← add_assoc s, ← add_assoc t, show M + c + (l.length + 1) = M + (c + 1) + l.length by omega]
    exact hze.mono le_rfl hle le_rfl

end BSpline
