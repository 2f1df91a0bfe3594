import Verif.Spec.Ieee
import Mathlib.Data.Rat.Floor

/-!
# The rounding of `f64`

`binaryFormat` satisfies what a `Format` asks for.
-/

set_option linter.unusedSectionVars false

namespace BSpline

section

variable {K : Type} [Field K] [LinearOrder K] [IsStrictOrderedRing K] [FloorRing K]

theorem roundEven_eq_or (x : K) : roundEven x = ⌊x⌋ ∨ roundEven x = ⌊x⌋ + 1 := by
  rw [roundEven]
  split
  · exact Or.inl rfl
  split
  · exact Or.inr rfl
  split
  · exact Or.inl rfl
  · exact Or.inr rfl

theorem roundEven_int (t : ℤ) : roundEven (t : K) = t := by
  rw [roundEven, Int.floor_intCast, sub_self, if_pos (by norm_num)]

theorem abs_sub_roundEven (x : K) : |x - roundEven x| ≤ 1 / 2 := by
  have h1 := Int.floor_le x
  have h2 := Int.lt_floor_add_one x
  rw [roundEven]
  split
  · rw [abs_le]; constructor <;> linarith
  split
  · push_cast; rw [abs_le]; constructor <;> linarith
  split
  · rw [abs_le]; constructor <;> linarith
  · push_cast; rw [abs_le]; constructor <;> linarith

theorem roundEven_mono {x y : K} (h : x ≤ y) : roundEven x ≤ roundEven y := by
  have hf := Int.floor_le_floor h
  rcases hf.lt_or_eq with hlt | heq
  · have h1 := roundEven_eq_or x
    have h2 := roundEven_eq_or y
    omega
  · rw [roundEven, roundEven, ← heq]
    split
    · split_ifs <;> omega
    · rename_i h1
      have h3 : ¬ y - ⌊x⌋ < 1 / 2 := by push Not at h1 ⊢; linarith
      rw [if_neg h3]
      split
      · rename_i h2
        rw [if_pos (by linarith)]
      · split
        · split_ifs <;> omega
        · split_ifs <;> omega

theorem roundEven_neg (x : K) : roundEven (-x) = -roundEven x := by
  by_cases hx : ∃ t : ℤ, x = t
  · obtain ⟨t, rfl⟩ := hx
    rw [← Int.cast_neg, roundEven_int, roundEven_int]
  · have h1 := Int.floor_le x
    have h2 := Int.lt_floor_add_one x
    have h1' : (⌊x⌋ : K) < x := lt_of_le_of_ne h1 fun h => hx ⟨_, h.symm⟩
    have hf : ⌊-x⌋ = -⌊x⌋ - 1 := by
      rw [Int.floor_eq_iff]; push_cast; constructor <;> linarith
    rw [roundEven, roundEven, hf]
    push_cast
    by_cases c1 : x - ⌊x⌋ < 1 / 2
    · rw [if_pos c1, if_neg (by linarith), if_pos (by linarith)]; ring
    by_cases c2 : 1 / 2 < x - ⌊x⌋
    · rw [if_neg c1, if_pos c2, if_pos (by linarith)]; ring
    rw [if_neg c1, if_neg c2, if_neg (by linarith), if_neg (by linarith)]
    by_cases c3 : Even ⌊x⌋
    · rw [if_pos c3, if_neg]
      · ring
      · rw [Int.even_sub_one, not_not]; exact c3.neg
    · rw [if_neg c3, if_pos]
      · ring
      · rw [Int.even_sub_one]
        intro h
        exact c3 (by simpa using h.neg)

variable {m : ℕ} {emin : ℤ}

theorem quant_pos (x : K) : (0 : K) < 2 ^ quantExp m emin x := zpow_pos two_pos _

theorem roundIeee_le {x : K} {t : ℤ} (h : x ≤ t * 2 ^ quantExp m emin x) :
    roundIeee m emin x ≤ t * 2 ^ quantExp m emin x := by
  rw [roundIeee]
  have hu := quant_pos (m := m) (emin := emin) x
  refine mul_le_mul_of_nonneg_right ?_ hu.le
  have : x / 2 ^ quantExp m emin x ≤ t := by rwa [div_le_iff₀ hu]
  have := roundEven_mono this
  rw [roundEven_int] at this
  exact_mod_cast this

theorem le_roundIeee {x : K} {t : ℤ} (h : t * 2 ^ quantExp m emin x ≤ x) :
    t * 2 ^ quantExp m emin x ≤ roundIeee m emin x := by
  rw [roundIeee]
  have hu := quant_pos (m := m) (emin := emin) x
  refine mul_le_mul_of_nonneg_right ?_ hu.le
  have : (t : K) ≤ x / 2 ^ quantExp m emin x := by rwa [le_div_iff₀ hu]
  have := roundEven_mono this
  rw [roundEven_int] at this
  exact_mod_cast this

theorem roundIeee_fix {x : K} {t : ℤ} (h : x = t * 2 ^ quantExp m emin x) : roundIeee m emin x = x :=
  le_antisymm ((roundIeee_le h.le).trans h.ge) (h.le.trans (le_roundIeee h.ge))

theorem roundIeee_zero : roundIeee m emin (0 : K) = 0 := roundIeee_fix (t := 0) (by simp)

theorem roundIeee_neg (x : K) : roundIeee m emin (-x) = -roundIeee m emin x := by
  rw [roundIeee, roundIeee, quantExp, abs_neg, ← quantExp, neg_div, roundEven_neg]
  push_cast
  ring

/-- the error is at most half the distance of neighbouring numbers -/
theorem roundIeee_half (x : K) : |roundIeee m emin x - x| ≤ 1 / 2 * 2 ^ quantExp m emin x := by
  have hu := quant_pos (m := m) (emin := emin) x
  rw [roundIeee]
  generalize (2 : K) ^ quantExp m emin x = q at hu
  have e : (roundEven (x / q) : K) * q - x = -(x / q - roundEven (x / q)) * q := by
    field_simp; ring
  rw [e, abs_mul, abs_neg, abs_of_pos hu]
  exact mul_le_mul_of_nonneg_right (abs_sub_roundEven _) hu.le

theorem log_le_abs {x : K} (hx : x ≠ 0) : (2 : K) ^ Int.log 2 |x| ≤ |x| := by
  have := Int.zpow_log_le_self (b := 2) (r := |x|) (by norm_num) (abs_pos.mpr hx)
  exact_mod_cast this

theorem abs_lt_log (x : K) : |x| < 2 ^ (Int.log 2 |x| + 1) := by
  have := Int.lt_zpow_succ_log_self (b := 2) (by norm_num) |x|
  exact_mod_cast this

/-- relative error if `x` is not below the normal numbers -/
theorem roundIeee_rel {x : K} (h : emin ≤ Int.log 2 |x|) :
    |roundIeee m emin x - x| ≤ (1 / 2) ^ (m + 1) * |x| := by
  by_cases hx : x = 0
  · rw [hx, roundIeee_zero]; simp
  refine (roundIeee_half x).trans ?_
  rw [quantExp, max_eq_left h, zpow_sub₀ two_ne_zero, zpow_natCast]
  calc 1 / 2 * (2 ^ Int.log 2 |x| / 2 ^ m : K) = (1 / 2) ^ (m + 1) * 2 ^ Int.log 2 |x| := by
        rw [pow_succ, one_div, inv_pow]; field_simp
    _ ≤ _ := mul_le_mul_of_nonneg_left (log_le_abs hx) (by positivity)

theorem roundIeee_err (x : K) :
    |roundIeee m emin x - x| ≤ (1 / 2) ^ (m + 1) * |x| + 1 / 2 * 2 ^ (emin - m) := by
  have h0 : (0 : K) ≤ 1 / 2 * 2 ^ (emin - m) := mul_nonneg (by norm_num) (zpow_pos two_pos _).le
  rcases le_or_gt emin (Int.log 2 |x|) with h | h
  · exact (roundIeee_rel h).trans (by linarith)
  · refine (roundIeee_half x).trans ?_
    rw [quantExp, max_eq_right h.le]
    have : (0 : K) ≤ (1 / 2) ^ (m + 1) * |x| := mul_nonneg (by positivity) (abs_nonneg _)
    linarith

/-- integer multiples of a power of two with at most `m + 1` bits are representable -/
theorem roundIeee_rep (t s : ℤ) (ht : |t| ≤ 2 ^ (m + 1)) (hs : emin - m ≤ s) :
    roundIeee m emin ((t : K) * 2 ^ s) = t * 2 ^ s := by
  by_cases h0 : (t : K) * 2 ^ s = 0
  · rw [h0, roundIeee_zero]
  · obtain ⟨x, hx⟩ : ∃ x : K, x = t * 2 ^ s := ⟨_, rfl⟩
    rw [← hx] at h0 ⊢
    have hsp : (0 : K) < 2 ^ s := zpow_pos two_pos _
    have habs : |x| = |(t : K)| * 2 ^ s := by rw [hx, abs_mul, abs_of_pos hsp]
    have htK : |(t : K)| ≤ 2 ^ (m + 1) := by exact_mod_cast ht
    have hle : (2 : K) ^ (Int.log 2 |x|) ≤ 2 ^ (s + m + 1) := by
      refine (log_le_abs h0).trans ?_
      rw [habs, show s + m + 1 = ((m + 1 : ℕ) : ℤ) + s by push_cast; ring, zpow_add₀ two_ne_zero,
        zpow_natCast]
      exact mul_le_mul_of_nonneg_right htK hsp.le
    have hle' : Int.log 2 |x| ≤ s + m + 1 := (zpow_le_zpow_iff_right₀ one_lt_two).mp hle
    by_cases hq : quantExp m emin x ≤ s
    · refine roundIeee_fix (t := t * 2 ^ (s - quantExp m emin x).toNat) ?_
      push_cast
      rw [mul_assoc, ← zpow_natCast (2 : K), ← zpow_add₀ two_ne_zero, Int.toNat_of_nonneg (by omega),
        sub_add_cancel]
      exact hx
    · -- `|x| = 2 ^ (s + m + 1)`
      have hlog : Int.log 2 |x| = s + m + 1 := by
        rw [quantExp] at hq
        rcases max_choice (Int.log 2 |x|) emin with h | h <;> rw [h] at hq <;> omega
      have hqe : quantExp m emin x = s + 1 := by
        rw [quantExp, hlog, max_eq_left (by omega)]; ring
      have hge : (2 : K) ^ (m + 1) ≤ |(t : K)| := by
        have := log_le_abs h0
        rw [hlog, habs, show s + m + 1 = ((m + 1 : ℕ) : ℤ) + s by push_cast; ring,
          zpow_add₀ two_ne_zero, zpow_natCast] at this
        exact le_of_mul_le_mul_right this hsp
      have hge' : (2 : ℤ) ^ (m + 1) ≤ |t| := by exact_mod_cast hge
      have htt : |t| = 2 ^ (m + 1) := le_antisymm ht hge'
      rcases abs_choice t with h | h
      · refine roundIeee_fix (t := 2 ^ m) ?_
        rw [hqe, zpow_add_one₀ two_ne_zero, hx, show t = 2 ^ (m + 1) by rw [← htt, h]]
        push_cast; ring
      · refine roundIeee_fix (t := -2 ^ m) ?_
        rw [hqe, zpow_add_one₀ two_ne_zero, hx, show t = -2 ^ (m + 1) by rw [← htt, h, neg_neg]]
        push_cast; ring

theorem roundIeee_idem (x : K) : roundIeee m emin (roundIeee m emin x) = roundIeee m emin x := by
  have hu := quant_pos (m := m) (emin := emin) x
  rw [show roundIeee m emin x = roundEven (x / 2 ^ quantExp m emin x) * 2 ^ quantExp m emin x from rfl]
  apply roundIeee_rep
  · have hlt : |x| ≤ 2 ^ (m + 1) * 2 ^ quantExp m emin x := by
      refine (abs_lt_log x).le.trans ?_
      rw [← zpow_natCast (2 : K), ← zpow_add₀ two_ne_zero]
      apply zpow_le_zpow_right₀ one_le_two
      have := le_max_left (Int.log 2 |x|) emin
      rw [quantExp]
      push_cast
      omega
    rw [abs_le] at hlt
    have h1 : x / 2 ^ quantExp m emin x ≤ ((2 ^ (m + 1) : ℤ) : K) := by
      rw [div_le_iff₀ hu]; push_cast; linarith [hlt.2]
    have h2 : ((-2 ^ (m + 1) : ℤ) : K) ≤ x / 2 ^ quantExp m emin x := by
      rw [le_div_iff₀ hu]; push_cast; linarith [hlt.1]
    have h3 := roundEven_mono h1
    have h4 := roundEven_mono h2
    rw [roundEven_int] at h3 h4
    exact abs_le.mpr ⟨h4, h3⟩
  · have := le_max_right (Int.log 2 |x|) emin
    rw [quantExp]
    omega

theorem roundIeee_nonneg {x : K} (h : 0 ≤ x) : 0 ≤ roundIeee m emin x := by
  have := le_roundIeee (m := m) (emin := emin) (x := x) (t := 0) (by simpa using h)
  simpa using this

theorem roundIeee_mono_pos {x y : K} (h0 : 0 ≤ x) (h : x ≤ y) : roundIeee m emin x ≤ roundIeee m emin y := by
  rcases h0.lt_or_eq with hx | rfl
  swap
  · rw [roundIeee_zero]; exact roundIeee_nonneg h
  have hy := hx.trans_le h
  have hlog := Int.log_mono_right (b := 2) (abs_pos.mpr hx.ne')
    (show |x| ≤ |y| by rw [abs_of_pos hx, abs_of_pos hy]; exact h)
  by_cases hq : quantExp m emin x = quantExp m emin y
  · rw [roundIeee, roundIeee, hq]
    have hu := quant_pos (m := m) (emin := emin) y
    refine mul_le_mul_of_nonneg_right ?_ hu.le
    have := roundEven_mono (div_le_div_of_nonneg_right h hu.le)
    exact_mod_cast this
  · have h1 : Int.log 2 |x| < Int.log 2 |y| := by
      rcases hlog.lt_or_eq with h1 | h1
      · exact h1
      · exact absurd (by rw [quantExp, quantExp, h1]) hq
    have h2 : emin < Int.log 2 |y| := by
      by_contra hc
      apply hq
      rw [quantExp, quantExp, max_eq_right (by omega), max_eq_right (by omega)]
    have hqx : quantExp m emin x ≤ Int.log 2 |y| := by
      rw [quantExp]
      rcases max_choice (Int.log 2 |x|) emin with h | h <;> rw [h] <;> omega
    -- the power of two below `y` separates the results
    calc roundIeee m emin x ≤ ((2 ^ (Int.log 2 |y| - quantExp m emin x).toNat : ℤ) : K) * 2 ^ quantExp m emin x := by
          apply roundIeee_le
          push_cast
          rw [← zpow_natCast (2 : K), ← zpow_add₀ two_ne_zero, Int.toNat_of_nonneg (by omega), sub_add_cancel]
          exact (le_abs_self x).trans ((abs_lt_log x).le.trans (zpow_le_zpow_right₀ one_le_two (by omega)))
      _ = 2 ^ Int.log 2 |y| := by
          push_cast
          rw [← zpow_natCast (2 : K), ← zpow_add₀ two_ne_zero, Int.toNat_of_nonneg (by omega), sub_add_cancel]
      _ = ((2 ^ m : ℤ) : K) * 2 ^ quantExp m emin y := by
          rw [quantExp, max_eq_left h2.le]
          push_cast
          rw [← zpow_natCast (2 : K), ← zpow_add₀ two_ne_zero]
          congr 1
          omega
      _ ≤ roundIeee m emin y := by
          apply le_roundIeee
          rw [quantExp, max_eq_left h2.le]
          push_cast
          rw [← zpow_natCast (2 : K), ← zpow_add₀ two_ne_zero, show (m : ℤ) + (Int.log 2 |y| - m) = Int.log 2 |y| by omega]
          exact (log_le_abs hy.ne').trans (abs_of_pos hy).le

theorem roundIeee_mono {x y : K} (h : x ≤ y) : roundIeee m emin x ≤ roundIeee m emin y := by
  rcases le_or_gt 0 x with hx | hx
  · exact roundIeee_mono_pos hx h
  rcases le_or_gt 0 y with hy | hy
  · refine le_trans ?_ (roundIeee_nonneg hy)
    have := roundIeee_nonneg (m := m) (emin := emin) (x := -x) (by linarith)
    rw [roundIeee_neg] at this
    linarith
  · have := roundIeee_mono_pos (m := m) (emin := emin) (x := -y) (y := -x) (by linarith) (by linarith)
    rw [roundIeee_neg, roundIeee_neg] at this
    linarith

/-- representable numbers are multiples of the smallest positive number -/
theorem roundIeee_multiple {x : K} (h : roundIeee m emin x = x) : ∃ t : ℤ, x = t * 2 ^ (emin - m) := by
  refine ⟨roundEven (x / 2 ^ quantExp m emin x) * 2 ^ (quantExp m emin x - (emin - m)).toNat, ?_⟩
  have := le_max_right (Int.log 2 |x|) emin
  push_cast
  rw [mul_assoc, ← zpow_natCast (2 : K), ← zpow_add₀ two_ne_zero,
    Int.toNat_of_nonneg (by rw [quantExp]; omega), sub_add_cancel]
  exact h.symm

/-- differences of representable numbers do not underflow -/
theorem roundIeee_sub {x y : K} (hx : roundIeee m emin x = x) (hy : roundIeee m emin y = y) :
    |roundIeee m emin (x - y) - (x - y)| ≤ (1 / 2) ^ (m + 1) * |x - y| := by
  rcases le_or_gt emin (Int.log 2 |x - y|) with h | h
  · exact roundIeee_rel h
  · obtain ⟨s, hs⟩ := roundIeee_multiple hx
    obtain ⟨t, ht⟩ := roundIeee_multiple hy
    have e : x - y = ((s - t : ℤ) : K) * 2 ^ quantExp m emin (x - y) := by
      rw [quantExp, max_eq_right h.le]
      push_cast
      rw [sub_mul, ← hs, ← ht]
    rw [roundIeee_fix e, sub_self, abs_zero]
    exact mul_nonneg (by positivity) (abs_nonneg _)

end

/-- The binary format with `m` fractional bits and exponents `emin … emax` of normal numbers. -/
def binaryFormat (K : Type) [Field K] [LinearOrder K] [IsStrictOrderedRing K] [FloorRing K] (m : ℕ)
    (emin emax : ℤ) (h1 : emin ≤ 0) (h2 : (m : ℤ) ≤ emax) : Format K where
  rnd := roundIeee m emin
  eps := (1 / 2) ^ (m + 1)
  eta := 1 / 2 * 2 ^ (emin - m)
  max := ((2 ^ (m + 1) - 1 : ℤ) : K) * 2 ^ (emax - m)
  eps_nonneg := by positivity
  eps_lt_one := pow_lt_one₀ (by norm_num) (by norm_num) (by omega)
  eta_nonneg := mul_nonneg (by norm_num) (zpow_pos two_pos _).le
  one_le_max := by
    have h3 : (1 : K) ≤ ((2 ^ (m + 1) - 1 : ℤ) : K) := by
      have : (1 : ℤ) ≤ 2 ^ (m + 1) - 1 := by
        have : (2 : ℤ) ^ 1 ≤ 2 ^ (m + 1) := pow_le_pow_right₀ (by norm_num) (by omega)
        omega
      exact_mod_cast this
    have h4 : (1 : K) ≤ 2 ^ (emax - m) := one_le_zpow₀ one_le_two (by omega)
    nlinarith
  err := roundIeee_err
  sub := fun _ _ => roundIeee_sub
  idem := roundIeee_idem
  mono := fun _ _ => roundIeee_mono
  neg := roundIeee_neg
  one := by
    have := roundIeee_rep (K := K) (m := m) (emin := emin) 1 0 (by simp; exact one_le_pow₀ (by norm_num))
      (by omega)
    simpa using this
  rnd_max := by
    apply roundIeee_rep
    · have : (1 : ℤ) ≤ 2 ^ (m + 1) := one_le_pow₀ (by norm_num)
      rw [abs_of_nonneg (by omega)]
      omega
    · omega

/-- the format of `f64`, on rational numbers -/
def binary64 : Format ℚ := binaryFormat ℚ 52 (-1022) 1023 (by norm_num) (by norm_num)

end BSpline
